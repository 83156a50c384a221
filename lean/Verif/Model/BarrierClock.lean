import Verif.Model.Barrier
/-!
The barrier of `Verif.Model.Barrier` with a clock.

* `now` is `std::chrono::steady_clock::now()` in nanoseconds; it never goes back, and stays below 2^63 (292 years).
* `cv.wait_for(lock, timeout, pred)` (src/Barrier.cxx:74-78) is `cv.wait_until(lock, steady_clock::now() + timeout, pred)`: the
  timeout is converted to nanoseconds, a `long`, and added to the present time, a `long`; overflow of a `long` is undefined.  Both
  happen once, before the predicate is evaluated for the first time.
* A sleeping thread may be woken by its deadline at any time from then on (and not earlier), and by `notify_all` and spuriously as
  before.
-/
namespace SoDa.Bar

/-- The barrier, the clock, and for each thread the argument of its present (last) call of `wait(duration)`, in milliseconds, and the
deadline it has computed. -/
structure TConf (T : Type) where
  bar : Conf T
  now : Nat
  dur : T → Int
  due : T → Int
  /-- a thread has had undefined behaviour -/
  ub : Bool

/-- An event, the time at which it happens, and the argument of the present call of the thread. -/
structure TEv (T : Type) where
  ev : Ev T
  at_ : Nat
  ms : Int

/-- The scheduler's choices: as `Move`, calls with an argument. -/
inductive TMove where
  | call (ms : Int)
  | go
  | spurious
  | deadline
  deriving DecidableEq, Repr

/-- The values of a `long`. -/
def fitsLong (x : Int) : Bool := decide (-9223372036854775808 ≤ x) && decide (x ≤ 9223372036854775807)

/-- The timeout of `wait(duration)`, src/Barrier.cxx:52-55: 1000 days if the argument is zero. -/
def timeoutOf (ms : Int) : Int := if ms = 0 then 86400000000 else ms

/-- The deadline computed by `wait_for`, src/Barrier.cxx:74; `none` if it is undefined. -/
def deadlineAt (now : Nat) (ms : Int) : Option Int :=
  if fitsLong (timeoutOf ms * 1000000) && fitsLong (now + timeoutOf ms * 1000000) then some (now + timeoutOf ms * 1000000) else none

variable {T : Type} [DecidableEq T]

/-- Change what belongs to one thread. -/
def setOf (f : T → Int) (t : T) (x : Int) : T → Int := fun u => if u = t then x else f u

/-- A new barrier. -/
def TConf.init (now : Nat) : TConf T := { bar := Conf.init, now := now, dur := fun _ => 0, due := fun _ => 0, ub := false }

/-- What a statement of thread `t` does to the deadline: `wait_for` is entered from line 63. -/
def TConf.arm (n : Nat) (s : TConf T) (t : T) (c : Conf T) : TConf T :=
  match s.bar.pc t with
  | .test _ =>
    if s.bar.waiting = n then { s with bar := c }
    else match deadlineAt s.now (s.dur t) with
      | some d => { s with bar := c, due := setOf s.due t d }
      | none => { s with bar := c, ub := true }
  | _ => { s with bar := c }

/-- One step of thread `t`. -/
def tstep (n : Nat) (s : TConf T) (t : T) : TMove → Option (TConf T × Ev T)
  | .call ms => (step n s.bar t .call).map fun x => ({ s with bar := x.1, dur := setOf s.dur t ms }, x.2)
  | .go => (step n s.bar t .go).map fun x => (s.arm n t x.1, x.2)
  | .spurious => (step n s.bar t .spurious).map fun x => ({ s with bar := x.1 }, x.2)
  | .deadline => if s.due t ≤ s.now then (step n s.bar t .deadline).map fun x => ({ s with bar := x.1 }, x.2) else none

/-- Executions from a new barrier, until a thread has undefined behaviour. -/
inductive TRun (n : Nat) : List (TEv T) → TConf T → Prop where
  | init {now} : now < 9223372036854775808 → TRun n [] (TConf.init now)
  | tick {tr s now'} : TRun n tr s → s.now ≤ now' → now' < 9223372036854775808 → TRun n tr { s with now := now' }
  | snoc {tr s t m s' e} : TRun n tr s → s.ub = false → tstep n s t m = some (s', e) → TRun n (tr ++ [⟨e, s.now, s'.dur t⟩]) s'

end SoDa.Bar
