import Verif.Model.Format
/-!
Model of `src/Barrier.cxx` / `include/Barrier.hxx`: threads calling `wait` on one barrier.

The statements of `Barrier::wait(const std::chrono::duration<...> &)` (src/Barrier.cxx:52-100) are
executed one at a time by the threads, in any interleaving.  `barrier_count` is read before the
mutex is taken (line 58); everything else happens while the mutex is held.

* `std::condition_variable::wait_for(lock, timeout, pred)` is, as the standard defines it,
  `while(!pred()) { if(wait_until(lock, deadline) == timeout) return pred(); } return true;`.
  Going to sleep and releasing the mutex is one step.  A sleeping thread is woken by `notify_all`,
  spuriously, or by its deadline; it then has to get the mutex again.
* Time is not modelled here (see `Verif.Model.BarrierClock`): a sleeping thread may reach its deadline at any moment (or never).  Hence
  the value of the timeout plays no role, and `wait(0)`, which waits for 1000 days (lines 41-46,
  53-55), is an ordinary wait.
* `waiting`, `num_waiters` and `barrier_count` are `unsigned int`, i.e. computed modulo 2^32.
* Statements of different threads are interleaved (sequential consistency).  Whether the unlocked
  read on line 58 is a data race is a property (C57), not an assumption.
-/
namespace SoDa.Bar

/-- How a call of `wait` ends. -/
inductive Out where
  | normal
  | timeout   -- `throw Barrier::Timeout`
  | corrupt   -- `throw Barrier::Corrupt`
  deriving DecidableEq, Repr

/-- What a thread does next.  `old` is its `old_barrier_count`. -/
inductive Pc where
  /-- not in a call of `wait` -/
  | idle
  /-- line 58, reads `barrier_count` without the mutex -/
  | start
  /-- line 60, waits for the mutex -/
  | wantLock (old : Nat)
  /-- line 62, `waiting++` -/
  | incr (old : Nat)
  /-- line 63 -/
  | test (old : Nat)
  /-- line 65 -/
  | reset
  /-- line 66 -/
  | bump
  /-- line 67 -/
  | notify
  /-- lines 74-78, evaluates the predicate -/
  | pred (old : Nat)
  /-- lines 74-78, sleeps -/
  | waitCv (old : Nat)
  /-- lines 74-78, woken, waits for the mutex; `timedOut` if woken by its deadline -/
  | woken (old : Nat) (timedOut : Bool)
  /-- lines 74-78, evaluates the predicate for the last time -/
  | predT (old : Nat)
  /-- lines 81-86 -/
  | expired
  /-- line 91 -/
  | setCorrupt
  /-- line 93 -/
  | setCount
  /-- line 94 -/
  | notifyT
  /-- lines 87, 95, 99: about to release the mutex -/
  | leave (r : Out)
  /-- line 100: about to return to the caller -/
  | out (r : Out)
  deriving DecidableEq, Repr

/-- The members of the barrier (include/Barrier.hxx:243-253), the owner of `mtx`, and the threads.
The threads sleeping on `cv` are those at `waitCv`. -/
structure Conf (T : Type) where
  waiting : Nat
  count : Nat
  corrupted : Bool
  holder : Option T
  pc : T → Pc

/-- The scheduler's choices: a thread calls `wait`; a thread executes its next statement; a
sleeping thread wakes up without reason; a sleeping thread reaches its deadline. -/
inductive Move where
  | call
  | go
  | spurious
  | deadline
  deriving DecidableEq, Repr

/-- What can be seen of a step. -/
inductive Ev (T : Type) where
  | call (t : T)
  /-- `waiting++`; `fresh` if `barrier_count` still is what `t` has read -/
  | arrive (t : T) (fresh : Bool)
  | ret (t : T)
  | raise (t : T) (e : Out)
  | spurious (t : T)
  | deadline (t : T)
  | tau (t : T)
  deriving DecidableEq, Repr

variable {T : Type} [DecidableEq T]

/-- `Barrier::Barrier`, src/Barrier.cxx:33-38. -/
def Conf.init : Conf T :=
  { waiting := 0, count := 0, corrupted := false, holder := none, pc := fun _ => .idle }

/-- Thread `t` goes on to `p`. -/
def Conf.goto (c : Conf T) (t : T) (p : Pc) : Conf T :=
  { c with pc := fun u => if u = t then p else c.pc u }

/-- `cv.notify_all()`. -/
def Conf.wakeAll (c : Conf T) : Conf T :=
  { c with pc := fun u => match c.pc u with
      | .waitCv old => .woken old false
      | p => p }

/-- Execute the next statement of thread `t`; `n` is `num_waiters`. -/
def stepGo (n : Nat) (c : Conf T) (t : T) : Option (Conf T × Ev T) :=
  match c.pc t with
  | .idle => none
  | .start => some (c.goto t (.wantLock c.count), .tau t)
  | .wantLock old =>
    if c.holder = none then some ({ c with holder := some t }.goto t (.incr old), .tau t) else none
  | .incr old =>
    some ({ c with waiting := (c.waiting + 1) % 4294967296 }.goto t (.test old),
      .arrive t (decide (old = c.count)))
  | .test old => some (c.goto t (if c.waiting = n then .reset else .pred old), .tau t)
  | .reset => some ({ c with waiting := 0 }.goto t .bump, .tau t)
  | .bump => some ({ c with count := (c.count + 1) % 4294967296 }.goto t .notify, .tau t)
  | .notify => some (c.wakeAll.goto t (.leave .normal), .tau t)
  | .pred old =>
    if old ≠ c.count then some (c.goto t (.leave .normal), .tau t)
    else some ({ c with holder := none }.goto t (.waitCv old), .tau t)
  | .waitCv _ => none
  | .woken old timedOut =>
    if c.holder = none then
      some ({ c with holder := some t }.goto t (if timedOut then .predT old else .pred old), .tau t)
    else none
  | .predT old => some (c.goto t (if old ≠ c.count then .leave .normal else .expired), .tau t)
  | .expired => some (c.goto t (if c.corrupted then .leave .corrupt else .setCorrupt), .tau t)
  | .setCorrupt => some ({ c with corrupted := true }.goto t .setCount, .tau t)
  | .setCount => some ({ c with count := 4294967295 }.goto t .notifyT, .tau t)
  | .notifyT => some (c.wakeAll.goto t (.leave .timeout), .tau t)
  | .leave r => some ({ c with holder := none }.goto t (.out r), .tau t)
  | .out r => some (c.goto t .idle, match r with
      | .normal => .ret t
      | e => .raise t e)

/-- One step of the system. -/
def step (n : Nat) (c : Conf T) (t : T) : Move → Option (Conf T × Ev T)
  | .call => if c.pc t = .idle then some (c.goto t .start, .call t) else none
  | .go => stepGo n c t
  | .spurious => match c.pc t with
    | .waitCv old => some (c.goto t (.woken old false), .spurious t)
    | _ => none
  | .deadline => match c.pc t with
    | .waitCv old => some (c.goto t (.woken old true), .deadline t)
    | _ => none

/-- Executions from a new barrier: any finite sequence of steps. -/
inductive Run (n : Nat) : List (Ev T) → Conf T → Prop where
  | init : Run n [] Conf.init
  | snoc {evs c t m c' e} (h : Run n evs c) (hs : step n c t m = some (c', e)) :
      Run n (evs ++ [e]) c'

/-- The steps from one state to another. -/
inductive Steps (n : Nat) (c : Conf T) : List (Ev T) → Conf T → Prop where
  | nil : Steps n c [] c
  | snoc {evs c₁ t m c' e} (h : Steps n c evs c₁) (hs : step n c₁ t m = some (c', e)) :
      Steps n c (evs ++ [e]) c'

/-- Executing a given schedule. -/
def runSched (n : Nat) : List (T × Move) → Conf T × List (Ev T) → Option (Conf T × List (Ev T))
  | [], s => some s
  | (t, m) :: rest, (c, evs) =>
    match step n c t m with
    | none => none
    | some (c', e) => runSched n rest (c', evs ++ [e])

/-! ### Timeouts and exception texts -/

/-- The duration in milliseconds with which `wait(unsigned long)` ends up waiting,
src/Barrier.cxx:40-48 and 53-55; `timeout_ms` is converted to the signed 64-bit `rep` of
`std::chrono::milliseconds`. -/
def effective (timeout_ms : Nat) : Int :=
  if timeout_ms = 0 then 86400000000
  else (timeout_ms + 9223372036854775808 : Int) % 18446744073709551616 - 9223372036854775808

/-- `what()` of `Barrier::Timeout` (include/Barrier.hxx:176-184) for a wait of `ms` milliseconds;
`timeout.count()` is converted to `unsigned long`. -/
def timeoutWhat (name : Str) (ms : Int) : Res Fmt.BadFormat Str :=
  match (Fmt.mk' "Barrier %0 timed out after %1 ms. Current state is dangerous\n".toList).addS name with
  | .ok f => (f.addU (ms % 18446744073709551616).toNat).str false
  | _ => .ub

/-- `what()` of `Barrier::Corrupt` (include/Barrier.hxx:195-202). -/
def corruptWhat (name : Str) : Res Fmt.BadFormat Str :=
  match (Fmt.mk' "Barrier %0 is corrupted.\n".toList).addS name with
  | .ok f => f.str false
  | _ => .ub

end SoDa.Bar
