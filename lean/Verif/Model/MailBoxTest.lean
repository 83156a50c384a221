import Verif.Model.Session
/-!
Model of the program test/MailBoxTest.cxx:36-106: `num_threads` threads share a mailbox and a
barrier; each of them subscribes, waits at the barrier, and then in every trial sends `num_msgs`
messages and receives as many messages as all threads send in one trial.

The calls on the mailbox and the barrier are executed step by step as in `Model/Session.lean`; this
file adds the program that each thread executes between the calls (`Loc`).

* The parameters are `int`s in the program; here they are natural numbers.  The product on lines 63
  and 67 is an `int`: the properties assume that it does not overflow.
* What is printed to `std::cerr` is in Model/CTest.lean.  Not modelled: the reference counts of the messages.
* An exception that leaves the thread function ends the program (`std::terminate`): `Loc.crashed`.
-/
namespace SoDa.MailTest
open Monitor

/-- `MyMsg`, 14-32. -/
structure Msg where
  frm : Nat
  v : Nat
  deriving DecidableEq, Repr

/-- The parameters `num_threads`, `num_msgs`, `num_trials`, `no_echo` (36-41). -/
structure Params where
  threads : Nat
  msgs : Nat
  trials : Nat
  noEcho : Bool
  deriving DecidableEq, Repr

/-- `expected_msgs`, 67-68, an `unsigned long`. -/
def Params.expectedMsgs (p : Params) : Nat :=
  let expected_msgs := p.msgs * p.threads
  if p.noEcho then (expected_msgs + 18446744073709551616 - p.msgs) % 18446744073709551616 else expected_msgs

/-- `expected_sum`, 81-83, computed in `unsigned long`. -/
def Params.expectedSum (p : Params) : Nat :=
  let N := (p.msgs + 18446744073709551615) % 18446744073709551616
  let actual_threads := (p.threads + 18446744073709551616 - (if p.noEcho then 1 else 0)) % 18446744073709551616
  (actual_threads * ((N * ((N + 1) % 18446744073709551616)) % 18446744073709551616)) % 18446744073709551616 / 2

/-- What a thread does next; `s` is its subscription `subs`. -/
inductive Loc where
  /-- 44: subscribes -/
  | start
  /-- 45: calls `wait` -/
  | ready (s : Mail.Sub)
  /-- 45: inside `wait` -/
  | inBarrier (s : Mail.Sub)
  /-- 48-59: in trial `tr`, the loop that sends is at `i` -/
  | send (s : Mail.Sub) (tr i : Nat)
  /-- 70-79: in trial `tr`, the loop that receives is at `i`, and `msg_sum` is `sum` -/
  | recv (s : Mail.Sub) (tr i sum : Nat)
  /-- 97 -/
  | extra (s : Mail.Sub)
  /-- 105 -/
  | count (s : Mail.Sub)
  /-- 92, 101, 105: returns `result`; `subs` is destroyed -/
  | leave (s : Mail.Sub) (result : Int)
  /-- has returned `result` -/
  | done (result : Int)
  /-- an exception has left the thread function -/
  | crashed
  deriving DecidableEq, Repr

/-- The call on the mailbox that thread `me` makes next, if it is at a call. -/
def Loc.op (p : Params) (me : Nat) : Loc → Option (Mail.Op Msg)
  | .start => some .subscribe
  | .send s tr i =>
    if tr < p.trials ∧ i < p.msgs then some (.put (some ⟨me, i⟩) (if p.noEcho then some s else none)) else none
  | .recv s _ i _ => if i < p.expectedMsgs then some (.get (some s)) else none
  | .extra s => some (.get (some s))
  | .count _ => some .minReadyCount
  | .leave s _ => some (.drop s)
  | _ => none

/-- The statements between the calls: the ends of the loops on 48, 51, 70 and the test on 85. -/
def Loc.silent (p : Params) : Loc → Option Loc
  | .send s tr i =>
    if tr < p.trials then (if i < p.msgs then none else some (.recv s tr 0 0)) else some (.extra s)
  | .recv s tr i sum =>
    if i < p.expectedMsgs then none
    else if p.expectedSum ≠ sum then some (.leave s (-1)) else some (.send s (tr + 1) 0)
  | _ => none

/-- Conversion of an `unsigned int` to `int` (105). -/
def toInt32 (n : Nat) : Int := if n < 2147483648 then n else n - 4294967296

/-- What a thread does after the call it is at has ended. -/
def Loc.after : Loc → Mail.Resp Msg → Loc
  | .start, .sub s => .ready s
  | .send s tr i, .done => .send s tr (i + 1)
  | .recv s tr i sum, .msg none => .recv s tr i sum
  | .recv s tr i sum, .msg (some x) => .recv s tr (i + 1) ((sum + x.v) % 18446744073709551616)
  | .extra s, .msg none => .count s
  | .extra s, .msg (some _) => .leave s (-1)
  | .count s, .count c => .leave s (toInt32 c)
  | .leave _ r, .done => .done r
  | _, _ => .crashed

/-- Change what one thread does next. -/
def setLoc {n : Nat} (loc : Fin n → Loc) (t : Nat) (l : Loc → Loc) : Fin n → Loc :=
  fun u => if u.val = t then l (loc u) else loc u

/-- What the threads do next, after a step at the mailbox. -/
def afterMail {n : Nat} (loc : Fin n → Loc) : Label Nat (Mail.Op Msg) (Mail.Resp Msg) → Fin n → Loc
  | .ret t _ r => setLoc loc t fun l => l.after r
  | _ => loc

/-- Entering and leaving the barrier (45). -/
def Loc.enter : Loc → Loc
  | .ready s => .inBarrier s
  | l => l

def Loc.pass : Loc → Loc
  | .inBarrier s => .send s 0 0
  | l => l

/-- What the threads do next, after a step at the barrier. -/
def afterBar {n : Nat} (loc : Fin n → Loc) : Bar.Ev (Fin n) → Fin n → Loc
  | .call t => setLoc loc t.val Loc.enter
  | .ret t => setLoc loc t.val Loc.pass
  | .raise t _ => setLoc loc t.val fun _ => .crashed
  | _ => loc

/-- Executions of the program from a given state: the steps at the mailbox, the events at the barrier,
and the state reached. -/
inductive From (p : Params) (this : Mail.Addr) (mc₀ : Conf Nat (Mail.Box Msg) (Mail.Op Msg) (Mail.Resp Msg))
    (bc₀ : Bar.Conf (Fin p.threads)) (loc₀ : Fin p.threads → Loc) :
    List (Label Nat (Mail.Op Msg) (Mail.Resp Msg)) → List (Bar.Ev (Fin p.threads)) →
    Conf Nat (Mail.Box Msg) (Mail.Op Msg) (Mail.Resp Msg) → Bar.Conf (Fin p.threads) →
    (Fin p.threads → Loc) → Prop where
  | init : From p this mc₀ bc₀ loc₀ [] [] mc₀ bc₀ loc₀
  | mail {ls evs mc bc loc l mc'} (h : From p this mc₀ bc₀ loc₀ ls evs mc bc loc)
      (hs : Monitor.Step (Mail.body this) mc l mc')
      (hok : ∀ t o, l = .call t o → ∃ u : Fin p.threads, u.val = t ∧ (loc u).op p t = some o) :
      From p this mc₀ bc₀ loc₀ (ls ++ [l]) evs mc' bc (afterMail loc l)
  | bar {ls evs mc bc loc t m bc' e} (h : From p this mc₀ bc₀ loc₀ ls evs mc bc loc)
      (hs : Bar.step p.threads bc t m = some (bc', e))
      (hok : m = .call → (∃ s, loc t = .ready s) ∧ mc.phase t.val = .idle) :
      From p this mc₀ bc₀ loc₀ ls (evs ++ [e]) mc bc' (afterBar loc e)
  | silent {ls evs mc bc loc l} (t : Fin p.threads) (h : From p this mc₀ bc₀ loc₀ ls evs mc bc loc)
      (hi : mc.phase t.val = .idle) (hs : (loc t).silent p = some l) :
      From p this mc₀ bc₀ loc₀ ls evs mc bc (setLoc loc t.val fun _ => l)

/-- Executions of the program from its start, 108-135: a new mailbox, a new barrier. -/
abbrev Exec (p : Params) (this : Mail.Addr) (name : Str) :=
  From p this (Conf.init (Mail.Box.new name)) Bar.Conf.init fun _ => .start

end SoDa.MailTest
