import Verif.Model.MailBox
import Verif.Model.Barrier
/-!
Threads that share one mailbox and one barrier in the way shown by include/MailBox.hxx:104-116 and
test/MailBoxTest.cxx:36-60: a thread subscribes, waits at the barrier until everybody has
subscribed, and only then sends messages.

The two objects have separate mutexes and no common data, so an execution is any interleaving of
the steps of the mailbox model (`Monitor.Step` with the bodies of `Mail.body`) and of the barrier
model (`Bar.step`).  A thread is inside at most one call at a time.  What a thread does apart from
these calls is arbitrary, except for the order of `subscribe`, `wait` and `put`.  (The test also
does not call `clear` or `unsubscribe`; this is not required here.)
-/
namespace SoDa.Session
open Monitor

variable {P : Type}

/-- What thread `t` may call on the mailbox: it is not waiting at the barrier; it subscribes only
before its first `wait` (MailBoxTest.cxx:44-45); it sends only after `wait` has returned to it
(MailBoxTest.cxx:51-59). -/
def MayCall {n : Nat} (evs : List (Bar.Ev (Fin n))) (bc : Bar.Conf (Fin n)) (t : Fin n) (o : Mail.Op P) : Prop :=
  bc.pc t = .idle ∧
  (o = .subscribe → Bar.Ev.call t ∉ evs) ∧
  (∀ m s, o = .put m s → Bar.Ev.ret t ∈ evs)

instance {n : Nat} (evs : List (Bar.Ev (Fin n))) (bc : Bar.Conf (Fin n)) (t : Fin n) (o : Mail.Op P) :
    Decidable (MayCall evs bc t o) :=
  match o with
  | .subscribe => decidable_of_iff (bc.pc t = .idle ∧ Bar.Ev.call t ∉ evs) (by simp [MayCall])
  | .put _ _ => decidable_of_iff (bc.pc t = .idle ∧ Bar.Ev.ret t ∈ evs) (by simp [MayCall])
  | .get _ => decidable_of_iff (bc.pc t = .idle) (by simp [MayCall])
  | .readyCount _ => decidable_of_iff (bc.pc t = .idle) (by simp [MayCall])
  | .minReadyCount => decidable_of_iff (bc.pc t = .idle) (by simp [MayCall])
  | .clear _ => decidable_of_iff (bc.pc t = .idle) (by simp [MayCall])
  | .unsubscribe _ => decidable_of_iff (bc.pc t = .idle) (by simp [MayCall])
  | .subscriberCount => decidable_of_iff (bc.pc t = .idle) (by simp [MayCall])
  | .drop _ => decidable_of_iff (bc.pc t = .idle) (by simp [MayCall])

/-- Executions of `n` threads from a new mailbox and a new barrier for `n`: the steps at the mailbox,
the events at the barrier, and the states reached. -/
inductive Exec (n : Nat) (this : Mail.Addr) (name : Str) :
    List (Label Nat (Mail.Op P) (Mail.Resp P)) → List (Bar.Ev (Fin n)) →
    Conf Nat (Mail.Box P) (Mail.Op P) (Mail.Resp P) → Bar.Conf (Fin n) → Prop where
  | init : Exec n this name [] [] (Conf.init (Mail.Box.new name)) Bar.Conf.init
  | mail {ls evs mc bc l mc'} (h : Exec n this name ls evs mc bc)
      (hs : Monitor.Step (Mail.body this) mc l mc')
      (hok : ∀ t o, l = .call t o → ∃ u : Fin n, u.val = t ∧ MayCall evs bc u o) :
      Exec n this name (ls ++ [l]) evs mc' bc
  | bar {ls evs mc bc t m bc' e} (h : Exec n this name ls evs mc bc)
      (hs : Bar.step n bc t m = some (bc', e)) (hok : m = .call → mc.phase t.val = .idle) :
      Exec n this name ls (evs ++ [e]) mc bc'

/-! ### Executing a given schedule -/

/-- The scheduler's choices. -/
inductive Choice (n : Nat) (P : Type) where
  | call (t : Fin n) (o : Mail.Op P)
  | mail (t : Fin n)
  | bar (t : Fin n) (m : Bar.Move)

structure State (n : Nat) (P : Type) where
  ls : List (Label Nat (Mail.Op P) (Mail.Resp P))
  evs : List (Bar.Ev (Fin n))
  mc : Conf Nat (Mail.Box P) (Mail.Op P) (Mail.Resp P)
  bc : Bar.Conf (Fin n)

def State.mailStep {n : Nat} (s : State n P) (this : Mail.Addr) (t : Nat) : Option (State n P) :=
  match s.mc.phase t with
  | .idle => none
  | .wants o =>
    if s.mc.holder = none then
      some { s with ls := s.ls ++ [.lock t],
                    mc := { s.mc with holder := some t, phase := setPhase s.mc.phase t (.runs o (Mail.body this o)) } }
    else none
  | .runs o (.act f k) =>
    some { s with ls := s.ls ++ [.act t],
                  mc := { s.mc with shared := f s.mc.shared, phase := setPhase s.mc.phase t (.runs o (k s.mc.shared)) } }
  | .runs o (.ret r) =>
    some { s with ls := s.ls ++ [.unlock t o r],
                  mc := { s.mc with holder := none, phase := setPhase s.mc.phase t (.leaving o r) } }
  | .leaving o r =>
    some { s with ls := s.ls ++ [.ret t o r], mc := { s.mc with phase := setPhase s.mc.phase t .idle } }

def State.idle {n : Nat} (s : State n P) (t : Nat) : Bool :=
  match s.mc.phase t with
  | .idle => true
  | _ => false

def State.choose {n : Nat} (this : Mail.Addr) (s : State n P) : Choice n P → Option (State n P)
  | .call t o =>
    if s.idle t.val = true ∧ MayCall s.evs s.bc t o then
      some { s with ls := s.ls ++ [.call t o], mc := { s.mc with phase := setPhase s.mc.phase t.val (.wants o) } }
    else none
  | .mail t => s.mailStep this t.val
  | .bar t m =>
    if m = .call ∧ s.idle t.val = false then none
    else match Bar.step n s.bc t m with
      | none => none
      | some (bc', e) => some { s with evs := s.evs ++ [e], bc := bc' }

def runAll {n : Nat} (this : Mail.Addr) : List (Choice n P) → State n P → Option (State n P)
  | [], s => some s
  | x :: xs, s => (s.choose this x).bind (runAll this xs)

def State.new (n : Nat) (name : Str) : State n P := ⟨[], [], Conf.init (Mail.Box.new name), Bar.Conf.init⟩

end SoDa.Session
