import Verif.Model.Monitors
import Verif.Model.MailBox
import Verif.Model.Barrier
import Mathlib.Logic.Function.Basic
/-!
Programs with any number of mailboxes and any number of barriers, as in test/MailBoxTest.cxx:36-110 (one barrier, several mailboxes).

* The objects have no data in common: every mailbox has its own mutex (include/MailBox.hxx:440) and every barrier its own mutex and
  condition variable (include/Barrier.hxx:252-253).  A step of a mailbox is one of Monitors.lean with the bodies of MailBox.lean, a step of
  a barrier one of Barrier.lean.
* The barrier `b` is made for `n b` threads and used by these: `thr b u` is the thread that is number `u` at it.  A thread may use any number of
  barriers and mailboxes, but is in one call at a time.
* Memory model and scheduler are those of Monitor.lean and Barrier.lean; all objects exist all the time.
-/
namespace SoDa.Together
open Monitor (Label)

/-- A step at a barrier for `n`: the thread, the scheduler's choice, the event, and the owner of the mutex before and after it. -/
structure BarStep (n : Nat) where
  who : Fin n
  mv : Bar.Move
  ev : Bar.Ev (Fin n)
  before : Option (Fin n)
  after : Option (Fin n)

/-- A step: at a mailbox, or at a barrier. -/
inductive Lab (β P : Type) (n : β → Nat) where
  | mail (l : Label Nat (Mail.Addr × Mail.Op P) (Mail.Resp P))
  | bar (b : β) (s : BarStep (n b))

/-- The mailboxes and the barriers. -/
structure Conf (β P : Type) (n : β → Nat) where
  mail : Monitors.Conf Nat Mail.Addr (Mail.Box P) (Mail.Op P) (Mail.Resp P)
  bars : (b : β) → Bar.Conf (Fin (n b))

variable {β P : Type} [DecidableEq β] {n : β → Nat}

/-- One step of the program. -/
inductive Step (thr : (b : β) → Fin (n b) → Nat) : Conf β P n → Lab β P n → Conf β P n → Prop where
  | mail {c l m'} (hs : Monitors.Step Mail.body c.mail l m')
      (hf : ∀ t o, l = .call t o → ∀ b u, thr b u = t → (c.bars b).pc u = .idle) :
      Step thr c (.mail l) { c with mail := m' }
  | bar {c b t m c' e} (hs : Bar.step (n b) (c.bars b) t m = some (c', e))
      (hf : m = .call → c.mail.phase (thr b t) = .idle ∧ ∀ b' u, thr b' u = thr b t → (c.bars b').pc u = .idle) :
      Step thr c (.bar b ⟨t, m, e, (c.bars b).holder, c'.holder⟩) { c with bars := Function.update c.bars b c' }

/-- New mailboxes and new barriers. -/
def Conf.init (name : Mail.Addr → Str) : Conf β P n := ⟨Monitors.Conf.init fun a => Mail.Box.new (name a), fun _ => Bar.Conf.init⟩

/-- Executions from new mailboxes and barriers. -/
inductive Exec (thr : (b : β) → Fin (n b) → Nat) (name : Mail.Addr → Str) : List (Lab β P n) → Conf β P n → Prop where
  | init : Exec thr name [] (Conf.init name)
  | snoc {L c l c'} (h : Exec thr name L c) (hs : Step thr c l c') : Exec thr name (L ++ [l]) c'

end SoDa.Together
