import Verif.Model.MailBoxLife
/-!
Specification vocabulary for messages as objects.
-/
namespace SoDa.Spec
open Mail

variable {P : Type}

/-- There is a pointer to the message: in the mailbox or in the program. -/
def Referenced (m : Mem P) (p : P) : Prop := (∃ kq ∈ m.box.queues, some p ∈ kq.2) ∨ ∃ o, (o, p) ∈ m.vars

/-- The message has been destroyed. -/
def Destroyed (m : Mem P) (p : P) : Prop := ∃ locked, (p, locked) ∈ m.gone

/-- The call throws away the messages that wait for subscriber `i`. -/
def Discards (i : Int) : Op P → Prop
  | .clear (some s) => s.idx = i
  | .unsubscribe k => k = i
  | .drop s => s.idx = i
  | _ => False

/-- The step of a call, if it is one. -/
def _root_.SoDa.Mail.LLabel.call? : LLabel P → Option (Monitor.Label Nat (Op P) (Resp P))
  | .mon (.call t o) => some (.call t o.2)
  | .mon (.lock t) => some (.lock t)
  | .mon (.act t) => some (.act t)
  | .mon (.unlock t o r) => some (.unlock t o.2 r)
  | .mon (.ret t o r) => some (.ret t o.2 r)
  | _ => none

end SoDa.Spec
