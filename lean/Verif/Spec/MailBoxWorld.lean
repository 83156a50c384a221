import Verif.Spec.MailBox
/-!
Specification vocabulary for programs with several mailboxes, which are constructed and destroyed:
only the operations and their responses are used.
-/
namespace SoDa.Spec
open Mail

variable {P : Type}

/-- An operation of a thread with its response. -/
structure WEvent (P : Type) where
  thread : Nat
  op : WOp P
  resp : Resp P

/-- The name of the mailbox that exists at the address after the history, if one does. -/
def nameAt (a : Addr) : List (WEvent P) → Option Str :=
  List.foldl (fun x e => match e.op with
    | .create a' name => if a' = a then some name else x
    | .destroy a' => if a' = a then none else x
    | _ => x) none

/-- What happened at the address since a mailbox was last constructed there. -/
def eventsAt (a : Addr) : List (WEvent P) → List (Event P) :=
  List.foldl (fun x e => match e.op with
    | .create a' _ => if a' = a then [] else x
    | .call a' o => if a' = a then x ++ [⟨e.thread, o, e.resp⟩] else x
    | .drop s => if s.box = a then x ++ [⟨e.thread, .drop s, e.resp⟩] else x
    | .destroy _ => x) []

/-- No address is used for two mailboxes, one after the other. -/
def FreshAddresses (tr : List (WEvent P)) : Prop :=
  ∀ tr1 e tr2 a name, tr = tr1 ++ e :: tr2 → e.op = .create a name →
    ∀ e' ∈ tr1, ∀ name', e'.op ≠ .create a name'

/-- The call is made with the subscription. -/
def Presents (s : Sub) : Op P → Prop
  | .get subs => subs = some s
  | .put _ subs => subs = some s
  | .clear subs => subs = some s
  | .readyCount subs => subs = some s
  | _ => False

end SoDa.Spec
