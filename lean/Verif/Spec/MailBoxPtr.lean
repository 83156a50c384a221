import Verif.Model.MailBoxPtr
/-!
What the statements of one thread do with its variables, looked at alone (from the model only the statements are used), and what is asked of
memory management.
-/
namespace SoDa.Spec
open Mail

/-- Which mailboxes the variables of a thread refer to; mailboxes are numbered, `next` is the number of the next one it makes. -/
structure Vars where
  ptr : Nat → Option Nat
  sub : Nat → Option Nat
  next : Nat

/-- Another value of one variable. -/
def assign {α : Type} (f : Nat → Option α) (x : Nat) (o : Option α) : Nat → Option α := fun y => if y = x then o else f y

namespace Vars

variable {P : Type}

/-- The variables after a statement. -/
def after (l : Vars) : PStmt P → Vars
  | .make x _ => { l with ptr := assign l.ptr x (some l.next), next := l.next + 1 }
  | .copy x y => { l with ptr := assign l.ptr x (l.ptr y) }
  | .reset x => { l with ptr := assign l.ptr x none }
  | .subscribe s x => { l with sub := assign l.sub s (l.ptr x) }
  | .drop s => { l with sub := assign l.sub s none }
  | .move s s' => if s = s' then l else { l with sub := assign (assign l.sub s' none) s (l.sub s') }
  | .call _ _ => l

/-- No null pointer is dereferenced by the statement. -/
def NonNull (l : Vars) : PStmt P → Prop
  | .subscribe _ x => l.ptr x ≠ none
  | .call x c => l.ptr x ≠ none ∧ match c with
    | .get s => l.sub s ≠ none
    | .readyCount s => l.sub s ≠ none
    | .clear s => l.sub s ≠ none
    | _ => True
  | _ => True

/-- The thread has a pointer to every mailbox to which it has a subscription. -/
def Kept (l : Vars) : Prop := ∀ s k, l.sub s = some k → ∃ x, l.ptr x = some k

/-- No statement dereferences a null pointer. -/
def Careful : Vars → List (PStmt P) → Prop
  | _, [] => True
  | l, st :: prog => l.NonNull st ∧ Careful (l.after st) prog

/-- The thread always has a pointer to every mailbox to which it has a subscription. -/
def Keeps : Vars → List (PStmt P) → Prop
  | l, [] => l.Kept
  | l, st :: prog => l.Kept ∧ Keeps (l.after st) prog

/-- At the end all variables are gone. -/
def Closed (l : Vars) (prog : List (PStmt P)) : Prop :=
  (∀ x, (prog.foldl after l).ptr x = none) ∧ ∀ s, (prog.foldl after l).sub s = none

/-- The variables of a thread that starts with pointers to the mailboxes `args`, when there are `n` mailboxes. -/
def initial (n : Nat) (args : List Nat) : Vars := ⟨fun x => args[x]?, fun _ => none, n⟩

end Vars

/-- The number of calls of `subscribe`. -/
def subscribes {P : Type} (prog : List (PStmt P)) : Nat := prog.countP fun
  | .subscribe _ _ => true
  | _ => false

/-- New mailboxes are made where there is none, as long as there is room. -/
def Allocates {P : Type} (alloc : PState P → Addr) : Prop := ∀ σ : PState P, (∃ a, σ.world a = none) → σ.world (alloc σ) = none

end SoDa.Spec
