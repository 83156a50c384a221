import Verif.Spec.OptionsCopy
/-!
Specification vocabulary for `Options` objects in several threads.
-/
namespace SoDa.Spec
open Opts

variable {V ι : Type}

/-- One action, with what the call returns (`true` where nothing is returned). -/
def answer (w : World V) : OptAct V → Res Empty (World V × Bool)
  | .call i c => w.call i c
  | a => (w.act a).bind fun w' => .ok (w', true)

/-- A thread did something, was given this reply, and these messages were written to `std::cerr`. -/
structure OptEvent (ι V : Type) where
  thread : ι
  act : OptAct V
  reply : Bool
  msgs : List Diag

/-- Threads act on objects, in the order of the list. -/
inductive Performs (w : World V) : List (OptEvent ι V) → World V → Prop where
  | nil : Performs w [] w
  | snoc {tr w' e w''} (h : Performs w tr w') (ha : answer w' e.act = .ok (w'', e.reply))
      (hm : w''.cerr = w'.cerr ++ e.msgs) : Performs w (tr ++ [e]) w''

/-- The objects that are named in the action. -/
def objectsOf : OptAct V → List Nat
  | .new i _ | .destroy i | .call i _ => [i]
  | .copy i j | .assign i j => [i, j]

/-- Every thread uses its own objects only, and registers options for its own variables only: object
`i` belongs to the thread `own i`, the variable at `a` to the thread `ownVar a`. -/
def OwnObjects (own ownVar : Nat → ι) (tr : List (OptEvent ι V)) : Prop :=
  ∀ e ∈ tr, (∀ i ∈ objectsOf e.act, own i = e.thread) ∧
    ∀ i c a, e.act = .call i c → Registers a c → ownVar a = e.thread

/-- Option object `p` is in one of the two tables of object `i`. -/
def HasOption (w : World V) (i p : Nat) : Prop :=
  ∃ m, w.objs i = some m ∧ ((∃ n, (n, p) ∈ m.longMap) ∨ ∃ c, (c, p) ∈ m.abMap)

/-- Objects of different threads have no option object in common, and the targets of the options are
variables of the same thread. -/
def Separate (own ownVar : Nat → ι) (w : World V) : Prop :=
  (∀ i j p, own i ≠ own j → HasOption w i p → ¬ HasOption w j p) ∧
    ∀ i p d, HasOption w i p → w.decls[p]? = some d → ownVar d.target = own i

end SoDa.Spec
