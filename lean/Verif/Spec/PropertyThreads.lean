import Verif.Spec.PropertyHeap
/-!
Specification vocabulary for property trees in several threads.
-/
namespace SoDa.Spec
open SoDa.Prop SoDa.PropMem

/-- Threads execute statements on tree objects, in the order of the list: which thread, which statement, how it ended. -/
inductive RunsTo {ι : Type} (s : St) : List (ι × Cmd × ReadOut) → St → Prop where
  | nil : RunsTo s [] s
  | snoc {tr s' t c out s''} (h : RunsTo s tr s') (he : exec s' c = some (s'', out)) : RunsTo s (tr ++ [(t, c, out)]) s''

/-- The variables of the statement. -/
def varsOf : Cmd → List Nat
  | .make i | .load i _ | .read i _ | .destroy i => [i]
  | .copy i j | .assign i j => [i, j]

/-- Every thread uses its own variables only; `own i` is the thread that variable `i` belongs to. -/
def OwnVars {ι : Type} (own : Nat → ι) (tr : List (ι × Cmd × ReadOut)) : Prop :=
  ∀ e ∈ tr, ∀ i ∈ varsOf e.2.1, own i = e.1

end SoDa.Spec
