import Verif.Model.PropertyTree
/-!
How deep a property tree is.
-/
namespace SoDa.Spec
open SoDa.Prop

/-- `v` is in the list or in the dictionary of the node. -/
def InNode (v n : Node) : Prop := v ∈ n.list ∨ ∃ k, (k, v) ∈ n.dict

/-- There is a way of `k` steps down from the node, all nodes on it being dictionaries or lists (not values). -/
inductive Deep : Nat → Node → Prop where
  | here (n) : Deep 0 n
  | down {k n v} (hn : n.terminal = false) (hv : InNode v n) (ht : v.terminal = false) (h : Deep k v) : Deep (k + 1) n

end SoDa.Spec
