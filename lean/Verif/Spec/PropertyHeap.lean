import Verif.Model.PropertyHeap
import Verif.Spec.PropertyTree
/-!
Specification vocabulary for property trees in memory: which tree is stored at a pointer.
-/
namespace SoDa.Spec
open SoDa.Prop SoDa.PropMem

mutual
/-- At `p` there is a node with parent `par` which, with everything below it, is the tree `n`; `fp` are the pointers to the
nodes of that tree, each of them once. -/
inductive Holds (m : Mem) : Option Ptr → Ptr → Node → List Ptr → Prop where
  | mk {par p v t lp dp l d fl fd} (hc : m[p]? = some ⟨par, v, t, lp, dp⟩) (hl : HoldsList m p lp l fl)
      (hd : HoldsDict m p dp d fd) (hn : (p :: (fl ++ fd)).Nodup) : Holds m par p (.mk v t l d) (p :: (fl ++ fd))
/-- The same for the nodes of a list below `p`. -/
inductive HoldsList (m : Mem) : Ptr → List Ptr → List Node → List Ptr → Prop where
  | nil {p} : HoldsList m p [] [] []
  | cons {p q qs n ns fp fps} (h : Holds m (some p) q n fp) (ht : HoldsList m p qs ns fps) :
      HoldsList m p (q :: qs) (n :: ns) (fp ++ fps)
/-- The same for a dictionary below `p`. -/
inductive HoldsDict (m : Mem) : Ptr → List (Str × Ptr) → List (Str × Node) → List Ptr → Prop where
  | nil {p} : HoldsDict m p [] [] []
  | cons {p k q qs n ns fp fps} (h : Holds m (some p) q n fp) (ht : HoldsDict m p qs ns fps) :
      HoldsDict m p ((k, q) :: qs) ((k, n) :: ns) (fp ++ fps)
end

/-- The tree object `i` exists and shows the tree `n`. -/
def ShowsTree (s : St) (i : Nat) (n : Node) : Prop := ∃ r fp, s.root i = some r ∧ Holds s.mem none r n fp

/-- Two variables have the same nodes. -/
def Shares (s : St) (i j : Nat) : Prop := s.root i ≠ none ∧ s.root i = s.root j

/-- Pointer `q` leads to a node of the tree below the node at `p`, and `r` is that node and the values on the way. -/
inductive Below (m : Mem) (p : Ptr) (n : Node) : Ptr → Ref → Prop where
  | root : Below m p n p (Ref.root n)
  | list {q r c} {i : Nat} {q' n'} (h : Below m p n q r) (hc : m[q]? = some c) (hq : c.list[i]? = some q')
      (hn : r.node.list[i]? = some n') : Below m p n q' (r.child n')
  | dict {q r c} {i : Nat} {k q' n'} (h : Below m p n q r) (hc : m[q]? = some c) (hq : c.dict[i]? = some (k, q'))
      (hn : r.node.dict[i]? = some (k, n')) : Below m p n q' (r.child n')

mutual
/-- How many nodes a document is turned into. -/
def nodesOf : Y → Nat
  | .null => 0
  | .scalar _ => 1
  | .seq _ => 0
  | .map es => nodesOfEntries es
def nodesOfEntries : List (Y × Y) → Nat
  | [] => 0
  | e :: es => nodesOfEntry e + nodesOfEntries es
def nodesOfEntry : Y × Y → Nat
  | (_, .null) => 0
  | (_, .scalar _) => 1
  | (_, .map es) => 1 + nodesOfEntries es
  | (_, .seq l) => nodesOfList l
def nodesOfList : List Y → Nat
  | [] => 0
  | y :: ys => nodesOf y + nodesOfList ys
end

mutual
/-- The number of nodes of a tree. -/
def size : Node → Nat
  | .mk _ _ l d => 1 + sizeList l + sizeDict d
def sizeList : List Node → Nat
  | [] => 0
  | n :: ns => size n + sizeList ns
def sizeDict : List (Str × Node) → Nat
  | [] => 0
  | (_, n) :: ns => size n + sizeDict ns
end

/-- Some variable's tree contains the node at `p`. -/
def Reachable (s : St) (p : Ptr) : Prop := ∃ i r n fp, s.root i = some r ∧ Holds s.mem none r n fp ∧ p ∈ fp

/-- The statement does not end the life of variable `i` and does not assign to it. -/
def LeavesVar (i : Nat) : Cmd → Prop
  | .assign a _ => a ≠ i
  | .destroy a => a ≠ i
  | _ => True

/-- `s'` comes after `s` when the statements `cs` are executed. -/
inductive Later (s : St) : List Cmd → St → Prop where
  | nil : Later s [] s
  | snoc {cs s' c s'' out} (h : Later s cs s') (he : exec s' c = some (s'', out)) : Later s (cs ++ [c]) s''

/-- How many nodes a statement creates when the documents it reads have no error. -/
def nodesMade : Cmd → Nat
  | .make _ => 1
  | .load _ (.doc y) => 1 + nodesOf y
  | .load _ _ => 1
  | .read _ (.doc y) => nodesOf y
  | _ => 0

/-- If the statement reads a document, that has no error. -/
def ReadsReadable : Cmd → Prop
  | .load _ (.doc y) | .read _ (.doc y) => Readable y
  | _ => True

end SoDa.Spec
