import Verif.Spec.PropertyTree
import Verif.Spec.PropertyHeap
/-!
Specification vocabulary: the part of a document before its first mistake.
-/
namespace SoDa.Spec
open SoDa.Prop SoDa.PropMem

mutual
/-- `a` is the part of document `b` before the first mistake in it, and that is `e`: a sequence with elements at the top or as
an element of a sequence (`.invalidNode`), or a value under a key that is not a scalar (`.badConversion`). -/
inductive Before (e : YErr) : Y → Y → Prop where
  | sequence (y ys) (he : e = .invalidNode) : Before e .null (.seq (y :: ys))
  | map {as bs} (h : BeforeEntries e as bs) : Before e (.map as) (.map bs)
/-- The same for the entries of a map. -/
inductive BeforeEntries (e : YErr) : List (Y × Y) → List (Y × Y) → Prop where
  | after {as bs} (x) (hx : ReadableEntry x) (h : BeforeEntries e as bs) : BeforeEntries e (x :: as) (x :: bs)
  | keyOfScalar (k s es) (hk : ∀ s, k ≠ .scalar s) (he : e = .badConversion) : BeforeEntries e [] ((k, .scalar s) :: es)
  | keyOfMap (k l es) (hk : ∀ s, k ≠ .scalar s) (he : e = .badConversion) : BeforeEntries e [] ((k, .map l) :: es)
  | inMap {as bs} (s es) (h : BeforeEntries e as bs) : BeforeEntries e [(.scalar s, .map as)] ((.scalar s, .map bs) :: es)
  | inSeq {as bs} (k es) (h : BeforeList e as bs) : BeforeEntries e [(k, .seq as)] ((k, .seq bs) :: es)
/-- The same for the elements of a sequence. -/
inductive BeforeList (e : YErr) : List Y → List Y → Prop where
  | after {as bs} (y) (hy : Readable y) (h : BeforeList e as bs) : BeforeList e (y :: as) (y :: bs)
  | inside {a b} (ys) (h : Before e a b) : BeforeList e [a] (b :: ys)
end

/-- How many nodes the reading of a file creates. -/
inductive NodesFor : Load → Nat → Prop where
  | badFile (w) : NodesFor (.badFile w) 0
  | otherError : NodesFor .otherError 0
  | readable {y} (h : Readable y) : NodesFor (.doc y) (nodesOf y)
  | sequence {y y'} (h : Before .invalidNode y' y) : NodesFor (.doc y) (nodesOf y')
  /-- one for the value without a key -/
  | key {y y'} (h : Before .badConversion y' y) : NodesFor (.doc y) (nodesOf y' + 1)

/-- How many nodes a statement creates. -/
inductive Makes : Cmd → Nat → Prop where
  | make (i) : Makes (.make i) 1
  | load {f k} (i) (h : NodesFor f k) : Makes (.load i f) (1 + k)
  | read {f k} (i) (h : NodesFor f k) : Makes (.read i f) k
  | copy (i j) : Makes (.copy i j) 0
  | assign (i j) : Makes (.assign i j) 0
  | destroy (i) : Makes (.destroy i) 0

end SoDa.Spec
