import Verif.Model.PropertyTree
/-!
Specification vocabulary: the beginning of a document.
-/
namespace SoDa.Spec
open SoDa.Prop

mutual
/-- `a` is what is left of document `b` when it stops somewhere; `.null` stands for nothing. -/
inductive Initial : Y → Y → Prop where
  | nothing (y : Y) : Initial .null y
  | whole (y : Y) : Initial y y
  | map {as bs} (h : InitialEntries as bs) : Initial (.map as) (.map bs)
/-- The same for the entries of a map: the last one kept may be shortened. -/
inductive InitialEntries : List (Y × Y) → List (Y × Y) → Prop where
  | stop (bs) : InitialEntries [] bs
  | keep {as bs} (e) (h : InitialEntries as bs) : InitialEntries (e :: as) (e :: bs)
  | inMap {as bs} (k es) (h : InitialEntries as bs) : InitialEntries [(k, .map as)] ((k, .map bs) :: es)
  | inSeq {as bs} (k es) (h : InitialList as bs) : InitialEntries [(k, .seq as)] ((k, .seq bs) :: es)
/-- The same for the elements of a sequence. -/
inductive InitialList : List Y → List Y → Prop where
  | stop (bs) : InitialList [] bs
  | keep {as bs} (y) (h : InitialList as bs) : InitialList (y :: as) (y :: bs)
  | inside {a b} (ys) (h : Initial a b) : InitialList [a] (b :: ys)
end

end SoDa.Spec
