import Verif.Spec.Format
import Verif.Model.FormatAlloc
/-!
Vocabulary for C114: `Format` objects when memory runs out inside calls.
-/
namespace SoDa.Spec

/-- The texts inserted since the last `reset`, given those already inserted. -/
def textsOf (acc : List Str) : List FOp → List Str
  | [] => acc
  | .add s :: ops => textsOf (acc ++ [s]) ops
  | .str :: ops => textsOf acc ops
  | .reset :: ops => textsOf [] ops

/-- The printed text when `vals` have been supplied, and the next value `v` has reached only the first `j` of its placeholders. -/
def renderPart (vals : List Str) (v : Str) : Nat → List Item → Str
  | _, [] => []
  | j, .chr c :: rest => c :: renderPart vals v j rest
  | j, .hole n :: rest =>
    if n = vals.length then
      match j with
      | 0 => '%' :: (toString n).toList ++ renderPart vals v 0 rest
      | j + 1 => v ++ renderPart vals v j rest
    else renderItem vals (.hole n) ++ renderPart vals v j rest

/-- How many placeholders have the number `n`. -/
def holes (n : Nat) (items : List Item) : Nat := items.count (.hole n)

end SoDa.Spec
