import Verif.Model.Locale
import Verif.Model.PropertyTreeNum
/-!
`PropNode::get<T>` (include/PropertyTree.hxx:168-178) in a program that has set another global locale: the stream `ss` is constructed in
`get` and has the global locale.  What `>>` does with it is in `Model/Locale.lean`.
-/
namespace SoDa.Prop

/-- `T = short`, `int`, `long` of `bits` bits: include/PropertyTree.hxx:168-178. -/
def sintIn (L : Locale) (name : Str) (bits : Nat) : Ty Int where
  name := name
  read s := match L.extractSigned bits s with
    | .good v => some v
    | _ => none

/-- `T = unsigned short`, `unsigned int`, `unsigned long` of `bits` bits: include/PropertyTree.hxx:168-178. -/
def uintIn (L : Locale) (name : Str) (bits : Nat) : Ty Int where
  name := name
  read s := match L.extractUnsigned bits s with
    | .good v => some v
    | _ => none

/-- `T = double` or `float`: include/PropertyTree.hxx:168-178. -/
def realIn (L : Locale) (name : Str) (rnd : ℚ → Option ℚ) : Ty Dbl where
  name := name
  read s := match L.extractReal rnd s with
    | (.good x, true) => some x
    | _ => none

/-- `T = bool`: include/PropertyTree.hxx:168-178. -/
def boolIn (L : Locale) : Ty Bool where
  name := "b".toList
  read s := match L.extractSigned 64 s with
    | .good 0 => some false
    | .good 1 => some true
    | _ => none

end SoDa.Prop
