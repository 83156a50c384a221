import Verif.Model.PropertyTree
import Verif.Model.OptionsNum
/-!
`PropNode::get<T>` (include/PropertyTree.hxx:168-178) for further types `T`.  The extraction `ss >> v` is that of the
standard library (libstdc++, "C" locale, default flags), as for options.
-/
namespace SoDa.Prop

/-- `T = short`, `int`, `long` of `bits` bits: include/PropertyTree.hxx:168-178. -/
def sintTy (name : Str) (bits : Nat) : Ty Int where
  name := name
  read s := match Opts.extractSigned bits s with
    | .good v => some v
    | _ => none

/-- `T = unsigned short`, `unsigned int`, `unsigned long` of `bits` bits: include/PropertyTree.hxx:168-178. -/
def uintTy (name : Str) (bits : Nat) : Ty Int where
  name := name
  read s := match Opts.extractUnsigned bits s with
    | .good v => some v
    | _ => none

/-- `T = double` (`rnd` rounds to a double) or `float`: include/PropertyTree.hxx:168-178. -/
def realTy (name : Str) (rnd : ℚ → Option ℚ) : Ty Dbl where
  name := name
  read s := match Opts.extractReal rnd s with
    | .good x => some x
    | _ => none

/-- `T = double`; its `typeid` name is `d`. -/
def doubleTy : Ty Dbl := realTy "d".toList binary64.rnd

/-- `T = float`; its `typeid` name is `f`. -/
def floatTy : Ty Dbl := realTy "f".toList F32.rnd32

/-- `T = bool`: without `boolalpha` a `long` is read, and the stream fails unless it is 0 or 1:
include/PropertyTree.hxx:168-178. -/
def boolTy : Ty Bool where
  name := "b".toList
  read s := match Opts.extractSigned 64 s with
    | .good 0 => some false
    | .good 1 => some true
    | _ => none

/-- `T = char`: the first character that is not white space. -/
def charTy : Ty Char where
  name := "c".toList
  read s := (s.dropWhile Opts.isSpace).head?

end SoDa.Prop
