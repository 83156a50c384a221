import Verif.Model.PropertyTreeNum
/-!
The variable handed to `PropNode::get<T>(v)` (include/PropertyTree.hxx:168-178): `ss >> v` assigns it also when the stream fails.  What it
assigns is the behaviour of libstdc++ ("C" locale), as for options: 0 if there is no number, the nearest number of the type if it is out
of range; nothing if there is nothing but white space.
-/
namespace SoDa.Prop

/-- A type `T` of `get<T>`: `fail s old` is what a failing extraction from `s` leaves in a variable that held `old`. -/
structure Into (V : Type) extends Ty V where
  fail : Str → V → V

/-- `T = short`, `int`, `long`: include/PropertyTree.hxx:168-178. -/
def sintInto (name : Str) (bits : Nat) : Into Int where
  toTy := sintTy name bits
  fail s old := match Opts.extractSigned bits s with
    | .good v | .over v => v
    | .bad => 0
    | .blank => old

/-- `T = unsigned short`, `unsigned int`, `unsigned long`: include/PropertyTree.hxx:168-178. -/
def uintInto (name : Str) (bits : Nat) : Into Int where
  toTy := uintTy name bits
  fail s old := match Opts.extractUnsigned bits s with
    | .good v | .over v => v
    | .bad => 0
    | .blank => old

/-- `T = double` or `float`, with the largest number `big`: include/PropertyTree.hxx:168-178. -/
def realInto (name : Str) (rnd : ℚ → Option ℚ) (big : ℚ) : Into Dbl where
  toTy := realTy name rnd
  fail s old := match Opts.extractReal rnd s with
    | .good x => x
    | .over neg => .fin neg big
    | .bad => .fin false 0
    | .blank => old

/-- `T = double`. -/
def doubleInto : Into Dbl := realInto "d".toList binary64.rnd (dblMag 2046 (2 ^ 52 - 1))

/-- `T = float`. -/
def floatInto : Into Dbl := realInto "f".toList F32.rnd32 (F32.fltMag 254 (2 ^ 23 - 1))

/-- `T = bool`: a `long` is read; any other number than 0 and 1 gives true, no number gives false:
include/PropertyTree.hxx:168-178. -/
def boolInto : Into Bool where
  toTy := boolTy
  fail s old := match Opts.extractSigned 64 s with
    | .good v | .over v => decide (v ≠ 0)
    | .bad => false
    | .blank => old

/-- `T = char`: include/PropertyTree.hxx:168-178. -/
def charInto : Into Char where
  toTy := charTy
  fail _ old := old

/-- `T = std::string`: the string is emptied only after white space has been skipped successfully: include/PropertyTree.hxx:168-178. -/
def strInto : Into Str where
  toTy := strTy
  fail _ old := old

/-- `PropNode::get<T>(v, throw_exception)` called with a variable that holds `old`: the result, and what `v` holds afterwards (also if an
exception is thrown), include/PropertyTree.hxx:168-178. -/
def Ref.getInto {V : Type} (T : Into V) (r : Ref) (old : V) (throwEx : Bool := false) : Res Err Bool × V :=
  match T.read r.node.val with
  | some v => (.ok true, v)
  | none =>
    (if throwEx then .throw (.badType r.getPathName T.name r.node.val) else .ok false, T.fail r.node.val old)

/-- `PropertyTree::get<T>(v, pathname, throw_exception)`, include/PropertyTree.hxx:130-140. -/
def getInto {V : Type} (T : Into V) (root : Node) (pathname : Str) (old : V) (throwEx : Bool := false) : Res Err Bool × V :=
  match getProp (Ref.root root) pathname throwEx with
  | .ok none => (.throw (.notFound pathname), old)
  | .ok (some pn) => pn.getInto T old throwEx
  | .throw e => (.throw e, old)
  | .ub => (.ub, old)

end SoDa.Prop
