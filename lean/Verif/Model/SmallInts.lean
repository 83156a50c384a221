import Verif.Model.PropertyTreeNum
import Verif.Model.OptionsNum
/-!
`int8_t` and `uint8_t` (`signed char` and `unsigned char`) as types of property values and of options.  `>>` into them extracts a
character, not a number.  Characters are those of ASCII; a character from 128 up would be negative as an `int8_t` and is not covered.
-/
namespace SoDa

/-- `PropNode::get<T>(v)` with `T = int8_t` (`name` "a") or `uint8_t` (`name` "h"), include/PropertyTree.hxx:168-178. -/
def Prop.byteTy (name : Str) : Prop.Ty Int where
  name := name
  read s := (s.dropWhile Opts.isSpace).head?.map fun c => (c.toNat : Int)

/-- `setValBase<T>` with `T = int8_t`, include/Options.hxx:497-504. -/
def Opts.byteTy : Opts.Ty Int := Opts.charTy fun c => (c.toNat : Int)

/-- `setValBase<T>` with `T = uint8_t`, include/Options.hxx:497-504. -/
def Opts.ubyteTy : Opts.Ty Int := { Opts.byteTy with signed := false }

end SoDa
