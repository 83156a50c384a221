import Verif.Model.Basic
/-!
Model of the parts of `std::ostream` used by `src/Format.cxx`: insertion of integers and strings
with `setw`, `setfill`, `std::left/right`, `hex/oct/dec`, `uppercase`, `showbase`.
(Standard library behaviour, trusted; nothing here is code of /repo.)
-/
namespace SoDa

/-- `2^32`, the range of `unsigned int`. -/
def u32 : Nat := 4294967296

/-- `std::setw(w)` takes an `int`; an `unsigned` argument `w ≥ 2^31` becomes negative, and a
negative field width never pads. -/
def setwWidth (w : Nat) : Nat := if w % u32 < 2147483648 then w % u32 else 0

/-- Field padding with `adjustfield` = right (the default): fill characters on the left. -/
def padLeft (fill : Char) (w : Nat) (s : Str) : Str := List.replicate (w - s.length) fill ++ s

/-- Field padding with `adjustfield` = left: fill characters on the right. -/
def padRight (fill : Char) (w : Nat) (s : Str) : Str := s ++ List.replicate (w - s.length) fill

/-- `os << v` for a signed integer in `std::dec` (no `showpos`). -/
def showInt (v : Int) : Str :=
  match v with
  | .ofNat n => Nat.toDigits 10 n
  | .negSucc n => '-' :: Nat.toDigits 10 (n + 1)

/-- `os << std::hex << v` for an unsigned integer (no `showbase`). -/
def showHex (uppercase : Bool) (v : Nat) : Str :=
  let ds := Nat.toDigits 16 v
  if uppercase then ds.map Char.toUpper else ds

/-- `os << std::oct << v` with `std::ios::showbase`: a leading `0` unless the value is zero. -/
def showOctBase (v : Nat) : Str :=
  if v = 0 then Nat.toDigits 8 v else '0' :: Nat.toDigits 8 v

end SoDa
