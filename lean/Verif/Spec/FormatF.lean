import Verif.Spec.Format
import Mathlib.Data.Rat.Defs
import Mathlib.Algebra.Order.Field.Rat
/-!
Specification vocabulary for engineering notation: a reader for texts of the form
`sign digits [. digits] e sign digits spaces`.
-/
namespace SoDa.Spec

/-- What an engineering-notation text says. -/
structure Eng where
  neg : Bool
  ip : Str
  fp : Str
  exp : Int
  deriving DecidableEq, Repr

/-- Reads `e`, a sign, digits, and then nothing but spaces. -/
def readExp : Str → Option Int
  | 'e' :: sg :: rest =>
    let ds := rest.takeWhile Char.isDigit
    let tl := rest.dropWhile Char.isDigit
    if (sg = '+' ∨ sg = '-') ∧ ds ≠ [] ∧ tl.all (· = ' ') then
      (numeral 10 ds).map fun n => if sg = '-' then -(n : Int) else n
    else none
  | _ => none

/-- Reads `sign digits [. digits] e sign digits spaces`. -/
def readEng : Str → Option Eng
  | sg :: rest =>
    let ip := rest.takeWhile Char.isDigit
    let r1 := rest.dropWhile Char.isDigit
    if (sg = ' ' ∨ sg = '-') ∧ ip ≠ [] then
      match r1 with
      | '.' :: r2 =>
        let fp := r2.takeWhile Char.isDigit
        if fp = [] then none
        else (readExp (r2.dropWhile Char.isDigit)).map fun e => ⟨sg = '-', ip, fp, e⟩
      | r1 => (readExp r1).map fun e => ⟨sg = '-', ip, [], e⟩
    else none
  | [] => none

/-- The (absolute) number an engineering-notation text denotes. -/
def Eng.value (t : Eng) : Option ℚ :=
  (numeral 10 (t.ip ++ t.fp)).map fun (n : Nat) => (n : ℚ) / 10 ^ t.fp.length * 10 ^ t.exp

/-- The integer part. -/
def Eng.intPart (t : Eng) : Option Nat := numeral 10 t.ip

/-! ### Limits of engineering notation -/

/-- 52-bit fractions of the smallest doubles for which the loops of engineering notation do not stop, for 0 to 16 digits. -/
def hangTable : List Nat :=
  [506821272651932, 1998389177359285, 4253078582369380, 4478547522870390, 4501094416920496, 4503349106325490,
   4503574575265996, 4503597122160050, 4503599376849444, 4503599602318388, 4503599624865291, 4503599627119963,
   4503599627345448, 4503599627367986, 4503599627370240, 4503599627370465, 4503599627370494]

/-- The smallest double too large for `d` digits; from 16 digits on it is the same. -/
def hangFrom (d : Nat) : ℚ := ((2 ^ 52 + hangTable.getD (min d 16) 0 : Nat) : ℚ) * 2 ^ 971

/-- `t` is the exponent text of `10 ^ e`: an `e`, a sign, and a numeral of at least two digits that starts with a
zero only to reach two digits. -/
def ExpText (e : Int) (t : Str) : Prop :=
  ∃ es, t = 'e' :: (if e < 0 then '-' else '+') :: es ∧ numeral 10 es = some e.natAbs ∧ 2 ≤ es.length ∧
    (es.length = 2 ∨ es.head? ≠ some '0')

/-! ### Fields -/

/-- `t` is a field of minimum width `w` holding a left-justified value: a text that does not end in a space, followed by
just as many spaces as are missing to `w` characters. -/
def FieldText (w : Nat) (t : Str) : Prop :=
  ∃ core : Str, core ≠ [] ∧ core.getLast? ≠ some ' ' ∧ t = core ++ List.replicate (w - core.length) ' '

/-- The text with another radix character. -/
def withRadix (c : Char) (t : Str) : Str := t.map fun x => if x = '.' then c else x

end SoDa.Spec
