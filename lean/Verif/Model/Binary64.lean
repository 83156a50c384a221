import Verif.Model.FormatF
/-!
IEEE 754 binary64 arithmetic, round to nearest, ties to even, for the model of `Format::addF`
(src/Format.cxx:282-494, which computes with `double`).
-/
namespace SoDa

/-- Rounding of a non-negative rational number of units (a unit is `2^-1074`, the smallest subnormal)
to the nearest number with a 53-bit mantissa, ties to even, without a bound on the exponent. -/
def units64 (y : ℚ) : Nat :=
  let k := Nat.log2 ⌊y⌋.toNat - 52
  roundHalfEven (y / 2 ^ k) * 2 ^ k

/-- Rounding to a format with 53-bit mantissas whose smallest number is `2^-e` and in which numbers
that would round to `2^(M-e)` or more overflow. -/
def rndTo (e M : Nat) (q : ℚ) : Option ℚ :=
  let n := units64 (q * 2 ^ e)
  if n < 2 ^ M then some ((n : ℚ) / 2 ^ e) else none

/-- Rounding to binary64: numbers that would round to `2^1024` or more overflow.  Models the operations
on `double` in src/Format.cxx:282-381. -/
def rnd64 (q : ℚ) : Option ℚ := rndTo 1074 2098 q

/-- The arithmetic of `double` on the platforms the library supports. -/
def binary64 : Arith := ⟨rnd64⟩

/-- The magnitude of the finite double with biased exponent `b < 2047` and fraction `m < 2^52`. -/
def dblMag (b m : Nat) : ℚ :=
  if b = 0 then (m : ℚ) / 2 ^ 1074 else ((2 ^ 52 + m : Nat) : ℚ) * 2 ^ (b - 1) / 2 ^ 1074

end SoDa
