import Verif.Model.Binary64
/-!
Rounding to IEEE 754 binary32 (`float`), round to nearest, ties to even, for options of type `float`
(include/Options.hxx:497-504).
-/
namespace SoDa.F32

/-- Rounding of a non-negative rational number of units (a unit is `2^-149`, the smallest subnormal) to the nearest number
with a 24-bit mantissa, ties to even, without a bound on the exponent. -/
def units32 (y : ℚ) : Nat :=
  let k := Nat.log2 ⌊y⌋.toNat - 23
  roundHalfEven (y / 2 ^ k) * 2 ^ k

/-- Rounding to a format with 24-bit mantissas whose smallest number is `2^-e` and in which numbers that would round to
`2^(M-e)` or more overflow. -/
def rnd (e M : Nat) (q : ℚ) : Option ℚ :=
  let n := units32 (q * 2 ^ e)
  if n < 2 ^ M then some ((n : ℚ) / 2 ^ e) else none

/-- Rounding to binary32: numbers that would round to `2^128` or more overflow.  What `strtof` does for
include/Options.hxx:500. -/
def rnd32 (q : ℚ) : Option ℚ := rnd 149 277 q

/-- The magnitude of the finite float with biased exponent `b < 255` and fraction `m < 2^23`. -/
def fltMag (b m : Nat) : ℚ :=
  if b = 0 then (m : ℚ) / 2 ^ 149 else ((2 ^ 23 + m : Nat) : ℚ) * 2 ^ (b - 1) / 2 ^ 149

end SoDa.F32
