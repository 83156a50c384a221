import Verif.Model.FormatF
/-!
Model of `Format::roundToSigDigs` (src/Format.cxx:581-609), a protected helper for classes derived from `Format`.

Unlike `addF` it works on signed values; a `double` is here NaN, an infinity or a rational (the sign of zero is not
kept).  `pow(10.0, n)` is the correctly rounded power.  Loops take fuel as in `Verif.Model.FormatF`.
-/
namespace SoDa

/-- A signed `double`. -/
inductive SDbl where
  | nan
  | inf (neg : Bool)
  | fin (q : ℚ)
  deriving DecidableEq

namespace SDbl

/-- The result of an operation whose exact result is `q`. -/
def round (A : Arith) (q : ℚ) : SDbl :=
  match A.rnd |q| with
  | some m => .fin (if q < 0 then -m else m)
  | none => .inf (q < 0)

/-- `x * c` for a finite `c > 0`. -/
def mulc (A : Arith) (x : SDbl) (c : ℚ) : SDbl := match x with
  | .fin q => round A (q * c)
  | x => x

/-- `x * y`. -/
def mul (A : Arith) (x y : SDbl) : SDbl := match x, y with
  | .fin p, .fin q => round A (p * q)
  | .fin p, .inf n => if p = 0 then .nan else .inf (n != decide (p < 0))
  | .inf n, .fin p => if p = 0 then .nan else .inf (n != decide (p < 0))
  | .inf m, .inf n => .inf (m != n)
  | _, _ => .nan

/-- `x < y`; false if one of them is NaN. -/
def lt (x y : SDbl) : Bool := match x, y with
  | .fin p, .fin q => p < q
  | .fin _, .inf n => !n
  | .inf n, .fin _ => n
  | .inf m, .inf n => m && !n
  | _, _ => false

/-- `trunc(x)`. -/
def trunc (x : SDbl) : SDbl := match x with
  | .fin q => .fin (if q < 0 then -((⌊-q⌋ : Int) : ℚ) else ((⌊q⌋ : Int) : ℚ))
  | x => x

end SDbl

/-- The constant `0.1`. -/
def tenth (A : Arith) : ℚ := (A.rnd (1 / 10)).getD 0

/-- Line 583: `pow(10.0, sig_digits) - 0.5`. -/
def sigThreshold (A : Arith) (sig : Int) : SDbl :=
  match SDbl.round A (10 ^ sig) with
  | .fin p => SDbl.round A (p - 1 / 2)
  | x => x

/-- Lines 603-604: add one half if the fraction is at least one half (`ret - floor(ret)` is rounded; for an infinity it is
NaN). -/
def addHalf (A : Arith) (ret : SDbl) : SDbl := match ret with
  | .fin q =>
    match SDbl.round A (q - (⌊q⌋ : Int)) with
    | .fin fpart => if 1 / 2 ≤ fpart then SDbl.round A (q + 1 / 2) else .fin q
    | _ => .fin q
  | x => x

/-- Lines 586-600: the pair `(ret, shift_correction)` after the scaling loops. -/
def scaleSig (A : Arith) (fuel : Nat) (v thr : SDbl) : Option (SDbl × SDbl) :=
  if thr.lt v then
    whileFuel (fun s : SDbl × SDbl => thr.lt s.1) (fun s => (s.1.mulc A (tenth A), s.2.mulc A 10)) fuel (v, .fin 1)
  else if v.lt thr then
    (whileFuel (fun s : SDbl × SDbl => s.1.lt thr) (fun s => (s.1.mulc A 10, s.2.mulc A (tenth A))) fuel (v, .fin 1)).map
      fun s => (s.1.mulc A (tenth A), s.2.mulc A 10)
  else some (v, .fin 1)

/-- `Format::roundToSigDigs`, src/Format.cxx:581-609.  `none`: not finished within `fuel` iterations. -/
def roundToSigDigs (A : Arith) (fuel : Nat) (v : SDbl) (sig : Int) : Option SDbl :=
  (scaleSig A fuel v (sigThreshold A sig)).map fun s => (addHalf A s.1).trunc.mul A s.2

end SoDa
