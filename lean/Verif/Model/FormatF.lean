import Verif.Model.Format
import Mathlib.Data.Int.Log
import Mathlib.Data.Rat.Floor
/-!
Model of `Format::addF` (src/Format.cxx:282-494).

A finite `double` is represented by its sign and its magnitude, a non-negative rational; the
magnitude of an infinity is `none`.  Every rounded floating point operation of the code is the exact
rational operation followed by `Arith.rnd`, so one model covers exact arithmetic (`rnd = some`),
IEEE binary64 (`Verif.Model.Binary64`) and any other rounding.

The `while` loops of the code need not terminate; they are modelled with a fuel argument, and
`none` means "not finished after that many iterations".
-/
namespace SoDa

/-- Floating point arithmetic: `rnd q` is the result of an operation whose exact result is the
non-negative rational `q`; `none` is overflow to infinity. -/
structure Arith where
  rnd : ℚ → Option ℚ

/-- A `double`: NaN, an infinity, or sign and magnitude. -/
inductive Dbl where
  | nan
  | inf (neg : Bool)
  | fin (neg : Bool) (mag : ℚ)
  deriving DecidableEq

/-- Magnitudes: `none` is infinity. -/
abbrev Mag := Option ℚ

namespace Arith
variable (A : Arith)

/-- Multiplication of magnitudes (infinity absorbs; `inf * 0` does not arise in this code). -/
def mul (x y : Mag) : Mag := match x, y with
  | some a, some b => A.rnd (a * b)
  | _, _ => none

/-- Addition of magnitudes. -/
def add (x y : Mag) : Mag := match x, y with
  | some a, some b => A.rnd (a + b)
  | _, _ => none

/-- Division of a magnitude by a constant. -/
def divc (x : Mag) (c : ℚ) : Mag := match x with
  | some a => A.rnd (a / c)
  | none => none

end Arith

/-- `x < c`. -/
def Mag.lt (x : Mag) (c : ℚ) : Bool := match x with | some a => a < c | none => false
/-- `x >= c`. -/
def Mag.ge (x : Mag) (c : ℚ) : Bool := match x with | some a => c ≤ a | none => true
/-- `x > c`. -/
def Mag.gt (x : Mag) (c : ℚ) : Bool := match x with | some a => c < a | none => true

/-- A `while` loop with at most `fuel` tests of its condition. -/
def whileFuel {σ : Type} (cond : σ → Bool) (body : σ → σ) : Nat → σ → Option σ
  | 0, _ => none
  | fuel + 1, s => if cond s then whileFuel cond body fuel (body s) else some s

/-- src/Format.cxx:287-290: `while(v_norm >= 10.0)`; state `(v_norm, remul)`. -/
def scaleDown (A : Arith) (fuel : Nat) (s : Mag × Mag) : Option (Mag × Mag) :=
  whileFuel (fun s => s.1.ge 10) (fun s => (A.divc s.1 10, A.mul s.2 (some 10))) fuel s

/-- src/Format.cxx:291-294: `while(v_norm < 1.0)`; state `(v_norm, remul)`. -/
def scaleUp (A : Arith) (fuel : Nat) (s : Mag × Mag) : Option (Mag × Mag) :=
  whileFuel (fun s => s.1.lt 1) (fun s => (A.mul s.1 (some 10), A.divc s.2 10)) fuel s

/-- Conversion `unsigned` to `int` used as a loop bound: how many times the loop runs. -/
def loopCount (n : Nat) : Nat := setwWidth n

/-- src/Format.cxx:296-299: `ri = 5` divided by ten `sig_digs` times (`sig_digs` is an `int`). -/
def roundIncr (A : Arith) : Nat → Mag
  | 0 => some 5
  | n + 1 => A.divc (roundIncr A n) 10

/-- src/Format.cxx:309-313: `while(v_norm < 1.0)`; state `(v_norm, ret)`. -/
def normUp (A : Arith) (fuel : Nat) (s : Mag × Int) : Option (Mag × Int) :=
  whileFuel (fun s => s.1.lt 1) (fun s => (A.mul s.1 (some 1000), s.2 - 3)) fuel s

/-- src/Format.cxx:316-319: `while(v_norm > 1000.0)`; state `(v_norm, ret)`. -/
def normDown (A : Arith) (fuel : Nat) (s : Mag × Int) : Option (Mag × Int) :=
  whileFuel (fun s => s.1.gt 1000) (fun s => (A.divc s.1 1000, s.2 + 3)) fuel s

/-- `log1k`, src/Format.cxx:282-322: the normalised value and the exponent.  (`ret` is an `int`; it
never leaves the range of the loop counts and is not checked for overflow.) -/
def log1k (A : Arith) (fuel : Nat) (v : ℚ) (sigDigs : Nat) : Option (Mag × Int) :=
  (scaleDown A fuel (some v, some 1)).bind fun s =>
  (scaleUp A fuel s).bind fun s =>
  let vNorm := A.add s.1 (roundIncr A (loopCount sigDigs))
  let vNorm := A.mul vNorm s.2
  if vNorm.lt 1 then normUp A fuel (vNorm, 0) else normDown A fuel (vNorm, 0)

/-- `getIntPartWidth`, src/Format.cxx:324-331. -/
def getIntPartWidth (A : Arith) (fuel : Nat) (v : Mag) : Option Nat :=
  (whileFuel (fun s => s.1.gt 1) (fun s => (A.divc s.1 10, s.2 + 1)) fuel (v, 0)).map Prod.snd

/-- Largest `int`. -/
def intMax : Int := 2147483647

/-- src/Format.cxx:351-354: `while(iw > significant_digits) { modval *= 10; iw--; }`; `k` is the
number of iterations `int_wid - significant_digits`.  Signed overflow is undefined behaviour. -/
def modvalLoop : Nat → Int → Res Empty Int
  | 0, modval => .ok modval
  | k + 1, modval => if modval * 10 ≤ intMax then modvalLoop k (modval * 10) else .ub

/-- src/Format.cxx:366-380: `k` rounds of `dfrac *= 10; frac = 10*frac + floor(dfrac);
dfrac = modf(dfrac)`.  `modf` and `floor` are exact.  Signed overflow of `10*frac` and conversion of
an out-of-range value to `int` are undefined behaviour.  (`dfrac` cannot overflow; an infinite value
is treated as undefined behaviour.) -/
def fracLoop (A : Arith) : Nat → ℚ → Int → Res Empty Int
  | 0, _, frac => .ok frac
  | k + 1, dfrac, frac =>
    match A.rnd (dfrac * 10) with
    | none => .ub
    | some x =>
      let frac' := 10 * frac + ⌊x⌋
      if 10 * frac ≤ intMax ∧ frac' ≤ intMax then fracLoop A k (Int.fract x) frac' else .ub

/-- What `fractionate` returns through its reference arguments. -/
structure Fractioned where
  intPart : Int
  fracPart : Int
  intWid : Nat
  fracWid : Nat
  deriving DecidableEq, Repr

/-- `fractionate`, src/Format.cxx:333-381.  `(int) dint_part` is undefined when out of range. -/
def fractionate (A : Arith) (fuel : Nat) (v : Mag) (sig : Nat) : Option (Res Empty Fractioned) :=
  (getIntPartWidth A fuel v).map fun intWid =>
    match v with
    | none => .ub
    | some q =>
      if ⌊q⌋ ≤ intMax then
        (modvalLoop (intWid - sig) 1).bind fun modval =>
        let intPart := ⌊q⌋ - ⌊q⌋ % modval
        let fracWid := loopCount (sig - intWid)
        (fracLoop A fracWid (Int.fract q) 0).bind fun frac =>
        .ok { intPart := intPart, fracPart := frac, intWid := intWid, fracWid := fracWid }
      else .ub

/-- `pad`, src/Format.cxx:383-390. -/
def padTo (s : Str) (w : Nat) : Str := padRight ' ' w s

/-! ### Stream insertion of floating point values (standard library, trusted) -/

/-- Nearest integer to a non-negative rational, ties to even (glibc, default rounding mode). -/
def roundHalfEven (q : ℚ) : Nat :=
  let f := ⌊q⌋.toNat
  let r := q - f
  if r < 1 / 2 then f else if 1 / 2 < r then f + 1 else if f % 2 = 0 then f else f + 1

/-- `n / 10^d` written with exactly `d` fraction digits. -/
def showScaled (n d : Nat) : Str :=
  if d = 0 then Nat.toDigits 10 n
  else Nat.toDigits 10 (n / 10 ^ d) ++ '.' :: padLeft '0' d (Nat.toDigits 10 (n % 10 ^ d))

/-- `std::fixed` with precision `d` (`%.df`). -/
def showFixed (neg : Bool) (q : ℚ) (d : Nat) : Str :=
  (if neg then ['-'] else []) ++ showScaled (roundHalfEven (q * 10 ^ d)) d

/-- Decimal mantissa and exponent of `%.de`: `(n, e)` with `d+1`-digit mantissa `n`. -/
def sciParts (q : ℚ) (d : Nat) : Nat × Int :=
  if q = 0 then (0, 0)
  else
    let e := Int.log 10 q
    let n := roundHalfEven (q / 10 ^ e * 10 ^ d)
    if n < 10 ^ (d + 1) then (n, e) else (10 ^ d, e + 1)

/-- The exponent part of `%e`: sign and at least two digits. -/
def showExp (e : Int) : Str :=
  'e' :: (if e < 0 then '-' else '+') :: padLeft '0' 2 (Nat.toDigits 10 e.natAbs)

/-- `std::scientific` with precision `d` (`%.de`). -/
def showSci (neg : Bool) (q : ℚ) (d : Nat) : Str :=
  let p := sciParts q d
  (if neg then ['-'] else []) ++ showScaled p.1 d ++ showExp p.2

/-- Removal of trailing zeros of a fraction, and of the point if nothing is left after it. -/
def stripZeros (s : Str) : Str :=
  if s.contains '.' then
    let t := (s.reverse.dropWhile (· == '0')).reverse
    if t.getLast? = some '.' then t.dropLast else t
  else s

/-- Default float notation with precision `d` (`%.dg`). -/
def showGeneral (neg : Bool) (q : ℚ) (d : Nat) : Str :=
  let p := if d = 0 then 1 else d
  let (n, x) := sciParts q (p - 1)
  (if neg then ['-'] else []) ++
    (if -4 ≤ x ∧ x < p then
      let places := ((p : Int) - 1 - x).toNat
      stripZeros (showScaled (roundHalfEven (q * 10 ^ places)) places)
    else stripZeros (showScaled n (p - 1)) ++ showExp x)

/-- The precision a stream uses after `setprecision(sig)`: the argument is converted to `int`, and
libstdc++ takes 6 digits when it is negative. -/
def precision (sig : Nat) : Nat := if sig % u32 < 2147483648 then sig % u32 else 6

/-! ### `addF` -/

/-- The text built for `v != 0` and `fmt == 'e'`, src/Format.cxx:455-486. -/
def engText (neg : Bool) (r : Fractioned) (expVal : Int) (width : Nat) : Str :=
  [if neg then '-' else ' '] ++ padRight ' ' r.intWid (showInt r.intPart) ++
  (if 0 < r.fracWid then '.' :: padLeft '0' r.fracWid (showInt r.fracPart) else []) ++ ['e'] ++
  (if expVal < 0 then '-' :: padRight ' ' 2 (showInt (-expVal))
   else '+' :: padRight ' ' 2 (showInt expVal)) ++
  List.replicate (toI32 ((width : Int) - (r.intWid + r.fracWid + 4))).toNat ' '

/-- The text inserted by `Format::addF`, src/Format.cxx:392-494.  `radix` is the static variable
`Format::separator`.  `none`: a loop has not finished within `fuel` iterations. -/
def textF (A : Arith) (fuel : Nat) (radix : Char) (v : Dbl) (fmt : Char) (width sig : Nat) :
    Option (Res Empty Str) :=
  let width := if width = 0 then (sig + 4) % u32 else width
  match v with
  | .nan => some (.ok (padTo "nan".toList width))
  | .inf _ => some (.ok (padTo "inf".toList width))
  | .fin neg q =>
    let setw := if width ≠ 0 then setwWidth width else 0
    if fmt = 'f' then some (.ok (padRight ' ' setw (showFixed neg q (precision sig))))
    else if fmt = 's' then some (.ok (padRight ' ' setw (showSci neg q (precision sig))))
    else if fmt = 'g' then some (.ok (padRight ' ' setw (showGeneral neg q (precision sig))))
    else if fmt = 'e' then
      if q = 0 then
        some (.ok ("0".toList ++ [radix] ++
          padRight '0' (setwWidth ((sig + (u32 - 1)) % u32)) "0".toList ++ "e0".toList))
      else
        (log1k A fuel q sig).bind fun p =>
        (fractionate A fuel p.1 sig).map fun r =>
          r.bind fun r => .ok (engText neg r p.2 width)
    else some (.ok [])

/-- `Format::addF`, src/Format.cxx:392-494. -/
def Fmt.addF (A : Arith) (fuel : Nat) (radix : Char) (f : Fmt) (v : Dbl) (fmt : Char := 'f')
    (width : Nat := 0) (sig : Nat := 6) : Option (Res Empty Fmt) :=
  (textF A fuel radix v fmt width sig).map fun r => r.map f.insertField

/-- Exact arithmetic. -/
def exactArith : Arith := ⟨some⟩

end SoDa
