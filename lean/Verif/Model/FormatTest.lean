import Verif.Model.OptionsNum
/-!
The test program `test/FormatTest.cxx`: print a number, read it back, compare.  The `double` arithmetic of the test itself is
modelled too; `pw p` is what the library function `pow(10.0, -p)` returns.
-/
namespace SoDa.FmtTest
open Opts

/-- `err > norm` for magnitudes. -/
def gt (err norm : Mag) : Bool := match err, norm with
  | some a, some b => b < a
  | none, some _ => true
  | _, none => false

/-- `badDiff<double>`, test/FormatTest.cxx:8-25 (without the message), for finite arguments.  The quotient by zero is a
NaN or an infinity with the sign of the zero; a negative quotient is not greater than `norm`. -/
def badDiff (pw : ℚ) (neg : Bool) (q : ℚ) (neg' : Bool) (r : ℚ) : Bool :=
  let diff := binary64.rnd (if neg = neg' then |q - r| else q + r)
  let norm := binary64.mul (some 5) (some pw)
  if neg then false
  else if q = 0 then (if diff = some 0 then false else gt none norm)
  else gt (binary64.divc diff q) norm

/-- `checkVal<double>`, test/FormatTest.cxx:27-40.  If the text is blank the variable `newval`, which is not initialised,
keeps its value: reading it is undefined behaviour. -/
def checkVal (pw : Nat → ℚ) (neg : Bool) (q : ℚ) (text : Str) (p : Nat) : Res Fmt.BadFormat Bool :=
  match extractReal binary64.rnd text with
  | .good (.fin neg' r) => .ok (badDiff (pw p) neg q neg' r)
  | .over neg' => .ok (badDiff (pw p) neg q neg' (dblMag 2046 (2 ^ 52 - 1)))
  | .bad => .ok (badDiff (pw p) neg q false 0)
  | _ => .ub

/-- `doTest`, test/FormatTest.cxx:42-46, for a finite number.  `none`: a loop of `addF` does not end within `fuel`
iterations. -/
def doTest (pw : Nat → ℚ) (fuel : Nat) (neg : Bool) (q : ℚ) (p w : Nat) (fmt : Char) :
    Option (Res Fmt.BadFormat Bool) :=
  ((Fmt.mk' "%0".toList).addF binary64 fuel '.' (.fin neg q) fmt w p).map fun r =>
    match r with
    | .ok f => f.str.bind fun s => checkVal pw neg q s p
    | .throw e => e.elim
    | .ub => .ub

/-- The digits, widths and formats that every value is tested with, test/FormatTest.cxx:61-63. -/
def cases : List (Nat × Nat × Char) :=
  (List.range 5).flatMap fun p => (List.range 10).flatMap fun w => "esg".toList.map fun c => (p, w, c)

/-- One case for two values, test/FormatTest.cxx:64-75: the error count afterwards, `none` for `exit(-1)`. -/
def oneCase (pw : Nat → ℚ) (fuel : Nat) (v iv : Bool × ℚ) (errs : Nat) (c : Nat × Nat × Char) :
    Option (Res Fmt.BadFormat (Option Nat)) :=
  let count : Option Nat := if 10 < errs + 1 then none else some (errs + 1)
  (doTest pw fuel v.1 v.2 c.1 c.2.1 c.2.2).bind fun r =>
    match r with
    | .ok true => some (.ok count)
    | .ok false => (doTest pw fuel iv.1 iv.2 c.1 c.2.1 c.2.2).map fun r =>
        r.bind fun bad => .ok (if bad then count else some errs)
    | .throw e => some (.throw e)
    | .ub => some .ub

/-- The loops of `runBigTest`, test/FormatTest.cxx:56-86, over the list of all cases. -/
def allCases (pw : Nat → ℚ) (fuel : Nat) : List ((Bool × ℚ) × (Bool × ℚ) × (Nat × Nat × Char)) → Nat →
    Option (Res Fmt.BadFormat (Option Nat))
  | [], errs => some (.ok (some errs))
  | (v, iv, c) :: cs, errs =>
    (oneCase pw fuel v iv errs c).bind fun r =>
      match r with
      | .ok (some errs') => allCases pw fuel cs errs'
      | r => some r

/-- `runBigTest`, test/FormatTest.cxx:48-90, for the values `v` and `iv` of its loops (which depend on the random numbers
and on `pow`): the number of errors, `none` for `exit(-1)` after more than ten. -/
def runBigTest (pw : Nat → ℚ) (fuel : Nat) (vals : List ((Bool × ℚ) × (Bool × ℚ))) :
    Option (Res Fmt.BadFormat (Option Nat)) :=
  allCases pw fuel (vals.flatMap fun v => cases.map fun c => (v.1, v.2, c)) 0

end SoDa.FmtTest
