import Verif.Model.Options
import Verif.Model.Binary32
/-!
Options whose value type is a sized integer, `double` or `char`: `setValBase<T>`
(include/Options.hxx:497-504) is `std::stringstream ss(vstr); ss >> v; if(!ss) throw …`.  What `>>` does is the
behaviour of the standard library (libstdc++ on Linux, "C" locale, default flags): the sentry skips white space and fails,
without touching the variable, if nothing is left.

The target values of all options of an object are elements of one type `V`; `inj` says which element a number is, so that
an object can have options of several types.
-/
namespace SoDa.Opts

variable {V : Type}

/-! ### Integers of any size -/

/-- What the integer extraction finds: nothing at all, no digits, or sign and magnitude. -/
inductive IntScan where
  | blank | bad | num (neg : Bool) (m : Nat)
  deriving DecidableEq, Repr

/-- The characters that `num_get` takes for an integer in base ten: a sign and the longest run of digits. -/
def scanInt (s : Str) : IntScan :=
  let s1 := s.dropWhile isSpace
  if s1.isEmpty then .blank
  else
    let neg := s1.head? == some '-'
    let s2 := if s1.head? == some '-' || s1.head? == some '+' then s1.drop 1 else s1
    let ds := s2.takeWhile Char.isDigit
    if ds.isEmpty then .bad else .num neg (digitsVal ds)

/-- `ss >> v` for a signed type of `bits` bits: values out of range are replaced by the nearest one and the stream
fails. -/
def extractSigned (bits : Nat) (s : Str) : Extract :=
  match scanInt s with
  | .blank => .blank
  | .bad => .bad
  | .num neg m =>
    let v : Int := if neg then -(m : Int) else m
    if v > 2 ^ (bits - 1) - 1 then .over (2 ^ (bits - 1) - 1)
    else if v < -2 ^ (bits - 1) then .over (-2 ^ (bits - 1))
    else .good v

/-- `ss >> v` for an unsigned type of `bits` bits: the magnitude must be in range; a minus sign negates modulo
`2 ^ bits` (as `strtoull` does). -/
def extractUnsigned (bits : Nat) (s : Str) : Extract :=
  match scanInt s with
  | .blank => .blank
  | .bad => .bad
  | .num neg m =>
    if 2 ^ bits ≤ m then .over (2 ^ bits - 1)
    else .good (if neg then (-(m : Int)) % 2 ^ bits else m)

/-- What an extraction returns and what it leaves behind, include/Options.hxx:497-504. -/
def tyOf (signed : Bool) (ext : Str → Extract) (inj : Int → V) : Ty V where
  signed := signed
  zero := inj 0
  read s := match ext s with
    | .good v => some (inj v)
    | _ => none
  readFail s old := match ext s with
    | .good v | .over v => inj v
    | .bad => inj 0
    | .blank => old

/-- `T = short`, `int`, `long`: `setValBase<T>`, include/Options.hxx:497-504. -/
def sintTy (bits : Nat) (inj : Int → V) : Ty V := tyOf true (extractSigned bits) inj

/-- `T = unsigned short`, `unsigned int`, `unsigned long`: `setValBase<T>`, include/Options.hxx:497-504. -/
def uintTy (bits : Nat) (inj : Int → V) : Ty V := tyOf false (extractUnsigned bits) inj

/-! ### `double` -/

/-- The characters that libstdc++ collects for a floating point number after an exponent mark: a sign and digits. -/
def expChars (s : Str) : Str :=
  if s.head? = some '+' ∨ s.head? = some '-' then s.take 1 ++ (s.drop 1).takeWhile Char.isDigit
  else s.takeWhile Char.isDigit

/-- The characters that libstdc++ collects for a floating point number after the sign: digits, one point before the
exponent, an `e` after at least one digit, a sign directly after the `e`; everything else ends the number.  (libstdc++
drops all but one of several leading zeros, which does not change the number.)  `mant`: there was a digit; `dec`: there
was a point. -/
def floatChars (mant dec : Bool) : Str → Str
  | [] => []
  | c :: cs =>
    if c.isDigit then c :: floatChars true dec cs
    else if c = '.' ∧ dec = false then c :: floatChars mant true cs
    else if (c = 'e' ∨ c = 'E') ∧ mant = true then 'e' :: expChars cs
    else []

/-- The exponent of the collected characters, `none` if they are not used up by it: `strtod` stops before an `e` that no
digits follow. -/
def floatExp : Str → Option Int
  | [] => some 0
  | c :: cs =>
    let neg := cs.head? == some '-'
    let ds := if cs.head? == some '-' || cs.head? == some '+' then cs.drop 1 else cs
    if c = 'e' ∧ ds ≠ [] ∧ ds.all Char.isDigit then
      some (if neg then -(digitsVal ds : Int) else (digitsVal ds : Int))
    else none

/-- The magnitude `strtod` finds if it uses up the collected characters. -/
def floatMag (s : Str) : Option ℚ :=
  let ip := s.takeWhile Char.isDigit
  let r1 := s.dropWhile Char.isDigit
  let fp := if r1.head? == some '.' then (r1.drop 1).takeWhile Char.isDigit else []
  let r2 := if r1.head? == some '.' then (r1.drop 1).dropWhile Char.isDigit else r1
  if ip ++ fp = [] then none
  else (floatExp r2).map fun x => (digitsVal (ip ++ fp) : ℚ) / 10 ^ fp.length * 10 ^ x

/-- `ss >> v` for `double` or `float`: nothing but white space, not a number, out of range, or a number. -/
inductive ExtractF where
  | blank | bad | over (neg : Bool) | good (x : Dbl)

/-- `ss >> v` for a floating point type: the collected characters must be a complete number; `rnd` rounds it to the nearest
number of the type, or says that it is out of range. -/
def extractReal (rnd : ℚ → Option ℚ) (s : Str) : ExtractF :=
  let s1 := s.dropWhile isSpace
  if s1.isEmpty then .blank
  else
    let neg := s1.head? == some '-'
    let s2 := if s1.head? == some '-' || s1.head? == some '+' then s1.drop 1 else s1
    match floatMag (floatChars false false s2) with
    | none => .bad
    | some q =>
      match rnd q with
      | some r => .good (.fin neg r)
      | none => .over neg

/-- A floating point type with rounding `rnd` and largest number `big`: `setValBase<T>`, include/Options.hxx:497-504.  On
overflow the largest number with the sign of the number written is stored.  (A `float` is represented by the double of
the same value.) -/
def realTy (rnd : ℚ → Option ℚ) (big : ℚ) (inj : Dbl → V) : Ty V where
  signed := true
  zero := inj (.fin false 0)
  read s := match extractReal rnd s with
    | .good x => some (inj x)
    | _ => none
  readFail s old := match extractReal rnd s with
    | .good x => inj x
    | .over neg => inj (.fin neg big)
    | .bad => inj (.fin false 0)
    | .blank => old

/-- `T = double`: `setValBase<double>`, include/Options.hxx:497-504. -/
def doubleTy (inj : Dbl → V) : Ty V := realTy binary64.rnd (dblMag 2046 (2 ^ 52 - 1)) inj

/-- `T = float`: `setValBase<float>`, include/Options.hxx:497-504. -/
def floatTy (inj : Dbl → V) : Ty V := realTy F32.rnd32 (F32.fltMag 254 (2 ^ 23 - 1)) inj

/-! ### `char` -/

/-- `T = char`: `setValBase<char>`, include/Options.hxx:497-504; `std::is_signed<char>` holds on x86. -/
def charTy (inj : Char → V) : Ty V where
  signed := true
  zero := inj nul
  read s := (s.dropWhile isSpace).head?.map inj
  readFail s old := ((s.dropWhile isSpace).head?.map inj).getD old

/-! ### Diagnostics -/

/-- What `os << exc.what()` writes: `what()` is a C string, so the text ends before its first null character. -/
def whatText (s : Str) : Str := s.takeWhile (· ≠ nul)

/-- What one entry of the diagnostics is as text: src/Options.cxx:217, 224, 245-253, include/Options.hxx:151-173. -/
def Options.diagText (o : Options V) : Diag → Res Fmt.BadFormat Str
  | .help => o.printHelp
  | .badName tkn => .ok (whatText ("Command option [[".toList ++ tkn ++ "]] is unknown.".toList) ++ "\n".toList)
  | .badValue long vstr err =>
    .ok (whatText (long ++ " unacceptable value \"".toList ++ vstr ++ "\" ".toList ++ err) ++ "\n".toList)

/-- The text of a list of diagnostics. -/
def Options.diagTexts (o : Options V) : List Diag → Res Fmt.BadFormat Str
  | [] => .ok []
  | d :: ds => (o.diagText d).bind fun t => (o.diagTexts ds).bind fun r => .ok (t ++ r)

end SoDa.Opts
