import Verif.Model.FormatF
import Verif.Model.OptionsNum
/-!
`Format` and `Options` in a program that has set another global locale (`std::locale::global`).  All streams of the library are
constructed when they are needed (src/Format.cxx:145, 157, 187-188, 225, 259, 273, 393, 567, include/Options.hxx:499, 526) and therefore
have the global locale; the library nowhere asks for the "C" locale.

A locale is described by its `numpunct<char>` facet.  What `<<` and `>>` do with it is the behaviour of libstdc++ (trusted; nothing here
is code of /repo).  The functions that use no locale are those of the other files.

Simplifications: the characters are `char`s; in `>>` a group of more than 255 digits is counted correctly (libstdc++ counts modulo 256).
-/
namespace SoDa

/-- A `numpunct<char>` facet.  An element of `grouping` that is not between 1 and 126 (in C++ a `char` that is negative, zero or
`CHAR_MAX`) stands for a group without limit. -/
structure Locale where
  thousands : Char
  point : Char
  grouping : List Nat
  deriving DecidableEq, Repr

/-- The "C" locale. -/
def Locale.classic : Locale := ⟨',', '.', []⟩

/-- The group has a size. -/
def limited (g : Nat) : Bool := 0 < g && g < 127

/-! ### Writing -/

/-- `std::__add_grouping` of libstdc++, from the last digit to the first: `gs` are the sizes of the groups that follow, the last of
them is used again and again. -/
def groupRev (sep : Char) : List Nat → Str → Str
  | [], rs => rs
  | g :: gs, rs =>
    if _h : limited g = true ∧ g < rs.length then
      rs.take g ++ sep :: groupRev sep (if gs.isEmpty then [g] else gs) (rs.drop g)
    else rs
termination_by _ rs => rs.length
decreasing_by
  have := _h.1
  simp only [limited, Bool.and_eq_true, decide_eq_true_eq] at this
  simp only [List.length_drop]
  omega

namespace Locale

/-- Digits with separators. -/
def group (L : Locale) (ds : Str) : Str := (groupRev L.thousands L.grouping ds.reverse).reverse

/-- `os << v` for a signed integer in `std::dec`. -/
def showInt (L : Locale) (v : Int) : Str :=
  match v with
  | .ofNat n => L.group (Nat.toDigits 10 n)
  | .negSucc n => '-' :: L.group (Nat.toDigits 10 (n + 1))

/-- `os << v` for an unsigned integer in `std::dec`. -/
def showNat (L : Locale) (v : Nat) : Str := L.group (Nat.toDigits 10 v)

/-- `os << std::hex << v` (no `showbase`). -/
def showHex (L : Locale) (uppercase : Bool) (v : Nat) : Str := L.group (SoDa.showHex uppercase v)

/-- `os << std::oct << v` with `std::ios::showbase`: the leading `0` is put before the grouped digits. -/
def showOctBase (L : Locale) (v : Nat) : Str :=
  if v = 0 then L.group (Nat.toDigits 8 v) else '0' :: L.group (Nat.toDigits 8 v)

/-- `os << v` for a floating point number whose text in the "C" locale (before padding) is `s`, without its sign: the point is
replaced, the digits before it are grouped; without a point the whole text is grouped unless its second or third character is not a
digit. -/
def real (L : Locale) (s : Str) : Str :=
  let ip := s.takeWhile (· ≠ '.')
  match s.dropWhile (· ≠ '.') with
  | _ :: fp => L.group ip ++ L.point :: fp
  | [] =>
    if s.length < 3 ∨ ((s[1]?).any Char.isDigit ∧ (s[2]?).any Char.isDigit) then L.group s else s

/-- The same with a sign, which is not grouped. -/
def signedReal (L : Locale) (neg : Bool) (s : Str) : Str := if neg then '-' :: L.real (s.drop 1) else L.real s

/-- The text inserted by `Format::addI`, src/Format.cxx:144-180. -/
def textI (L : Locale) (v : Int) (w : Nat) (sep fill : Char) : Str :=
  let fillc := if fill ≠ nul then fill else ' '
  if sep = nul then
    let width := if w ≠ 0 then setwWidth w else 0
    padLeft fillc width (L.showInt v)
  else
    let vstr := (L.showInt v).reverse
    let newstr := (vstr.foldl (addISepStep sep) ([], 0)).1
    let width := if w ≠ 0 then setwWidth w else 0
    padLeft fillc width newstr

/-- `Format::toHex`, src/Format.cxx:256-269. -/
def toHex (L : Locale) (v w : Nat) (uppercase : Bool) : Str :=
  "0x".toList ++ padLeft '0' (setwWidth w) (L.showHex uppercase v)

/-- `Format::toOct`, src/Format.cxx:271-279. -/
def toOct (L : Locale) (v w : Nat) : Str := padLeft '0' (setwWidth w) (L.showOctBase v)

/-- The text inserted by `Format::addU`, src/Format.cxx:183-254. -/
def textU (L : Locale) (v : Nat) (fmt : Char) (w : Nat) (sep : Char) (groupCount : Nat) : Str :=
  let isHex := fmt = 'x' ∨ fmt = 'X' ∨ fmt = 'h' ∨ fmt = 'H'
  let isOct := fmt = 'o' ∨ fmt = 'O'
  let valstr :=
    if isHex then L.toHex v w (decide (fmt = 'X') || decide (fmt = 'H'))
    else if isOct then L.toOct v w
    else padLeft ' ' (if w ≠ 0 then setwWidth w else 0) (L.showNat v)
  if sep = nul then valstr
  else
    let sepLim : Int := (valstr.length : Int) - (if isHex then 2 else if isOct then 1 else 0)
    (valstr.reverse.foldl (addUSepStep sep groupCount sepLim) ([], 0, 0)).1

/-- The assembly loop of `Format::str`, src/Format.cxx:559-572: the number of an unfilled field is written to a stream, too. -/
def assemble (L : Locale) : List Seg → Str × Nat
  | [] => ([], 0)
  | .lit v :: rest => let (t, n) := L.assemble rest; (v ++ t, n)
  | .fld idx :: rest => let (t, n) := L.assemble rest; ('%' :: L.showNat idx ++ t, n + 1)

/-- The text built for `v != 0` and `fmt == 'e'`, src/Format.cxx:455-486. -/
def engText (L : Locale) (neg : Bool) (r : Fractioned) (expVal : Int) (width : Nat) : Str :=
  [if neg then '-' else ' '] ++ padRight ' ' r.intWid (L.showInt r.intPart) ++
  (if 0 < r.fracWid then '.' :: padLeft '0' r.fracWid (L.showInt r.fracPart) else []) ++ ['e'] ++
  (if expVal < 0 then '-' :: padRight ' ' 2 (L.showInt (-expVal))
   else '+' :: padRight ' ' 2 (L.showInt expVal)) ++
  List.replicate (toI32 ((width : Int) - (r.intWid + r.fracWid + 4))).toNat ' '

/-- The text inserted by `Format::addF`, src/Format.cxx:392-494. -/
def textF (L : Locale) (A : Arith) (fuel : Nat) (radix : Char) (v : Dbl) (fmt : Char) (width sig : Nat) : Option (Res Empty Str) :=
  let width := if width = 0 then (sig + 4) % u32 else width
  match v with
  | .nan => some (.ok (padTo "nan".toList width))
  | .inf _ => some (.ok (padTo "inf".toList width))
  | .fin neg q =>
    let setw := if width ≠ 0 then setwWidth width else 0
    if fmt = 'f' then some (.ok (padRight ' ' setw (L.signedReal neg (showFixed neg q (precision sig)))))
    else if fmt = 's' then some (.ok (padRight ' ' setw (L.signedReal neg (showSci neg q (precision sig)))))
    else if fmt = 'g' then some (.ok (padRight ' ' setw (L.signedReal neg (showGeneral neg q (precision sig)))))
    else if fmt = 'e' then
      if q = 0 then
        some (.ok ("0".toList ++ [radix] ++
          padRight '0' (setwWidth ((sig + (u32 - 1)) % u32)) (L.showInt 0) ++ "e0".toList))
      else
        (log1k A fuel q sig).bind fun p =>
        (fractionate A fuel p.1 sig).map fun r =>
          r.bind fun r => .ok (L.engText neg r p.2 width)
    else some (.ok [])

/-! ### Reading -/

/-- What the loop of `num_get` for integers has found: the digits, the sizes of the groups that a separator has ended, the number of
digits since the last separator, and whether it has met a separator where none may be. -/
structure Digits where
  ds : Str
  found : List Nat
  sepPos : Nat
  bad : Bool
  deriving DecidableEq, Repr

/-- The separators count. -/
def useGrouping (L : Locale) : Bool := (L.grouping.head?).any limited

/-- The loop of `num_get` (`_M_extract_int` of libstdc++). -/
def digits (L : Locale) (x : Digits) : Str → Digits
  | [] => x
  | c :: cs =>
    if L.useGrouping ∧ c = L.thousands then
      if x.sepPos = 0 then { x with bad := true }
      else L.digits { x with found := x.found ++ [x.sepPos], sepPos := 0 } cs
    else if c = L.point then x
    else if c.isDigit then L.digits { x with ds := x.ds ++ [c], sepPos := x.sepPos + 1 } cs
    else x

/-- `std::__verify_grouping` of libstdc++, from the last group to the first: all groups but the first have the size that they ought to
have, the first at most that.  `gs`: the sizes that follow, the last of them used again and again. -/
def verify : List Nat → List Nat → Bool
  | _, [] => true
  | [], _ => true
  | g :: _, [k] => !limited g || k ≤ g
  | g :: gs, k :: ks => k == g && verify (if gs.isEmpty then [g] else gs) ks

/-- What the extraction of an integer finds: nothing at all, no number, or sign and magnitude; `grouped = false`: the separators are
in the wrong places, the number is stored but the stream fails. -/
inductive Scan where
  | blank | bad | num (neg : Bool) (m : Nat) (grouped : Bool)
  deriving DecidableEq, Repr

/-- `ss >> v` for integers in base ten, without the conversion to the type. -/
def scanInt (L : Locale) (s : Str) : Scan :=
  let s1 := s.dropWhile Opts.isSpace
  match s1 with
  | [] => .blank
  | c :: cs =>
    let sign := (c = '-' ∨ c = '+') ∧ ¬ (L.useGrouping ∧ c = L.thousands) ∧ c ≠ L.point
    let x := L.digits ⟨[], [], 0, false⟩ (if sign then cs else c :: cs)
    if x.bad ∨ x.ds = [] then .bad
    else .num (decide (sign ∧ c = '-')) (Opts.digitsVal x.ds)
      (x.found.isEmpty || verify L.grouping (x.found ++ [x.sepPos]).reverse)

/-- `ss >> v` for a signed type of `bits` bits; `over`: something is stored but the stream fails. -/
def extractSigned (L : Locale) (bits : Nat) (s : Str) : Opts.Extract :=
  match L.scanInt s with
  | .blank => .blank
  | .bad => .bad
  | .num neg m grouped =>
    let v : Int := if neg then -(m : Int) else m
    if v > 2 ^ (bits - 1) - 1 then .over (2 ^ (bits - 1) - 1)
    else if v < -2 ^ (bits - 1) then .over (-2 ^ (bits - 1))
    else if grouped then .good v else .over v

/-- `ss >> v` for an unsigned type of `bits` bits. -/
def extractUnsigned (L : Locale) (bits : Nat) (s : Str) : Opts.Extract :=
  match L.scanInt s with
  | .blank => .blank
  | .bad => .bad
  | .num neg m grouped =>
    let v : Int := if neg then (-(m : Int)) % 2 ^ bits else m
    if 2 ^ bits ≤ m then .over (2 ^ bits - 1)
    else if grouped then .good v else .over v

/-- The characters that libstdc++ collects for a floating point number (`_M_extract_float`), and the sizes of the groups before the
point; no group if there was no separator.  `none`: a separator where none may be, nothing is left of the number.  `mant`: there was
a digit; `dec`: there was a point; `found`: the groups so far; `sepPos`: digits since the last separator. -/
def floatChars (L : Locale) (mant dec : Bool) (found : List Nat) (sepPos : Nat) : Str → Option (Str × List Nat)
  | [] => some ([], if found.isEmpty || dec then found else found ++ [sepPos])
  | c :: cs =>
    if L.useGrouping ∧ c = L.thousands then
      if dec then some ([], found)
      else if sepPos = 0 then none
      else L.floatChars mant dec (found ++ [sepPos]) 0 cs
    else if c = L.point then
      if dec then some ([], found)
      else (L.floatChars mant true (if found.isEmpty then found else found ++ [sepPos]) sepPos cs).map fun r => ('.' :: r.1, r.2)
    else if c.isDigit then (L.floatChars true dec found (sepPos + 1) cs).map fun r => (c :: r.1, r.2)
    else if (c = 'e' ∨ c = 'E') ∧ mant = true then
      some ('e' :: Opts.expChars cs, if found.isEmpty || dec then found else found ++ [sepPos])
    else some ([], if found.isEmpty || dec then found else found ++ [sepPos])

/-- `ss >> v` for a floating point type; the second component: the separators are in the right places (otherwise the number is stored
but the stream fails). -/
def extractReal (L : Locale) (rnd : ℚ → Option ℚ) (s : Str) : Opts.ExtractF × Bool :=
  match s.dropWhile Opts.isSpace with
  | [] => (.blank, true)
  | c :: cs =>
    let sign := (c = '-' ∨ c = '+') ∧ ¬ (L.useGrouping ∧ c = L.thousands) ∧ c ≠ L.point
    match L.floatChars false false [] 0 (if sign then cs else c :: cs) with
    | none => (.bad, true)
    | some (x, found) =>
      ((match Opts.floatMag x with
        | none => .bad
        | some q =>
          match rnd q with
          | some r => .good (.fin (decide (sign ∧ c = '-')) r)
          | none => .over (decide (sign ∧ c = '-'))),
        found.isEmpty || verify L.grouping found.reverse)

/-- `T = short`, `int`, `long`: `setValBase<T>`, include/Options.hxx:497-504. -/
def sintTy (L : Locale) (bits : Nat) (inj : Int → V) : Opts.Ty V := Opts.tyOf true (L.extractSigned bits) inj

/-- `T = unsigned short`, `unsigned int`, `unsigned long`: `setValBase<T>`, include/Options.hxx:497-504. -/
def uintTy (L : Locale) (bits : Nat) (inj : Int → V) : Opts.Ty V := Opts.tyOf false (L.extractUnsigned bits) inj

/-- A floating point type with rounding `rnd` and largest number `big`: `setValBase<T>`, include/Options.hxx:497-504. -/
def realTy (L : Locale) (rnd : ℚ → Option ℚ) (big : ℚ) (inj : Dbl → V) : Opts.Ty V where
  signed := true
  zero := inj (.fin false 0)
  read s := match L.extractReal rnd s with
    | (.good x, true) => some (inj x)
    | _ => none
  readFail s old := match (L.extractReal rnd s).1 with
    | .good x => inj x
    | .over neg => inj (.fin neg big)
    | .bad => inj (.fin false 0)
    | .blank => old

end Locale
end SoDa
