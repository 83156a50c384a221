import Verif.Model.Stream
/-!
Model of `src/Format.cxx` / `include/Format.hxx`: the format string scanner, the substitution
machinery, and the integer, string, character and boolean fields.  (`addF` is in
`Verif.Model.FormatF`.)
-/
namespace SoDa

/-- `Format::FmtStringSeg` (include/Format.hxx:525-534, src/Format.cxx:42-50).  `lit` is
`seg_type == LITERAL` with `val`; `fld` is `seg_type == FMT_VAL` with `idx`. -/
inductive Seg where
  | lit (val : Str)
  | fld (idx : Nat)
  deriving DecidableEq, Repr

/-- A `SoDa::Format` object: `orig_fmt_string`, `format_string_segments`, `cur_arg_number`
(include/Format.hxx:536-548). -/
structure Fmt where
  orig : Str
  segs : List Seg
  cur : Nat
  deriving DecidableEq, Repr

/-- `enum ScanState`, src/Format.cxx:65. -/
inductive ScanState where
  | norm | sawPc | accFld
  deriving DecidableEq, Repr

/-- Local variables of `initialScan`, src/Format.cxx:63-69. -/
structure Scan where
  segs : List Seg
  state : ScanState
  curStr : Str
  fldnum : Nat
  deriving DecidableEq, Repr

/-- `(unsigned int)(c - '0')` for a digit character, src/Format.cxx:92,105. -/
def digitVal (c : Char) : Nat := c.toNat - 48

/-- Body of the scanning loop, src/Format.cxx:70-126.  `isdigit` is the ASCII digit test;
`cur_fldnum` is an `unsigned int` and wraps modulo 2^32. -/
def scanStep (s : Scan) (c : Char) : Scan :=
  match s.state with
  | .norm =>
    if c = '%' then { s with state := .sawPc }
    else { s with curStr := s.curStr ++ [c] }
  | .sawPc =>
    if c.isDigit then
      { segs := if s.curStr.isEmpty then s.segs else s.segs ++ [.lit s.curStr]
        curStr := if s.curStr.isEmpty then s.curStr else []
        state := .accFld
        fldnum := digitVal c }
    else
      { s with
        curStr := if c ≠ '%' then s.curStr ++ ['%'] ++ [c] else s.curStr ++ ['%']
        state := .norm }
  | .accFld =>
    if c.isDigit then
      { s with fldnum := (s.fldnum * 10 + digitVal c) % u32 }
    else
      { s with
        segs := s.segs ++ [.fld s.fldnum]
        state := if c = '%' then .sawPc else .norm
        curStr := if c = '%' then [] else [c] }

/-- The code after the loop, src/Format.cxx:128-141 (`SAW_PC` falls through to `NORM`). -/
def scanFinish (s : Scan) : List Seg :=
  match s.state with
  | .sawPc => s.segs ++ [.lit (s.curStr ++ ['%'])]
  | .norm => if s.curStr.isEmpty then s.segs else s.segs ++ [.lit s.curStr]
  | .accFld => s.segs ++ [.fld s.fldnum]

/-- `Format::initialScan`, src/Format.cxx:62-142. -/
def initialScan (fmtString : Str) : List Seg :=
  scanFinish (fmtString.foldl scanStep { segs := [], state := .norm, curStr := [], fldnum := 0 })

namespace Fmt

/-- `Format::Format(const std::string&)`, src/Format.cxx:52-59. -/
def mk' (fmtString : Str) : Fmt :=
  { orig := fmtString, segs := initialScan fmtString, cur := 0 }

/-- `Format::insertField`, src/Format.cxx:539-548.  `cur_arg_number` is an `unsigned int`. -/
def insertField (f : Fmt) (s : Str) : Fmt :=
  { f with
    segs := f.segs.map (fun seg => match seg with
      | .fld idx => if idx = f.cur then .lit s else .fld idx
      | .lit v => .lit v)
    cur := (f.cur + 1) % u32 }

/-- `Format::reset`, src/Format.cxx:551-555. -/
def reset (f : Fmt) : Fmt :=
  { f with segs := initialScan f.orig, cur := 0 }

/-- The exception `Format::BadFormat`, with its `what()` text (include/Format.hxx:471-483). -/
structure BadFormat where
  what : Str
  deriving DecidableEq, Repr

/-- The assembly loop of `Format::str`: `ret_string` and `unfilled_count`, src/Format.cxx:559-572. -/
def assemble : List Seg → Str × Nat
  | [] => ([], 0)
  | .lit v :: rest => let (t, n) := assemble rest; (v ++ t, n)
  | .fld idx :: rest => let (t, n) := assemble rest; ('%' :: Nat.toDigits 10 idx ++ t, n + 1)

/-- `Format::str`, src/Format.cxx:558-579. -/
def str (f : Fmt) (checkForFilledOut : Bool := false) : Res BadFormat Str :=
  let (ret, unfilled) := assemble f.segs
  if checkForFilledOut && unfilled ≠ 0 then
    .throw ⟨"Unfilled argument string [".toList ++ ret ++ "]".toList ++
      " Format string was \n\"".toList ++ f.orig ++ "\"\n".toList⟩
  else .ok ret

/-- `operator<<(std::ostream&, const SoDa::Format&)`, src/Format.cxx:614-617: the text appended
to the stream. -/
def stream (f : Fmt) : Res BadFormat Str := f.str false

end Fmt

/-! ### Integer fields -/

/-- Body of the separator loop in `addI`, src/Format.cxx:164-171; state is `(newstr, i)`. -/
def addISepStep (sep : Char) (st : Str × Nat) (c : Char) : Str × Nat :=
  let (newstr, i) := if st.2 = 3 then (sep :: st.1, 0) else st
  (c :: newstr, i + 1)

/-- The text inserted by `Format::addI`, src/Format.cxx:144-180.  `fill = '\000'` leaves the
stream's default fill character, a space. -/
def textI (v : Int) (w : Nat) (sep fill : Char) : Str :=
  let fillc := if fill ≠ nul then fill else ' '
  if sep = nul then
    let width := if w ≠ 0 then setwWidth w else 0
    padLeft fillc width (showInt v)
  else
    let vstr := (showInt v).reverse
    let newstr := (vstr.foldl (addISepStep sep) ([], 0)).1
    let width := if w ≠ 0 then setwWidth w else 0
    padLeft fillc width newstr

/-- `Format::addI`, src/Format.cxx:144-180. -/
def Fmt.addI (f : Fmt) (v : Int) (w : Nat := 0) (sep : Char := nul) (fill : Char := nul) : Fmt :=
  f.insertField (textI v w sep fill)

/-- `Format::toHex`, src/Format.cxx:256-269.  The field width applies to the digits only; the
literal `"0x"` is written first with width 0. -/
def toHex (v w : Nat) (uppercase : Bool) : Str :=
  "0x".toList ++ padLeft '0' (setwWidth w) (showHex uppercase v)

/-- `Format::toOct`, src/Format.cxx:271-279. -/
def toOct (v w : Nat) : Str := padLeft '0' (setwWidth w) (showOctBase v)

/-- Body of the separator loop in `addU`, src/Format.cxx:239-247; state is `(newstr, i, cc)`. -/
def addUSepStep (sep : Char) (groupCount : Nat) (sepLim : Int) (st : Str × Nat × Nat) (c : Char) :
    Str × Nat × Nat :=
  let (newstr, i, cc) := st
  let (newstr, i) := if i = groupCount ∧ (cc : Int) < sepLim then (sep :: newstr, 0) else (newstr, i)
  (c :: newstr, i + 1, cc + 1)

/-- The text inserted by `Format::addU`, src/Format.cxx:183-254 (`prefix` is always empty). -/
def textU (v : Nat) (fmt : Char) (w : Nat) (sep : Char) (groupCount : Nat) : Str :=
  let isHex := fmt = 'x' ∨ fmt = 'X' ∨ fmt = 'h' ∨ fmt = 'H'
  let isOct := fmt = 'o' ∨ fmt = 'O'
  let valstr :=
    if isHex then toHex v w (decide (fmt = 'X') || decide (fmt = 'H'))
    else if isOct then toOct v w
    else padLeft ' ' (if w ≠ 0 then setwWidth w else 0) (Nat.toDigits 10 v)
  if sep = nul then valstr
  else
    let sepLim : Int := (valstr.length : Int) - (if isHex then 2 else if isOct then 1 else 0)
    (valstr.reverse.foldl (addUSepStep sep groupCount sepLim) ([], 0, 0)).1

/-- `Format::addU`, src/Format.cxx:183-254. -/
def Fmt.addU (f : Fmt) (v : Nat) (fmt : Char := 'd') (w : Nat := 0) (sep : Char := nul)
    (groupCount : Nat := 4) : Fmt :=
  f.insertField (textU v fmt w sep groupCount)

/-! ### Strings, characters, booleans -/

/-- Conversion of an integer to a 32-bit `int`. -/
def toI32 (z : Int) : Int := (z + 2147483648) % 4294967296 - 2147483648

/-- The text inserted by `Format::addS`, src/Format.cxx:496-522.  `-width` overflows (undefined
behaviour) for the smallest `int`.  `(-width) - v.size()` is computed in `size_t` and converted
to `int`. -/
def textS (v : Str) (width : Int) : Res Empty Str :=
  if width < 0 then
    if width = -2147483648 then .ub
    else .ok (v ++ List.replicate (toI32 (-width - v.length)).toNat ' ')
  else if width > 0 then
    .ok (List.replicate (toI32 (width - v.length)).toNat ' ' ++ v)
  else .ok v

/-- `Format::addS`, src/Format.cxx:496-522. -/
def Fmt.addS (f : Fmt) (v : Str) (width : Int := 0) : Res Empty Fmt :=
  (textS v width).map f.insertField

/-- `Format::addC`, src/Format.cxx:524-529. -/
def Fmt.addC (f : Fmt) (c : Char) : Fmt := f.insertField [c]

/-- `Format::addB`, src/Format.cxx:531-536. -/
def Fmt.addB (f : Fmt) (v : Bool) : Fmt := f.insertField (if v then ['T'] else ['F'])

/-! ### Histories of calls -/

/-- One call on a `Format` object (include/Format.hxx:302-496), except `addF`. -/
inductive Call where
  | addI (v : Int) (w : Nat) (sep fill : Char)
  | addU (v : Nat) (fmt : Char) (w : Nat) (sep : Char) (groupCount : Nat)
  | addS (v : Str) (width : Int)
  | addC (c : Char)
  | addB (v : Bool)
  | str (check : Bool)
  | reset
  deriving DecidableEq, Repr

/-- Effect of one call on the object (the result of `str` is not part of the object). -/
def Fmt.call (f : Fmt) : Call → Res Empty Fmt
  | .addI v w sep fill => .ok (f.addI v w sep fill)
  | .addU v fmt w sep g => .ok (f.addU v fmt w sep g)
  | .addS v width => f.addS v width
  | .addC c => .ok (f.addC c)
  | .addB v => .ok (f.addB v)
  | .str _ => .ok f
  | .reset => .ok f.reset

/-- A sequence of calls, in order. -/
def Fmt.calls (f : Fmt) : List Call → Res Empty Fmt
  | [] => .ok f
  | c :: cs => (f.call c).bind fun f' => f'.calls cs

end SoDa
