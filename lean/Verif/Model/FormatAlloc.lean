import Verif.Model.Format
/-!
Model of a `SoDa::Format` object when a request for memory inside its methods fails, i.e. when `operator new` throws `std::bad_alloc`
(src/Format.cxx).  None of the methods catches it.

* The methods `addI`, `addU`, `addS`, `addC`, `addB`, `addF` make a text in local variables, then call `insertField`.  Their texts are
  those of `Verif.Model.Format` and `Verif.Model.FormatF`; here a call is represented by its text.
* `insertField` (539-548) assigns the text to `fld.val` for every matching placeholder, then makes it a literal.  The `val` of a
  placeholder is an empty string with room for 15 characters (libstdc++); the assignment asks for memory if the text is longer, once.
  If it fails, `val` is unchanged.
* `initialScan` (62-142), called by `reset` (551-555), clears the list of segments first, then appends to `cur_str` and to the list;
  which of these need memory is left open: it may fail after any number of characters of the format string.  An append that fails
  changes nothing.  (Between the append to the list and the end of the treatment of the character no memory is needed: `cur_str` has
  been cleared, but keeps its room.)
* `str` is const and works on local variables.
* A constructor that fails leaves no object.
-/
namespace SoDa

/-- A call of a method. -/
inductive FOp where
  /-- `addI`, ..., with this text -/
  | add (text : Str)
  | str
  | reset
  deriving DecidableEq, Repr

/-- The assignment `fld.val = s` (src/Format.cxx:542) asks for memory. -/
def asksMemory (s : Str) : Bool := decide (15 < s.length)

/-- The loop of `insertField`, src/Format.cxx:540-545, if the request number `fail` fails: the segments afterwards, and `false` if the
exception is thrown. -/
def fillA (cur : Nat) (s : Str) : List Seg → Option Nat → List Seg × Bool
  | [], _ => ([], true)
  | .lit v :: rest, fail =>
    let (r, ok) := fillA cur s rest fail
    (.lit v :: r, ok)
  | .fld idx :: rest, fail =>
    if idx = cur then
      if asksMemory s then
        match fail with
        | some 0 => (.fld idx :: rest, false)
        | some (k + 1) =>
          let (r, ok) := fillA cur s rest (some k)
          (.lit s :: r, ok)
        | none =>
          let (r, ok) := fillA cur s rest none
          (.lit s :: r, ok)
      else
        let (r, ok) := fillA cur s rest fail
        (.lit s :: r, ok)
    else
      let (r, ok) := fillA cur s rest fail
      (.fld idx :: r, ok)

/-- The segments after the scan of a part of the format string, src/Format.cxx:63-126. -/
def scanPart (part : Str) : List Seg :=
  (part.foldl scanStep { segs := [], state := .norm, curStr := [], fldnum := 0 }).segs

/-- A call in which request number `fail` fails (`none`: all succeed); `false` if `std::bad_alloc` is thrown.  Request 0 of `add` and
`str` stands for those for the local variables; the others are those of `insertField`.  A request `k` of `reset` fails after `k`
characters. -/
def Fmt.callA (f : Fmt) (op : FOp) (fail : Option Nat) : Fmt × Bool :=
  match op, fail with
  | .add _, some 0 => (f, false)
  | .add s, some (k + 1) =>
    let r := fillA f.cur s f.segs (some k)
    if r.2 then ({ f with segs := r.1, cur := (f.cur + 1) % u32 }, true) else ({ f with segs := r.1 }, false)
  | .add s, none => (f.insertField s, true)
  | .str, some 0 => (f, false)
  | .str, _ => (f, true)
  | .reset, some k => if k ≤ f.orig.length then ({ f with segs := scanPart (f.orig.take k) }, false) else (f.reset, true)
  | .reset, none => (f.reset, true)

/-- Trying a call again until it succeeds: the attempts that fail, then one in which memory suffices. -/
def Fmt.tryCall (f : Fmt) (op : FOp) : List Nat → Fmt
  | [] => (f.callA op none).1
  | k :: ks =>
    let r := f.callA op (some k)
    if r.2 then r.1 else r.1.tryCall op ks

end SoDa
