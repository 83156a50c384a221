import Verif.Model.OptionsNum
import Verif.Model.PropertyTree
/-!
Printing into a stream that the program has prepared: `std::setw`, `std::setfill`, `std::left`, a device that takes no more than some number
of characters (a full disk, a closed pipe), exceptions asked for with `exceptions()`.

The library inserts nothing but strings and character strings (`src/Options.cxx:52-74, 217, 224, 245-252, 295-298`,
`src/PropertyTree.cxx:101-139`, `src/Format.cxx:614-617`).  Each `<<` is a call of `std::__ostream_insert` of libstdc++
(bits/ostream_insert.h), modelled here as far as the texts and the state of the stream go.  Not modelled: flushing, streams tied to it,
locales, `eofbit`, devices that throw.
-/
namespace SoDa

/-- A `std::ostream`: `width()`, `fill()`, `flags() & left`, `rdstate()`, `exceptions()`, how many characters its device will still take
(`none`: any number), and what the device has got. -/
structure OStream where
  width : Nat
  fill : Char
  left : Bool
  badbit : Bool
  failbit : Bool
  excBad : Bool
  excFail : Bool
  room : Option Nat
  out : Str
  deriving DecidableEq, Repr

namespace OStream

/-- `good()` -/
def good (s : OStream) : Bool := !s.badbit && !s.failbit

/-- `setstate` throws `std::ios_base::failure` when `rdstate() & exceptions()` is not zero. -/
def throws (s : OStream) : Bool := (s.excBad && s.badbit) || (s.excFail && s.failbit)

/-- `__ostream_write`, `__ostream_fill`: characters go to the device until it takes no more; then `badbit` is set. -/
def write (s : OStream) (t : Str) : OStream :=
  match s.room with
  | none => { s with out := s.out ++ t }
  | some r =>
    if t.length ≤ r then { s with out := s.out ++ t, room := some (r - t.length) }
    else { s with out := s.out ++ t.take r, room := some 0, badbit := true }

/-- `__ostream_insert`: the stream afterwards, and whether `std::ios_base::failure` was thrown.  In a stream that is not good the sentry
sets `failbit` (releases of libstdc++ differ for a stream with `failbit` alone, where it is set already).  `__ostream_insert` catches what
`setstate` throws and throws it again because `badbit` is in `exceptions()`; `width(0)` is then not called. -/
def insert (s : OStream) (t : Str) : OStream × Bool :=
  if s.good then
    if t.length < s.width then
      let pad := List.replicate (s.width - t.length) s.fill
      let s1 := if s.left then s else s.write pad
      if s1.throws then (s1, true) else
      let s2 := if s1.good then s1.write t else s1
      if s2.throws then (s2, true) else
      let s3 := if s.left && s2.good then s2.write pad else s2
      if s3.throws then (s3, true) else ({ s3 with width := 0 }, false)
    else
      let s1 := s.write t
      if s1.throws then (s1, true) else ({ s1 with width := 0 }, false)
  else ({ s with failbit := true }, { s with failbit := true }.throws)

/-- One `<<` after the other, up to the first that throws. -/
def insertAll (s : OStream) : List Str → OStream × Bool
  | [] => (s, false)
  | t :: ts =>
    match s.insert t with
    | (s', true) => (s', true)
    | (s', false) => s'.insertAll ts

end OStream

namespace Opts
variable {V : Type}

/-- What is inserted before the documentation string, src/Options.cxx:61-68. -/
def helpHeadPieces (isKvp : Bool) (d : Decl V) : Res Fmt.BadFormat (List Str) :=
  if isKvp then .ok ["\t".toList, d.long, "\t".toList]
  else (Options.helpHead false d).map fun h => [h]

/-- The loop over `long_map`, src/Options.cxx:59-71. -/
def helpLoopPieces (o : Options V) : List (Str × Nat) → Res Fmt.BadFormat (List Str)
  | [] => .ok []
  | (_, p) :: rest =>
    match o.decls[p]? with
    | none => .ub
    | some d =>
      (helpHeadPieces o.isKvp d).bind fun h =>
      (helpLoopPieces o rest).bind fun r => .ok (h ++ [d.doc, "\n".toList] ++ r)

/-- `Options::printHelp`, src/Options.cxx:52-74: the strings that are inserted. -/
def helpPieces (o : Options V) : Res Fmt.BadFormat (List Str) :=
  (helpLoopPieces o o.longMap).bind fun t => .ok (o.info.flatMap (fun i => [i, "\n".toList]) ++ t)

/-- `Options::printHelp(os)`, src/Options.cxx:52-74: the stream afterwards, and whether `std::ios_base::failure` was thrown. -/
def printHelpOn (o : Options V) (s : OStream) : Res Fmt.BadFormat (OStream × Bool) := (helpPieces o).map s.insertAll

/-- One message of `parse`, src/Options.cxx:217, 224, 245-252. -/
def diagPieces (o : Options V) : Diag → Res Fmt.BadFormat (List Str)
  | .help => helpPieces o
  | .badName tkn => .ok [whatText ("Command option [[".toList ++ tkn ++ "]] is unknown.".toList), "\n".toList]
  | .badValue long vstr err => .ok [whatText (long ++ " unacceptable value \"".toList ++ vstr ++ "\" ".toList ++ err), "\n".toList]

def diagsPieces (o : Options V) : List Diag → Res Fmt.BadFormat (List Str)
  | [] => .ok []
  | d :: ds => (diagPieces o d).bind fun t => (diagsPieces o ds).bind fun r => .ok (t ++ r)

/-- `Options::parse(std::list<std::string>)`, src/Options.cxx:176-256, with `std::cerr` as it is: the object and the stream afterwards, and
the value returned; `none` if `std::ios_base::failure` was thrown, which no handler of `parse` catches.  Everything is written at the end
(217, 224: before the `return`; 245-252: in the handlers). -/
def parseOn (o : Options V) (ts : List Str) (cerr : OStream) : Res Fmt.BadFormat (Options V × OStream × Option Bool) :=
  let r := o.parse ts
  (diagsPieces r.1 (r.1.cerr.drop o.cerr.length)).map fun ps =>
    match cerr.insertAll ps with
    | (s, true) => (r.1, s, none)
    | (s, false) => (r.1, s, some r.2)

end Opts
end SoDa

namespace SoDa.Prop

mutual
/-- `PropNode::dump`, src/PropertyTree.cxx:105-139: the strings that are inserted. -/
def dumpPieces : Node → Str → List Str
  | .mk val true _ _, indent => [indent, val, "\n".toList]
  | .mk _ false list dict, indent =>
    (if list.isEmpty then [] else "<<<PROPLIST>>>\n".toList :: dumpListPieces list indent) ++
    (if dict.isEmpty then [] else "<<<DICTIONARY>>>\n".toList :: dumpDictPieces dict indent)
/-- The loop over `prop_list`, 114-121. -/
def dumpListPieces : List Node → Str → List Str
  | [], _ => []
  | v :: vs, indent =>
    (if v.terminal then [indent, v.val, "\n".toList] else dumpPieces v (indent ++ "  ".toList)) ++ dumpListPieces vs indent
/-- The loop over `dictionary`, 126-135. -/
def dumpDictPieces : List (Str × Node) → Str → List Str
  | [], _ => []
  | (k, v) :: vs, indent =>
    ([indent, k, ":  ".toList] ++
      (if v.terminal then [v.val, "\n".toList] else "\n".toList :: dumpPieces v (indent ++ "  ".toList))) ++ dumpDictPieces vs indent
end

/-- `PropertyTree::dump(os)`, src/PropertyTree.cxx:101-103 (`indent` is empty). -/
def dumpOn (n : Node) (s : OStream) : OStream × Bool := s.insertAll (dumpPieces n [])

end SoDa.Prop

namespace SoDa.Fmt

/-- `operator<<(std::ostream&, const SoDa::Format&)`, src/Format.cxx:614-617. -/
def insertOn (f : Fmt) (s : OStream) : Res BadFormat (OStream × Bool) := (f.str false).map s.insert

end SoDa.Fmt
