import Verif.Model.Split
import Verif.Model.Format
import Verif.Model.StdMap
/-!
Model of `src/Options.cxx` and of the option classes of `include/Options.hxx`.

Conventions and simplifications.

* Option objects (`std::shared_ptr<OptBase>`) are numbered in the order of their registration;
  a pointer is the number of the object.  The immutable part of an object is its `Decl`, the
  mutable part is its `present` flag.
* Target variables live in a memory that is part of the state: `sc a` is the scalar (or `bool` of
  a presence option) at address `a`, `vec a` is the vector at address `a`.  Two options may share
  a target.  A scalar and a vector never overlap.
* The values of all target types are elements of one type `V`; a C++ type `T` is described by
  a `Ty V`: what its stream extraction does and whether `std::is_signed<T>` holds.
* `test_func` is a pure function; it does not throw.
* Writing to `std::cerr` is recorded as a list of `Diag` entries.
* `isspace`/`toupper` are those of the "C" locale; characters outside 0..127 are not white space
  (passing a negative `char` to `isspace`, src/Options.cxx:101, is formally undefined).
-/
namespace SoDa.Opts

/-! ### Options and their values -/

/-- A C++ target type `T`.  `read vstr` is the value left by `ss >> v` (or the `std::string` and
`bool` overloads) when `setValBase` returns, `none` when it throws; in that case `readFail vstr v`
is what it leaves in a variable that held `v`.  include/Options.hxx:497-536. -/
structure Ty (V : Type) where
  signed : Bool
  zero : V
  read : Str → Option V
  readFail : Str → V → V

/-- `Opt<T>`, `OptVec<T>`, `OptPresent` (include/Options.hxx:544-639). -/
inductive Kind where
  | scalar | vector | presence
  deriving DecidableEq, Repr

/-- The immutable part of an option object (include/Options.hxx:455-639).  `mark` is the value
`true` that a presence option stores; `read`, `readFail` and `test` are unused for presence
options. -/
structure Decl (V : Type) where
  long : Str
  ab : Char
  kind : Kind
  isSigned : Bool
  hasDefault : Bool
  doc : Str
  err : Str
  target : Nat
  read : Str → Option V
  readFail : Str → V → V
  test : V → Bool
  mark : V

/-- What is written to `std::cerr` by `parse`. -/
inductive Diag where
  /-- `printHelp(std::cerr)` -/
  | help
  /-- `BadOptionNameException(tkn).what()` -/
  | badName (tkn : Str)
  /-- `BadOptValueException(long_name, vstr, err_msg).what()` -/
  | badValue (long vstr err : Str)
  deriving DecidableEq, Repr

/-- `SoDa::Options` (include/Options.hxx:641-661) together with the memory of the targets. -/
structure Options (V : Type) where
  decls : List (Decl V)
  pres : Nat → Bool
  longMap : List (Str × Nat)
  abMap : List (Char × Nat)
  info : List Str
  pos : List Str
  isKvp : Bool
  waiting : Bool
  sc : Nat → V
  vec : Nat → List V
  cerr : List Diag

variable {V : Type}

def update {A B : Type} [DecidableEq A] (f : A → B) (a : A) (b : B) : A → B :=
  fun x => if x = a then b else f x

namespace Options

/-- `Options::Options`, src/Options.cxx:42-45 (`sc`, `vec`: the memory at that time). -/
def new (isKvp : Bool) (sc : Nat → V) (vec : Nat → List V) : Options V :=
  { decls := [], pres := fun _ => false, longMap := [], abMap := [], info := [], pos := [],
    isKvp, waiting := false, sc, vec, cerr := [] }

/-- `Options::addInfo`, src/Options.cxx:47-50. -/
def addInfo (o : Options V) (s : Str) : Options V := { o with info := o.info ++ [s] }

/-- `Options::registerOpt`, src/Options.cxx:287-293, preceded by the creation of the object
(`present = false`, include/Options.hxx:463). -/
def registerOpt (o : Options V) (d : Decl V) : Options V :=
  let p := o.decls.length
  { o with
    decls := o.decls ++ [d]
    pres := update o.pres p false
    longMap := mapSet strLess d.long p o.longMap
    abMap := mapSet charLess d.ab p o.abMap }

/-- `Options::add` with a default value, include/Options.hxx:229-246, 547-556. -/
def addDef (o : Options V) (T : Ty V) (val : Nat) (long : Str) (ab : Char) (def_val : V)
    (doc : Str := []) (test : V → Bool := fun _ => true) (err : Str := []) : Options V :=
  { o with sc := update o.sc val def_val }.registerOpt
    { long, ab, kind := .scalar, isSigned := T.signed, hasDefault := true, doc, err, target := val,
      read := T.read, readFail := T.readFail, test, mark := T.zero }

/-- `Options::add` without a default value, include/Options.hxx:248-262, 558-566. -/
def add (o : Options V) (T : Ty V) (val : Nat) (long : Str) (ab : Char)
    (doc : Str := []) (test : V → Bool := fun _ => true) (err : Str := []) : Options V :=
  { o with sc := update o.sc val T.zero }.registerOpt
    { long, ab, kind := .scalar, isSigned := T.signed, hasDefault := false, doc, err, target := val,
      read := T.read, readFail := T.readFail, test, mark := T.zero }

/-- `Options::addP`, include/Options.hxx:277-284, 616-621; `ff`, `tt` are `false`, `true`. -/
def addP (o : Options V) (ff tt : V) (val : Nat) (long : Str) (ab : Char) (doc : Str := []) :
    Options V :=
  { o with sc := update o.sc val ff }.registerOpt
    { long, ab, kind := .presence, isSigned := false, hasDefault := true, doc, err := [],
      target := val, read := fun _ => some tt, readFail := fun _ v => v, test := fun _ => true,
      mark := tt }

/-- `Options::addV`, include/Options.hxx:308-320, 585-593. -/
def addV (o : Options V) (T : Ty V) (val : Nat) (long : Str) (ab : Char)
    (doc : Str := []) (test : V → Bool := fun _ => true) (err : Str := []) : Options V :=
  o.registerOpt
    { long, ab, kind := .vector, isSigned := false, hasDefault := true, doc, err, target := val,
      read := T.read, readFail := T.readFail, test, mark := T.zero }

/-- `Options::findOpt(const std::string &)`, src/Options.cxx:258-263 (`nullptr` is `none`). -/
def findLong (o : Options V) (n : Str) : Option Nat := mapFind strLess n o.longMap

/-- `Options::findOpt(char)`, src/Options.cxx:265-270. -/
def findAb (o : Options V) (c : Char) : Option Nat := mapFind charLess c o.abMap

/-- `Options::isPresent(const std::string &)`, src/Options.cxx:273-278. -/
def isPresent (o : Options V) (n : Str) : Bool :=
  match o.findLong n with
  | none => false
  | some p => o.pres p

/-- `Options::isPresent(char)`, src/Options.cxx:280-285. -/
def isPresentAb (o : Options V) (c : Char) : Bool :=
  match o.findAb c with
  | none => false
  | some p => o.pres p

/-- `Options::isSwitch`, src/Options.cxx:134-160. -/
def isSwitch (waiting : Bool) (tkn : Str) : Nat :=
  if waiting then 0
  else if tkn.length < 2 then 0
  else if tkn[0]? ≠ some '-' then 0
  else if tkn[1]? = some '-' then (if tkn.length < 3 then 0 else 2)
  else 1

/-- `OptBase::setPresent` / `OptPresent::setPresent`, include/Options.hxx:477-481, 633-636. -/
def setPresent (o : Options V) (p : Nat) (d : Decl V) : Options V :=
  { o with
    pres := update o.pres p true
    sc := if d.kind = .presence then update o.sc d.target d.mark else o.sc }

/-- `setVal` of the three option classes, include/Options.hxx:568-574, 595-608, 627-631.
`(o', true)`: returned; `(o', false)`: `BadOptValueException` was thrown. -/
def setVal (o : Options V) (p : Nat) (d : Decl V) (vstr : Str) : Options V × Bool :=
  match d.kind with
  | .scalar =>
    match d.read vstr with
    | none => ({ o with sc := update o.sc d.target (d.readFail vstr (o.sc d.target)) }, false)
    | some v =>
      let o1 := { o with sc := update o.sc d.target v }
      if !d.test v then (o1, false) else (o1.setPresent p d, true)
  | .vector =>
    match d.read vstr with
    | none => (o, false)
    | some v =>
      if !d.test v then (o, false)
      else ({ o with
                vec := update o.vec d.target (o.vec d.target ++ [v])
                pres := update o.pres p true }, true)
  | .presence => (o.setPresent p d, true)

/-- The loop of `Options::parse(std::list<std::string>)`, src/Options.cxx:176-256.  `arg` is
`arg_p` with the object it points to.  (An object number found in a map always has a `Decl`; the
branch without one is never taken, see `Wf`.) -/
def parseLoop (o : Options V) (arg : Option (Nat × Decl V)) : List Str → Options V × Bool
  | [] => (o, true)
  | tkn :: tokens =>
    let sw_len := match arg with
      | none => isSwitch o.waiting tkn
      | some (_, d) => if d.hasDefault then isSwitch o.waiting tkn else 0
    if sw_len = 0 then
      match arg with
      | some (p, d) =>
        match o.setVal p d tkn with
        | (o', true) => parseLoop { o' with waiting := false } none tokens
        | (o', false) => ({ o' with cerr := o'.cerr ++ [.badValue d.long tkn d.err] }, false)
      | none => parseLoop { o with pos := o.pos ++ [tkn] } none tokens
    else
      let o := match arg with
        | some (p, d) => { o.setPresent p d with waiting := d.isSigned }
        | none => o
      if sw_len = 1 ∧ tkn[1]? = some 'h' then ({ o with cerr := o.cerr ++ [.help] }, false)
      else if sw_len ≠ 1 ∧ tkn = "--help".toList then
        ({ o with cerr := o.cerr ++ [.help] }, false)
      else
        let found := if sw_len = 1 then (tkn[1]?).bind o.findAb else o.findLong (tkn.drop 2)
        match found.bind fun p => (o.decls[p]?).map fun d => (p, d) with
        | none => ({ o with cerr := o.cerr ++ [.badName tkn, .help] }, false)
        | some (p, d) =>
          let o := if d.isSigned then { o with waiting := true } else o
          if d.kind = .presence then parseLoop (o.setPresent p d) none tokens
          else parseLoop o (some (p, d)) tokens

/-- `Options::parse(std::list<std::string>)`, src/Options.cxx:176-256. -/
def parse (o : Options V) (tokens : List Str) : Options V × Bool := parseLoop o none tokens

/-- `Options::getPosArgs`, src/Options.cxx:76-78. -/
def getPosArgs (o : Options V) : List Str := o.pos

/-- `Options::numPosArgs`, include/Options.hxx:408 (the conversion of `size()` to `int`). -/
def numPosArgs (o : Options V) : Int := toI32 o.pos.length

/-- `Options::getPosArg`, src/Options.cxx:80-83.  In `idx > pos_arg_vec.size()` the `int` is
converted to `size_t`: a negative index becomes `2^64 + idx`.  `operator[]` outside the vector is
undefined. -/
def getPosArg (o : Options V) (idx : Int) : Res Empty Str :=
  let u : Nat := (idx % 18446744073709551616).toNat
  if u > o.pos.length then .ok []
  else match o.pos[u]? with
    | some w => .ok w
    | none => .ub

end Options

/-! ### Token lists -/

/-- `isspace` in the "C" locale. -/
def isSpace (c : Char) : Bool :=
  c = ' ' || c = '\t' || c = '\n' || c = Char.ofNat 11 || c = Char.ofNat 12 || c = '\r'

/-- `Options::buildTokenList(int, char **)`, src/Options.cxx:85-94; `argv` has `argc` elements. -/
def tokensArgv (argv : List Str) : List Str :=
  if argv.length < 2 then [] else argv.drop 1

/-- The loop of `Options::buildTokenList(const std::string &)`, src/Options.cxx:96-132. -/
def tokensLoop (ret : List Str) (cur : Str) (inQuote : Bool) : Str → List Str
  | [] => if cur.length > 0 then ret ++ [cur] else ret
  | c :: cs =>
    if isSpace c then
      if inQuote then tokensLoop ret (cur ++ [c]) inQuote cs
      else if cur.length > 0 then tokensLoop (ret ++ [cur]) [] inQuote cs
      else tokensLoop ret cur inQuote cs
    else if c = '"' then
      if inQuote then tokensLoop (ret ++ [cur]) [] false cs
      else tokensLoop ret cur true cs
    else tokensLoop ret (cur ++ [c]) inQuote cs

/-- `Options::buildTokenList(const std::string &)`, src/Options.cxx:96-132. -/
def tokensString (s : Str) : List Str := tokensLoop [] [] false s

namespace Options

/-- The loop of `Options::parseKeyValue(const std::list<std::string> &)`,
src/Options.cxx:313-330.  `front()`/`back()` of an empty list are undefined. -/
def kvTokens : List Str → Res Empty (List Str)
  | [] => .ok []
  | kvA :: rest =>
    (squashSpaces kvA).bind fun kv =>
    (split kv "=".toList).bind fun kvp =>
    match kvp.head?, kvp.getLast? with
    | some key, some value =>
      (kvTokens rest).bind fun ts => .ok (("--".toList ++ key) :: value :: ts)
    | _, _ => .ub

/-- `Options::parseKeyValue(const std::list<std::string> &)`, src/Options.cxx:309-333. -/
def parseKeyValueList (o : Options V) (l : List Str) : Res Empty (Options V × Bool) :=
  (kvTokens l).bind fun ts => .ok (o.parse ts)

/-- `Options::parseKeyValue(const std::string &)`, src/Options.cxx:300-307. -/
def parseKeyValue (o : Options V) (s : Str) : Res Empty (Options V × Bool) :=
  if s.length = 0 then .ok (o, false)
  else (split s ",".toList).bind fun l =>
    if l.length = 0 then .ok (o, false) else o.parseKeyValueList l

/-- `Options::parse(int, char **)`, src/Options.cxx:162-166. -/
def parseArgv (o : Options V) (argv : List Str) : Res Empty (Options V × Bool) :=
  let tokens := tokensArgv argv
  if o.isKvp then o.parseKeyValueList tokens else .ok (o.parse tokens)

/-- `Options::parse(const std::string &)`, src/Options.cxx:168-174. -/
def parseString (o : Options V) (s : Str) : Res Empty (Options V × Bool) :=
  if o.isKvp then o.parseKeyValue s else .ok (o.parse (tokensString s))

/-! ### Help -/

/-- The part of a help line before the documentation string, src/Options.cxx:61-68. -/
def helpHead (isKvp : Bool) (d : Decl V) : Res Fmt.BadFormat Str :=
  if isKvp then .ok ("\t".toList ++ d.long ++ "\t".toList)
  else
    match (Fmt.mk' "   --%0 -%1     ".toList).addS d.long (-20) with
    | .ok f => (f.addC d.ab).stream
    | .throw e => nomatch e
    | .ub => .ub

/-- The loop over `long_map` of `Options::printHelp`, src/Options.cxx:59-71. -/
def helpLoop (o : Options V) : List (Str × Nat) → Res Fmt.BadFormat Str
  | [] => .ok []
  | (_, p) :: rest =>
    match o.decls[p]? with
    | none => .ub
    | some d =>
      (helpHead o.isKvp d).bind fun h =>
      (helpLoop o rest).bind fun r => .ok (h ++ d.doc ++ "\n".toList ++ r)

/-- `Options::printHelp`, src/Options.cxx:52-74: the text written to the stream. -/
def printHelp (o : Options V) : Res Fmt.BadFormat Str :=
  (helpLoop o o.longMap).bind fun t => .ok ((o.info.flatMap (· ++ "\n".toList)) ++ t)

end Options

/-! ### Values: `int`, `bool`, `std::string` -/

/-- The value of a run of decimal digits. -/
def digitsVal (ds : Str) : Nat := ds.foldl (fun n c => 10 * n + (c.toNat - 48)) 0

/-- `std::istream >> int` with the default flags: what the stream accepts and what the extraction
finds (standard library behaviour).  `blank`: only white space, the sentry fails and nothing is
stored; `bad`: no digits, 0 is stored; `over v`: out of range, the nearest `int` `v` is stored;
`good v`. -/
inductive Extract where
  | blank | bad | over (v : Int) | good (v : Int)
  deriving DecidableEq, Repr

def extractInt (s : Str) : Extract :=
  let s1 := s.dropWhile isSpace
  if s1.isEmpty then .blank
  else
    let neg := s1.head? == some '-'
    let s2 := if s1.head? == some '-' || s1.head? == some '+' then s1.drop 1 else s1
    let ds := s2.takeWhile Char.isDigit
    if ds.isEmpty then .bad
    else
      let v : Int := if neg then -(digitsVal ds : Int) else (digitsVal ds : Int)
      if v > 2147483647 then .over 2147483647
      else if v < -2147483648 then .over (-2147483648)
      else .good v

/-- The values used for concrete option types. -/
inductive Val where
  | int (i : Int) | bool (b : Bool) | str (s : Str)
  deriving DecidableEq, Repr

/-- `T = int`: `setValBase<int>`, include/Options.hxx:497-504. -/
def intTy : Ty Val where
  signed := true
  zero := .int 0
  read s := match extractInt s with
    | .good v => some (.int v)
    | _ => none
  readFail s old := match extractInt s with
    | .good v | .over v => .int v
    | .bad => .int 0
    | .blank => old

/-- `T = std::string`: include/Options.hxx:506-508. -/
def strTy : Ty Val where
  signed := false
  zero := .str []
  read s := some (.str s)
  readFail _ old := old

/-- `T = bool`: `setValBase(bool &, …)`, include/Options.hxx:510-536.  `vs[0]` of an empty string
is `'\0'`. -/
def readBool (vstr : Str) : Option Bool :=
  let vs := vstr.map Char.toUpper
  if vs = "TRUE".toList ∨ vs.headD nul = 'T' then some true
  else if vs = "FALSE".toList ∨ vs.headD nul = 'F' then some false
  else match extractInt vs with
    | .good foo => some (decide (foo ≠ 0))
    | _ => none

def boolTy : Ty Val where
  signed := false
  zero := .bool false
  read s := (readBool s).map .bool
  readFail s old := if s.length = 0 then .bool false else old

end SoDa.Opts
