import Verif.Model.PropertyTree
/-!
The programs examples/OptionsExample.cxx and test/PropertyTreeYAML_Test.cxx (= examples/PropertyTreeYamlExample.cxx but for
the header paths), for any command line and any files.

* `argv` has `argc` elements.
* `exit(-1)` is the status -1 (the operating system keeps the low byte).
* What the parser writes to `std::cerr` is in `diags`, what `main` itself writes in `err`.
-/
namespace SoDa.Examples
open Opts

/-- How a program ends. -/
inductive End where
  /-- `exit(code)` or the end of `main` -/
  | exit (code : Int)
  /-- an exception leaves `main` -/
  | terminate
  /-- undefined behaviour -/
  | undefined
  deriving DecidableEq, Repr

/-- The end of a program and what it has written. -/
structure Outcome where
  fin : End
  out : Str
  err : Str
  diags : List Diag
  deriving DecidableEq, Repr

/-! ### OptionsExample -/

/-- The options of examples/OptionsExample.cxx:48-63.  The addresses: `pres_arg` 0, `bool_arg` 1, `str_arg` 2, `int_arg` 3,
`strvec_arg` 0 (of vectors).  `sc` is what is in the variables before. -/
def options (sc : Nat → Val) : Options Val :=
  (((((((Options.new false sc (fun _ => [])).addP (.bool false) (.bool true) 0 "presarg".toList 'p').addDef
    boolTy 1 "boolarg".toList 'b' (.bool false) "<true/false/zero/non-zero>".toList).addDef strTy 2 "strarg".toList 's'
    (.str []) "<string>".toList).addV strTy 0 "strvecarg".toList 'l' "<string>".toList).add intTy 3 "intarg".toList 'i'
    "An integer argument between -5 and 5 inclusive".toList
    (fun v => match v with | .int n => decide (n ≥ -5) && decide (n ≤ 5) | _ => false)
    "Please pick something from -5 to 5.".toList).addInfo
    "\nusage:\tOptionsExample [options] [posargs]".toList).addInfo
    "\n\tA simple demonstration of the SoDa::Options parser".toList

/-- `std::cout << v`. -/
def showVal : Val → Str
  | .int n => showInt n
  | .bool b => if b then ['1'] else ['0']
  | .str s => s

/-- examples/OptionsExample.cxx:72-76 and 95-99. -/
def block (o : Options Val) : Str :=
  "intarg = ".toList ++ showVal (o.sc 3) ++ "\nboolarg = ".toList ++ showVal (o.sc 1) ++
    "\npres_arg = ".toList ++ showVal (o.sc 0) ++ "\nstr_arg = [".toList ++ showVal (o.sc 2) ++ "]\nstrvecarg s = \n".toList

/-- The loop of lines 77-79. -/
def vecLoop : List Val → Str
  | [] => []
  | sa :: rest => "\t[".toList ++ showVal sa ++ "]\n".toList ++ vecLoop rest

/-- The loop of lines 81-83, from `i` on. -/
def argLoop : Nat → List Str → Str
  | _, [] => []
  | i, a :: rest => "ARG[".toList ++ Nat.toDigits 10 i ++ "] = [".toList ++ a ++ "]\n".toList ++ argLoop (i + 1) rest

/-- The loop of lines 87-89, from `i` on; `n` rounds are left. -/
def posLoop (o : Options Val) : Nat → Nat → Res Empty Str
  | 0, _ => .ok []
  | n + 1, i =>
    (o.getPosArg i).bind fun w =>
    (posLoop o n (i + 1)).bind fun r => .ok ("\t".toList ++ Nat.toDigits 10 i ++ "\t".toList ++ w ++ "\n".toList ++ r)

/-- What is written to `std::cerr` in lines 69-70 and 84. -/
def errText (version gitId : Str) (present : Bool) : Str :=
  "SoDaUtils version [".toList ++ version ++ "]\nSoDaUtils git id [".toList ++ gitId ++ "]\n".toList ++
    (if present then "An".toList else "No".toList) ++ " intarg option was present\n".toList

/-- Lines 91-101: the second parse; `out`, `err` is what has been written before. -/
def secondPart (out err : Str) (o : Options Val) : Outcome :=
  match o.parseString "-i 3 -s \"this is a test\"".toList with
  | .ok (o', true) => ⟨.exit 0, out ++ block o', err, o'.cerr⟩
  | .ok (o', false) => ⟨.exit (-1), out, err, o'.cerr⟩
  | _ => ⟨.undefined, out, err, o.cerr⟩

/-- The same from the end of the loop of lines 87-89 on. -/
def afterLoop (out err : Str) (o : Options Val) : Res Empty Str → Outcome
  | .ok t => secondPart (out ++ t) err o
  | _ => ⟨.undefined, out, err, o.cerr⟩

/-- Lines 69-101, after the first parse. -/
def afterParse (version gitId : Str) (argv : List Str) (o : Options Val) : Outcome :=
  afterLoop (block o ++ vecLoop (o.vec 0) ++ argLoop 0 argv ++ "posargs = \n".toList)
    (errText version gitId (o.isPresent "intarg".toList)) o (posLoop o o.numPosArgs.toNat 0)

/-- `main` of examples/OptionsExample.cxx:41-102; `sc` is what is in its variables at the beginning, `version` and `gitId`
are what `getVersion` and `getGitID` return. -/
def optionsMain (sc : Nat → Val) (version gitId : Str) (argv : List Str) : Outcome :=
  match (options sc).parseArgv argv with
  | .ok (o, true) => afterParse version gitId argv o
  | .ok (o, false) => ⟨.exit (-1), [], [], o.cerr⟩
  | _ => ⟨.undefined, [], [], []⟩

/-! ### PropertyTreeYAML_Test -/

/-- `main` of test/PropertyTreeYAML_Test.cxx:11-25; `load` is what `YAML::LoadFile` yields for a file name.  The constructor
of `PropertyTreeYAML`, src/PropertyTreeYAML.cxx:40-42, calls `readFile`. -/
def yamlMain (load : Str → Prop.Load) (argv : List Str) : Outcome :=
  match (Options.new (V := Val) false (fun _ => .int 0) (fun _ => [])).parseArgv argv with
  | .ok (o, ok) =>
    if !ok || o.numPosArgs = 0 then ⟨.exit (-1), [], "Missing input file name.\n".toList, o.cerr⟩
    else
      match o.getPosArg 0 with
      | .ok fname =>
        match Prop.readFile Prop.newTree (load fname) with
        | (r, .normal) => ⟨.exit 0, r.dump [], "\n\n\nREADY?\n\n\n".toList, o.cerr⟩
        | _ => ⟨.terminate, [], [], o.cerr⟩
      | _ => ⟨.undefined, [], [], o.cerr⟩
  | _ => ⟨.undefined, [], [], []⟩

end SoDa.Examples
