import Verif.Model.OptionsTests
/-!
`Options::parse` when the test functions of the options use the `Options` object that is parsing: they ask which options are present
(src/Options.cxx:273-285) and for the positional arguments (76-83), look at the variables of the program and change them, and parse
further lines with the same object.  For example an option `--file name` whose test function parses the contents of the file.

`parse` works on its own list of tokens and its own pointer `arg_p` (src/Options.cxx:176-177); what the calls share are the members of
the object, of which `waiting_for_signed` is one.

Simplifications: the test functions do not register options and call only the overload of `parse` for lists of tokens; text written by
the test functions themselves is not recorded.
-/
namespace SoDa.Opts

variable {V E : Type}

/-- What a program can see of an `Options` object and of the variables. -/
structure View (V : Type) where
  posArgs : List Str
  isPresent : Str → Bool
  isPresentAb : Char → Bool
  sc : Nat → V
  vec : Nat → List V

/-- What is left to do for a test function. -/
inductive Body (V E : Type) where
  /-- return, or throw -/
  | done (x : Verdict E)
  /-- look at the object and the variables -/
  | look (k : View V → Body V E)
  /-- change the variables -/
  | write (sc : Nat → V) (vec : Nat → List V) (k : Body V E)
  /-- `parse` a line with the same object, and go on, whatever the call ends with -/
  | parse (ts : List Str) (k : Ret E → Body V E)

/-- `true` was returned. -/
def Verdict.isAccept : Verdict E → Bool
  | .accept => true
  | _ => false

namespace Options

/-- The public methods that look at the object, src/Options.cxx:76-83, 273-285, and the variables. -/
def look (o : Options V) : View V := ⟨o.getPosArgs, o.isPresent, o.isPresentAb, o.sc, o.vec⟩

/-- A test function is executed; `nested` is `parse`. -/
def runBody (nested : Options V → List Str → Option (Options V × Ret E)) (o : Options V) : Body V E → Option (Options V × Verdict E)
  | .done x => some (o, x)
  | .look k => runBody nested o (k o.look)
  | .write sc vec k => runBody nested { o with sc := sc, vec := vec } k
  | .parse ts k => (nested o ts).bind fun r => runBody nested r.1 (k r.2)

/-- `setVal` of the three option classes, include/Options.hxx:568-574, 595-608, 627-631; `T p` is the test function of option `p`. -/
def setValN (nested : Options V → List Str → Option (Options V × Ret E)) (T : Nat → V → Body V E) (o : Options V) (p : Nat) (d : Decl V)
    (vstr : Str) : Option (Options V × Verdict E) :=
  match d.kind with
  | .scalar =>
    match d.read vstr with
    | none => some ({ o with sc := update o.sc d.target (d.readFail vstr (o.sc d.target)) }, .refuse)
    | some v =>
      (runBody nested { o with sc := update o.sc d.target v } (T p v)).bind fun r =>
        some (if r.2.isAccept then r.1.setPresent p d else r.1, r.2)
  | .vector =>
    match d.read vstr with
    | none => some (o, .refuse)
    | some v =>
      (runBody nested o (T p v)).bind fun r =>
        some (if r.2.isAccept then { r.1 with
                vec := update r.1.vec d.target (r.1.vec d.target ++ [v])
                pres := update r.1.pres p true } else r.1, r.2)
  | .presence => some (o.setPresent p d, .accept)

/-- The loop of `Options::parse(std::list<std::string>)`, src/Options.cxx:176-256. -/
def parseLoopN (nested : Options V → List Str → Option (Options V × Ret E)) (T : Nat → V → Body V E) (o : Options V)
    (arg : Option (Nat × Decl V)) : List Str → Option (Options V × Ret E)
  | [] => some (o, .returned true)
  | tkn :: tokens =>
    let sw_len := match arg with
      | none => isSwitch o.waiting tkn
      | some (_, d) => if d.hasDefault then isSwitch o.waiting tkn else 0
    if sw_len = 0 then
      match arg with
      | some (p, d) =>
        (o.setValN nested T p d tkn).bind fun r =>
          if r.2.isAccept then parseLoopN nested T { r.1 with waiting := false } none tokens else some (r.1.handle d tkn r.2)
      | none => parseLoopN nested T { o with pos := o.pos ++ [tkn] } none tokens
    else
      let o := match arg with
        | some (p, d) => { o.setPresent p d with waiting := d.isSigned }
        | none => o
      if sw_len = 1 ∧ tkn[1]? = some 'h' then some ({ o with cerr := o.cerr ++ [.help] }, .returned false)
      else if sw_len ≠ 1 ∧ tkn = "--help".toList then
        some ({ o with cerr := o.cerr ++ [.help] }, .returned false)
      else
        let found := if sw_len = 1 then (tkn[1]?).bind o.findAb else o.findLong (tkn.drop 2)
        match found.bind fun p => (o.decls[p]?).map fun d => (p, d) with
        | none => some ({ o with cerr := o.cerr ++ [.badName tkn, .help] }, .returned false)
        | some (p, d) =>
          let o := if d.isSigned then { o with waiting := true } else o
          if d.kind = .presence then parseLoopN nested T (o.setPresent p d) none tokens
          else parseLoopN nested T o (some (p, d)) tokens

/-- `Options::parse(std::list<std::string>)`, src/Options.cxx:176-256, with calls that are nested at most `n` deep (this one included);
`none`: they are nested deeper. -/
def parseN (T : Nat → V → Body V E) : Nat → Options V → List Str → Option (Options V × Ret E)
  | 0, _, _ => none
  | n + 1, o, tokens => o.parseLoopN (parseN T n) T none tokens

end Options
end SoDa.Opts
