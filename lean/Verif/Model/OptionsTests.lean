import Verif.Model.Options
/-!
`Options::parse` when the test functions of the options are arbitrary `std::function<bool(T)>`s (include/Options.hxx:235, 253,
313): they may look at the variables of the program, change them, and throw.  (They do not use the `Options` object itself.)
Everything else is as in `Verif.Model.Options`; the `test` of a `Decl` is not used here.
-/
namespace SoDa.Opts

variable {V E : Type}

/-- How a call of a test function ends. -/
inductive Verdict (E : Type) where
  /-- it returns true -/
  | accept
  /-- it returns false -/
  | refuse
  /-- it throws `BadOptValueException(long, txt, err)` -/
  | badValue (long txt err : Str)
  /-- it throws `BadOptionNameException(tkn)` -/
  | badName (tkn : Str)
  /-- it throws something else -/
  | throws (e : E)
  deriving DecidableEq, Repr

/-- The test functions by the numbers of their options: called with a value, in a memory, which they may change. -/
def Tests (V E : Type) : Type := Nat → V → (Nat → V) → (Nat → List V) → Verdict E × (Nat → V) × (Nat → List V)

/-- How `parse` ends. -/
inductive Ret (E : Type) where
  | returned (b : Bool)
  | thrown (e : E)
  deriving DecidableEq, Repr

namespace Options

/-- `setVal` of the three option classes, include/Options.hxx:568-574, 595-608, 627-631.  `accept`: returned; `refuse`:
`BadOptValueException(long_name, vstr, err_msg)`; otherwise what the test function has thrown. -/
def setValT (T : Tests V E) (o : Options V) (p : Nat) (d : Decl V) (vstr : Str) : Options V × Verdict E :=
  match d.kind with
  | .scalar =>
    match d.read vstr with
    | none => ({ o with sc := update o.sc d.target (d.readFail vstr (o.sc d.target)) }, .refuse)
    | some v =>
      let o1 := { o with sc := update o.sc d.target v }
      let r := T p v o1.sc o1.vec
      let o2 := { o1 with sc := r.2.1, vec := r.2.2 }
      match r.1 with
      | .accept => (o2.setPresent p d, .accept)
      | x => (o2, x)
  | .vector =>
    match d.read vstr with
    | none => (o, .refuse)
    | some v =>
      let r := T p v o.sc o.vec
      let o2 := { o with sc := r.2.1, vec := r.2.2 }
      match r.1 with
      | .accept => ({ o2 with
                vec := update o2.vec d.target (o2.vec d.target ++ [v])
                pres := update o2.pres p true }, .accept)
      | x => (o2, x)
  | .presence => (o.setPresent p d, .accept)

/-- The handlers of `Options::parse`, src/Options.cxx:245-253, for what comes out of `setVal(tkn)`. -/
def handle (o : Options V) (d : Decl V) (tkn : Str) : Verdict E → Options V × Ret E
  | .accept => (o, .returned true)
  | .refuse => ({ o with cerr := o.cerr ++ [.badValue d.long tkn d.err] }, .returned false)
  | .badValue l t e => ({ o with cerr := o.cerr ++ [.badValue l t e] }, .returned false)
  | .badName t => ({ o with cerr := o.cerr ++ [.badName t, .help] }, .returned false)
  | .throws e => (o, .thrown e)

/-- The loop of `Options::parse(std::list<std::string>)`, src/Options.cxx:176-256. -/
def parseLoopT (T : Tests V E) (o : Options V) (arg : Option (Nat × Decl V)) : List Str → Options V × Ret E
  | [] => (o, .returned true)
  | tkn :: tokens =>
    let sw_len := match arg with
      | none => isSwitch o.waiting tkn
      | some (_, d) => if d.hasDefault then isSwitch o.waiting tkn else 0
    if sw_len = 0 then
      match arg with
      | some (p, d) =>
        match o.setValT T p d tkn with
        | (o', .accept) => parseLoopT T { o' with waiting := false } none tokens
        | (o', x) => o'.handle d tkn x
      | none => parseLoopT T { o with pos := o.pos ++ [tkn] } none tokens
    else
      let o := match arg with
        | some (p, d) => { o.setPresent p d with waiting := d.isSigned }
        | none => o
      if sw_len = 1 ∧ tkn[1]? = some 'h' then ({ o with cerr := o.cerr ++ [.help] }, .returned false)
      else if sw_len ≠ 1 ∧ tkn = "--help".toList then
        ({ o with cerr := o.cerr ++ [.help] }, .returned false)
      else
        let found := if sw_len = 1 then (tkn[1]?).bind o.findAb else o.findLong (tkn.drop 2)
        match found.bind fun p => (o.decls[p]?).map fun d => (p, d) with
        | none => ({ o with cerr := o.cerr ++ [.badName tkn, .help] }, .returned false)
        | some (p, d) =>
          let o := if d.isSigned then { o with waiting := true } else o
          if d.kind = .presence then parseLoopT T (o.setPresent p d) none tokens
          else parseLoopT T o (some (p, d)) tokens

/-- `Options::parse(std::list<std::string>)`, src/Options.cxx:176-256. -/
def parseT (T : Tests V E) (o : Options V) (tokens : List Str) : Options V × Ret E := parseLoopT T o none tokens

end Options
end SoDa.Opts
