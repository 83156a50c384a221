import Verif.Model.Options
/-!
Model of `Options::parse(std::list<std::string>)` (src/Options.cxx:176-256) when a request for memory fails inside the loop, i.e. when
`operator new` throws `std::bad_alloc`: the handlers (244-252) do not catch it, the caller gets it.

While it deals with one token the loop asks for memory

* for its copy of the token (180), for conversions of values (include/Options.hxx:499, 507, 511, 527; 568-574), for the positional
  argument (205) and for the new element of a vector (include/Options.hxx:604): if one of these fails, the state is that of before the
  token (`ParsePoint.start`);
* for the argument of the test function and for the text of `BadOptValueException`, after the variable was assigned (include/Options.hxx:
  500-502, 570-572): `ParsePoint.value`;
* for the name looked up (229), the text of `BadOptionNameException` (233) and the lines of the help (219, 226, 250), after the option
  before was marked as present (209-212): `ParsePoint.released`.

Simplifications: what such a call had already written to `std::cerr` is not recorded.  Before the loop (building the list of tokens)
nothing has changed yet; this is the failure at token 0.  The other overloads of `parse` and `parseKeyValue` build the list of tokens
first and change nothing meanwhile (src/Options.cxx:85-132, 162-174, 300-333).
-/
namespace SoDa.Opts

variable {V : Type}

/-- How far the loop is with the token at which memory runs out. -/
inductive ParsePoint where
  | start | value | released
  deriving DecidableEq, Repr

namespace Options

/-- `sw_len`, src/Options.cxx:183-191. -/
def swLen (o : Options V) (arg : Option (Nat × Decl V)) (tkn : Str) : Nat :=
  match arg with
  | none => isSwitch o.waiting tkn
  | some (_, d) => if d.hasDefault then isSwitch o.waiting tkn else 0

/-- The option before is marked as present, src/Options.cxx:209-214. -/
def release (o : Options V) : Option (Nat × Decl V) → Options V
  | some (p, d) => { o.setPresent p d with waiting := d.isSigned }
  | none => o

/-- One pass of the loop, src/Options.cxx:179-241: the state and `arg_p` afterwards, or what the function returns. -/
def parseStep (o : Options V) (arg : Option (Nat × Decl V)) (tkn : Str) : (Options V × Option (Nat × Decl V)) ⊕ (Options V × Bool) :=
  if o.swLen arg tkn = 0 then
    match arg with
    | some (p, d) =>
      match o.setVal p d tkn with
      | (o', true) => .inl ({ o' with waiting := false }, none)
      | (o', false) => .inr ({ o' with cerr := o'.cerr ++ [.badValue d.long tkn d.err] }, false)
    | none => .inl ({ o with pos := o.pos ++ [tkn] }, none)
  else
    let sw_len := o.swLen arg tkn
    let o := o.release arg
    if sw_len = 1 ∧ tkn[1]? = some 'h' then .inr ({ o with cerr := o.cerr ++ [.help] }, false)
    else if sw_len ≠ 1 ∧ tkn = "--help".toList then .inr ({ o with cerr := o.cerr ++ [.help] }, false)
    else
      let found := if sw_len = 1 then (tkn[1]?).bind o.findAb else o.findLong (tkn.drop 2)
      match found.bind fun p => (o.decls[p]?).map fun d => (p, d) with
      | none => .inr ({ o with cerr := o.cerr ++ [.badName tkn, .help] }, false)
      | some (p, d) =>
        let o := if d.isSigned then { o with waiting := true } else o
        if d.kind = .presence then .inl (o.setPresent p d, none) else .inl (o, some (p, d))

/-- The state when memory runs out at the token; `none`: nothing is asked for at this point. -/
def outOfMemory (o : Options V) (arg : Option (Nat × Decl V)) (tkn : Str) : ParsePoint → Option (Options V)
  | .start => some o
  | .value =>
    if o.swLen arg tkn = 0 then
      match arg with
      | some (_, d) =>
        if d.kind = .scalar then
          some { o with sc := update o.sc d.target (match d.read tkn with
            | some v => v
            | none => d.readFail tkn (o.sc d.target)) }
        else none
      | none => none
    else none
  | .released =>
    if o.swLen arg tkn = 0 then none else some (o.release arg)

/-- The state when memory runs out at token number `n`; `none`: the loop does not get there. -/
def parseLoopFails (o : Options V) (arg : Option (Nat × Decl V)) : List Str → Nat → ParsePoint → Option (Options V)
  | [], _, _ => none
  | tkn :: _, 0, pt => o.outOfMemory arg tkn pt
  | tkn :: tokens, n + 1, pt =>
    match o.parseStep arg tkn with
    | .inl (o', arg') => o'.parseLoopFails arg' tokens n pt
    | .inr _ => none

/-- A call of `parse` that throws `std::bad_alloc`. -/
def parseFails (o : Options V) (tokens : List Str) (n : Nat) (pt : ParsePoint) : Option (Options V) := o.parseLoopFails none tokens n pt

/-- The call of `parse(std::list<std::string>)` that a call of `parse(int, char **)` or `parse(const std::string &)` ends with
(src/Options.cxx:162-174, 300-333); `none`: there is none, the result is `false`. -/
def tokensOf (isKvp : Bool) : Str ⊕ List Str → Res Empty (Option (List Str))
  | .inl s =>
    if isKvp then
      if s.length = 0 then .ok none
      else (split s ",".toList).bind fun l => if l.length = 0 then .ok none else (kvTokens l).bind fun ts => .ok (some ts)
    else .ok (some (tokensString s))
  | .inr argv => if isKvp then (kvTokens (tokensArgv argv)).bind fun ts => .ok (some ts) else .ok (some (tokensArgv argv))

/-- `parse(const std::string &)` or `parse(int, char **)`, src/Options.cxx:162-174. -/
def parseAny (o : Options V) : Str ⊕ List Str → Res Empty (Options V × Bool)
  | .inl s => o.parseString s
  | .inr argv => o.parseArgv argv

/-- Such a call that throws `std::bad_alloc`: while the list of tokens is built, or in the loop over it (at token number `n`). -/
def parseAnyFails (o : Options V) (a : Str ⊕ List Str) : Option (Nat × ParsePoint) → Option (Options V)
  | none => some o
  | some (n, pt) =>
    match tokensOf o.isKvp a with
    | .ok (some ts) => o.parseFails ts n pt
    | _ => none

end Options
end SoDa.Opts
