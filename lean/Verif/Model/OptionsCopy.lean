import Verif.Model.Options
/-!
Several `SoDa::Options` objects in one program, some of them copies of others.

`class Options` declares neither a copy constructor nor an assignment operator nor a destructor
(include/Options.hxx:169-661), so the implicit ones copy, assign and destroy the members one by
one.  The members are the two maps of `std::shared_ptr<OptBase>`, the information lines, the
positional arguments and two flags (include/Options.hxx:651-661).  Copying a `shared_ptr` does not
copy the option object: a copy of an `Options` object refers to the *same* option objects, and
their `present` flags are in the option objects (include/Options.hxx:489-494).

Conventions and simplifications.

* `World` holds what the objects have in common: the option objects ever created (`decls`,
  `pres`), the target variables (`sc`, `vec`) and the standard error stream.  Objects are named by
  numbers.
* An option object without references is not removed (nothing can observe it any more).
* Every call of a member function is the function of `Model/Options.lean`, applied to the members
  of the object and the shared part (`World.view`, `World.put`).
* Using an object that does not exist, or creating one under a name in use, is `ub`.
* Move construction and move assignment are not modelled: what they leave in the source is not
  specified.
-/
namespace SoDa.Opts

variable {V : Type}

/-- The members of an `Options` object, include/Options.hxx:651-661. -/
structure Members where
  longMap : List (Str × Nat)
  abMap : List (Char × Nat)
  info : List Str
  pos : List Str
  isKvp : Bool
  waiting : Bool

/-- The objects, the option objects they refer to, the target variables and `std::cerr`. -/
structure World (V : Type) where
  objs : Nat → Option Members
  decls : List (Decl V)
  pres : Nat → Bool
  sc : Nat → V
  vec : Nat → List V
  cerr : List Diag

/-- A call of a member function that changes something: include/Options.hxx:180-440. -/
inductive OptCall (V : Type) where
  | addInfo (s : Str)
  | addDef (T : Ty V) (val : Nat) (long : Str) (ab : Char) (def_val : V) (doc : Str)
      (test : V → Bool) (err : Str)
  | add (T : Ty V) (val : Nat) (long : Str) (ab : Char) (doc : Str) (test : V → Bool) (err : Str)
  | addP (ff tt : V) (val : Nat) (long : Str) (ab : Char) (doc : Str)
  | addV (T : Ty V) (val : Nat) (long : Str) (ab : Char) (doc : Str) (test : V → Bool) (err : Str)
  | parse (tokens : List Str)
  | parseArgv (argv : List Str)
  | parseString (s : Str)
  | parseKeyValue (s : Str)
  | parseKeyValueList (l : List Str)

/-- The call on one object; what it returns is `true` for the functions that return `*this`. -/
def OptCall.run : OptCall V → Options V → Res Empty (Options V × Bool)
  | .addInfo s, o => .ok (o.addInfo s, true)
  | .addDef T val long ab dv doc test err, o => .ok (o.addDef T val long ab dv doc test err, true)
  | .add T val long ab doc test err, o => .ok (o.add T val long ab doc test err, true)
  | .addP ff tt val long ab doc, o => .ok (o.addP ff tt val long ab doc, true)
  | .addV T val long ab doc test err, o => .ok (o.addV T val long ab doc test err, true)
  | .parse ts, o => .ok (o.parse ts)
  | .parseArgv a, o => o.parseArgv a
  | .parseString s, o => o.parseString s
  | .parseKeyValue s, o => o.parseKeyValue s
  | .parseKeyValueList l, o => o.parseKeyValueList l

/-- What a program does with its `Options` objects. -/
inductive OptAct (V : Type) where
  /-- `Options i(is_kvp);` src/Options.cxx:42-45 -/
  | new (i : Nat) (isKvp : Bool)
  /-- `Options j(i);` the implicit copy constructor -/
  | copy (i j : Nat)
  /-- `i = j;` the implicit copy assignment -/
  | assign (i j : Nat)
  /-- the implicit destructor -/
  | destroy (i : Nat)
  /-- `i.f(...)` -/
  | call (i : Nat) (c : OptCall V)

namespace World

/-- The object with members `m` as an `Options` of `Model/Options.lean`. -/
def view (w : World V) (m : Members) : Options V :=
  { decls := w.decls, pres := w.pres, longMap := m.longMap, abMap := m.abMap, info := m.info,
    pos := m.pos, isKvp := m.isKvp, waiting := m.waiting, sc := w.sc, vec := w.vec,
    cerr := w.cerr }

/-- The object `i` after a call that left it as `o`. -/
def put (w : World V) (i : Nat) (o : Options V) : World V :=
  { objs := update w.objs i (some ⟨o.longMap, o.abMap, o.info, o.pos, o.isKvp, o.waiting⟩)
    decls := o.decls, pres := o.pres, sc := o.sc, vec := o.vec, cerr := o.cerr }

/-- The call `c` on object `i`, with what it returns. -/
def call (w : World V) (i : Nat) (c : OptCall V) : Res Empty (World V × Bool) :=
  match w.objs i with
  | none => .ub
  | some m => (c.run (w.view m)).bind fun r => .ok (w.put i r.1, r.2)

/-- One action. -/
def act (w : World V) : OptAct V → Res Empty (World V)
  | .new i k =>
    match w.objs i with
    | some _ => .ub
    | none => .ok { w with objs := update w.objs i (some ⟨[], [], [], [], k, false⟩) }
  | .copy i j =>
    match w.objs i, w.objs j with
    | some m, none => .ok { w with objs := update w.objs j (some m) }
    | _, _ => .ub
  | .assign i j =>
    match w.objs i, w.objs j with
    | some _, some m => .ok { w with objs := update w.objs i (some m) }
    | _, _ => .ub
  | .destroy i =>
    match w.objs i with
    | some _ => .ok { w with objs := update w.objs i none }
    | none => .ub
  | .call i c => (w.call i c).bind fun r => .ok r.1

/-- A program. -/
def acts (w : World V) : List (OptAct V) → Res Empty (World V)
  | [] => .ok w
  | a :: as => (w.act a).bind fun w' => w'.acts as

/-- Before the first object is created. -/
def start (sc : Nat → V) (vec : Nat → List V) : World V :=
  { objs := fun _ => none, decls := [], pres := fun _ => false, sc, vec, cerr := [] }

end World
end SoDa.Opts
