import Verif.Model.OptionsCopy
/-!
Model of the registration of options when a request for memory fails, i.e. when `operator new` throws `std::bad_alloc`
(include/Options.hxx:196, 229-320; src/Options.cxx:47-50, 287-293).  Nothing there catches it.

A registration asks for memory, in this order:

* for the option object, its documentation and error texts, its copy of the test function, and (for targets of type `std::string`) for
  the assignment of the default value (include/Options.hxx:240-243, 467-473, 547-556): if this fails, nothing has changed;
* `setNames` copies the long name into the object (src/Options.cxx:290; libstdc++: only if it has more than 15 characters);
* `long_map[long_name]` makes a node, if the name is not in the table (291);
* `ab_map[ab_name]` makes a node, if the letter is not in the table (292).

`addInfo` appends to a list (src/Options.cxx:48), which has no effect if it fails.

Simplifications: an option object that was made and destroyed again is not numbered; calls of `parse` do not run out of memory here.
-/
namespace SoDa.Opts

variable {V : Type}

/-- The request for memory that fails. -/
inductive RegFail where
  | make | names | long | ab
  deriving DecidableEq, Repr

/-- What a registration does: the assignment to the target, if there is one, and the option object.  include/Options.hxx:229-320,
544-639. -/
def OptCall.registration : OptCall V → Option (Option (Nat × V) × Decl V)
  | .addDef T val long ab dv doc test err =>
    some (some (val, dv),
      { long, ab, kind := .scalar, isSigned := T.signed, hasDefault := true, doc, err, target := val,
        read := T.read, readFail := T.readFail, test, mark := T.zero })
  | .add T val long ab doc test err =>
    some (some (val, T.zero),
      { long, ab, kind := .scalar, isSigned := T.signed, hasDefault := false, doc, err, target := val,
        read := T.read, readFail := T.readFail, test, mark := T.zero })
  | .addP ff tt val long ab doc =>
    some (some (val, ff),
      { long, ab, kind := .presence, isSigned := false, hasDefault := true, doc, err := [], target := val,
        read := fun _ => some tt, readFail := fun _ v => v, test := fun _ => true, mark := tt })
  | .addV T val long ab doc test err =>
    some (none,
      { long, ab, kind := .vector, isSigned := false, hasDefault := true, doc, err, target := val,
        read := T.read, readFail := T.readFail, test, mark := T.zero })
  | _ => none

/-- `*val = def_val`, `*val = T()`, `*val = false`: include/Options.hxx:555, 565, 619. -/
def assigned (a : Option (Nat × V)) (sc : Nat → V) : Nat → V :=
  match a with
  | some (val, v) => update sc val v
  | none => sc

/-- The object and the targets after a call in which a request for memory fails; `none`: the call does not make this request. -/
def OptCall.attempt (c : OptCall V) (o : Options V) (f : RegFail) : Option (Options V) :=
  match c.registration with
  | none =>
    match c, f with
    | .addInfo _, .make => some o
    | _, _ => none
  | some (a, d) =>
    match f with
    | .make => some o
    | .names => if 15 < d.long.length then some { o with sc := assigned a o.sc } else none
    | .long => if o.findLong d.long = none then some { o with sc := assigned a o.sc } else none
    | .ab =>
      if o.findAb d.ab = none then
        some { o with
          sc := assigned a o.sc
          decls := o.decls ++ [d]
          pres := update o.pres o.decls.length false
          longMap := mapSet strLess d.long o.decls.length o.longMap }
      else none

/-- A call that is tried again each time it runs out of memory. -/
def OptCall.tried (c : OptCall V) (o : Options V) : List RegFail → Res Empty (Options V × Bool)
  | [] => c.run o
  | f :: fs =>
    match c.attempt o f with
    | some o' => c.tried o' fs
    | none => c.run o

/-- A program that tries every call again, with what the calls return. -/
def Options.tryAll (o : Options V) : List (OptCall V × List RegFail) → Res Empty (Options V × List Bool)
  | [] => .ok (o, [])
  | (c, fs) :: rest =>
    (c.tried o fs).bind fun r => (r.1.tryAll rest).bind fun q => .ok (q.1, r.2 :: q.2)

end SoDa.Opts
