import Verif.Model.FormatF
/-!
Model of `Format_ext<T>` (include/Format.hxx:556-618), the base class for user-defined formatters, with objects, copies
and dangling references.

`T` is a class like `MyFormat` of examples/FormatExample.cxx:13-26: it has no data members, its constructor passes `this`
for `p`, and its copy operations are the implicit ones.  Simplifications: addresses are natural numbers; a reference is the
address of the object; constructing an object at an address that is in use does not occur in C++ and is undefined here.
-/
namespace SoDa.Ext

/-- The `add` methods of `Format_ext` (585-614) with their arguments after conversion to the parameter types: `int v`
for `addI`, `unsigned int v` for `addU`. -/
inductive Call where
  | addI (v : Int) (w : Nat) (sep : Char)
  | addU (v : Nat) (fmt : Char) (w : Nat) (sep : Char) (groupCount : Nat)
  | addF (v : Dbl) (fmt : Char) (w sig : Nat)
  | addS (v : Str) (width : Int)
  | addC (c : Char)
  | addB (v : Bool)

/-- Arguments as written by the caller: integers of any type are converted to `int` (585), `unsigned int` (590). -/
def Call.addI' (v : Int) (w : Nat := 0) (sep : Char := nul) : Call := .addI (toI32 v) w sep

def Call.addU' (v : Nat) (fmt : Char := 'd') (w : Nat := 0) (sep : Char := nul) (groupCount : Nat := 4) : Call :=
  .addU (v % 4294967296) fmt w sep groupCount

/-- Arithmetic, iteration bound and `Format::separator`, as in `Fmt.addF`. -/
structure Env where
  arith : Arith
  fuel : Nat
  radix : Char

/-- What the wrapper does to its own `Format` part: `Format::addI(v, width, sep)` (586, `fill` is left at its default),
`Format::addU` (593), `Format::addF` (598), `Format::addS` (603), `Format::addC` (608), `Format::addB` (613). -/
def Call.onFormat (E : Env) (f : Fmt) : Call → Option (Res Empty Fmt)
  | .addI v w sep => some (.ok (f.addI v w sep))
  | .addU v fmt w sep g => some (.ok (f.addU v fmt w sep g))
  | .addF v fmt w sig => f.addF E.arith E.fuel E.radix v fmt w sig
  | .addS v width => some (f.addS v width)
  | .addC c => some (.ok (f.addC c))
  | .addB v => some (.ok (f.addB v))

/-- An object of class `T`: the `Format` base and `saved_ptr` (617). -/
structure Obj where
  fmt : Fmt
  saved : Nat

/-- The objects that exist. -/
abbrev Heap := Nat → Option Obj

def Heap.set (h : Heap) (a : Nat) (o : Option Obj) : Heap := fun b => if b = a then o else h b

/-- The expression `x.c1.c2…` for the object at `a`: each method works on its own object and returns `*saved_ptr`
(587, 594, 599, 604, 609, 614); calling a method of an object that does not exist is undefined. -/
def chain (E : Env) (h : Heap) (a : Nat) : List Call → Option (Res Empty (Heap × Nat))
  | [] => some (.ok (h, a))
  | c :: cs => match h a with
    | none => some .ub
    | some o => (c.onFormat E o.fmt).bind fun r => match r with
      | .ok f' => chain E (h.set a (some ⟨f', o.saved⟩)) o.saved cs
      | .throw e => some (.throw e)
      | .ub => some .ub

/-- Statements of a program that uses formatters of class `T`. -/
inductive Stmt where
  /-- `T a(fmt);`, 576-578 with `p = this`. -/
  | construct (a : Nat) (fmtString : Str)
  /-- `T a(b);`, implicit copy constructor. -/
  | copy (a b : Nat)
  /-- `a = b;`, implicit copy assignment. -/
  | assign (a b : Nat)
  /-- End of the lifetime of `a`. -/
  | destroy (a : Nat)
  /-- `a.c1.c2…;` -/
  | chain (a : Nat) (cs : List Call)
  /-- `a.reset();`, inherited from `Format`. -/
  | reset (a : Nat)

/-- Execution of one statement. -/
def Stmt.exec (E : Env) (h : Heap) : Stmt → Option (Res Empty Heap)
  | .construct a s => some (if (h a).isSome then .ub else .ok (h.set a (some ⟨Fmt.mk' s, a⟩)))
  | .copy a b => some (match h a, h b with
    | none, some o => .ok (h.set a (some ⟨o.fmt, o.saved⟩))
    | _, _ => .ub)
  | .assign a b => some (match h a, h b with
    | some _, some o => .ok (h.set a (some ⟨o.fmt, o.saved⟩))
    | _, _ => .ub)
  | .destroy a => some (if (h a).isSome then .ok (h.set a none) else .ub)
  | .chain a cs => (Ext.chain E h a cs).map fun r => r.map Prod.fst
  | .reset a => some (match h a with
    | some o => .ok (h.set a (some ⟨o.fmt.reset, o.saved⟩))
    | none => .ub)

/-- `h` arises from `h0` by executing the statements. -/
inductive Runs (E : Env) : Heap → List Stmt → Heap → Prop where
  | nil (h : Heap) : Runs E h [] h
  | cons {h h' h'' : Heap} {s : Stmt} {ss : List Stmt} (hs : s.exec E h = some (.ok h')) (hr : Runs E h' ss h'') :
      Runs E h (s :: ss) h''

/-- No object exists. -/
def Heap.empty : Heap := fun _ => none

end SoDa.Ext
