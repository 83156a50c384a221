import Verif.Model.OptionsCopy
/-!
Specification vocabulary for programs with several `Options` objects.  From the model the actions,
the calls and what a call does to *one* object are used; nothing here mentions the world the
objects share.
-/
namespace SoDa.Spec
open Opts

variable {V : Type}

/-- What made each object what it is: the argument of the constructor and the calls since.  A copy
takes over the past of the object it was copied from. -/
def pastStep (h : Nat → Option (Bool × List (OptCall V))) : OptAct V → Nat → Option (Bool × List (OptCall V))
  | .new i k => fun x => if x = i then some (k, []) else h x
  | .copy i j => fun x => if x = j then h i else h x
  | .assign i j => fun x => if x = i then h j else h x
  | .destroy i => fun x => if x = i then none else h x
  | .call i c => fun x => if x = i then (h i).map fun y => (y.1, y.2 ++ [c]) else h x

def past (as : List (OptAct V)) : Nat → Option (Bool × List (OptCall V)) :=
  as.foldl pastStep fun _ => none

/-- A single object, one call after the other. -/
inductive Lives : Options V → List (OptCall V) → Options V → Prop
  | nil (o) : Lives o [] o
  | snoc {o o' o'' c b cs} : Lives o cs o' → c.run o' = .ok (o'', b) → Lives o (cs ++ [c]) o''

/-- The object was neither copied nor assigned in the program, as source or as destination. -/
def Alone (as : List (OptAct V)) (j : Nat) : Prop :=
  ∀ i, OptAct.copy i j ∉ as ∧ OptAct.copy j i ∉ as ∧ OptAct.assign i j ∉ as ∧ OptAct.assign j i ∉ as

/-- The call registers an option whose target is the variable at `a`. -/
def Registers (a : Nat) : OptCall V → Prop
  | .addDef _ val _ _ _ _ _ _ | .add _ val _ _ _ _ _ | .addP _ _ val _ _ _ | .addV _ val _ _ _ _ _ => val = a
  | _ => False

/-- The variable at `a` belongs to the object `j`, which exists once: no other object has an option
with this target. -/
def Owns (as : List (OptAct V)) (j a : Nat) : Prop :=
  Alone as j ∧ OptAct.destroy j ∉ as ∧ ∀ i c, OptAct.call i c ∈ as → i ≠ j → ¬ Registers a c

/-- Two objects give the same positional arguments and the same help, and the answer and the
messages of the next call, whatever it is, are the same. -/
structure Alike (o1 o2 : Options V) : Prop where
  posArgs : o1.getPosArgs = o2.getPosArgs
  help : o1.printHelp = o2.printHelp
  next : ∀ c : OptCall V, (c.run o1 = .ub ∧ c.run o2 = .ub) ∨
    ∃ o1' o2' b msgs, c.run o1 = .ok (o1', b) ∧ c.run o2 = .ok (o2', b) ∧
      o1'.cerr = o1.cerr ++ msgs ∧ o2'.cerr = o2.cerr ++ msgs

/-- Two objects report the same options as present. -/
def SamePresence (o1 o2 : Options V) : Prop :=
  (∀ n, o1.isPresent n = o2.isPresent n) ∧ ∀ c, o1.isPresentAb c = o2.isPresentAb c

/-- The call does not register anything. -/
def NoRegistration (c : OptCall V) : Prop := ∀ a, ¬ Registers a c

/-- The information lines given by the calls, in this order. -/
def infoLines (cs : List (OptCall V)) : List Str :=
  cs.filterMap fun | .addInfo s => some s | _ => none

/-- What a call registers: long name, short name and description. -/
def registered : OptCall V → Option (Str × Char × Str)
  | .addDef _ _ long ab _ doc _ _ | .add _ _ long ab doc _ _ | .addP _ _ _ long ab doc
  | .addV _ _ long ab doc _ _ => some (long, ab, doc)
  | _ => none

/-- The line of the help for an option: for key-value lines the name between tabs; else the long
name, padded to 20 characters, and the short name. -/
def helpText (isKvp : Bool) (x : Str × Char × Str) : Str :=
  if isKvp then "\t".toList ++ x.1 ++ "\t".toList ++ x.2.2 ++ "\n".toList
  else "   --".toList ++ (x.1 ++ List.replicate (20 - x.1.length) ' ') ++ " -".toList ++ [x.2.1] ++
    "     ".toList ++ x.2.2 ++ "\n".toList

end SoDa.Spec
