import Verif.Spec.OptionsCopy
/-!
Specification vocabulary: which options copies of an `Options` object report as present.
-/
namespace SoDa.Spec
open Opts

variable {V : Type}

/-- As `pastStep`, with the time of every call. -/
def storyStep (h : Nat → Option (Bool × List (Nat × OptCall V))) :
    OptAct V × Nat → Nat → Option (Bool × List (Nat × OptCall V))
  | (.new i k, _) => fun x => if x = i then some (k, []) else h x
  | (.copy i j, _) => fun x => if x = j then h i else h x
  | (.assign i j, _) => fun x => if x = i then h j else h x
  | (.destroy i, _) => fun x => if x = i then none else h x
  | (.call i c, t) => fun x => if x = i then (h i).map fun y => (y.1, y.2 ++ [(t, c)]) else h x

/-- The past of every object: the argument of the constructor, and the calls with their times.  The time of a call
is its place in the program. -/
def story (as : List (OptAct V)) : Nat → Option (Bool × List (Nat × OptCall V)) :=
  as.zipIdx.foldl storyStep fun _ => none

/-- The time of the last registration with property `f` (of long name, letter and description). -/
def lastTime (f : Str × Char × Str → Bool) (cs : List (Nat × OptCall V)) : Option Nat :=
  (cs.filter fun x => (registered x.2).any f).getLast?.map (·.1)

/-- In this past, the option with this long name is the one registered at time `t`. -/
def LongAt (cs : List (Nat × OptCall V)) (n : Str) (t : Nat) : Prop := lastTime (fun x => x.1 == n) cs = some t

/-- In this past, the option with this letter is the one registered at time `t`. -/
def LetterAt (cs : List (Nat × OptCall V)) (c : Char) (t : Nat) : Prop := lastTime (fun x => x.2.1 == c) cs = some t

/-- At some moment of the program there was an object that, if it had lived by itself, would have reported the
option registered at time `t` as present. -/
def Given (sc : Nat → V) (vec : Nat → List V) (as : List (OptAct V)) (t : Nat) : Prop :=
  ∃ s ≤ as.length, ∃ i k cs o, story (as.take s) i = some (k, cs) ∧ Lives (Options.new k sc vec) (cs.map (·.2)) o ∧
    ((∃ n, LongAt cs n t ∧ o.isPresent n = true) ∨ ∃ c, LetterAt cs c t ∧ o.isPresentAb c = true)

end SoDa.Spec
