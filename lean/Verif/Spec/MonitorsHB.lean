import Verif.Model.Monitors
import Verif.Spec.HappensBefore
/-!
Happens-before for threads that call methods of several objects, each protected by its own mutex: the mutexes order the steps as the one mutex
of HappensBefore.lean does, and the relation is transitive.
-/
namespace SoDa.Spec
open Monitor (Label)

variable {T A O R : Type} [DecidableEq T] [DecidableEq A]

/-- The object of the last call of thread `t` among these steps. -/
def lastObject (t : T) (ls : List (Label T (A × O) R)) : Option A :=
  (ls.filterMap fun l => match l with | .call u o => if u = t then some o.1 else none | _ => none).getLast?

/-- What a step does to the mutex of the object `a`; `before` are the steps before it. -/
def actOf (a : A) (before : List (Label T (A × O) R)) : Label T (A × O) R → Act T
  | .call t _ => ⟨t, .other⟩
  | .lock t => ⟨t, if lastObject t before = some a then .acquire else .other⟩
  | .act t => ⟨t, .other⟩
  | .unlock t o _ => ⟨t, if o.1 = a then .release else .other⟩
  | .ret t _ _ => ⟨t, .other⟩

/-- Step number `i` of an execution. -/
def actOn (a : A) (ls : List (Label T (A × O) R)) (i : Nat) : Option (Act T) := ls[i]?.map (actOf a (ls.take i))

/-- Step number `i` happens before step number `j`. -/
inductive HBMany (ls : List (Label T (A × O) R)) : Nat → Nat → Prop where
  | one {a i j} (h : HB (actOn a ls) i j) : HBMany ls i j
  | trans {i j k} (h1 : HBMany ls i j) (h2 : HBMany ls j k) : HBMany ls i k

end SoDa.Spec
