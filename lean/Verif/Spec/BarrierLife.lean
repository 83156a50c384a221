import Verif.Model.BarrierLife
import Verif.Spec.Barrier
/-!
Specification vocabulary for the life of a barrier.
-/
namespace SoDa.Spec
open Bar

variable {T : Type} [DecidableEq T]

/-- The events in which a thread uses the barrier object: everything in `wait` but the call and the return themselves. -/
def touches : Ev T → Bool
  | .call _ | .ret _ | .raise _ _ => false
  | _ => true

/-- How many pointers `u` has got, the first one from `makeBarrier` if it is `t`. -/
def obtained (t u : T) (as : List (Act T)) : Nat :=
  (if u = t then 1 else 0) + as.countP fun a => match a with
    | .copy _ v => v = u
    | _ => false

/-- How many it has let go. -/
def dropped (u : T) (as : List (Act T)) : Nat := as.countP fun a => match a with
  | .drop v _ => v = u
  | _ => false

/-- Nobody has a pointer any more. -/
def AllDropped (t : T) (as : List (Act T)) : Prop := ∀ u, obtained t u as = dropped u as

/-- Whether `a` destroys the barrier. -/
def destroys : Act T → Bool
  | .drop _ l => l
  | _ => false

end SoDa.Spec
