import Verif.Model.Monitor
/-!
Infinite executions of threads that call the methods of one object protected by a mutex, and fair scheduling.
-/
namespace SoDa.Spec
open Monitor

variable {T S O R : Type} [DecidableEq T]

/-- An infinite execution: the states, and what happens at each time; `none`: nothing at the object. -/
structure Forever (body : O → Body S R) (s0 : S) (σ : Nat → Conf T S O R) (act : Nat → Option (Label T O R)) : Prop where
  init : σ 0 = Conf.init s0
  some : ∀ i l, act i = some l → Step body (σ i) l (σ (i + 1))
  none : ∀ i, act i = none → σ (i + 1) = σ i

/-- The first steps. -/
def upTo (act : Nat → Option (Label T O R)) (i : Nat) : List (Label T O R) := (List.range i).filterMap act

/-- The step belongs to a call of a method by the thread, and is not the decision to call one. -/
def worksOn (t : T) : Label T O R → Bool
  | .call _ _ => false
  | .lock u => u = t
  | .act u => u = t
  | .unlock u _ _ => u = t
  | .ret u _ _ => u = t

/-- A thread that can go on in its call again and again (the mutex can be taken when nobody has it) goes on at some time. -/
def FairWork (body : O → Body S R) (σ : Nat → Conf T S O R) (act : Nat → Option (Label T O R)) : Prop :=
  ∀ t, (∀ i, ∃ j, i ≤ j ∧ ∃ l c, worksOn t l = true ∧ Step body (σ j) l c) →
    ∀ i, ∃ j, i ≤ j ∧ ∃ l, act j = some l ∧ worksOn t l = true

end SoDa.Spec
