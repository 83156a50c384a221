import Verif.Spec.Barrier
/-!
Infinite executions of threads at a barrier, and fair scheduling.
-/
namespace SoDa.Spec
open Bar

variable {T : Type} [DecidableEq T]

/-- An infinite execution: the states, and what happens at each time; `none`: nothing at the barrier (the threads do other things). -/
structure Infinite (n : Nat) (σ : Nat → Conf T) (act : Nat → Option (T × Move × Ev T)) : Prop where
  init : σ 0 = Conf.init
  some : ∀ i t m e, act i = some (t, m, e) → step n (σ i) t m = some (σ (i + 1), e)
  none : ∀ i, act i = none → σ (i + 1) = σ i

/-- What can be seen of the first `i` steps. -/
def happened (act : Nat → Option (T × Move × Ev T)) (i : Nat) : List (Ev T) :=
  (List.range i).filterMap fun j => (act j).map fun a => a.2.2

/-- A thread that can execute its next statement again and again executes it at some time.  (The statement that takes the mutex can be
executed while nobody has the mutex.) -/
def Fair (n : Nat) (σ : Nat → Conf T) (act : Nat → Option (T × Move × Ev T)) : Prop :=
  ∀ t, (∀ i, ∃ j, i ≤ j ∧ (step n (σ j) t .go).isSome) → ∀ i, ∃ j, i ≤ j ∧ ∃ e, act j = some (t, .go, e)

/-- The deadline of a thread that stays in one call of `wait`, and sleeps in it again and again (however often it is woken up), passes
at some time while it sleeps. -/
def DeadlinesPass (σ : Nat → Conf T) (act : Nat → Option (T × Move × Ev T)) : Prop :=
  ∀ t i, (∀ j, i ≤ j → (σ j).pc t ≠ .idle) → (∀ j, i ≤ j → ∃ l, j ≤ l ∧ ∃ old, (σ l).pc t = .waitCv old) →
    ∃ j, i ≤ j ∧ ∃ e, act j = some (t, .deadline, e)

end SoDa.Spec
