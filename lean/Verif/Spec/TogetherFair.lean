import Verif.Spec.Standstill
/-!
Infinite executions of programs with mailboxes and barriers, and fair scheduling.
-/
namespace SoDa.Spec
open Together

variable {β P : Type} [DecidableEq β] {n : β → Nat}

/-- An infinite execution: the states, and what happens at each time; `none`: nothing at mailboxes and barriers. -/
structure Endless (thr : (b : β) → Fin (n b) → Nat) (name : Mail.Addr → Str) (st : Nat → Conf β P n) (ls : Nat → Option (Lab β P n)) : Prop where
  init : st 0 = Conf.init name
  some : ∀ i l, ls i = some l → Step thr (st i) l (st (i + 1))
  none : ∀ i, ls i = none → st (i + 1) = st i

/-- The steps before time `i`. -/
def firstSteps (ls : Nat → Option (Lab β P n)) (i : Nat) : List (Lab β P n) := (List.range i).filterMap ls

/-- A thread that can proceed in its call again and again (a mutex can be taken when nobody has it) proceeds at some time. -/
def FairThreads (thr : (b : β) → Fin (n b) → Nat) (st : Nat → Conf β P n) (ls : Nat → Option (Lab β P n)) : Prop :=
  ∀ t, (∀ i, ∃ j, i ≤ j ∧ ∃ l c', Step thr (st j) l c' ∧ Proceeds l ∧ stepThread thr l = t) →
    ∀ i, ∃ j, i ≤ j ∧ ∃ l, ls j = some l ∧ Proceeds l ∧ stepThread thr l = t

/-- The threads make the calls of the program, in order, and a thread that is in no call makes its next call at some time. -/
def CallsInTurn (thr : (b : β) → Fin (n b) → Nat) (prog : Nat → List (ToCall β P n)) (ls : Nat → Option (Lab β P n)) : Prop :=
  (∀ t i, callsOf thr t (firstSteps ls i) <+: prog t) ∧
  ∀ t i, ¬ InCall thr t (firstSteps ls i) → callsOf thr t (firstSteps ls i) ≠ prog t →
    ∃ j, i ≤ j ∧ (callsOf thr t (firstSteps ls i)).length < (callsOf thr t (firstSteps ls j)).length

end SoDa.Spec
