import Verif.Spec.TogetherFair
/-!
Scheduling as `std::mutex` promises it: nothing is said about who gets a mutex that several threads want.
-/
namespace SoDa.Spec
open Together

variable {β P : Type} [DecidableEq β] {n : β → Nat}

/-- As long as some thread can proceed, something happens again. -/
def KeepsGoing (thr : (b : β) → Fin (n b) → Nat) (st : Nat → Conf β P n) (ls : Nat → Option (Lab β P n)) : Prop :=
  ∀ i l c', Step thr (st i) l c' → Proceeds l → ∃ j, i ≤ j ∧ ls j ≠ none

/-- A thread that can proceed all the time from some time on (and not just again and again) does so at some time. -/
def WeaklyFair (thr : (b : β) → Fin (n b) → Nat) (st : Nat → Conf β P n) (ls : Nat → Option (Lab β P n)) : Prop :=
  ∀ t i, (∀ j, i ≤ j → ∃ l c', Step thr (st j) l c' ∧ Proceeds l ∧ stepThread thr l = t) →
    ∃ j, i ≤ j ∧ ∃ l, ls j = some l ∧ Proceeds l ∧ stepThread thr l = t

/-- After some time no thread is woken up without reason. -/
def FewSpurious (ls : Nat → Option (Lab β P n)) : Prop := ∃ N, ∀ i b s, N ≤ i → ls i = some (.bar b s) → s.mv ≠ .spurious

end SoDa.Spec
