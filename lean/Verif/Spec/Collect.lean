import Verif.Spec.Linear
import Verif.Spec.TogetherHB
/-!
How many messages a subscriber can count on, from what the threads see.
-/
namespace SoDa.Spec
open Mail

variable {T P : Type}

/-- The call ends the subscription or throws its mail away. -/
def EndsMail (s : Sub) : Op P → Prop
  | .clear s' => s' = some s
  | .unsubscribe i => i = s.idx
  | .drop s' => s'.idx = s.idx
  | _ => False

/-- A call of `get` for the subscription. -/
def callsGet (s : Sub) : SeenEv T (Op P) (Resp P) → Bool
  | .call _ (.get (some s')) => decide (s' = s)
  | _ => false

/-- No null pointer is put. -/
def PutsNoNull : Op P → Prop
  | .put m _ => m ≠ none
  | _ => True

end SoDa.Spec

/-! In programs with barriers -/

namespace SoDa.Spec
open Mail Together

variable {β P : Type} {n : β → Nat}

/-- The call of `o` on the mailbox `a` that thread `t` makes at step `k` returns `r` at step `j`. -/
def ReturnsAt (L : List (Lab β P n)) (k j t : Nat) (a : Addr) (o : Op P) (r : Resp P) : Prop :=
  L[k]? = some (.mail (.call t (a, o))) ∧ L[j]? = some (.mail (.ret t (a, o) r)) ∧ k < j ∧
    ∀ x, k < x → x < j → (∀ o', L[x]? ≠ some (.mail (.call t o'))) ∧ ∀ o' r', L[x]? ≠ some (.mail (.ret t o' r'))

/-- A step that calls `get` for the subscription `s` of the mailbox `a`. -/
def asksFor (a : Addr) (s : Sub) : Lab β P n → Bool
  | .mail (.call _ (a', .get (some s'))) => decide (a' = a ∧ s' = s)
  | _ => false

/-- Up to step `j`, nobody calls anything that ends the subscription or throws its mail away, and no null pointer is put into the mailbox. -/
def Undisturbed (L : List (Lab β P n)) (a : Addr) (s : Sub) (j : Nat) : Prop :=
  ∀ x t o, x < j → L[x]? = some (.mail (.call t (a, o))) → ¬ EndsMail s o ∧ PutsNoNull o

/-- At step `w`, thread number `u` of the barrier `b` calls `wait` for the time `g` (counted from 0). -/
def WaitsAt (L : List (Lab β P n)) [DecidableEq β] (b : β) (u : Fin (n b)) (g w : Nat) : Prop :=
  ∃ s, L[w]? = some (.bar b s) ∧ s.ev = .call u ∧ callsBy u (barEvents b (L.take w)) = g

/-- At step `w`, `wait` returns to thread number `u` for the time `g`. -/
def PassesAt (L : List (Lab β P n)) [DecidableEq β] (b : β) (u : Fin (n b)) (g w : Nat) : Prop :=
  ∃ s, L[w]? = some (.bar b s) ∧ s.ev = .ret u ∧ returnsTo u (barEvents b (L.take w)) = g

end SoDa.Spec
