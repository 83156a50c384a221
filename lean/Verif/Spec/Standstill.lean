import Verif.Spec.TogetherHB
/-!
When a program with mailboxes and barriers stands still.
-/
namespace SoDa.Spec
open Together

variable {β P : Type} {n : β → Nat}

/-- A thread that is in a call executes its next statement (it does not begin a call, and is not woken up by the system). -/
def Proceeds : Lab β P n → Prop
  | .mail (.call _ _) => False
  | .mail _ => True
  | .bar _ s => s.mv = .go

/-- Thread `t` calls a method of a mailbox, or `wait` at a barrier. -/
def begins (thr : (b : β) → Fin (n b) → Nat) (t : Nat) : Lab β P n → Bool
  | .mail (.call t' _) => decide (t' = t)
  | .bar b ⟨_, _, .call u, _, _⟩ => decide (thr b u = t)
  | _ => false

/-- A call of thread `t` ends, normally or with an exception. -/
def finishes (thr : (b : β) → Fin (n b) → Nat) (t : Nat) : Lab β P n → Bool
  | .mail (.ret t' _ _) => decide (t' = t)
  | .bar b ⟨_, _, .ret u, _, _⟩ => decide (thr b u = t)
  | .bar b ⟨_, _, .raise u _, _, _⟩ => decide (thr b u = t)
  | _ => false

/-- Thread `t` is in a call after the steps `L`. -/
def InCall (thr : (b : β) → Fin (n b) → Nat) (t : Nat) (L : List (Lab β P n)) : Prop := L.countP (finishes thr t) < L.countP (begins thr t)

/-- The barriers at which thread `t` has called `wait`, in this order. -/
def waitsOf (thr : (b : β) → Fin (n b) → Nat) (t : Nat) (L : List (Lab β P n)) : List β :=
  L.filterMap fun
    | .bar b ⟨_, _, .call u, _, _⟩ => if thr b u = t then some b else none
    | _ => none

/-- Thread `t` is one of those the barrier `b` is for. -/
def uses (thr : (b : β) → Fin (n b) → Nat) (t : Nat) (b : β) : Bool := decide (∃ u, thr b u = t)

end SoDa.Spec

/-! Programs -/

namespace SoDa.Spec
open Together

variable {β P : Type} {n : β → Nat}

/-- What a thread calls: a method of a mailbox, or `wait` as number `u` at the barrier `b`. -/
inductive ToCall (β P : Type) (n : β → Nat) where
  | mail (o : Mail.Addr × Mail.Op P)
  | wait (b : β) (u : Fin (n b))

/-- The barrier of a call of `wait`. -/
def ToCall.barrier : ToCall β P n → Option β
  | .mail _ => none
  | .wait b _ => some b

/-- The call that thread `t` begins with this step. -/
def callOf (thr : (b : β) → Fin (n b) → Nat) (t : Nat) : Lab β P n → Option (ToCall β P n)
  | .mail (.call t' o) => if t' = t then some (.mail o) else none
  | .bar b ⟨_, _, .call u, _, _⟩ => if thr b u = t then some (.wait b u) else none
  | _ => none

/-- The calls thread `t` has made, in this order. -/
def callsOf (thr : (b : β) → Fin (n b) → Nat) (t : Nat) (L : List (Lab β P n)) : List (ToCall β P n) := L.filterMap (callOf thr t)

/-- After the steps `L` the program (for each thread a list of calls) can go no further: nobody can proceed, and nobody can make its next call. -/
def NoFurther [DecidableEq β] (thr : (b : β) → Fin (n b) → Nat) (prog : Nat → List (ToCall β P n)) (L : List (Lab β P n)) (c : Conf β P n) : Prop :=
  ∀ l c', Step thr c l c' → ¬ Proceeds l ∧ ∀ t x, callOf thr t l = some x → ¬ callsOf thr t L ++ [x] <+: prog t

end SoDa.Spec
