import Verif.Model.Together
import Verif.Spec.MonitorsHB
import Verif.Spec.Barrier
/-!
Happens-before for programs with mailboxes and barriers: the mutexes of all objects order the steps as the one mutex of HappensBefore.lean does,
and the relation is transitive.
-/
namespace SoDa.Spec
open Monitor (Label)
open Together

variable {β P : Type} [DecidableEq β] {n : β → Nat}

/-- The steps at mailboxes. -/
def atMail : Lab β P n → Option (Label Nat (Mail.Addr × Mail.Op P) (Mail.Resp P))
  | .mail l => some l
  | .bar _ _ => none

/-- The steps at the barrier `b`. -/
def atBar (b : β) : Lab β P n → Option (BarStep (n b))
  | .mail _ => none
  | .bar b' s => if h : b' = b then some (h ▸ s) else none

/-- The thread of a step at a mailbox. -/
def threadOf {O R : Type} : Label Nat O R → Nat
  | .call t _ => t
  | .lock t => t
  | .act t => t
  | .unlock t _ _ => t
  | .ret t _ _ => t

/-- The thread of a step. -/
def stepThread (thr : (b : β) → Fin (n b) → Nat) : Lab β P n → Nat
  | .mail l => threadOf l
  | .bar b s => thr b s.who

/-- What a step with this owner before and after it does to a mutex. -/
def syncBy {T : Type} : Option T → Option T → Sync
  | none, some _ => .acquire
  | some _, none => .release
  | _, _ => .other

/-- What a step does to the mutex of the mailbox `a`; `before` are the steps before it. -/
def syncMail (a : Mail.Addr) (before : List (Lab β P n)) (l : Lab β P n) : Sync :=
  match atMail l with
  | some m => (actOf a (before.filterMap atMail) m).sync
  | none => .other

/-- What a step does to the mutex of the barrier `b`. -/
def syncBar (b : β) (l : Lab β P n) : Sync :=
  match atBar b l with
  | some s => syncBy s.before s.after
  | none => .other

/-- The steps of an execution, as the mutex of one object sees them. -/
def actTogether (thr : (b : β) → Fin (n b) → Nat) (L : List (Lab β P n)) : Mail.Addr ⊕ β → Nat → Option (Act Nat)
  | .inl a, i => L[i]?.map fun l => ⟨stepThread thr l, syncMail a (L.take i) l⟩
  | .inr b, i => L[i]?.map fun l => ⟨stepThread thr l, syncBar b l⟩

/-- Step number `i` happens before step number `j`. -/
inductive HBAll (thr : (b : β) → Fin (n b) → Nat) (L : List (Lab β P n)) : Nat → Nat → Prop where
  | one {o i j} (h : HB (actTogether thr L o) i j) : HBAll thr L i j
  | trans {i j k} (h1 : HBAll thr L i j) (h2 : HBAll thr L j k) : HBAll thr L i k

/-- The events at the barrier `b`. -/
def barEvents (b : β) (L : List (Lab β P n)) : List (Bar.Ev (Fin (n b))) := (L.filterMap (atBar b)).map (·.ev)

end SoDa.Spec
