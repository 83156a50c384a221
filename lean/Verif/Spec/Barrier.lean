import Verif.Model.Barrier
/-!
Specification vocabulary for the barrier: counts of the visible events of an execution.
-/
namespace SoDa.Spec
open Bar

variable {T : Type} [DecidableEq T]

/-- How often `t` has called `wait`. -/
def callsBy (t : T) (evs : List (Ev T)) : Nat := evs.countP fun e => e = .call t

/-- How often `wait` has returned normally to `t`. -/
def returnsTo (t : T) (evs : List (Ev T)) : Nat := evs.countP fun e => e = .ret t

/-- The calls of `wait` that have ended, normally or not. -/
def endsOf (t : T) (evs : List (Ev T)) : Nat := evs.countP fun e => match e with
  | .ret u => u = t
  | .raise u _ => u = t
  | _ => false

/-- All calls. -/
def allCalls (evs : List (Ev T)) : Nat := evs.countP fun e => match e with
  | .call _ => true
  | _ => false

/-- All normal returns. -/
def allReturns (evs : List (Ev T)) : Nat := evs.countP fun e => match e with
  | .ret _ => true
  | _ => false

/-- No thread reached its deadline. -/
def NoDeadline (evs : List (Ev T)) : Prop := ∀ t, Ev.deadline t ∉ evs

/-- Every thread arrived at the barrier in the generation in which it read `barrier_count`. -/
def AllFresh (evs : List (Ev T)) : Prop := ∀ t, Ev.arrive t false ∉ evs

/-- How often `t` has entered the barrier: got its mutex and been counted. -/
def entered (t : T) (evs : List (Ev T)) : Nat := evs.countP fun e => match e with
  | .arrive u _ => u = t
  | _ => false

/-- How often the barrier has been entered. -/
def allEntered (evs : List (Ev T)) : Nat := evs.countP fun e => match e with
  | .arrive _ _ => true
  | _ => false

/-- How often a thread entered the barrier after the generation whose number it had read was complete. -/
def overtakings (evs : List (Ev T)) : Nat := evs.countP fun e => match e with
  | .arrive _ false => true
  | _ => false

/-- Whenever a thread reaches its deadline, nobody is missing: every thread has entered the barrier
as often as the one whose deadline passes. -/
def Complete (evs : List (Ev T)) : Prop := ∀ pre t post, evs = pre ++ .deadline t :: post →
  ∀ u, entered t pre ≤ entered u pre

/-! ### Executions with times -/

/-- Events with the times at which they happen, in the order in which they happen. -/
def InOrder (tr : List (Ev T × Nat)) : Prop := tr.Pairwise fun x y => x.2 ≤ y.2

/-- A deadline does not pass before `D` after the thread has entered the barrier. -/
def NotBefore (D : Nat) (tr : List (Ev T × Nat)) : Prop := ∀ pre t τ post,
  tr = pre ++ (.deadline t, τ) :: post → ∃ a b σ c, pre = a ++ (.arrive t b, σ) :: c ∧
    entered t (c.map Prod.fst) = 0 ∧ σ + D ≤ τ

/-- When a thread enters the barrier for the `k`-th time, at time `σ`, everybody enters it for the `k`-th time
before `σ + D` (or the execution does not last that long). -/
def Within (D : Nat) (tr : List (Ev T × Nat)) : Prop := ∀ a t b σ c,
  tr = a ++ (.arrive t b, σ) :: c → (∃ x ∈ c, σ + D ≤ x.2) → ∀ u, ∃ a' b' σ' c',
    tr = a' ++ (.arrive u b', σ') :: c' ∧ entered u (a'.map Prod.fst) = entered t (a.map Prod.fst) ∧ σ' < σ + D

end SoDa.Spec
