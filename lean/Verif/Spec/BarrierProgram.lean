import Verif.Model.BarrierProgram
/-!
Specification vocabulary for programs with a barrier.
-/
namespace SoDa.Spec
open BarProg

variable {T A : Type} [DecidableEq T]

/-- How often a part of a script calls `wait`. -/
def waits (l : List (Item T A)) : Nat := l.countP fun i => match i with
  | .wait => true
  | _ => false

/-- The phase of a statement: how often its thread has to wait before it. -/
def phase (script : T → List (Item T A)) (x : T × Nat) : Nat := waits ((script x.1).take x.2)

/-- `x` is a statement of the program's own. -/
def IsAct (script : T → List (Item T A)) (x : T × Nat) : Prop := ∃ a, (script x.1)[x.2]? = some (.act a)

/-- The statement creates thread `u`. -/
def creates (u : T) : Item T A → Bool
  | .spawn v => v = u
  | _ => false

/-- A program in which `root` creates all other threads, then all threads wait at the barrier equally often, then `root` waits for
the others to end (or not). -/
structure ForkJoin (script : T → List (Item T A)) (root : T) : Prop where
  waits : ∀ t u, waits (script t) = waits (script u)
  plain : ∀ t, t ≠ root → ∀ i ∈ script t, (∃ a, i = .act a) ∨ i = .wait
  spawns : ∀ u, (script root).countP (creates u) = if u = root then 0 else 1
  first : ∀ l i r, script root = l ++ i :: r → (i = .wait ∨ ∃ u, i = .join u) → ∀ u, .spawn u ∉ r
  last : ∀ l u r, script root = l ++ .join u :: r → .wait ∉ r
  self : .join root ∉ script root

/-- The steps from one state to another. -/
inductive Onward (script : T → List (Item T A)) (n : Nat) (s : St T A) : List (Option (Bar.Ev T)) → St T A → Prop where
  | nil : Onward script n s [] s
  | snoc {ls s' l s''} (h : Onward script n s ls s') (hs : Step script n s' l s'') : Onward script n s (ls ++ [l]) s''

end SoDa.Spec
