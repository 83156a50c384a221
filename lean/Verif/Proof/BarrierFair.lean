import Verif.Spec.BarrierFair
import Verif.Proof.BarrierRounds
import Verif.Props.BarrierWake
/-!
Fair infinite executions of the barrier.
-/
set_option linter.unusedSectionVars false
namespace SoDa.Bar
open Spec

variable {T : Type} [DecidableEq T]
variable {n : Nat} {σ : Nat → Conf T} {act : Nat → Option (T × Move × Ev T)}

theorem happened_succ (act : Nat → Option (T × Move × Ev T)) (i : Nat) :
    happened act (i + 1) = happened act i ++ ((act i).map fun a => a.2.2).toList := by
  unfold happened
  rw [List.range_succ, List.filterMap_append]
  cases ha : act i <;> simp [ha]

theorem inf_run (h : Infinite n σ act) (i : Nat) : Run n (happened act i) (σ i) := by
  induction i with
  | zero => rw [h.init]; exact .init
  | succ i ih =>
    rw [happened_succ]
    cases ha : act i with
    | none => rw [h.none i ha]; simpa using ih
    | some a =>
      obtain ⟨t, m, e⟩ := a
      exact .snoc ih (h.some i t m e ha)

theorem happened_prefix (act : Nat → Option (T × Move × Ev T)) {i j : Nat} (h : i ≤ j) : ∃ l, happened act j = happened act i ++ l := by
  induction h with
  | refl => exact ⟨[], by simp⟩
  | step _ ih =>
    obtain ⟨l, hl⟩ := ih
    rw [happened_succ, hl]
    exact ⟨_, List.append_assoc _ _ _⟩

theorem countP_mono (p : Ev T → Bool) {i j : Nat} (h : i ≤ j) : (happened act i).countP p ≤ (happened act j).countP p := by
  obtain ⟨l, hl⟩ := happened_prefix act h
  rw [hl, List.countP_append]
  omega

/-- The thread is inside of `wait` and does not sleep. -/
def Pc.moving : Pc → Bool
  | .idle | .waitCv _ => false
  | _ => true

/-- A moving thread stays where it is until it executes a statement. -/
theorem moving_stays (h : Infinite n σ act) (i : Nat) (t : T) (hm : ((σ i).pc t).moving = true)
    (hno : ∀ e, act i ≠ some (t, .go, e)) : (σ (i + 1)).pc t = (σ i).pc t := by
  cases ha : act i with
  | none => rw [h.none i ha]
  | some a =>
    obtain ⟨u, m, e⟩ := a
    have hs := h.some i u m e ha
    by_cases hu : t = u
    · subst hu
      cases m with
      | go => exact absurd ha (hno e)
      | call => simp only [step] at hs; split at hs
                · next hp => rw [hp] at hm; cases hm
                · cases hs
      | spurious => simp only [step] at hs; split at hs
                    · next hp => rw [hp] at hm; cases hm
                    · cases hs
      | deadline => simp only [step] at hs; split at hs
                    · next hp => rw [hp] at hm; cases hm
                    · cases hs
    · rcases step_other hs t hu with h1 | ⟨old, h1, -⟩
      · exact h1
      · rw [h1] at hm; cases hm

/-- If a moving thread goes on at some time, it goes on from the place where it is. -/
theorem go_first (h : Infinite n σ act) (i : Nat) (t : T) (hm : ((σ i).pc t).moving = true)
    (hgo : ∃ j, i ≤ j ∧ ∃ e, act j = some (t, .go, e)) :
    ∃ j, i ≤ j ∧ (σ j).pc t = (σ i).pc t ∧ ∃ e, act j = some (t, .go, e) := by
  obtain ⟨j, hij, hj⟩ := hgo
  obtain ⟨d, rfl⟩ := Nat.exists_eq_add_of_le hij
  clear hij
  induction d generalizing i with
  | zero => exact ⟨i, Nat.le_refl _, rfl, hj⟩
  | succ d ih =>
    by_cases hn : ∃ e, act i = some (t, .go, e)
    · exact ⟨i, Nat.le_refl _, rfl, hn⟩
    · have hst := moving_stays h i t hm fun e he => hn ⟨e, he⟩
      obtain ⟨j, h1, h2, h3⟩ := ih (i + 1) (by rw [hst]; exact hm) (by rw [show i + 1 + d = i + (d + 1) by omega]; exact hj)
      exact ⟨j, by omega, h2.trans hst, h3⟩

theorem stays_forever (h : Infinite n σ act) (i : Nat) (t : T) (hm : ((σ i).pc t).moving = true)
    (hno : ¬ ∃ j, i ≤ j ∧ ∃ e, act j = some (t, .go, e)) (j : Nat) (hij : i ≤ j) : (σ j).pc t = (σ i).pc t := by
  induction hij with
  | refl => rfl
  | @step j hij ih =>
    rw [← ih]
    exact moving_stays h j t (by rw [ih]; exact hm) fun e he => hno ⟨j, hij, e, he⟩

/-- Statements that do not take the mutex can always be executed. -/
theorem free_go (c : Conf T) (t : T) (hm : (c.pc t).moving = true)
    (hw : ∀ old, c.pc t ≠ .wantLock old) (hk : ∀ old b, c.pc t ≠ .woken old b) : (step n c t .go).isSome := by
  simp only [step, stepGo]
  cases hp : c.pc t <;> rw [hp] at hm <;> simp only [Pc.moving, Bool.false_eq_true] at hm <;> simp only [Option.isSome_some]
  case wantLock old => exact absurd hp (hw old)
  case woken old b => exact absurd hp (hk old b)
  case pred old => split <;> rfl

theorem lock_go (c : Conf T) (t : T) (hm : (c.pc t).moving = true) (hh : c.holder = none) : (step n c t .go).isSome := by
  by_cases h : (∀ old, c.pc t ≠ .wantLock old) ∧ ∀ old b, c.pc t ≠ .woken old b
  · exact free_go c t hm h.1 h.2
  · simp only [step, stepGo]
    cases hp : c.pc t <;> rw [hp] at hm <;> simp only [Pc.moving, Bool.false_eq_true] at hm <;> simp only [Option.isSome_some]
    case wantLock old => rw [if_pos hh]; rfl
    case woken old b => rw [if_pos hh]; rfl
    case pred old => split <;> rfl

/-- Where a thread that does not have to take the mutex is, it goes on. -/
theorem goes_free (h : Infinite n σ act) (hf : Fair n σ act) (i : Nat) (t : T) (hm : ((σ i).pc t).moving = true)
    (hw : ∀ old, (σ i).pc t ≠ .wantLock old) (hk : ∀ old b, (σ i).pc t ≠ .woken old b) :
    ∃ j, i ≤ j ∧ (σ j).pc t = (σ i).pc t ∧ ∃ e, act j = some (t, .go, e) := by
  apply go_first h i t hm
  by_contra hno
  have hst := stays_forever h i t hm hno
  refine hno (hf t (fun a => ⟨max a i, Nat.le_max_left _ _, ?_⟩) i)
  have := hst (max a i) (Nat.le_max_right _ _)
  exact free_go _ t (by rw [this]; exact hm) (by rw [this]; exact hw) (by rw [this]; exact hk)

/-- Statements until the mutex is released. -/
def Pc.rank : Pc → Nat
  | .incr _ | .predT _ => 7
  | .test _ | .expired => 6
  | .reset | .setCorrupt => 5
  | .bump | .setCount => 4
  | .notify | .notifyT => 3
  | .pred _ => 2
  | .leave _ => 1
  | _ => 0

theorem rank_step {c c' : Conf T} {t : T} {e : Ev T} (hs : step n c t .go = some (c', e)) (hh : (c.pc t).holds = true) :
    c'.holder = none ∨ (c'.pc t).holds = true ∧ (c'.pc t).rank < (c.pc t).rank := by
  have hg : ∀ (c₁ : Conf T) p, (c₁.goto t p).pc t = p := by intro c₁ p; simp [Conf.goto]
  simp only [step, stepGo] at hs
  cases hp : c.pc t <;> rw [hp] at hs hh <;> simp only [Pc.holds, Bool.false_eq_true] at hh <;> simp only [] at hs
  case pred old =>
    split at hs
    · cases hs; right; rw [hg]; exact ⟨rfl, by simp [Pc.rank]⟩
    · cases hs; left; rfl
  case leave r => cases hs; left; rfl
  case test old => cases hs; right; rw [hg]; split <;> exact ⟨rfl, by simp [Pc.rank]⟩
  case predT old => cases hs; right; rw [hg]; split <;> exact ⟨rfl, by simp [Pc.rank]⟩
  case expired => cases hs; right; rw [hg]; split <;> exact ⟨rfl, by simp [Pc.rank]⟩
  all_goals
    cases hs; right; rw [hg]; exact ⟨rfl, by simp [Pc.rank]⟩

theorem releases (h : Infinite n σ act) (hf : Fair n σ act) : ∀ (r i : Nat) (u : T), ((σ i).pc u).holds = true → ((σ i).pc u).rank ≤ r →
    ∃ j, i ≤ j ∧ (σ j).holder = none := by
  intro r
  induction r with
  | zero =>
    intro i u hh hr
    cases hp : (σ i).pc u <;> rw [hp] at hh hr <;> simp [Pc.holds, Pc.rank] at hh hr
  | succ r ih =>
    intro i u hh hr
    have hm : ((σ i).pc u).moving = true := by cases hp : (σ i).pc u <;> rw [hp] at hh <;> first | rfl | cases hh
    obtain ⟨j, hij, hpj, e, he⟩ := goes_free h hf i u hm
      (fun old hp => by rw [hp] at hh; cases hh) (fun old b hp => by rw [hp] at hh; cases hh)
    rcases rank_step (h.some j u .go e he) (by rw [hpj]; exact hh) with h1 | ⟨h1, h2⟩
    · exact ⟨j + 1, by omega, h1⟩
    · obtain ⟨j', h3, h4⟩ := ih (j + 1) u h1 (by rw [hpj] at h2; omega)
      exact ⟨j', by omega, h4⟩

/-- Again and again the mutex is free. -/
theorem free_often (h : Infinite n σ act) (hf : Fair n σ act) (i : Nat) : ∃ j, i ≤ j ∧ (σ j).holder = none := by
  cases hh : (σ i).holder with
  | none => exact ⟨i, Nat.le_refl _, hh⟩
  | some u => exact releases h hf _ i u (((safe_run (inf_run h i)).1 u).2 hh) (Nat.le_refl _)

/-- Every thread that is inside of `wait` and does not sleep goes on. -/
theorem goes (h : Infinite n σ act) (hf : Fair n σ act) (i : Nat) (t : T) (hm : ((σ i).pc t).moving = true) :
    ∃ j, i ≤ j ∧ (σ j).pc t = (σ i).pc t ∧ ∃ e, step n (σ j) t .go = some (σ (j + 1), e) ∧
      happened act (j + 1) = happened act j ++ [e] := by
  have h1 : ∃ j, i ≤ j ∧ (σ j).pc t = (σ i).pc t ∧ ∃ e, act j = some (t, .go, e) := by
    apply go_first h i t hm
    by_contra hno
    have hst := stays_forever h i t hm hno
    refine hno (hf t (fun a => ?_) i)
    obtain ⟨j, h1, h2⟩ := free_often h hf (max a i)
    have h3 := hst j (by omega)
    exact ⟨j, by omega, lock_go _ t (by rw [h3]; exact hm) h2⟩
  obtain ⟨j, h1, h2, e, h3⟩ := h1
  refine ⟨j, h1, h2, e, h.some j t .go e h3, ?_⟩
  rw [happened_succ, h3]
  rfl

end SoDa.Bar
