import Verif.Props.Barrier
/-!
Property C83: no thread is left asleep, whatever the number of threads and the timeouts.
-/
set_option linter.unusedSectionVars false
namespace SoDa.Bar
open Spec

variable {T : Type} [DecidableEq T]

/-- Who sleeps waits for the end of the current generation, or somebody is about to wake it up. -/
def Awake (c : Conf T) : Prop := ∀ t old, c.pc t = .waitCv old →
  old = c.count ∨ ∃ u, c.pc u = .notify ∨ c.pc u = .notifyT

theorem awake_step {n} {c c' : Conf T} {t m e} (h : Awake c)
    (hs : step n c t m = some (c', e)) : Awake c' := by
  have hg : ∀ (c₁ : Conf T) p v, (c₁.goto t p).pc v = if v = t then p else c₁.pc v := fun _ _ _ => rfl
  -- a step of `t` from `p`, which is neither `notify` nor `notifyT`, that does not change the count
  have quiet : ∀ (c₁ : Conf T) p, c₁.pc = c.pc → c₁.count = c.count →
      c.pc t ≠ .notify → c.pc t ≠ .notifyT → (∀ old, p = .waitCv old → old = c.count) →
      Awake (c₁.goto t p) := by
    intro c₁ p h1 h2 h3 h4 h5 v old hv
    rw [hg, h1] at hv
    show old = c₁.count ∨ _
    rw [h2]
    have hkeep : (∃ u, c.pc u = .notify ∨ c.pc u = .notifyT) →
        ∃ u, (c₁.goto t p).pc u = .notify ∨ (c₁.goto t p).pc u = .notifyT := by
      rintro ⟨u, hu⟩
      refine ⟨u, ?_⟩
      have : u ≠ t := by rintro rfl; rcases hu with hu | hu <;> contradiction
      rw [hg, if_neg this, h1]; exact hu
    by_cases hvt : v = t
    · rw [if_pos hvt] at hv; exact .inl (h5 old hv)
    · rw [if_neg hvt] at hv
      exact (h v old hv).imp id hkeep
  have woken : ∀ p, (∀ old, p ≠ .waitCv old) → Awake (c.wakeAll.goto t p) := by
    intro p h1 v old hv
    exfalso
    rw [hg] at hv
    by_cases hvt : v = t
    · rw [if_pos hvt] at hv; exact h1 old hv
    · rw [if_neg hvt] at hv
      simp only [Conf.wakeAll] at hv
      cases hq : c.pc v <;> rw [hq] at hv <;> cases hv
  cases m with
  | call =>
    simp only [step] at hs; split at hs
    · next hp => cases hs; exact quiet c _ rfl rfl (by rw [hp]; simp) (by rw [hp]; simp) (by simp)
    · cases hs
  | spurious =>
    simp only [step] at hs; split at hs
    · next old hp => cases hs; exact quiet c _ rfl rfl (by rw [hp]; simp) (by rw [hp]; simp) (by simp)
    · cases hs
  | deadline =>
    simp only [step] at hs; split at hs
    · next old hp => cases hs; exact quiet c _ rfl rfl (by rw [hp]; simp) (by rw [hp]; simp) (by simp)
    · cases hs
  | go =>
    simp only [step, stepGo] at hs
    cases hp : c.pc t <;> rw [hp] at hs quiet <;> simp only [] at hs
    case idle => cases hs
    case waitCv => cases hs
    case bump =>
      cases hs; intro v old hv; exact .inr ⟨t, .inl (by rw [hg, if_pos rfl])⟩
    case setCount =>
      cases hs; intro v old hv; exact .inr ⟨t, .inr (by rw [hg, if_pos rfl])⟩
    case notify => cases hs; exact woken _ (by simp)
    case notifyT => cases hs; exact woken _ (by simp)
    case pred old =>
      split at hs
      · cases hs; exact quiet _ _ rfl rfl (by simp) (by simp) (by simp)
      · next ho =>
        cases hs
        refine quiet _ _ rfl rfl (by simp) (by simp) ?_
        intro old' h'; cases h'; exact Classical.not_not.1 ho
    case wantLock => split at hs <;> cases hs; exact quiet _ _ rfl rfl (by simp) (by simp) (by simp)
    case woken o b =>
      split at hs <;> cases hs
      exact quiet _ _ rfl rfl (by simp) (by simp) (by intro old; cases b <;> simp)
    case test => cases hs; exact quiet _ _ rfl rfl (by simp) (by simp) (by intro old; split <;> simp)
    case predT => cases hs; exact quiet _ _ rfl rfl (by simp) (by simp) (by intro old; split <;> simp)
    case expired => cases hs; exact quiet _ _ rfl rfl (by simp) (by simp) (by intro old; split <;> simp)
    all_goals (cases hs; exact quiet _ _ rfl rfl (by simp) (by simp) (by simp))

theorem safe_run {n evs} {c : Conf T} (h : Run n evs c) : Excl c ∧ Awake c := by
  induction h with
  | init => exact ⟨by intro t; simp [Conf.init, Pc.holds], by intro t old; simp [Conf.init]⟩
  | snoc _ hs ih => exact ⟨excl_step ih.1 hs, awake_step ih.2 hs⟩

/-! ## C83  nobody is left asleep -/

/-- No lost wake-up.  In every execution, with any number of threads and any timeouts: if a thread
sleeps although the generation it waits for is over, then the owner of the mutex is about to execute
`cv.notify_all()`. -/
theorem C83_no_lost_wakeup {n evs} {c : Conf T} (h : Run n evs c) (t : T) (old : Nat)
    (hp : c.pc t = .waitCv old) (ho : old ≠ c.count) :
    ∃ u, c.holder = some u ∧ (c.pc u = .notify ∨ c.pc u = .notifyT) := by
  obtain ⟨hx, hw⟩ := safe_run h
  rcases hw t old hp with h1 | ⟨u, hu⟩
  · exact absurd h1 ho
  · refine ⟨u, (hx u).1 ?_, hu⟩
    rcases hu with hu | hu <;> rw [hu] <;> rfl

/-- In every execution, if no thread can proceed then the mutex is free, and every thread is outside
of `wait` or waits for the end of the current generation. -/
theorem C83_stuck {n evs} {c : Conf T} (h : Run n evs c) (hstuck : ∀ t, step n c t .go = none) :
    c.holder = none ∧ ∀ t, c.pc t = .idle ∨ c.pc t = .waitCv c.count := by
  obtain ⟨hx, hw⟩ := safe_run h
  have hnohold : ∀ u, (c.pc u).holds = false := by
    intro u
    have h1 := hstuck u
    simp only [step, stepGo] at h1
    cases hp : c.pc u <;> rw [hp] at h1 <;> simp only [] at h1 <;> first | rfl | cases h1 | skip
    split at h1 <;> cases h1
  have hfree : c.holder = none := by
    cases hh : c.holder with
    | none => rfl
    | some u =>
      have := (hx u).2 hh
      rw [hnohold u] at this; cases this
  refine ⟨hfree, ?_⟩
  intro t
  have h1 := hstuck t
  simp only [step, stepGo, hfree, if_true] at h1
  cases hp : c.pc t <;> rw [hp] at h1 <;> simp only [] at h1 <;> try cases h1
  case idle => exact .inl rfl
  case waitCv old =>
    rcases hw t old hp with h2 | ⟨u, hu⟩
    · exact .inr (by rw [h2])
    · exfalso
      have h3 := hnohold u
      rcases hu with hu | hu <;> rw [hu] at h3 <;> cases h3
  all_goals (split at h1 <;> cases h1)

/-- From every state of every execution: however the threads inside `wait` are scheduled, after
boundedly many statements no thread can proceed (and then C83_stuck applies). -/
theorem C83_settles [Fintype T] {n evs} {c : Conf T} (_ : Run n evs c) :
    ∃ bound, ∀ evs' c', GoSteps n c evs' c' → evs'.length ≤ bound :=
  ⟨c.work, fun _ _ h => by have := h.work; omega⟩

/-- After a timeout: thread 0 sleeps at a barrier for three, thread 1 also, 0 times out and changes
`barrier_count` while 1 still sleeps; the hypotheses of `C83_no_lost_wakeup` are met. -/
example : ∃ evs c, Run (T := Fin 3) 3 evs c ∧ c.pc 1 = .waitCv 0 ∧ 0 ≠ c.count := by
  exact ⟨_, _, run_sched (sch := expiring ++ go 0 2 3) (by rfl), by decide, by decide⟩

/-- Three threads at a barrier for two, one of which has timed out and one of which has passed: nobody
can proceed. -/
example : ∃ evs c, Run (T := Fin 3) 2 evs c ∧ (∀ t, step 2 c t .go = none) ∧ c.pc 2 = .waitCv c.count := by
  refine ⟨_, _, run_sched (sch := callGo 0 5 3 ++ [(0, .deadline)] ++ go 0 8 3 ++ callGo 1 9 3 ++ callGo 2 5 3)
    (by rfl), ?_, ?_⟩
  · intro t
    rw [← Option.isNone_iff_eq_none]
    revert t; decide
  · decide

end SoDa.Bar
