import Verif.Proof.Barrier
import Mathlib.Data.Fintype.Card
import Mathlib.Algebra.BigOperators.Group.Finset.Basic
import Mathlib.Algebra.Order.BigOperators.Group.Finset
/-!
Rounds of the barrier when exactly `num_waiters` threads use it.
-/
set_option linter.unusedSectionVars false
namespace SoDa.Bar
open Spec

variable {T : Type} [DecidableEq T]

/-- A step of `t` leaves another thread where it is, or wakes it up. -/
theorem step_other {n} {c c' : Conf T} {t m e} (hs : step n c t m = some (c', e)) (u : T)
    (hu : u ≠ t) : c'.pc u = c.pc u ∨ ∃ old, c.pc u = .waitCv old ∧ c'.pc u = .woken old false := by
  have hw : ∀ p, ((c.wakeAll).goto t p).pc u = c.pc u
      ∨ ∃ old, c.pc u = .waitCv old ∧ ((c.wakeAll).goto t p).pc u = .woken old false := by
    intro p
    cases hq : c.pc u <;> simp [Conf.goto, Conf.wakeAll, hu, hq]
  have hg : ∀ (c₁ : Conf T) p, c₁.pc = c.pc → (c₁.goto t p).pc u = c.pc u := by
    intro c₁ p h
    simp [Conf.goto, hu, h]
  cases m with
  | call =>
    simp only [step] at hs
    split at hs
    · cases hs; exact Or.inl (hg _ _ rfl)
    · cases hs
  | spurious =>
    simp only [step] at hs
    split at hs
    · cases hs; exact Or.inl (hg _ _ rfl)
    · cases hs
  | deadline =>
    simp only [step] at hs
    split at hs
    · cases hs; exact Or.inl (hg _ _ rfl)
    · cases hs
  | go =>
    simp only [step, stepGo] at hs
    cases hp : c.pc t <;> rw [hp] at hs <;> simp only [] at hs
    case notify => cases hs; exact hw _
    case notifyT => cases hs; exact hw _
    case wantLock =>
      split at hs
      · cases hs; exact Or.inl (hg _ _ rfl)
      · cases hs
    case woken =>
      split at hs
      · cases hs; exact Or.inl (hg _ _ rfl)
      · cases hs
    case pred =>
      split at hs
      · cases hs; exact Or.inl (hg _ _ rfl)
      · cases hs; exact Or.inl (hg _ _ rfl)
    all_goals
      cases hs
      try exact Or.inl (hg _ _ rfl)

/-- What the acting thread does, seen from outside. -/
theorem step_self {n} {c c' : Conf T} {t m e} (hs : step n c t m = some (c', e)) :
    (e = .call t ∧ c.pc t = .idle ∧ c'.pc t = .start) ∨
    (∃ old, e = .arrive t (decide (old = c.count)) ∧ c.pc t = .incr old ∧ c'.pc t = .test old) ∨
    (e = .ret t ∧ c.pc t = .out .normal ∧ c'.pc t = .idle) ∨
    (∃ r, r ≠ .normal ∧ e = .raise t r ∧ c.pc t = .out r ∧ c'.pc t = .idle) ∨
    ((e = .tau t ∨ e = .spurious t ∨ e = .deadline t) ∧ c.pc t ≠ .idle ∧ c'.pc t ≠ .idle
      ∧ (c'.pc t).arrived = (c.pc t).arrived) := by
  have hg : ∀ (c₁ : Conf T) p, (c₁.goto t p).pc t = p := by
    intro c₁ p; simp [Conf.goto]
  cases m with
  | call =>
    simp only [step] at hs
    split at hs
    · next hp => cases hs; exact Or.inl ⟨rfl, hp, hg _ _⟩
    · cases hs
  | spurious =>
    simp only [step] at hs
    split at hs
    · next hp => cases hs; simp [hp, hg, Pc.arrived]
    · cases hs
  | deadline =>
    simp only [step] at hs
    split at hs
    · next hp => cases hs; simp [hp, hg, Pc.arrived]
    · cases hs
  | go =>
    simp only [step, stepGo] at hs
    cases hp : c.pc t <;> rw [hp] at hs <;> simp only [] at hs
    case idle => cases hs
    case waitCv => cases hs
    case wantLock =>
      split at hs
      · cases hs; simp [hg, Pc.arrived]
      · cases hs
    case woken o b =>
      split at hs
      · cases hs; cases b <;> simp [hg, Pc.arrived]
      · cases hs
    case pred =>
      split at hs
      · cases hs; simp [hg, Pc.arrived]
      · cases hs; simp [hg, Pc.arrived]
    case incr old => cases hs; exact Or.inr (Or.inl ⟨old, rfl, rfl, hg _ _⟩)
    case out r => cases r <;> cases hs <;> simp [hg]
    case test => cases hs; rw [hg]; split <;> simp [Pc.arrived]
    case predT => cases hs; rw [hg]; split <;> simp [Pc.arrived]
    case expired => cases hs; rw [hg]; split <;> simp [Pc.arrived]
    all_goals
      cases hs
      simp [hg, Pc.arrived]

/-- The event `deadline` stands for a sleeping thread that is woken by its deadline. -/
theorem step_deadline {n} {c c' : Conf T} {t m e u} (hs : step n c t m = some (c', e))
    (he : e = .deadline u) : ∃ old, c.pc t = .waitCv old ∧ c'.pc t = .woken old true := by
  subst he
  cases m with
  | call => simp only [step] at hs; split at hs <;> cases hs
  | spurious => simp only [step] at hs; split at hs <;> cases hs
  | deadline =>
    simp only [step] at hs
    split at hs
    · next old hp => cases hs; exact ⟨old, hp, by simp [Conf.goto]⟩
    · cases hs
  | go =>
    exfalso
    simp only [step, stepGo] at hs
    cases hp : c.pc t <;> rw [hp] at hs <;> simp at hs
    case out r => cases r <;> simp at hs
    all_goals split at hs <;> simp at hs

/-- The times `t` executed `waiting++`. -/
def arrOf (t : T) (evs : List (Ev T)) : Nat := evs.countP fun e => match e with
  | .arrive u _ => u = t
  | _ => false

theorem countP_snoc {α} (p : α → Bool) (l : List α) (x : α) :
    (l ++ [x]).countP p = l.countP p + if p x then 1 else 0 := by
  rw [List.countP_append, List.countP_cons]; simp

theorem counts {n evs} {c : Conf T} (h : Run n evs c) (t : T) :
    callsBy t evs = endsOf t evs + (if c.pc t = .idle then 0 else 1)
    ∧ arrOf t evs = endsOf t evs + (if (c.pc t).arrived then 1 else 0) := by
  induction h with
  | init => simp [callsBy, arrOf, endsOf, Conf.init, Pc.arrived]
  | @snoc evs c u m c' e h hs ih =>
    unfold callsBy arrOf endsOf at ih ⊢
    rw [countP_snoc, countP_snoc, countP_snoc]
    by_cases htu : t = u
    · subst htu
      rcases step_self hs with ⟨he, h1, h2⟩ | ⟨old, he, h1, h2⟩ | ⟨he, h1, h2⟩ | ⟨r, hr, he, h1, h2⟩
          | ⟨he, h1, h2, h3⟩
      · subst he; rw [h1] at ih; rw [h2]
        simp [Pc.arrived] at ih ⊢; omega
      · subst he; rw [h1] at ih; rw [h2]
        simp [Pc.arrived] at ih ⊢; omega
      · subst he; rw [h1] at ih; rw [h2]
        simp [Pc.arrived] at ih ⊢; omega
      · subst he; rw [h1] at ih; rw [h2]
        simp [Pc.arrived] at ih ⊢; omega
      · rw [h3]
        simp only [h1, h2, if_false] at ih ⊢
        rcases he with he | he | he <;> subst he <;> simpa using ih
    · have ho : (c'.pc t = .idle ↔ c.pc t = .idle) ∧ (c'.pc t).arrived = (c.pc t).arrived := by
        rcases step_other hs t htu with h1 | ⟨old, h1, h2⟩
        · rw [h1]; simp
        · rw [h1, h2]; simp [Pc.arrived]
      simp only [ho]
      have hut : u ≠ t := Ne.symm htu
      rcases step_self hs with ⟨he, -⟩ | ⟨old, he, -⟩ | ⟨he, -⟩ | ⟨r, -, he, -⟩ | ⟨he, -⟩
      · subst he; simpa [hut] using ih
      · subst he; simpa [hut] using ih
      · subst he; simpa [hut] using ih
      · subst he; simpa [hut] using ih
      · rcases he with he | he | he <;> subst he <;> simpa using ih

/-- The thread is not on the way to an exception. -/
def Pc.calm : Pc → Bool
  | .woken _ true | .predT _ | .expired | .setCorrupt | .setCount | .notifyT | .leave .timeout
  | .leave .corrupt | .out .timeout | .out .corrupt => false
  | _ => true

theorem calm_self {n} {c c' : Conf T} {u m e} (hs : step n c u m = some (c', e))
    (hd : e ≠ .deadline u) (h1 : (c.pc u).calm = true) : (c'.pc u).calm = true := by
  have hg : ∀ (c₁ : Conf T) p, (c₁.goto u p).pc u = p := by
    intro c₁ p; simp [Conf.goto]
  cases m with
  | call =>
    simp only [step] at hs
    split at hs
    · cases hs; rw [hg]; rfl
    · cases hs
  | spurious =>
    simp only [step] at hs
    split at hs
    · cases hs; rw [hg]; rfl
    · cases hs
  | deadline =>
    simp only [step] at hs
    split at hs
    · cases hs; exact absurd rfl hd
    · cases hs
  | go =>
    simp only [step, stepGo] at hs
    cases hp : c.pc u <;> rw [hp] at hs h1 <;> simp only [] at hs
    case idle => cases hs
    case waitCv => cases hs
    case wantLock =>
      split at hs
      · cases hs; rw [hg]; rfl
      · cases hs
    case woken o b =>
      cases b with
      | true => cases h1
      | false =>
        split at hs
        · cases hs; rw [hg]; rfl
        · cases hs
    case pred =>
      split at hs
      · cases hs; rw [hg]; rfl
      · cases hs; rw [hg]; rfl
    case test => cases hs; rw [hg]; split <;> rfl
    case leave r => cases hs; rw [hg]; cases r <;> exact h1
    all_goals first
      | (cases hs; rw [hg]; rfl)
      | cases h1

theorem calm_step {n} {c c' : Conf T} {t m e} (hs : step n c t m = some (c', e))
    (hd : e ≠ .deadline t) (h : ∀ u, (c.pc u).calm = true) : ∀ u, (c'.pc u).calm = true := by
  intro u
  by_cases hu : u = t
  · subst hu; exact calm_self hs hd (h u)
  · rcases step_other hs u hu with h1 | ⟨old, h1, h2⟩
    · rw [h1]; exact h u
    · rw [h2]; rfl

theorem calm_run {n evs} {c : Conf T} (h : Run n evs c) (hd : NoDeadline evs) :
    (∀ u, (c.pc u).calm = true) ∧ ∀ u r, Ev.raise u r ∉ evs := by
  induction h with
  | init => simp [Conf.init, Pc.calm]
  | @snoc evs c u m c' e h hs ih =>
    have hd' : NoDeadline evs := fun t ht => hd t (List.mem_append_left _ ht)
    obtain ⟨h1, h2⟩ := ih hd'
    refine ⟨calm_step hs (fun he => hd u (by simp [he])) h1, ?_⟩
    intro v r hv
    rcases List.mem_append.1 hv with hv | hv
    · exact h2 v r hv
    · have he : e = .raise v r := (List.mem_singleton.1 hv).symm
      subst he
      rcases step_self hs with ⟨he, -⟩ | ⟨old, he, -⟩ | ⟨he, -⟩ | ⟨r', hr, he, hp, -⟩ | ⟨he, -⟩
      · cases he
      · cases he
      · cases he
      · have := h1 u; rw [hp] at this
        cases r' <;> first | exact hr rfl | cases this
      · rcases he with he | he | he <;> cases he

theorem ends_eq_returns {evs : List (Ev T)} (h : ∀ u r, Ev.raise u r ∉ evs) (t : T) :
    endsOf t evs = returnsTo t evs := by
  unfold endsOf returnsTo
  apply List.countP_congr
  intro e he
  cases e <;> simp
  exact absurd he (h _ _)

/-- A run without deadlines in which every arrival is fresh satisfies the invariant. -/
theorem inv_run {n evs} {c : Conf T} (hn : 1 ≤ n) (hn32 : n < 4294967296) (h : Run n evs c)
    (hd : NoDeadline evs) (hf : AllFresh evs) : ∃ G gen cur pend, Inv n evs c G gen cur pend := by
  induction h with
  | init => exact ⟨_, _, _, _, inv_init n hn⟩
  | @snoc evs c u m c' e h hs ih =>
    obtain ⟨G, gen, cur, pend, hi⟩ := ih (fun t ht => hd t (List.mem_append_left _ ht))
      (fun t ht => hf t (List.mem_append_left _ ht))
    obtain ⟨G', gen', cur', pend', hi', -⟩ := inv_step hn hn32 hi hs
      (fun he => hd u (by simp [he])) (fun he => hf u (by simp [he]))
    exact ⟨_, _, _, _, hi'⟩

/-- Never more returns than complete groups of `n` arrivals. -/
theorem Inv.returns_le {n evs G gen cur pend} {c : Conf T} (hn : 1 ≤ n)
    (h : Inv n evs c G gen cur pend) : allReturns evs ≤ n * (arrivals evs / n) := by
  have hsub : cur ⊆ pend := by
    intro t ht
    rw [h.pend_mem]
    exact ((h.cur_mem t).1 ht).1
  have hlen : cur.length ≤ pend.length := (List.subperm_of_subset h.cur_nodup hsub).length_le
  have h1 := h.ret
  have h2 := h.arr
  have h3 : allReturns evs ≤ n * G := by omega
  refine Nat.le_trans h3 (Nat.mul_le_mul_left n ?_)
  rw [h2, Nat.mul_add_div (by omega)]
  exact Nat.le_add_right _ _

section exact
variable [Fintype T]

/-- What holds in addition when there are exactly `n` threads. -/
structure Exact (evs : List (Ev T)) (c : Conf T) (G : Nat) (gen : T → Nat) (cur : List T) :
    Prop where
  arr : ∀ t, arrOf t evs = G + if t ∈ cur then 1 else 0
  gen : ∀ t, (c.pc t).arrived = true → G ≤ gen t + 1
  fresh : ∀ t old, c.pc t = .wantLock old ∨ c.pc t = .incr old → old = c.count

/-- If as many threads as the barrier is for are in the current generation, everybody is. -/
theorem all_in {n} (hcard : Fintype.card T = n) {cur : List T} (hnd : cur.Nodup)
    (hlen : cur.length = n) (t : T) : t ∈ cur := by
  have h1 : cur.toFinset.card = Fintype.card T := by
    rw [List.toFinset_card_of_nodup hnd, hlen, hcard]
  have h2 := Finset.card_eq_iff_eq_univ _ |>.1 h1
  have : t ∈ cur.toFinset := by rw [h2]; exact Finset.mem_univ t
  exact List.mem_toFinset.1 this

omit [Fintype T] in
/-- `barrier_count` only changes at lines 66 and 93. -/
theorem count_step {n} {c c' : Conf T} {t m e} (hs : step n c t m = some (c', e)) :
    c'.count = c.count ∨ c.pc t = .bump ∨ c.pc t = .setCount := by
  cases m with
  | call =>
    simp only [step] at hs
    split at hs
    · cases hs; exact Or.inl rfl
    · cases hs
  | spurious =>
    simp only [step] at hs
    split at hs
    · cases hs; exact Or.inl rfl
    · cases hs
  | deadline =>
    simp only [step] at hs
    split at hs
    · cases hs; exact Or.inl rfl
    · cases hs
  | go =>
    simp only [step, stepGo] at hs
    cases hp : c.pc t <;> rw [hp] at hs <;> simp only [] at hs
    case bump => simp
    case setCount => simp
    case wantLock =>
      split at hs
      · cases hs; exact Or.inl rfl
      · cases hs
    case woken =>
      split at hs
      · cases hs; exact Or.inl rfl
      · cases hs
    case pred =>
      split at hs
      · cases hs; exact Or.inl rfl
      · cases hs; exact Or.inl rfl
    all_goals
      cases hs
      try exact Or.inl rfl

omit [Fintype T] in
/-- Where `old_barrier_count` comes from. -/
theorem old_step {n} {c c' : Conf T} {t m e} (hs : step n c t m = some (c', e)) {old : Nat}
    (h : c'.pc t = .wantLock old ∨ c'.pc t = .incr old) : old = c.count ∨ c.pc t = .wantLock old := by
  have hg : ∀ (c₁ : Conf T) p, (c₁.goto t p).pc t = p := by
    intro c₁ p; simp [Conf.goto]
  cases m with
  | call =>
    simp only [step] at hs
    split at hs
    · cases hs; rw [hg] at h; simp at h
    · cases hs
  | spurious =>
    simp only [step] at hs
    split at hs
    · cases hs; rw [hg] at h; simp at h
    · cases hs
  | deadline =>
    simp only [step] at hs
    split at hs
    · cases hs; rw [hg] at h; simp at h
    · cases hs
  | go =>
    simp only [step, stepGo] at hs
    cases hp : c.pc t <;> rw [hp] at hs <;> simp only [] at hs
    case idle => cases hs
    case waitCv => cases hs
    case start => cases hs; rw [hg] at h; simp at h; exact Or.inl h.symm
    case wantLock =>
      split at hs
      · cases hs; rw [hg] at h; simp at h; simp [h]
      · cases hs
    case woken o b =>
      split at hs
      · cases hs; rw [hg] at h; cases b <;> simp at h
      · cases hs
    case pred =>
      split at hs
      · cases hs; rw [hg] at h; simp at h
      · cases hs; rw [hg] at h; simp at h
    case test => cases hs; rw [hg] at h; split at h <;> simp at h
    case predT => cases hs; rw [hg] at h; split at h <;> simp at h
    case expired => cases hs; rw [hg] at h; split at h <;> simp at h
    all_goals
      cases hs
      rw [hg] at h
      simp at h

theorem arrOf_snoc (t : T) (evs : List (Ev T)) (e : Ev T) : arrOf t (evs ++ [e]) =
    arrOf t evs + match e with | .arrive u _ => if u = t then 1 else 0 | _ => 0 := by
  unfold arrOf
  rw [countP_snoc]
  cases e <;> simp

theorem exact_step {n evs G gen cur pend} {c c' : Conf T} {u m e} (hn : 1 ≤ n) (hn32 : n < 4294967296)
    (hcard : Fintype.card T = n) (hi : Inv n evs c G gen cur pend) (hx : Exact evs c G gen cur)
    (hs : step n c u m = some (c', e)) (hd : e ≠ .deadline u) :
    ∃ G' gen' cur' pend', Inv n (evs ++ [e]) c' G' gen' cur' pend' ∧ Exact (evs ++ [e]) c' G' gen' cur' ∧ G ≤ G' := by
  have hfresh : e ≠ .arrive u false := by
    intro he
    rcases step_self hs with ⟨h1, -⟩ | ⟨old, h1, h2, -⟩ | ⟨h1, -⟩ | ⟨r, -, h1, -⟩ | ⟨h1, -⟩
    · rw [he] at h1; cases h1
    · rw [he] at h1
      have := hx.fresh u old (Or.inr h2)
      simp [this] at h1
    · rw [he] at h1; cases h1
    · rw [he] at h1; cases h1
    · rw [he] at h1; simp at h1
  obtain ⟨G', gen', cur', pend', hi', hch⟩ := inv_step hn hn32 hi hs
    hd hfresh
  refine ⟨G', gen', cur', pend', hi', ⟨?_, ?_, ?_⟩, ?_⟩
  rotate_left 3
  · rcases hch.2 with ⟨h1, -⟩ | ⟨h1, -⟩ | ⟨h1, -⟩ <;> omega
  · intro t
    rw [arrOf_snoc, hx.arr t]
    rcases hch.2 with ⟨h1, h2, h3⟩ | ⟨h1, h2, h3⟩ | ⟨h1, h2, h3, h4⟩
    · rw [h1, h2]
      cases e <;> simp_all
    · rw [h1, h2, h3]
      have hnu : u ∉ cur := by
        have := hi'.cur_nodup
        rw [h2] at this
        exact (List.nodup_cons.1 this).1
      by_cases htu : u = t
      · subst htu; simp [hnu]
      · simp [htu, Ne.symm htu]
    · rw [h1, h2, h4, if_pos (all_in hcard hi.cur_nodup h3 t)]
      simp
  · intro t ht
    rcases hch.2 with ⟨h1, h2, h3⟩ | ⟨h1, h2, h3⟩ | ⟨h1, h2, h3, h4⟩
    · rw [h1]
      rcases hch.1 t with h5 | h5
      · rw [h5]
        apply hx.gen
        by_cases htu : t = u
        · subst htu
          rcases step_self hs with ⟨h1, -, h6⟩ | ⟨old, h1, -⟩ | ⟨h1, -, h6⟩ | ⟨r, -, h1, -, h6⟩
              | ⟨-, -, -, h1⟩
          · rw [h6] at ht; cases ht
          · exact absurd h1 (h3 _ _)
          · rw [h6] at ht; cases ht
          · rw [h6] at ht; cases ht
          · rw [← h1]; exact ht
        · rcases step_other hs t htu with h6 | ⟨old, h6, -⟩
          · rw [← h6]; exact ht
          · rw [h6]; rfl
      · omega
    · rw [h1]
      by_cases htc : t ∈ cur'
      · have := ((hi'.cur_mem t).1 htc).2
        omega
      · rcases hch.1 t with h5 | h5
        · rw [h5]
          apply hx.gen
          by_cases htu : t = u
          · subst htu; rw [h2] at htc; simp at htc
          · rcases step_other hs t htu with h6 | ⟨old, h6, -⟩
            · rw [← h6]; exact ht
            · rw [h6]; rfl
        · omega
    · have h5 := ((hi.cur_mem t).1 (all_in hcard hi.cur_nodup h3 t)).2
      rcases hch.1 t with h6 | h6 <;> omega
  · intro t old ht
    have hcnt : c'.count = c.count := by
      rcases count_step hs with h1 | h1 | h1
      · exact h1
      · exfalso
        have h2 := hi.full' u (Or.inr h1)
        have h3 := ((hi.cur_mem t).1 (all_in hcard hi.cur_nodup h2 t)).1
        by_cases htu : t = u
        · subst htu
          rcases old_step hs ht with h4 | h4
          · rcases step_self hs with ⟨-, h6, -⟩ | ⟨old, -, h6, -⟩ | ⟨-, h6, -⟩ | ⟨r, -, -, h6, -⟩
              | ⟨-, -, -, h6⟩
            · rw [h1] at h6; cases h6
            · rw [h1] at h6; cases h6
            · rw [h1] at h6; cases h6
            · rw [h1] at h6; cases h6
            · rw [h1] at h6
              rcases ht with ht | ht <;> rw [ht] at h6 <;> cases h6
          · rw [h1] at h4; cases h4
        · rcases step_other hs t htu with h6 | ⟨o, h6, h7⟩
          · rw [h6] at ht
            rcases ht with ht | ht <;> rw [ht] at h3 <;> cases h3
          · rw [h7] at ht; simp at ht
      · have h2 := hi.good u
        rw [h1] at h2; exact h2.elim
    rw [hcnt]
    by_cases htu : t = u
    · subst htu
      rcases old_step hs ht with h1 | h1
      · exact h1
      · exact hx.fresh t old (Or.inl h1)
    · rcases step_other hs t htu with h6 | ⟨o, h6, h7⟩
      · rw [h6] at ht; exact hx.fresh t old ht
      · rw [h7] at ht; simp at ht

theorem exact_run {n evs} {c : Conf T} (hn : 1 ≤ n) (hn32 : n < 4294967296)
    (hcard : Fintype.card T = n) (h : Run n evs c) (hd : NoDeadline evs) :
    ∃ G gen cur pend, Inv n evs c G gen cur pend ∧ Exact evs c G gen cur := by
  induction h with
  | init =>
    exact ⟨_, _, _, _, inv_init n hn, by simp [arrOf], by simp [Conf.init, Pc.arrived],
      by simp [Conf.init]⟩
  | @snoc evs c u m c' e h hs ih =>
    obtain ⟨G, gen, cur, pend, hi, hx⟩ := ih (fun t ht => hd t (List.mem_append_left _ ht))
    obtain ⟨G', gen', cur', pend', hi', hx', -⟩ := exact_step hn hn32 hcard hi hx hs (fun he => hd u (by simp [he]))
    exact ⟨G', gen', cur', pend', hi', hx'⟩

/-- With exactly `n` threads: everybody has returned from all completed generations only, and has
arrived in them. -/
theorem Exact.bounds {n evs G gen cur pend} {c : Conf T} (hd : NoDeadline evs)
    (hr : Run n evs c) (hi : Inv n evs c G gen cur pend) (hx : Exact evs c G gen cur) (t : T) :
    returnsTo t evs ≤ G ∧ G ≤ arrOf t evs ∧ arrOf t evs ≤ callsBy t evs := by
  have h1 := counts hr t
  have h2 := hx.arr t
  have h3 := hi.cur_mem t
  rw [ends_eq_returns (calm_run hr hd).2] at h1
  refine ⟨?_, by omega, ?_⟩
  · by_cases htc : t ∈ cur
    · rw [if_pos htc] at h2
      rw [if_pos (h3.1 htc).1] at h1
      omega
    · rw [if_neg htc] at h2
      omega
  · cases hp : c.pc t <;> rw [hp] at h1 <;> simp [Pc.arrived] at h1 <;> omega

/-- If no thread can execute a statement then everybody has returned from the rounds everybody
has entered. -/
theorem stuck_done {n evs} {c : Conf T} (hn : 1 ≤ n) (hn32 : n < 4294967296)
    (hcard : Fintype.card T = n) (hr : Run n evs c) (hd : NoDeadline evs)
    (hstuck : ∀ t, step n c t .go = none) {k : Nat} (hk : ∀ t, k ≤ callsBy t evs) (t : T) :
    k ≤ returnsTo t evs := by
  obtain ⟨G, gen, cur, pend, hi, hx⟩ := exact_run hn hn32 hcard hr hd
  have hnohold : ∀ u, (c.pc u).holds = false := by
    intro u
    have h1 := hstuck u
    simp only [step, stepGo] at h1
    cases hp : c.pc u <;> rw [hp] at h1 <;> simp only [] at h1 <;> first | rfl | cases h1 | skip
    split at h1 <;> cases h1
  have hfree : c.holder = none := by
    cases hh : c.holder with
    | none => rfl
    | some u =>
      have := (hi.excl u).2 hh
      rw [hnohold u] at this; cases this
  have hpc : ∀ u, c.pc u = .idle ∨ ∃ old, c.pc u = .waitCv old := by
    intro u
    have h1 := hstuck u
    simp only [step, stepGo, hfree] at h1
    cases hp : c.pc u <;> rw [hp] at h1 <;> simp at h1 <;> simp
    split at h1 <;> cases h1
  have hcur : ∀ u, u ∈ cur ∨ c.pc u = .idle := by
    intro u
    rcases hpc u with h1 | ⟨old, h1⟩
    · exact Or.inr h1
    · left
      rw [hi.cur_mem, h1]
      refine ⟨rfl, ?_⟩
      have h2 := hi.good u
      rw [h1] at h2
      have h3 := hx.gen u (by rw [h1]; rfl)
      have h4 : old = c.count := by
        by_contra hne
        obtain ⟨v, hv⟩ := hi.awake u old h1 hne
        rcases hpc v with h5 | ⟨o, h5⟩ <;> rw [hv] at h5 <;> cases h5
      rw [h2.1, hi.count] at h4
      have h5 := h2.2
      omega
  have hlt : cur.length ≠ n := by
    intro h1
    obtain ⟨u, hu⟩ := hi.full h1
    rcases hpc u with h5 | ⟨o, h5⟩ <;> rw [h5] at hu <;> simp at hu
  have hex : ∃ u, u ∉ cur := by
    by_contra hall
    have hall' : ∀ u, u ∈ cur := by
      intro u; by_contra hu; exact hall ⟨u, hu⟩
    apply hlt
    rw [← hcard, ← List.toFinset_card_of_nodup hi.cur_nodup, Finset.card_eq_iff_eq_univ]
    ext u; simp [hall' u]
  obtain ⟨u, hu⟩ := hex
  have hidle := (hcur u).resolve_left hu
  have hcu := counts hr u
  have hau := hx.arr u
  rw [if_neg hu] at hau
  rw [hidle] at hcu
  simp [Pc.arrived] at hcu
  have hkG : k ≤ G := by have := hk u; omega
  have hct := counts hr t
  rw [ends_eq_returns (calm_run hr hd).2] at hct
  have hat := hx.arr t
  by_cases htc : t ∈ cur
  · rw [if_pos htc] at hat
    rw [if_pos ((hi.cur_mem t).1 htc).1] at hct
    omega
  · have := (hcur t).resolve_left htc
    rw [this] at hct
    rw [if_neg htc] at hat
    simp [Pc.arrived] at hct
    omega

/-- How many statements a thread can still execute, counting the ones of the threads it wakes. -/
def Pc.weight (N : Nat) : Pc → Nat
  | .idle => 0
  | .out _ => 1
  | .leave _ => 2
  | .waitCv _ => 0
  | .pred _ => 3
  | .woken _ false => 4
  | .notify | .notifyT => 4 * N + 3
  | .bump | .setCount => 4 * N + 4
  | .reset | .setCorrupt => 4 * N + 5
  | .test _ | .expired => 4 * N + 6
  | .incr _ | .predT _ => 4 * N + 7
  | .wantLock _ | .woken _ true => 4 * N + 8
  | .start => 4 * N + 9

def Conf.work (c : Conf T) : Nat := ∑ t, (c.pc t).weight (Fintype.card T)

theorem work_goto (c c₁ : Conf T) (t : T) (p : Pc) (h : c₁.pc = c.pc)
    (hw : p.weight (Fintype.card T) < (c.pc t).weight (Fintype.card T)) :
    (c₁.goto t p).work < c.work := by
  unfold Conf.work
  apply Finset.sum_lt_sum
  · intro u _
    show (if u = t then p else c₁.pc u).weight _ ≤ _
    split
    · next hu => rw [hu]; exact Nat.le_of_lt hw
    · rw [h]
  · refine ⟨t, Finset.mem_univ t, ?_⟩
    show (if t = t then p else c₁.pc t).weight _ < _
    rw [if_pos rfl]; exact hw

theorem work_wake (c : Conf T) (t : T) (r : Out)
    (hw : (c.pc t).weight (Fintype.card T) = 4 * Fintype.card T + 3) :
    (c.wakeAll.goto t (.leave r)).work < c.work := by
  unfold Conf.work
  rw [← Finset.add_sum_erase _ _ (Finset.mem_univ t),
    ← Finset.add_sum_erase (a := t) _ _ (Finset.mem_univ t), hw]
  have h1 : ((c.wakeAll.goto t (.leave r)).pc t).weight (Fintype.card T) = 2 := by
    simp [Conf.goto, Pc.weight]
  rw [h1]
  have h2 : ∑ u ∈ Finset.univ.erase t, ((c.wakeAll.goto t (.leave r)).pc u).weight (Fintype.card T)
      ≤ ∑ u ∈ Finset.univ.erase t, ((c.pc u).weight (Fintype.card T) + 4) := by
    apply Finset.sum_le_sum
    intro u hu
    have hut : u ≠ t := (Finset.mem_erase.1 hu).1
    cases hq : c.pc u <;> simp [Conf.goto, Conf.wakeAll, hut, hq, Pc.weight]
  rw [Finset.sum_add_distrib, Finset.sum_const_nat (m := 4) (fun _ _ => rfl),
    Finset.card_erase_of_mem (Finset.mem_univ t), Finset.card_univ] at h2
  have h3 : 0 < Fintype.card T := Fintype.card_pos_iff.2 ⟨t⟩
  omega

/-- Executing a statement leaves less to do. -/
theorem work_step {n} {c c' : Conf T} {t e} (hs : step n c t .go = some (c', e)) :
    c'.work < c.work := by
  simp only [step, stepGo] at hs
  cases hp : c.pc t <;> rw [hp] at hs <;> simp only [] at hs
  case idle => cases hs
  case waitCv => cases hs
  case wantLock =>
    split at hs
    · cases hs; exact work_goto c _ _ _ rfl (by rw [hp]; simp [Pc.weight])
    · cases hs
  case woken o b =>
    split at hs
    · cases hs; exact work_goto c _ _ _ rfl (by rw [hp]; cases b <;> simp [Pc.weight])
    · cases hs
  case pred =>
    split at hs
    · cases hs; exact work_goto c _ _ _ rfl (by rw [hp]; simp [Pc.weight])
    · cases hs; exact work_goto c _ _ _ rfl (by rw [hp]; simp [Pc.weight])
  case notify => cases hs; exact work_wake c _ _ (by rw [hp]; rfl)
  case notifyT => cases hs; exact work_wake c _ _ (by rw [hp]; rfl)
  case test => cases hs; exact work_goto c _ _ _ rfl (by rw [hp]; split <;> simp [Pc.weight])
  case predT => cases hs; exact work_goto c _ _ _ rfl (by rw [hp]; split <;> simp [Pc.weight])
  case expired => cases hs; exact work_goto c _ _ _ rfl (by rw [hp]; split <;> simp [Pc.weight])
  all_goals
    cases hs
    exact work_goto c _ _ _ rfl (by rw [hp]; simp [Pc.weight])

end exact

end SoDa.Bar
