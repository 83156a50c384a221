import Verif.Proof.BarrierTimeout
import Verif.Props.Barrier
import Verif.Props.BarrierWake
/-!
Property C50, continued: what the other waiters do when one of them has timed out.
-/
set_option linter.unusedSectionVars false
namespace SoDa.Bar
open Spec

variable {T : Type} [DecidableEq T]

/-- The thread is on its way to a normal return of a call in which it has read `old`, or has returned. -/
def Pc.going (old : Nat) : Pc → Bool
  | .waitCv o | .woken o _ | .pred o | .predT o => o = old
  | .leave .normal | .out .normal | .idle => true
  | _ => false

/-- Which steps change `waiting`. -/
theorem waiting_step {n} {c c' : Conf T} {t m e} (hs : step n c t m = some (c', e)) :
    (c'.waiting = c.waiting ∧ ∀ u b, e ≠ .arrive u b) ∨
    (c'.waiting = (c.waiting + 1) % 4294967296 ∧ ∃ u b, e = .arrive u b) ∨ c.pc t = .reset := by
  cases m with
  | call => simp only [step] at hs; split at hs <;> cases hs; exact .inl ⟨rfl, by simp⟩
  | spurious => simp only [step] at hs; split at hs <;> cases hs; exact .inl ⟨rfl, by simp⟩
  | deadline => simp only [step] at hs; split at hs <;> cases hs; exact .inl ⟨rfl, by simp⟩
  | go =>
    simp only [step, stepGo] at hs
    cases hp : c.pc t <;> rw [hp] at hs <;> simp only [] at hs
    case idle => cases hs
    case waitCv => cases hs
    case incr old => cases hs; exact .inr (.inl ⟨rfl, _, _, rfl⟩)
    case reset => exact .inr (.inr rfl)
    case out r => cases hs; refine .inl ⟨rfl, ?_⟩; cases r <;> simp
    case wantLock => split at hs <;> cases hs; exact .inl ⟨rfl, by simp⟩
    case woken => split at hs <;> cases hs; exact .inl ⟨rfl, by simp⟩
    case pred => split at hs <;> (cases hs; exact .inl ⟨rfl, by simp⟩)
    all_goals (cases hs; exact .inl ⟨rfl, by simp⟩)

/-- Who gets to lines 65 and 66. -/
theorem closing_step {n} {c c' : Conf T} {t m e} (hs : step n c t m = some (c', e))
    (h : c'.pc t = .reset ∨ c'.pc t = .bump) : (∃ old, c.pc t = .test old ∧ c.waiting = n) ∨ c.pc t = .reset := by
  have hg : ∀ (c₁ : Conf T) p, (c₁.goto t p).pc t = p := by
    intro c₁ p; simp [Conf.goto]
  cases m with
  | call => simp only [step] at hs; split at hs <;> cases hs; rw [hg] at h; simp at h
  | spurious => simp only [step] at hs; split at hs <;> cases hs; rw [hg] at h; simp at h
  | deadline => simp only [step] at hs; split at hs <;> cases hs; rw [hg] at h; simp at h
  | go =>
    simp only [step, stepGo] at hs
    cases hp : c.pc t <;> rw [hp] at hs <;> simp only [] at hs
    case idle => cases hs
    case waitCv => cases hs
    case reset => exact .inr rfl
    case test old =>
      cases hs
      rw [hg] at h
      split at h
      · next hw => exact .inl ⟨old, rfl, hw⟩
      · simp at h
    case wantLock => split at hs <;> cases hs; rw [hg] at h; simp at h
    case woken o b => split at hs <;> cases hs; rw [hg] at h; cases b <;> simp at h
    case pred => split at hs <;> (cases hs; rw [hg] at h; simp at h)
    case predT => cases hs; rw [hg] at h; split at h <;> simp at h
    case expired => cases hs; rw [hg] at h; split at h <;> simp at h
    all_goals (cases hs; rw [hg] at h; simp at h)

/-- A step of a thread that is going to return. -/
theorem going_step {n} {c c' : Conf T} {u m e old} (hs : step n c u m = some (c', e))
    (hg0 : (c.pc u).going old = true) (hc : old ≠ c.count) (hcall : e ≠ .call u) :
    (c'.pc u).going old = true ∧ ∀ v r, e ≠ .raise v r := by
  have hg : ∀ (c₁ : Conf T) p, (c₁.goto u p).pc u = p := by
    intro c₁ p; simp [Conf.goto]
  cases m with
  | call => simp only [step] at hs; split at hs <;> cases hs; exact absurd rfl hcall
  | spurious =>
    simp only [step] at hs
    split at hs
    · next o hp => cases hs; rw [hg]; rw [hp] at hg0; exact ⟨hg0, by simp⟩
    · cases hs
  | deadline =>
    simp only [step] at hs
    split at hs
    · next o hp => cases hs; rw [hg]; rw [hp] at hg0; exact ⟨hg0, by simp⟩
    · cases hs
  | go =>
    simp only [step, stepGo] at hs
    cases hp : c.pc u <;> rw [hp] at hs hg0 <;> simp only [] at hs <;> try (cases hg0; done)
    case idle => cases hs
    case waitCv => cases hs
    case woken o b =>
      split at hs
      · cases hs; rw [hg]; cases b <;> exact ⟨hg0, by simp⟩
      · cases hs
    case pred o =>
      have : o = old := of_decide_eq_true hg0
      subst this
      rw [if_pos hc] at hs
      cases hs; rw [hg]; exact ⟨rfl, by simp⟩
    case predT o =>
      have : o = old := of_decide_eq_true hg0
      subst this
      cases hs; rw [hg, if_pos hc]; exact ⟨rfl, by simp⟩
    case leave r =>
      cases r <;> first | (cases hg0; done) | (cases hs; rw [hg]; exact ⟨rfl, by simp⟩)
    case out r =>
      cases r <;> first | (cases hg0; done) | (cases hs; rw [hg]; exact ⟨rfl, by simp⟩)

/-- `barrier_count` after a step of a thread that is not at line 66. -/
theorem count_step' {n} {c c' : Conf T} {t m e} (hs : step n c t m = some (c', e)) (hb : c.pc t ≠ .bump) :
    c'.count = c.count ∨ c'.count = 4294967295 := by
  cases m with
  | call => simp only [step] at hs; split at hs <;> cases hs; exact .inl rfl
  | spurious => simp only [step] at hs; split at hs <;> cases hs; exact .inl rfl
  | deadline => simp only [step] at hs; split at hs <;> cases hs; exact .inl rfl
  | go =>
    simp only [step, stepGo] at hs
    cases hp : c.pc t <;> rw [hp] at hs <;> simp only [] at hs
    case idle => cases hs
    case waitCv => cases hs
    case bump => exact absurd hp hb
    case setCount => cases hs; exact .inr rfl
    case wantLock => split at hs <;> cases hs; exact .inl rfl
    case woken => split at hs <;> cases hs; exact .inl rfl
    case pred => split at hs <;> (cases hs; exact .inl rfl)
    all_goals (cases hs; exact .inl rfl)

/-- Thread `t` is timing out (lines 91 and 93) while `u` is asleep, or has done so and `u` is going to return. -/
structure After (n w : Nat) (t u : T) (old : Nat) (evs : List (Ev T)) (c : Conf T) : Prop where
  closed : ∀ v, c.pc v ≠ .reset ∧ c.pc v ≠ .bump
  waiting : c.waiting = w + allEntered evs
  phase : ((c.pc t = .setCorrupt ∨ c.pc t = .setCount) ∧ (c.pc u = .waitCv old ∨ ∃ b, c.pc u = .woken old b)) ∨
    (c.count = 4294967295 ∧ (c.pc u).going old = true)
  calm : ∀ r, Ev.raise u r ∉ evs

theorem after_step {n w : Nat} {t u : T} {old : Nat} {evs : List (Ev T)} {c c' : Conf T} {v m e} (hn : n < 2 ^ 32)
    (hx : Excl c) (h : After n w t u old evs c) (hs : step n c v m = some (c', e)) (hold : old ≠ 4294967295)
    (hcall : e ≠ .call u) (hw : w + allEntered (evs ++ [e]) < n) : After n w t u old (evs ++ [e]) c' := by
  obtain ⟨h1, h2, h3, h4⟩ := h
  classical
  have hent : allEntered (evs ++ [e]) = allEntered evs + if (∃ x b, e = Ev.arrive x b) then 1 else 0 := by
    unfold allEntered
    rw [countP_snoc]
    cases e <;> simp
  have hlt : c.waiting < n := by omega
  have closed' : ∀ x, c'.pc x ≠ .reset ∧ c'.pc x ≠ .bump := by
    intro x
    by_cases hxv : x = v
    · subst hxv
      constructor
      · intro hq
        rcases closing_step hs (.inl hq) with ⟨o, -, ho⟩ | ho
        · omega
        · exact (h1 x).1 ho
      · intro hq
        rcases closing_step hs (.inr hq) with ⟨o, -, ho⟩ | ho
        · omega
        · exact (h1 x).1 ho
    · rcases step_other hs x hxv with ho | ⟨o, -, ho⟩
      · rw [ho]; exact h1 x
      · rw [ho]; simp
  have waiting' : c'.waiting = w + allEntered (evs ++ [e]) := by
    rcases waiting_step hs with ⟨h5, h6⟩ | ⟨h5, h6⟩ | h5
    · rw [hent, if_neg (by rintro ⟨x, b, hb⟩; exact h6 x b hb), h5, h2]; rfl
    · rw [hent, if_pos h6] at hw ⊢
      omega
    · exact absurd h5 (h1 v).1
  have calm' : (∀ r, e ≠ .raise u r) → ∀ r, Ev.raise u r ∉ evs ++ [e] := by
    intro hr r hm
    rcases List.mem_append.1 hm with hm | hm
    · exact h4 r hm
    · exact hr r (List.mem_singleton.1 hm).symm
  have other_raise : u ≠ v → ∀ r, e ≠ .raise u r := by
    rintro huv r rfl
    rcases step_self hs with ⟨he, -⟩ | ⟨o, he, -⟩ | ⟨he, -⟩ | ⟨r, -, he, -⟩ | ⟨he, -⟩
    · cases he
    · cases he
    · cases he
    · cases he; exact huv rfl
    · rcases he with he | he | he <;> cases he
  rcases h3 with ⟨ht, hu⟩ | ⟨hc, hu⟩
  · have hholder : c.holder = some t := (hx t).1 (by rcases ht with ht | ht <;> rw [ht] <;> rfl)
    have htu : u ≠ t := by
      rintro rfl
      rcases ht with ht | ht <;> rcases hu with hu | ⟨b, hu⟩ <;> rw [ht] at hu <;> cases hu
    have hgo : (c.pc u).going old = true := by
      rcases hu with hu | ⟨b, hu⟩ <;> rw [hu] <;> simp [Pc.going]
    by_cases hvt : v = t
    · subst hvt
      have hu' : c'.pc u = .waitCv old ∨ ∃ b, c'.pc u = .woken old b := by
        rcases step_other hs u htu with ho | ⟨o, ho, ho'⟩
        · rw [ho]; exact hu
        · rcases hu with hu | ⟨b, hu⟩
          · rw [hu] at ho; cases ho; exact .inr ⟨false, ho'⟩
          · rw [hu] at ho; cases ho
      refine ⟨closed', waiting', ?_, calm' (other_raise htu)⟩
      rcases ht with ht | ht
      · left
        refine ⟨?_, hu'⟩
        cases m <;> simp [step, stepGo, ht] at hs
        rw [← hs.1]; simp [Conf.goto]
      · right
        refine ⟨?_, ?_⟩
        · cases m <;> simp [step, stepGo, ht] at hs
          rw [← hs.1]; rfl
        · rcases hu' with hu' | ⟨b, hu'⟩ <;> rw [hu'] <;> simp [Pc.going]
    · have ht' : c'.pc t = .setCorrupt ∨ c'.pc t = .setCount := by
        rcases step_other hs t (Ne.symm hvt) with ho | ⟨o, ho, -⟩
        · rw [ho]; exact ht
        · rcases ht with ht | ht <;> rw [ht] at ho <;> cases ho
      by_cases hvu : v = u
      · subst hvu
        have : (c'.pc v = .waitCv old ∨ ∃ b, c'.pc v = .woken old b) ∧ ∀ r, e ≠ .raise v r := by
          rcases hu with hu | ⟨b, hu⟩
          · cases m <;> simp [step, stepGo, hu] at hs
            · rw [← hs.1, ← hs.2]; exact ⟨.inr ⟨false, by simp [Conf.goto]⟩, by simp⟩
            · rw [← hs.1, ← hs.2]; exact ⟨.inr ⟨true, by simp [Conf.goto]⟩, by simp⟩
          · cases m <;> simp [step, stepGo, hu, hholder] at hs
        exact ⟨closed', waiting', .inl ⟨ht', this.1⟩, calm' this.2⟩
      · have hu' : c'.pc u = .waitCv old ∨ ∃ b, c'.pc u = .woken old b := by
          rcases step_other hs u (Ne.symm hvu) with ho | ⟨o, ho, ho'⟩
          · rw [ho]; exact hu
          · rcases hu with hu | ⟨b, hu⟩
            · rw [hu] at ho; cases ho; exact .inr ⟨false, ho'⟩
            · rw [hu] at ho; cases ho
        exact ⟨closed', waiting', .inl ⟨ht', hu'⟩, calm' (other_raise (Ne.symm hvu))⟩
  · have hc' : c'.count = 4294967295 := by
      rcases count_step' hs (h1 v).2 with h5 | h5
      · rw [h5, hc]
      · exact h5
    by_cases hvu : v = u
    · subst hvu
      obtain ⟨h5, h6⟩ := going_step hs hu (by rw [hc]; exact hold) hcall
      exact ⟨closed', waiting', .inr ⟨hc', h5⟩, calm' fun r => h6 v r⟩
    · have hu' : (c'.pc u).going old = true := by
        rcases step_other hs u (Ne.symm hvu) with ho | ⟨o, ho, ho'⟩
        · rw [ho]; exact hu
        · rw [ho'] ; rw [ho] at hu; exact hu
      exact ⟨closed', waiting', .inr ⟨hc', hu'⟩, calm' (other_raise (Ne.symm hvu))⟩

theorem after_steps {n : Nat} {evs : List (Ev T)} {c : Conf T} {t u : T} {old : Nat} (hn : n < 2 ^ 32) (h : Run n evs c)
    (ht : c.pc t = .setCorrupt) (hu : c.pc u = .waitCv old ∨ ∃ b, c.pc u = .woken old b) (hold : old ≠ 4294967295)
    {evs' c'} (hs : Steps n c evs' c') (hcall : Ev.call u ∉ evs') (hw : c.waiting + allEntered evs' < n) :
    After n c.waiting t u old evs' c' := by
  induction hs with
  | nil =>
    have hx := (safe_run h).1
    refine ⟨fun v => ?_, by simp [allEntered], .inl ⟨.inl ht, hu⟩, by simp⟩
    have h1 := (hx t).1 (by rw [ht]; rfl)
    constructor
    all_goals
      intro hv
      have h2 := (hx v).1 (by rw [hv]; rfl)
      rw [h1] at h2
      cases h2
      rw [ht] at hv
      cases hv
  | @snoc evs' c₁ v m c' e hs' hs ih =>
    have hle : allEntered evs' ≤ allEntered (evs' ++ [e]) := by
      unfold allEntered; rw [List.countP_append]; omega
    have h1 := ih (fun hm => hcall (List.mem_append_left _ hm)) (by omega)
    exact after_step hn (safe_run (h.extend hs')).1 h1 hs hold
      (by rintro rfl; exact hcall (List.mem_append_right _ (by simp))) hw

/-- The thread that executes line 91 throws `Timeout`, or has thrown it. -/
theorem timing_steps {n : Nat} {c : Conf T} {t : T} (ht : c.pc t = .setCorrupt) {evs' c'} (hs : Steps n c evs' c') :
    c'.pc t = .setCorrupt ∨ c'.pc t = .setCount ∨ c'.pc t = .notifyT ∨ c'.pc t = .leave .timeout ∨
      c'.pc t = .out .timeout ∨ Ev.raise t .timeout ∈ evs' := by
  induction hs with
  | nil => exact .inl ht
  | @snoc evs' c₁ v m c' e hs' hs ih =>
    by_cases hv : v = t
    · subst hv
      have hg : ∀ (c₁ : Conf T) p, (c₁.goto v p).pc v = p := by
        intro c₁ p; simp [Conf.goto]
      rcases ih with h | h | h | h | h | h
      · cases m <;> simp [step, stepGo, h] at hs
        rw [← hs.1, hg]; simp
      · cases m <;> simp [step, stepGo, h] at hs
        rw [← hs.1, hg]; simp
      · cases m <;> simp [step, stepGo, h] at hs
        rw [← hs.1, hg]; simp
      · cases m <;> simp [step, stepGo, h] at hs
        rw [← hs.1, hg]; simp
      · cases m <;> simp [step, stepGo, h] at hs
        rw [← hs.2]; simp
      · simp [h]
    · rcases step_other hs t (Ne.symm hv) with h | ⟨o, h, -⟩
      · rw [h]
        rcases ih with h | h | h | h | h | h <;> simp [h]
      · rcases ih with h' | h' | h' | h' | h' | h' <;> first | (rw [h] at h'; cases h') | simp [h']

/-- C50, what happens instead.  Thread `t` times out while `u` sleeps at the barrier (and has not read the generation
0xffffffff).  As long as the arrivals do not fill the barrier, no exception is thrown to `u`, not even if its own
deadline passes; and when all threads have gone on as far as they can, `wait` has thrown `Timeout` to `t` and returned
normally to `u`. -/
theorem C50_others_return_partial [Fintype T] {n : Nat} {evs : List (Ev T)} {c : Conf T} {t u : T} {old : Nat}
    (hn : n < 2 ^ 32) (h : Run n evs c) (ht : c.pc t = .setCorrupt) (hu : c.pc u = .waitCv old)
    (hold : old ≠ 2 ^ 32 - 1) :
    (∀ evs' c', Steps n c evs' c' → Ev.call u ∉ evs' → c.waiting + allEntered evs' < n →
      ∀ r, Ev.raise u r ∉ evs') ∧
    ∃ bound, ∀ evs' c', GoSteps n c evs' c' → evs'.length ≤ bound ∧
      (c.waiting + allEntered evs' < n → (∀ v, step n c' v .go = none) →
        Ev.ret u ∈ evs' ∧ Ev.raise t .timeout ∈ evs') := by
  have hold' : old ≠ 4294967295 := by simpa using hold
  refine ⟨fun evs' c' hs hc hw => (after_steps hn h ht (.inl hu) hold' hs hc hw).calm, c.work, ?_⟩
  intro evs' c' hgo
  refine ⟨by have := hgo.work; omega, ?_⟩
  intro hw hstuck
  have hcall : Ev.call u ∉ evs' := by
    have : ∀ evs' c', GoSteps n c evs' c' → Ev.call u ∉ evs' := by
      intro evs' c' hgo
      induction hgo with
      | nil => simp
      | @snoc evs' c₁ v c' e _ hs ih =>
        intro hm
        rcases List.mem_append.1 hm with hm | hm
        · exact ih hm
        · have he : e = .call u := (List.mem_singleton.1 hm).symm
          subst he
          rcases step_self hs with ⟨-, h1, -⟩ | ⟨o, he, -⟩ | ⟨he, -⟩ | ⟨r, -, he, -⟩ | ⟨he, -⟩
          · simp [step, stepGo, h1] at hs
          · cases he
          · cases he
          · cases he
          · rcases he with he | he | he <;> cases he
    exact this _ _ hgo
  have ha := after_steps hn h ht (.inl hu) hold' hgo.steps hcall hw
  have hrun := h.extend hgo.steps
  obtain ⟨-, hst⟩ := C83_stuck hrun hstuck
  constructor
  · have hidle : c'.pc u = .idle := by
      rcases hst u with h1 | h1
      · exact h1
      · exfalso
        rcases ha.phase with ⟨h2 | h2, -⟩ | ⟨h2, h3⟩
        · rcases hst t with h4 | h4 <;> rw [h2] at h4 <;> cases h4
        · rcases hst t with h4 | h4 <;> rw [h2] at h4 <;> cases h4
        · rw [h1] at h3
          have := of_decide_eq_true h3
          omega
    have h1 := (counts h u).1
    have h2 := (counts hrun u).1
    rw [hu] at h1
    rw [hidle] at h2
    simp only [reduceCtorEq, if_false, if_true] at h1 h2
    have h3 : callsBy u (evs ++ evs') = callsBy u evs := by
      unfold callsBy
      rw [List.countP_append, Nat.add_eq_left, List.countP_eq_zero]
      intro e he hx
      exact hcall (by simpa [of_decide_eq_true hx] using he)
    have h4 : endsOf u (evs ++ evs') = endsOf u evs + endsOf u evs' := by
      unfold endsOf
      rw [List.countP_append]
    have h5 : 0 < endsOf u evs' := by omega
    unfold endsOf at h5
    rw [List.countP_pos_iff] at h5
    obtain ⟨e, he, hx⟩ := h5
    cases e <;> simp at hx
    · subst hx; exact he
    · subst hx; exact absurd he (ha.calm _)
  · rcases timing_steps ht hgo.steps with h1 | h1 | h1 | h1 | h1 | h1
    · rcases hst t with h2 | h2 <;> rw [h1] at h2 <;> cases h2
    · rcases hst t with h2 | h2 <;> rw [h1] at h2 <;> cases h2
    · rcases hst t with h2 | h2 <;> rw [h1] at h2 <;> cases h2
    · rcases hst t with h2 | h2 <;> rw [h1] at h2 <;> cases h2
    · rcases hst t with h2 | h2 <;> rw [h1] at h2 <;> cases h2
    · exact h1

theorem goSteps_sched {n} {c₀ : Conf T} (ts : List T) : ∀ (c : Conf T) (evs : List (Ev T))
    (c' : Conf T) (evs' : List (Ev T)), runSched n (ts.map fun t => (t, .go)) (c, evs) = some (c', evs') →
    GoSteps n c₀ evs c → GoSteps n c₀ evs' c' := by
  induction ts with
  | nil => intro c evs c' evs' h hs; cases h; exact hs
  | cons a rest ih =>
    intro c evs c' evs' h hs
    simp only [List.map_cons, runSched] at h
    split at h
    · cases h
    · next c₁ e h1 => exact ih _ _ _ _ h (.snoc hs h1)

/-- At a barrier for four, threads 0, 1 and 2 sleep and the deadline of thread 0 passes. -/
def threeSleep : List (Fin 4 × Move) :=
  callGo 0 5 4 ++ callGo 1 5 4 ++ callGo 2 5 4 ++ [(0, .deadline)] ++ go 0 3 4

/-- Then everybody goes on. -/
def threeGo : List (Fin 4) := List.replicate 5 0 ++ List.replicate 4 1 ++ List.replicate 4 2

/-- The hypotheses hold, and they also hold when the deadline of thread 1 passes as well. -/
example : ∃ evs c evs' c', Run (T := Fin 4) 4 evs c ∧ c.pc 0 = .setCorrupt ∧ c.pc 1 = .waitCv 0 ∧ c.pc 2 = .waitCv 0 ∧
    GoSteps 4 c evs' c' ∧ c.waiting + allEntered evs' < 4 ∧ (∀ v, step 4 c' v .go = none) := by
  obtain ⟨c, evs, h⟩ : ∃ c evs, runSched 4 threeSleep (Conf.init, []) = some (c, evs) := ⟨_, _, rfl⟩
  obtain ⟨c', evs', h'⟩ : ∃ c' evs', runSched 4 (threeGo.map fun t => (t, .go)) (c, []) = some (c', evs') := by
    cases h; exact ⟨_, _, rfl⟩
  refine ⟨evs, c, evs', c', run_sched h, ?_, ?_, ?_, goSteps_sched _ _ _ _ _ h' .nil, ?_, ?_⟩ <;>
    (cases h; cases h'; decide +kernel)

example : ∃ evs c evs' c', Run (T := Fin 4) 4 evs c ∧ c.pc 0 = .setCorrupt ∧ c.pc 1 = .waitCv 0 ∧
    Steps 4 c evs' c' ∧ Ev.call 1 ∉ evs' ∧ c.waiting + allEntered evs' < 4 ∧ Ev.deadline 1 ∈ evs' := by
  obtain ⟨c, evs, h⟩ : ∃ c evs, runSched 4 threeSleep (Conf.init, []) = some (c, evs) := ⟨_, _, rfl⟩
  obtain ⟨c', evs', h'⟩ : ∃ c' evs', runSched 4 ([(1, .deadline)] ++ go 0 5 4 ++ go 1 4 4) (c, []) = some (c', evs') := by
    cases h; exact ⟨_, _, rfl⟩
  refine ⟨evs, c, evs', c', run_sched h, ?_, ?_, steps_sched _ _ _ _ _ h' .nil, ?_, ?_, ?_⟩ <;>
    (cases h; cases h'; decide +kernel)

/-- Having timed out, a thread that calls `wait` again passes a barrier for two alone. -/
theorem C50_refuted_retry :
    seen (N := 2) 2 (callGo 0 5 2 ++ [(0, .deadline)] ++ go 0 8 2 ++ callGo 0 9 2) =
      some [.call 0, .arrive 0 true, .deadline 0, .raise 0 .timeout, .call 0, .arrive 0 true, .ret 0] := by decide

end SoDa.Bar
