import Verif.Props.BarrierAfter
/-!
Property C51, continued: how many calls can have returned when there are more threads than the barrier is for.
-/
set_option linter.unusedSectionVars false
namespace SoDa.Bar
open Spec

variable {T : Type} [DecidableEq T]

/-- The thread has arrived in the current generation having read its number, and has not been released. -/
def Pc.current (G : Nat) : Pc → Bool
  | .test o | .pred o | .waitCv o | .woken o false => o = G
  | .reset | .bump => true
  | _ => false

theorem current_step {n} {c c' : Conf T} {t m e} (hs : step n c t m = some (c', e)) (hd : e ≠ .deadline t)
    (hb : c.pc t ≠ .bump) (h : (c.pc t).current c.count = true) : (c'.pc t).current c.count = true := by
  have hg : ∀ (c₁ : Conf T) p, (c₁.goto t p).pc t = p := by
    intro c₁ p; simp [Conf.goto]
  cases m with
  | call => simp only [step] at hs; split at hs
            · next hp => rw [hp] at h; cases h
            · cases hs
  | spurious =>
    simp only [step] at hs
    split at hs
    · next o hp => cases hs; rw [hg]; rw [hp] at h; exact h
    · cases hs
  | deadline =>
    simp only [step] at hs
    split at hs
    · cases hs; exact absurd rfl hd
    · cases hs
  | go =>
    simp only [step, stepGo] at hs
    cases hp : c.pc t <;> rw [hp] at hs h <;> simp only [] at hs <;> try (cases h; done)
    case waitCv => cases hs
    case bump => exact absurd hp hb
    case reset => cases hs; rw [hg]; rfl
    case test o => cases hs; rw [hg]; split <;> first | rfl | exact h
    case woken o b =>
      cases b
      · split at hs <;> cases hs
        rw [hg]; exact h
      · cases h
    case pred o =>
      have : o = c.count := of_decide_eq_true h
      rw [if_neg (by simpa using this)] at hs
      cases hs; rw [hg]; exact h

/-- `G` generations are complete; `k` threads have arrived since, those in `cur` having read the number of the current
generation, `st` others another one; those in `pend` have not returned yet. -/
structure Surplus (n : Nat) (evs : List (Ev T)) (c : Conf T) (G k st : Nat) (cur pend : List T) : Prop where
  arr : allEntered evs = n * G + k
  len : k ≤ n
  wait : (∀ u, c.pc u ≠ .bump) → c.waiting = k
  bump : ∀ u, c.pc u = .bump → c.waiting = 0
  full : k = n → ∃ u, (∃ old, c.pc u = .test old) ∨ c.pc u = .reset ∨ c.pc u = .bump
  full' : ∀ u, c.pc u = .reset ∨ c.pc u = .bump → k = n
  split : cur.length + st = k
  cur_mem : ∀ t ∈ cur, (c.pc t).current c.count = true
  cur_nodup : cur.Nodup
  stale : st ≤ overtakings evs
  pend_mem : ∀ t, t ∈ pend ↔ (c.pc t).arrived = true
  pend_nodup : pend.Nodup
  ret : allReturns evs + pend.length = allEntered evs

theorem bump_from {n} {c c' : Conf T} {t m e} (hs : step n c t m = some (c', e)) (h : c'.pc t = .bump) :
    c.pc t = .reset := by
  rcases closing_step hs (.inr h) with ⟨o, ho, -⟩ | h1
  · cases m <;> simp [step, stepGo, ho] at hs
    rw [← hs.1] at h
    simp only [Conf.goto, if_true] at h
    split at h <;> cases h
  · exact h1

theorem reset_from {n} {c c' : Conf T} {t m e} (hs : step n c t m = some (c', e)) (h : c'.pc t = .reset) :
    ∃ old, c.pc t = .test old ∧ c.waiting = n := by
  rcases closing_step hs (.inl h) with h1 | h1
  · exact h1
  · cases m <;> simp [step, stepGo, h1] at hs
    rw [← hs.1] at h
    simp [Conf.goto] at h

theorem test_to {n} {c c' : Conf T} {t m e o} (hs : step n c t m = some (c', e)) (h : c.pc t = .test o)
    (hw : c.waiting = n) : c'.pc t = .reset := by
  cases m <;> simp [step, stepGo, h] at hs
  rw [← hs.1]
  simp [Conf.goto, hw]

theorem allReturns_append1 (evs : List (Ev T)) (e : Ev T) :
    allReturns (evs ++ [e]) = allReturns evs + allReturns [e] := by
  unfold allReturns; rw [List.countP_append]

theorem allEntered_snoc (evs : List (Ev T)) (e : Ev T) :
    allEntered (evs ++ [e]) = allEntered evs + allEntered [e] := by
  unfold allEntered; rw [List.countP_append]

theorem overtakings_snoc (evs : List (Ev T)) (e : Ev T) :
    overtakings (evs ++ [e]) = overtakings evs + overtakings [e] := by
  unfold overtakings; rw [List.countP_append]

/-- Who has arrived and not returned. -/
theorem pend_step {n evs} {c c' : Conf T} {u m e} {pend : List T} (hs : step n c u m = some (c', e))
    (hr : ∀ r, e ≠ .raise u r)
    (h1 : ∀ t, t ∈ pend ↔ (c.pc t).arrived = true) (h2 : pend.Nodup)
    (h3 : allReturns evs + pend.length = allEntered evs) :
    ∃ pend' : List T, (∀ t, t ∈ pend' ↔ (c'.pc t).arrived = true) ∧ pend'.Nodup ∧
      allReturns (evs ++ [e]) + pend'.length = allEntered (evs ++ [e]) := by
  have ho : ∀ t, t ≠ u → (c'.pc t).arrived = (c.pc t).arrived := by
    intro t ht
    rcases step_other hs t ht with h | ⟨o, h, h'⟩
    · rw [h]
    · rw [h, h']; rfl
  have same : (c'.pc u).arrived = (c.pc u).arrived → ∀ t, t ∈ pend ↔ (c'.pc t).arrived = true := by
    intro hu t
    by_cases ht : t = u
    · rw [ht, hu, ← ht]; exact h1 t
    · rw [ho t ht]; exact h1 t
  rw [allReturns_append1, allEntered_snoc]
  rcases step_self hs with ⟨he, hp, hp'⟩ | ⟨o, he, hp, hp'⟩ | ⟨he, hp, hp'⟩ | ⟨r, -, he, -⟩ | ⟨he, -, -, ha⟩
  · exact ⟨pend, same (by rw [hp, hp']; rfl), h2, by subst he; simpa [allReturns, allEntered] using h3⟩
  · have hu : u ∉ pend := by rw [h1, hp]; simp [Pc.arrived]
    refine ⟨u :: pend, ?_, List.nodup_cons.2 ⟨hu, h2⟩, ?_⟩
    · intro t
      rw [List.mem_cons]
      by_cases ht : t = u
      · subst ht; rw [hp']; simp [Pc.arrived]
      · rw [ho t ht]; simp [ht, h1]
    · subst he
      simp [allReturns, allEntered] at h3 ⊢
      omega
  · have hu : u ∈ pend := by rw [h1, hp]; rfl
    refine ⟨pend.erase u, ?_, h2.erase u, ?_⟩
    · intro t
      rw [h2.mem_erase_iff]
      by_cases ht : t = u
      · subst ht; rw [hp']; simp [Pc.arrived]
      · rw [ho t ht]; simp [ht, h1]
    · subst he
      have := List.length_erase_of_mem hu
      have := List.length_pos_of_mem hu
      simp [allReturns, allEntered] at h3 ⊢
      omega
  · exact absurd he (hr r)
  · refine ⟨pend, same ha, h2, ?_⟩
    rcases he with he | he | he <;> subst he <;> simpa [allReturns, allEntered] using h3

theorem surplus_run {n evs} {c : Conf T} (hn : 1 ≤ n) (hn32 : n < 2 ^ 32) (h : Run n evs c) (hd : NoDeadline evs) :
    ∃ G k st cur pend, Surplus n evs c G k st cur pend := by
  have hn32' : n < 4294967296 := by simpa using hn32
  induction h with
  | init =>
    refine ⟨0, 0, 0, [], [], ?_⟩
    constructor <;> simp [Conf.init, allEntered, allReturns, Pc.arrived]
    omega
  | @snoc evs c u m c' e h hs ih =>
    obtain ⟨G, k, st, cur, pend, hi⟩ := ih (fun t ht => hd t (List.mem_append_left _ ht))
    have hdl : e ≠ .deadline u := fun he => hd u (by simp [he])
    have hx := (safe_run h).1
    have hcalm := (calm_run h (fun t ht => hd t (List.mem_append_left _ ht))).1
    have hr : ∀ r, e ≠ .raise u r := by
      rintro r rfl
      exact (calm_run (h.snoc hs) hd).2 u r (by simp)
    have only : ∀ x y, (c.pc x).holds = true → (c.pc y).holds = true → x = y := by
      intro x y h1 h2
      have h1 := (hx x).1 h1
      have h2 := (hx y).1 h2
      rw [h1] at h2; exact Option.some.inj h2
    obtain ⟨pend', hp1, hp2, hp3⟩ := pend_step hs hr hi.pend_mem hi.pend_nodup hi.ret
    have hoth : ∀ x, x ≠ u → (∀ o, c.pc x ≠ .waitCv o) → c'.pc x = c.pc x := by
      intro x hxu hw
      rcases step_other hs x hxu with h1 | ⟨o, h1, -⟩
      · exact h1
      · exact absurd h1 (hw o)
    have hback : ∀ x, x ≠ u → ∀ p, (∀ o b, p ≠ .woken o b) → c'.pc x = p → c.pc x = p := by
      intro x hxu p hp hq
      rcases step_other hs x hxu with h1 | ⟨o, -, h2⟩
      · rw [← h1]; exact hq
      · rw [h2] at hq; exact absurd hq.symm (hp _ _)
    by_cases hb : c.pc u = .bump
    · -- a generation ends
      have hs0 := hs
      cases m <;> simp [step, stepGo, hb] at hs0
      obtain ⟨hc', he⟩ := hs0
      have hu' : c'.pc u = .notify := by rw [← hc']; simp [Conf.goto]
      have hk := hi.full' u (.inr hb)
      have hw : c'.waiting = 0 := by rw [← hc']; exact hi.bump u hb
      refine ⟨G + 1, 0, 0, [], pend', ?_⟩
      have hno : ∀ x, ¬ (c'.pc x = .reset ∨ c'.pc x = .bump) := by
        intro x hq
        by_cases hxu : x = u
        · subst hxu; rw [hu'] at hq; simp at hq
        · have : (c.pc x).holds = true := by
            rcases hq with hq | hq <;> rw [hback x hxu _ (by simp) hq] <;> rfl
          exact hxu (only x u this (by rw [hb]; rfl))
      constructor
      · rw [allEntered_snoc, hi.arr, hk, ← he]
        simp only [allEntered, List.countP_cons, List.countP_nil, Nat.mul_add, Nat.mul_one]
        rfl
      · omega
      · intro _; exact hw
      · intro _ _; exact hw
      · intro; omega
      · intro x hq; exact absurd hq (hno x)
      · rfl
      · simp
      · simp
      · omega
      · exact hp1
      · exact hp2
      · exact hp3
    · have hcount : c'.count = c.count := by
        rcases count_step hs with h1 | h1 | h1
        · exact h1
        · exact absurd h1 hb
        · have := hcalm u; rw [h1] at this; cases this
      have hcur : ∀ x, (c.pc x).current c.count = true → (c'.pc x).current c'.count = true := by
        intro x hq
        rw [hcount]
        by_cases hxu : x = u
        · subst hxu; exact current_step hs hdl hb hq
        · rcases step_other hs x hxu with h1 | ⟨o, h1, h2⟩
          · rw [h1]; exact hq
          · rw [h2]; rw [h1] at hq; exact hq
      by_cases hin : ∃ old, c.pc u = .incr old
      · -- an arrival
        obtain ⟨old, hin⟩ := hin
        have hs0 := hs
        cases m <;> simp [step, stepGo, hin] at hs0
        obtain ⟨hc', he⟩ := hs0
        have hu' : c'.pc u = .test old := by rw [← hc']; simp [Conf.goto]
        have hnot : ∀ x, (c.pc x).holds = true → x = u := fun x hq => only x u hq (by rw [hin]; rfl)
        have hk : k < n := by
          refine Nat.lt_of_le_of_ne hi.len fun hk => ?_
          obtain ⟨x, hq⟩ := hi.full hk
          have : x = u := hnot x (by rcases hq with ⟨o, hq⟩ | hq | hq <;> rw [hq] <;> rfl)
          subst this
          rw [hin] at hq; simp at hq
        have hw : c.waiting = k := hi.wait fun x hq => by
          have : x = u := hnot x (by rw [hq]; rfl)
          subst this
          exact hb hq
        have hw' : c'.waiting = k + 1 := by
          rw [← hc']
          show (c.waiting + 1) % 4294967296 = k + 1
          rw [hw]; omega
        have hno : ∀ x, ¬ (c'.pc x = .reset ∨ c'.pc x = .bump) := by
          intro x hq
          by_cases hxu : x = u
          · subst hxu; rw [hu'] at hq; simp at hq
          · have : (c.pc x).holds = true := by
              rcases hq with hq | hq <;> rw [hback x hxu _ (by simp) hq] <;> rfl
            exact hxu (hnot x this)
        have harr : allEntered (evs ++ [e]) = n * G + (k + 1) := by
          rw [allEntered_snoc, hi.arr, ← he]
          simp [allEntered]
          omega
        by_cases hf : old = c.count
        · refine ⟨G, k + 1, st, u :: cur, pend', ?_⟩
          have hucur : u ∉ cur := fun hq => by
            have := hi.cur_mem u hq
            rw [hin] at this; cases this
          constructor
          · exact harr
          · omega
          · intro _; exact hw'
          · intro x hq; exact absurd (.inr hq) (hno x)
          · intro _; exact ⟨u, .inl ⟨old, hu'⟩⟩
          · intro x hq; exact absurd hq (hno x)
          · have := hi.split; simp; omega
          · intro x hq
            rcases List.mem_cons.1 hq with hq | hq
            · subst hq; rw [hu', hcount]; simp [Pc.current, hf]
            · exact hcur x (hi.cur_mem x hq)
          · exact List.nodup_cons.2 ⟨hucur, hi.cur_nodup⟩
          · rw [overtakings_snoc]; have := hi.stale; omega
          · exact hp1
          · exact hp2
          · exact hp3
        · refine ⟨G, k + 1, st + 1, cur, pend', ?_⟩
          constructor
          · exact harr
          · omega
          · intro _; exact hw'
          · intro x hq; exact absurd (.inr hq) (hno x)
          · intro _; exact ⟨u, .inl ⟨old, hu'⟩⟩
          · intro x hq; exact absurd hq (hno x)
          · have := hi.split; omega
          · intro x hq; exact hcur x (hi.cur_mem x hq)
          · exact hi.cur_nodup
          · rw [overtakings_snoc, ← he]; have := hi.stale; simp [overtakings, hf] at this ⊢; omega
          · exact hp1
          · exact hp2
          · exact hp3
      · have hne : ∀ b, e ≠ .arrive u b := by
          rintro b rfl
          rcases step_self hs with ⟨h1, -⟩ | ⟨o, -, h1, -⟩ | ⟨h1, -⟩ | ⟨r, -, h1, -⟩ | ⟨h1, -⟩
          · cases h1
          · exact hin ⟨o, h1⟩
          · cases h1
          · cases h1
          · rcases h1 with h1 | h1 | h1 <;> cases h1
        have hne' : ∀ x b, e ≠ .arrive x b := by
          rintro x b rfl
          rcases step_self hs with ⟨h1, -⟩ | ⟨o, h1, h2, -⟩ | ⟨h1, -⟩ | ⟨r, -, h1, -⟩ | ⟨h1, -⟩
          · cases h1
          · exact hin ⟨o, h2⟩
          · cases h1
          · cases h1
          · rcases h1 with h1 | h1 | h1 <;> cases h1
        have harr : allEntered (evs ++ [e]) = n * G + k := by
          rw [allEntered_snoc, hi.arr]
          cases e <;> first | rfl | exact absurd rfl (hne' _ _)
        have hback' : ∀ x, c'.pc x = .bump → (x = u ∧ c.pc u = .reset) ∨ c.pc x = .bump := by
          intro x hq
          by_cases hxu : x = u
          · subst hxu; exact .inl ⟨rfl, bump_from hs hq⟩
          · exact .inr (hback x hxu _ (by simp) hq)
        refine ⟨G, k, st, cur, pend', ?_⟩
        have rest : st ≤ overtakings (evs ++ [e]) := by
          rw [overtakings_snoc]; have := hi.stale; omega
        by_cases hre : c.pc u = .reset
        · have hs0 := hs
          cases m <;> simp [step, stepGo, hre] at hs0
          obtain ⟨hc', he⟩ := hs0
          have hu' : c'.pc u = .bump := by rw [← hc']; simp [Conf.goto]
          have hk := hi.full' u (.inl hre)
          constructor
          · exact harr
          · exact hi.len
          · intro hq; exact absurd hu' (hq u)
          · intro _ _; rw [← hc']; rfl
          · intro _; exact ⟨u, .inr (.inr hu')⟩
          · intro _ _; exact hk
          · exact hi.split
          · intro x hq; exact hcur x (hi.cur_mem x hq)
          · exact hi.cur_nodup
          · exact rest
          · exact hp1
          · exact hp2
          · exact hp3
        · have hw : c'.waiting = c.waiting := by
            rcases waiting_step hs with ⟨h1, -⟩ | ⟨-, x, b, h1⟩ | h1
            · exact h1
            · exact absurd h1 (hne' x b)
            · exact absurd h1 hre
          have hbb : ∀ x, c'.pc x = .bump ↔ c.pc x = .bump := by
            intro x
            constructor
            · intro hq
              rcases hback' x hq with ⟨-, h1⟩ | h1
              · exact absurd h1 hre
              · exact h1
            · intro hq
              rw [hoth x (by rintro rfl; exact hb hq) (by simp [hq])]; exact hq
          have hwt : (∃ o, c.pc u = .test o) → c.waiting = k := by
            rintro ⟨o, ho⟩
            refine hi.wait fun x hq => ?_
            have := only x u (by rw [hq]; rfl) (by rw [ho]; rfl)
            subst this
            exact hb hq
          constructor
          · exact harr
          · exact hi.len
          · intro hq; rw [hw]; exact hi.wait fun x hx' => hq x ((hbb x).2 hx')
          · intro x hq; rw [hw]; exact hi.bump x ((hbb x).1 hq)
          · intro hk
            obtain ⟨x, hq⟩ := hi.full hk
            by_cases hxu : x = u
            · subst hxu
              rcases hq with ⟨o, ho⟩ | hq | hq
              · exact ⟨x, .inr (.inl (test_to hs ho (by rw [hwt ⟨o, ho⟩, hk])))⟩
              · exact absurd hq hre
              · exact absurd hq hb
            · refine ⟨x, ?_⟩
              rw [hoth x hxu (by rcases hq with ⟨o, hq⟩ | hq | hq <;> simp [hq])]
              exact hq
          · intro x hq
            rcases hq with hq | hq
            · by_cases hxu : x = u
              · subst hxu
                obtain ⟨o, ho, hw0⟩ := reset_from hs hq
                rw [← hwt ⟨o, ho⟩]; exact hw0
              · exact hi.full' x (.inl (hback x hxu _ (by simp) hq))
            · exact hi.full' x (.inr ((hbb x).1 hq))
          · exact hi.split
          · intro x hq; exact hcur x (hi.cur_mem x hq)
          · exact hi.cur_nodup
          · exact rest
          · exact hp1
          · exact hp2
          · exact hp3

theorem Surplus.bound {n evs G k st cur pend} {c : Conf T} (hn : 1 ≤ n) (h : Surplus n evs c G k st cur pend) :
    allReturns evs ≤ n * (allEntered evs / n) + st := by
  have hsub : cur ⊆ pend := by
    intro t ht
    rw [h.pend_mem]
    have := h.cur_mem t ht
    revert this
    cases c.pc t <;> simp [Pc.current, Pc.arrived]
  have hlen : cur.length ≤ pend.length := (List.subperm_of_subset h.cur_nodup hsub).length_le
  have h1 := h.ret
  have h2 := h.arr
  have h3 := h.split
  have h4 : n * G ≤ n * (allEntered evs / n) := by
    refine Nat.mul_le_mul_left n ?_
    rw [h2, Nat.mul_add_div (by omega)]
    exact Nat.le_add_right _ _
  omega

/-- C51 for all executions without timeouts: the returns exceed `n * ⌊a / n⌋` at most by the number of times a thread
was overtaken, that is, a generation ended between its unlocked read of `barrier_count` and its arrival. -/
theorem C51_overtaken_partial {n evs} {c : Conf T} (h1 : 1 ≤ n) (hn : n < 2 ^ 32) (h : Run n evs c)
    (hd : NoDeadline evs) : allReturns evs ≤ n * (allCalls evs / n) + overtakings evs := by
  obtain ⟨G, k, st, cur, pend, hi⟩ := surplus_run h1 hn h hd
  obtain ⟨pre, -, -, hp⟩ := calls_arrivals h
  have h2 : allEntered evs ≤ allCalls evs := by
    have : allEntered evs = arrivals evs := rfl
    omega
  have h3 := hi.bound h1
  have h4 := Nat.mul_le_mul_left n (Nat.div_le_div_right (c := n) h2)
  have h5 := hi.stale
  omega

/-- The bound is reached: three threads at a barrier for two, all three return and one was overtaken. -/
example : ∃ evs c, Run (T := Fin 3) 2 evs c ∧ NoDeadline evs ∧ allCalls evs = 3 ∧ allReturns evs = 3 ∧
    overtakings evs = 1 := by
  refine ⟨_, _, run_sched (sch := overtaken) (by rfl), ?_, by decide, by decide, by decide⟩
  unfold NoDeadline; decide

/-- The other half of the page comment, "N threads have to call wait before any caller can go forward": fewer threads
than the barrier is for never pass it, however often they are woken up. -/
theorem C51_too_few [Fintype T] {n evs} {c : Conf T} (hn : n < 2 ^ 32) (hcard : Fintype.card T < n) (h : Run n evs c)
    (hd : NoDeadline evs) : allReturns evs = 0 := by
  have key : allReturns evs = 0 ∧ allEntered evs < n ∧ overtakings evs = 0 ∧ c.count = 0 ∧
      ∀ t old, c.pc t = .wantLock old ∨ c.pc t = .incr old → old = 0 := by
    induction h with
    | init => simp [Conf.init, allReturns, allEntered, overtakings]; omega
    | @snoc evs c u m c' e h hs ih =>
      have hd' : NoDeadline evs := fun t ht => hd t (List.mem_append_left _ ht)
      obtain ⟨h1, h2, h3, h4, h5⟩ := ih hd'
      obtain ⟨G, k, st, cur, pend, hi⟩ := surplus_run (by omega) hn h hd'
      obtain ⟨G', k', st', cur', pend', hi'⟩ := surplus_run (by omega) hn (h.snoc hs) hd
      have hcur := hi.cur_nodup.length_le_card
      have hpend' := hi'.pend_nodup.length_le_card
      have hcount : c'.count = c.count := by
        rcases count_step hs with h6 | h6 | h6
        · exact h6
        · have := hi.full' u (.inr h6)
          have := hi.split
          have := hi.stale
          omega
        · have := (calm_run h hd').1 u; rw [h6] at this; cases this
      have hover : overtakings (evs ++ [e]) = 0 := by
        rw [overtakings_snoc, h3]
        rcases step_self hs with ⟨he, -⟩ | ⟨o, he, hp, -⟩ | ⟨he, -⟩ | ⟨r, -, he, -⟩ | ⟨he, -⟩
        · subst he; rfl
        · have := h5 u o (.inr hp)
          subst he; simp [overtakings, this, h4]
        · subst he; rfl
        · subst he; rfl
        · rcases he with he | he | he <;> subst he <;> rfl
      have hb := hi'.bound (by omega)
      have hst := hi'.stale
      have hret := hi'.ret
      rw [hover] at hst
      have hor : allReturns [e] = 0 ∨ allEntered [e] = 0 := by
        cases e <;> simp [allReturns, allEntered]
      rw [allReturns_append1, allEntered_snoc] at hret hb
      rw [allReturns_append1, allEntered_snoc]
      have hz : allReturns [e] = 0 := by
        rcases hor with ho | ho
        · exact ho
        · rw [ho, Nat.add_zero, Nat.div_eq_of_lt h2] at hb
          omega
      refine ⟨by omega, by omega, hover, by rw [hcount]; exact h4, ?_⟩
      intro t old ho
      by_cases htu : t = u
      · subst htu
        rcases old_step hs ho with h6 | h6
        · rw [h6, h4]
        · exact h5 t old (.inl h6)
      · rcases step_other hs t htu with h6 | ⟨o, -, h6⟩
        · rw [h6] at ho; exact h5 t old ho
        · rw [h6] at ho; simp at ho
  exact key.1

/-- Two threads at a barrier for three: both sleep, one wakes up spuriously and sleeps again. -/
example : ∃ evs c, Run (T := Fin 2) 3 evs c ∧ NoDeadline evs ∧ allEntered evs = 2 ∧ Ev.spurious 0 ∈ evs := by
  refine ⟨_, _, run_sched (sch := callGo 0 5 2 ++ callGo 1 5 2 ++ [(0, .spurious)] ++ go 0 2 2) (by rfl), ?_,
    by decide, by decide⟩
  unfold NoDeadline; decide

end SoDa.Bar
