import Verif.Spec.MonitorFair
import Verif.Proof.Monitor
/-!
Fair infinite executions of objects protected by a mutex.
-/
namespace SoDa.Monitor
open Spec

variable {T S O R : Type} [DecidableEq T]
variable {body : O → Body S R} {s0 : S} {σ : Nat → Conf T S O R} {act : Nat → Option (Label T O R)}

omit [DecidableEq T] in
theorem upTo_succ (act : Nat → Option (Label T O R)) (i : Nat) : upTo act (i + 1) = upTo act i ++ (act i).toList := by
  unfold upTo
  rw [List.range_succ, List.filterMap_append]
  cases ha : act i <;> simp [ha]

theorem forever_steps (h : Forever body s0 σ act) (i : Nat) : Steps body (Conf.init s0) (upTo act i) (σ i) := by
  induction i with
  | zero => rw [h.init]; exact .nil
  | succ i ih =>
    rw [upTo_succ]
    cases ha : act i with
    | none => rw [h.none i ha]; simpa using ih
    | some l => exact .snoc ih (h.some i l ha)

omit [DecidableEq T] in
theorem upTo_prefix (act : Nat → Option (Label T O R)) {i j : Nat} (h : i ≤ j) : ∃ l, upTo act j = upTo act i ++ l := by
  induction h with
  | refl => exact ⟨[], by simp⟩
  | step _ ih =>
    obtain ⟨l, hl⟩ := ih
    rw [upTo_succ, hl]
    exact ⟨_, List.append_assoc _ _ _⟩

/-- The thread is in a call. -/
def Phase.busy : Phase S O R → Bool
  | .idle => false
  | _ => true

/-- A thread in a call stays where it is until it takes a step. -/
theorem busy_stays (h : Forever body s0 σ act) (i : Nat) (t : T) (hb : ((σ i).phase t).busy = true)
    (hno : ∀ l, act i = some l → worksOn t l = false) : (σ (i + 1)).phase t = (σ i).phase t := by
  cases ha : act i with
  | none => rw [h.none i ha]
  | some l =>
    have hs := h.some i l ha
    have hw := hno l ha
    generalize σ (i + 1) = c' at hs
    cases hs with
    | @call u o hp =>
      have : t ≠ u := by rintro rfl; rw [hp] at hb; cases hb
      exact setPhase_ne _ _ this
    | @lock u o hp hf => exact setPhase_ne _ _ (by rintro rfl; simp [worksOn] at hw)
    | @act u o f k hp => exact setPhase_ne _ _ (by rintro rfl; simp [worksOn] at hw)
    | @unlock u o r hp => exact setPhase_ne _ _ (by rintro rfl; simp [worksOn] at hw)
    | @ret u o r hp => exact setPhase_ne _ _ (by rintro rfl; simp [worksOn] at hw)

/-- The first step of a thread after a time. -/
theorem first_work (h : Forever body s0 σ act) (t : T) (j : Nat) : ∀ i, i ≤ j → ((σ i).phase t).busy = true →
    (∃ l, act j = some l ∧ worksOn t l = true) →
    ∃ k, i ≤ k ∧ (σ k).phase t = (σ i).phase t ∧ ∃ l, act k = some l ∧ worksOn t l = true := by
  suffices ∀ d i, i + d = j → ((σ i).phase t).busy = true → (∃ l, act j = some l ∧ worksOn t l = true) →
      ∃ k, i ≤ k ∧ (σ k).phase t = (σ i).phase t ∧ ∃ l, act k = some l ∧ worksOn t l = true from
    fun i hij => this (j - i) i (by omega)
  intro d
  induction d with
  | zero => intro i hi _ hl; obtain rfl : i = j := by omega
            exact ⟨i, Nat.le_refl _, rfl, hl⟩
  | succ d ih =>
    intro i hi hb hl
    by_cases hw : ∃ l, act i = some l ∧ worksOn t l = true
    · exact ⟨i, Nat.le_refl _, rfl, hw⟩
    · have hst := busy_stays h i t hb fun l hl' =>
        Bool.eq_false_iff.2 fun hc => hw ⟨l, hl', hc⟩
      obtain ⟨k, h1, h2, h3⟩ := ih (i + 1) (by omega) (by rw [hst]; exact hb) hl
      exact ⟨k, by omega, h2.trans hst, h3⟩

/-- A thread that can go on again and again while it stays where it is goes on. -/
theorem will_work (h : Forever body s0 σ act) (hf : FairWork body σ act) (i : Nat) (t : T) (hb : ((σ i).phase t).busy = true)
    (hcan : (∀ j, i ≤ j → (σ j).phase t = (σ i).phase t) → ∀ j, i ≤ j → ∃ k, j ≤ k ∧ ∃ l c, worksOn t l = true ∧ Step body (σ k) l c) :
    ∃ k, i ≤ k ∧ (σ k).phase t = (σ i).phase t ∧ ∃ l, act k = some l ∧ worksOn t l = true := by
  by_cases hex : ∃ j, i ≤ j ∧ ∃ l, act j = some l ∧ worksOn t l = true
  · obtain ⟨j, hij, hl⟩ := hex
    exact first_work h t j i hij hb hl
  · exfalso
    have hst : ∀ j, i ≤ j → (σ j).phase t = (σ i).phase t := by
      intro j hij
      induction hij with
      | refl => rfl
      | @step j hij ih =>
        exact (busy_stays h j t (by rw [ih]; exact hb) fun l hl =>
          Bool.eq_false_iff.2 fun hc => hex ⟨j, hij, l, hl, hc⟩).trans ih
    refine hex (hf t ?_ i)
    intro k
    obtain ⟨j, h1, h2⟩ := hcan hst (max i k) (Nat.le_max_left _ _)
    exact ⟨j, Nat.le_trans (Nat.le_max_right _ _) h1, h2⟩

/-- A thread that has the mutex releases it. -/
theorem will_release (h : Forever body s0 σ act) (hf : FairWork body σ act) (t : T) (o : O) (b : Body S R) :
    ∀ i, (σ i).phase t = .runs o b →
    ∃ j r, i ≤ j ∧ act j = some (.unlock t o r) ∧ (σ (j + 1)).phase t = .leaving o r ∧ (σ (j + 1)).holder = none := by
  induction b with
  | ret r =>
    intro i hp
    obtain ⟨k, hik, hpk, l, hl, hw⟩ := will_work h hf i t (by rw [hp]; rfl) fun hst j hij =>
      ⟨j, Nat.le_refl _, .unlock t o r, _, by simp [worksOn], Step.unlock (by rw [hst j hij, hp])⟩
    rw [hp] at hpk
    have hs := h.some k l hl
    generalize hc : σ (k + 1) = c' at hs
    refine ⟨k, r, hik, ?_⟩
    rw [hc]
    cases hs with
    | call hq => simp [worksOn] at hw
    | lock hq hf' => simp [worksOn] at hw; subst hw; rw [hpk] at hq; cases hq
    | act hq => simp [worksOn] at hw; subst hw; rw [hpk] at hq; cases hq
    | unlock hq => simp [worksOn] at hw; subst hw; rw [hpk] at hq; cases hq; exact ⟨hl, by simp, rfl⟩
    | ret hq => simp [worksOn] at hw; subst hw; rw [hpk] at hq; cases hq
  | act f k' ih =>
    intro i hp
    obtain ⟨k, hik, hpk, l, hl, hw⟩ := will_work h hf i t (by rw [hp]; rfl) fun hst j hij =>
      ⟨j, Nat.le_refl _, .act t, _, by simp [worksOn], Step.act (by rw [hst j hij, hp])⟩
    rw [hp] at hpk
    have hs := h.some k l hl
    generalize hc : σ (k + 1) = c' at hs
    have hnext : ∃ s, (σ (k + 1)).phase t = .runs o (k' s) := by
      rw [hc]
      cases hs with
      | call hq => simp [worksOn] at hw
      | lock hq hf' => simp [worksOn] at hw; subst hw; rw [hpk] at hq; cases hq
      | act hq => simp [worksOn] at hw; subst hw; rw [hpk] at hq; cases hq; exact ⟨_, setPhase_self _ _ _⟩
      | unlock hq => simp [worksOn] at hw; subst hw; rw [hpk] at hq; cases hq
      | ret hq => simp [worksOn] at hw; subst hw; rw [hpk] at hq; cases hq
    obtain ⟨s, hn⟩ := hnext
    obtain ⟨j, r, h1, h2⟩ := ih s (k + 1) hn
    exact ⟨j, r, by omega, h2⟩

/-- The mutex is free again and again. -/
theorem will_be_free (h : Forever body s0 σ act) (hf : FairWork body σ act) (i : Nat) : ∃ j, i ≤ j ∧ (σ j).holder = none := by
  cases hh : (σ i).holder with
  | none => exact ⟨i, Nat.le_refl _, hh⟩
  | some u =>
    obtain ⟨o, b, hb⟩ := (inv_steps (forever_steps h i)).holds u hh
    obtain ⟨j, r, h1, -, -, h2⟩ := will_release h hf u o b i hb
    exact ⟨j + 1, by omega, h2⟩

/-- A thread that waits for the mutex gets it, and completes its critical section. -/
theorem will_complete (h : Forever body s0 σ act) (hf : FairWork body σ act) (i : Nat) (t : T) (o : O)
    (hp : (σ i).phase t = .wants o) :
    ∃ j r, i ≤ j ∧ act j = some (.unlock t o r) ∧ (σ (j + 1)).phase t = .leaving o r := by
  obtain ⟨k, hik, hpk, l, hl, hw⟩ := will_work h hf i t (by rw [hp]; rfl) fun hst j hij => by
    obtain ⟨k, hjk, hk⟩ := will_be_free h hf j
    exact ⟨k, hjk, .lock t, _, by simp [worksOn], Step.lock (by rw [hst k (by omega), hp]) hk⟩
  rw [hp] at hpk
  have hs := h.some k l hl
  generalize hc : σ (k + 1) = c' at hs
  have hnext : (σ (k + 1)).phase t = .runs o (body o) := by
    rw [hc]
    cases hs with
    | call hq => simp [worksOn] at hw
    | lock hq hf' => simp [worksOn] at hw; subst hw; rw [hpk] at hq; cases hq; exact setPhase_self _ _ _
    | act hq => simp [worksOn] at hw; subst hw; rw [hpk] at hq; cases hq
    | unlock hq => simp [worksOn] at hw; subst hw; rw [hpk] at hq; cases hq
    | ret hq => simp [worksOn] at hw; subst hw; rw [hpk] at hq; cases hq
  obtain ⟨j, r, h1, h2, h3, -⟩ := will_release h hf t o _ (k + 1) hnext
  exact ⟨j, r, by omega, h2, h3⟩

/-- A thread that has released the mutex returns. -/
theorem will_leave (h : Forever body s0 σ act) (hf : FairWork body σ act) (i : Nat) (t : T) (o : O) (r : R)
    (hp : (σ i).phase t = .leaving o r) : ∃ j, i ≤ j ∧ (σ j).phase t = .idle := by
  obtain ⟨k, hik, hpk, l, hl, hw⟩ := will_work h hf i t (by rw [hp]; rfl) fun hst j hij =>
    ⟨j, Nat.le_refl _, .ret t o r, _, by simp [worksOn], Step.ret (by rw [hst j hij, hp])⟩
  rw [hp] at hpk
  have hs := h.some k l hl
  generalize hc : σ (k + 1) = c' at hs
  refine ⟨k + 1, by omega, ?_⟩
  rw [hc]
  cases hs with
  | call hq => simp [worksOn] at hw
  | lock hq hf' => simp [worksOn] at hw; subst hw; rw [hpk] at hq; cases hq
  | act hq => simp [worksOn] at hw; subst hw; rw [hpk] at hq; cases hq
  | unlock hq => simp [worksOn] at hw; subst hw; rw [hpk] at hq; cases hq
  | ret hq => simp [worksOn] at hw; subst hw; simp

/-- Every call ends. -/
theorem will_be_idle (h : Forever body s0 σ act) (hf : FairWork body σ act) (i : Nat) (t : T) : ∃ j, i ≤ j ∧ (σ j).phase t = .idle := by
  cases hp : (σ i).phase t with
  | idle => exact ⟨i, Nat.le_refl _, hp⟩
  | wants o =>
    obtain ⟨j, r, h1, -, h2⟩ := will_complete h hf i t o hp
    obtain ⟨j', h3, h4⟩ := will_leave h hf (j + 1) t o r h2
    exact ⟨j', by omega, h4⟩
  | runs o b =>
    obtain ⟨j, r, h1, -, h2, -⟩ := will_release h hf t o b i hp
    obtain ⟨j', h3, h4⟩ := will_leave h hf (j + 1) t o r h2
    exact ⟨j', by omega, h4⟩
  | leaving o r => exact will_leave h hf i t o r hp

/-- All calls made up to some time return. -/
theorem calls_return (h : Forever body s0 σ act) (hf : FairWork body σ act) (i : Nat) (t : T) :
    ∃ j, i ≤ j ∧ callsOf t (upTo act i) <+: (returnsOf t (upTo act j)).map (·.1) := by
  obtain ⟨j, hij, hj⟩ := will_be_idle h hf i t
  obtain ⟨h1, h2⟩ := thread_order (forever_steps h j) t
  simp only [hj, pendingReturn, pendingCall, List.append_nil] at h1 h2
  rw [h1] at h2
  refine ⟨j, hij, ?_⟩
  rw [← h2]
  obtain ⟨l, hl⟩ := upTo_prefix act hij
  rw [hl]
  unfold callsOf
  rw [List.filterMap_append]
  exact List.prefix_append _ _

/-! ### Fair executions exist -/

/-- The states of a finite execution. -/
theorem steps_states {c c' : Conf T S O R} {ls : List (Label T O R)} (h : Steps body c ls c') :
    ∃ τ : Nat → Conf T S O R, τ 0 = c ∧ τ ls.length = c' ∧ ∀ i l, ls[i]? = some l → Step body (τ i) l (τ (i + 1)) := by
  induction h with
  | nil => exact ⟨fun _ => c, rfl, rfl, by simp⟩
  | @snoc ls c1 l c2 h hs ih =>
    obtain ⟨τ, h0, h1, h2⟩ := ih
    refine ⟨fun i => if i ≤ ls.length then τ i else c2, ?_, ?_, ?_⟩
    · simp [h0]
    · exact if_neg (by simp)
    · intro i l' hl'
      dsimp only
      rcases Nat.lt_trichotomy i ls.length with hi | hi | hi
      · rw [List.getElem?_append_left hi] at hl'
        rw [if_pos (by omega), if_pos (by omega)]
        exact h2 i l' hl'
      · subst hi
        simp only [List.getElem?_concat_length, Option.some.injEq] at hl'
        subst hl'
        rw [if_pos (Nat.le_refl _), if_neg (by omega), h1]
        exact hs
      · rw [List.getElem?_eq_none (by simp; omega)] at hl'
        cases hl'

/-- A finite execution, and then another one that ends where it began again and again; in between no thread is in a call.  This is fair. -/
theorem lasso {s : S} {ls cyc : List (Label T O R)} (h : Steps body (Conf.init s0) ls (Conf.init s))
    (hc : Steps body (Conf.init s) cyc (Conf.init s)) (hne : cyc ≠ []) :
    ∃ (σ : Nat → Conf T S O R) (act : Nat → Option (Label T O R)), Forever body s0 σ act ∧ FairWork body σ act ∧
      (∀ i < ls.length, act i = ls[i]?) ∧ ∀ q i, i < cyc.length → act (ls.length + q * cyc.length + i) = cyc[i]? := by
  obtain ⟨τ, h0, h1, h2⟩ := steps_states h
  obtain ⟨ρ, g0, g1, g2⟩ := steps_states hc
  have hpos : 0 < cyc.length := List.length_pos_iff.2 hne
  let σ : Nat → Conf T S O R := fun j => if j < ls.length then τ j else ρ ((j - ls.length) % cyc.length)
  let act : Nat → Option (Label T O R) := fun j => if j < ls.length then ls[j]? else cyc[(j - ls.length) % cyc.length]?
  have hact2 : ∀ q i, i < cyc.length → act (ls.length + q * cyc.length + i) = cyc[i]? := by
    intro q i hi
    simp only [act]
    rw [if_neg (by omega), show ls.length + q * cyc.length + i - ls.length = i + q * cyc.length by omega, Nat.add_mul_mod_self_right,
      Nat.mod_eq_of_lt hi]
  have hσ0 : σ ls.length = Conf.init s := by simp [σ, g0]
  have hσq : ∀ q, σ (ls.length + q * cyc.length) = Conf.init s := by
    intro q
    simp only [σ]
    rw [if_neg (by omega), show ls.length + q * cyc.length - ls.length = q * cyc.length by omega, Nat.mul_mod_left, g0]
  have hnext : ∀ j, ls.length ≤ j → σ (j + 1) = ρ ((j - ls.length) % cyc.length + 1) := by
    intro j hj
    simp only [σ]
    rw [if_neg (by omega), show j + 1 - ls.length = (j - ls.length) + 1 by omega]
    have hlt := Nat.mod_lt (j - ls.length) hpos
    by_cases he : (j - ls.length) % cyc.length + 1 = cyc.length
    · rw [he, g1, Nat.add_mod]
      by_cases h1c : cyc.length = 1
      · rw [h1c]; simp [g0, Nat.mod_one]
      · rw [Nat.mod_eq_of_lt (show 1 < cyc.length by omega), he, Nat.mod_self, g0]
    · rw [Nat.add_mod, Nat.mod_eq_of_lt (show 1 < cyc.length by omega), Nat.mod_eq_of_lt (show _ < cyc.length by omega)]
  have hF : Forever body s0 σ act := by
    refine ⟨?_, ?_, ?_⟩
    · by_cases hl : 0 < ls.length
      · simp [σ, hl, h0]
      · have hl' : ls.length = 0 := by omega
        have : (Conf.init s0 : Conf T S O R) = Conf.init s := by rw [← h0, ← h1, hl']
        rw [this, ← hσ0, hl']
    · intro j l hl
      by_cases hj : j < ls.length
      · simp only [act, if_pos hj] at hl
        have := h2 j l hl
        by_cases hj' : j + 1 < ls.length
        · simpa [σ, hj, hj'] using this
        · have he : j + 1 = ls.length := by omega
          rw [he, hσ0, ← h1, ← he]
          simpa [σ, hj] using this
      · simp only [act, if_neg hj] at hl
        have := g2 _ l hl
        rw [hnext j (by omega)]
        simpa [σ, hj] using this
    · intro j hj
      exfalso
      by_cases hj' : j < ls.length
      · simp [act, if_pos hj', hj'] at hj
      · simp only [act, if_neg hj', List.getElem?_eq_none_iff] at hj
        have := Nat.mod_lt (j - ls.length) hpos
        omega
  refine ⟨σ, act, hF, ?_, fun i hi => if_pos hi, hact2⟩
  intro t hcan i
  by_cases hw : ∃ (i : Nat) (l : Label T O R), cyc[i]? = some l ∧ worksOn t l = true
  · obtain ⟨k, l, hk, hwl⟩ := hw
    have hlt : k < cyc.length := (List.getElem?_eq_some_iff.1 hk).1
    refine ⟨ls.length + i * cyc.length + k, ?_, l, by rw [hact2 i k hlt, hk], hwl⟩
    have : i * 1 ≤ i * cyc.length := Nat.mul_le_mul_left _ hpos
    omega
  · exfalso
    have hnw : ∀ j, ls.length ≤ j → ∀ l, act j = some l → worksOn t l = false := by
      intro j hj l hl
      simp only [act, if_neg (by omega : ¬ j < ls.length)] at hl
      exact Bool.eq_false_iff.2 fun hc => hw ⟨_, l, hl, hc⟩
    have hidle : ∀ j, ls.length ≤ j → (σ j).phase t = .idle := by
      intro j hj
      by_cases hb : ((σ j).phase t).busy = true
      · have hst : ∀ k, j ≤ k → ((σ k).phase t).busy = true := by
          intro k hk
          induction hk with
          | refl => exact hb
          | @step k hk ih => rw [busy_stays hF k t ih (hnw k (by have : j ≤ k := hk; omega))]; exact ih
        have := hst (ls.length + j * cyc.length) (by
          have : j * 1 ≤ j * cyc.length := Nat.mul_le_mul_left _ hpos
          omega)
        rw [hσq] at this
        cases this
      · cases hp : (σ j).phase t <;> rw [hp] at hb <;> first | rfl | exact absurd rfl hb
    obtain ⟨j, hj, l, c, hwl, hs⟩ := hcan ls.length
    have hp := hidle j hj
    cases hs with
    | call hq => simp [worksOn] at hwl
    | lock hq hf' => simp [worksOn] at hwl; subst hwl; rw [hp] at hq; cases hq
    | act hq => simp [worksOn] at hwl; subst hwl; rw [hp] at hq; cases hq
    | unlock hq => simp [worksOn] at hwl; subst hwl; rw [hp] at hq; cases hq
    | ret hq => simp [worksOn] at hwl; subst hwl; rw [hp] at hq; cases hq

end SoDa.Monitor
