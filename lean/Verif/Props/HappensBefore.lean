import Verif.Proof.BarrierHB
import Verif.Props.Barrier
/-!
Properties C80 and C81: data races and memory ordering at the barrier.

`x.Valid n N`: the first `N` steps of `x` are an execution from a new barrier for `n` waiters (every
`Run` is one, `Run.trace`).  `HB` is happens-before (Spec/HappensBefore.lean).
-/
set_option linter.unusedSectionVars false
set_option linter.unusedTactic false
set_option linter.unreachableTactic false
namespace SoDa.Bar
open Spec

variable {T : Type} [DecidableEq T]

/-! ### `accesses` lists every access of the model -/

/-- A member that a statement does not write, according to `accesses`, keeps its value. -/
theorem C80_accesses_writes {n} {c c' : Conf T} {t e} (hs : step n c t .go = some (c', e)) :
    (accesses (c.pc t) ≠ some (.waiting, true) → c'.waiting = c.waiting) ∧
    (accesses (c.pc t) ≠ some (.count, true) → c'.count = c.count) ∧
    (accesses (c.pc t) ≠ some (.corrupted, true) → c'.corrupted = c.corrupted) := by
  simp only [step, stepGo] at hs
  cases hp : c.pc t <;> rw [hp] at hs <;> simp only [] at hs
  case idle => cases hs
  case waitCv => cases hs
  all_goals try (cases hs; simp [accesses, Conf.goto, Conf.wakeAll])
  all_goals (split at hs <;> cases hs <;> simp [Conf.goto])

/-- A member that a statement does not access, according to `accesses`, has no influence on it. -/
theorem C80_accesses_reads (n : Nat) (c : Conf T) (t : T) (w k : Nat) (b : Bool) :
    ((∀ i, accesses (c.pc t) ≠ some (.waiting, i)) →
      (step n { c with waiting := w } t .go).map Prod.fst =
        (step n c t .go).map fun r => { r.1 with waiting := w }) ∧
    ((∀ i, accesses (c.pc t) ≠ some (.count, i)) →
      (step n { c with count := k } t .go).map Prod.fst =
        (step n c t .go).map fun r => { r.1 with count := k }) ∧
    ((∀ i, accesses (c.pc t) ≠ some (.corrupted, i)) →
      (step n { c with corrupted := b } t .go).map Prod.fst =
        (step n c t .go).map fun r => { r.1 with corrupted := b }) := by
  simp only [step, stepGo]
  cases hp : c.pc t <;> simp only [] <;> refine ⟨fun h => ?_, fun h => ?_, fun h => ?_⟩
  all_goals first
    | rfl
    | (exfalso; simp [accesses] at h; done)
    | (split <;> rfl)

/-! ## C80  data races -/

/-- Every access except that on line 58 is made by the owner of the mutex. -/
theorem accesses_holds {p : Pc} {m w} (h : accesses p = some (m, w)) : p = .start ∨ p.holds = true := by
  cases p <;> simp [accesses, Pc.holds] at h ⊢

/-- In every execution, with any number of threads and any timeouts: if two steps are a data race,
one is the unlocked read of `barrier_count` on line 58 and the other an assignment to it, on line 66
or 93. -/
theorem C80_only_line_58 {n N i j : Nat} {x : Trace T} (h : x.Valid n N) (hr : DataRace x N i j) :
    let p := (x.st i).pc (x.who i)
    let q := (x.st j).pc (x.who j)
    (p = .start ∧ (q = .bump ∨ q = .setCount)) ∨ (q = .start ∧ (p = .bump ∨ p = .setCount)) := by
  obtain ⟨hij, hj, -, ⟨m, w, w', -, -, h1, h2, hw⟩, hno⟩ := hr
  have cnt : ∀ p : Pc, accesses p = some (.count, true) → p = .bump ∨ p = .setCount := by
    intro p hp
    cases p <;> simp [accesses] at hp ⊢
  rcases accesses_holds h1 with e1 | e1
  · left
    refine ⟨e1, cnt _ ?_⟩
    rw [e1] at h1
    simp only [accesses, Option.some.injEq, Prod.mk.injEq] at h1
    obtain ⟨rfl, rfl⟩ := h1
    rw [h2, hw.resolve_left (by simp)]
  · rcases accesses_holds h2 with e2 | e2
    · right
      refine ⟨e2, cnt _ ?_⟩
      rw [e2] at h2
      simp only [accesses, Option.some.injEq, Prod.mk.injEq] at h2
      obtain ⟨rfl, rfl⟩ := h2
      rw [h1, hw.resolve_right (by simp)]
    · exact absurd (Valid.ordered h hij hj e1 e2) hno

/-- The thread is inside the call and has not yet decided to leave. -/
def Pc.inside : Pc → Bool
  | .test _ | .reset | .bump | .notify | .pred _ | .waitCv _ | .woken _ _ | .predT _ | .expired
  | .setCorrupt | .setCount | .notifyT | .leave _ => true
  | _ => false

theorem inside_step {n} {c c' : Conf T} {t m e} (hs : step n c t m = some (c', e))
    (h1 : (c.pc t).inside = true) (h2 : (c'.pc t).inside = false) : ∃ r, c.pc t = .leave r := by
  have hg : ∀ (c₁ : Conf T) p, (c₁.goto t p).pc t = p := by
    intro c₁ p; simp [Conf.goto]
  cases m with
  | call =>
    simp only [step] at hs; split at hs
    · next hp => rw [hp] at h1; cases h1
    · cases hs
  | spurious =>
    simp only [step] at hs; split at hs
    · cases hs; rw [hg] at h2; cases h2
    · cases hs
  | deadline =>
    simp only [step] at hs; split at hs
    · cases hs; rw [hg] at h2; cases h2
    · cases hs
  | go =>
    simp only [step, stepGo] at hs
    cases hp : c.pc t <;> rw [hp] at hs h1 <;> simp only [] at hs
    case leave r => exact ⟨r, rfl⟩
    all_goals try (cases h1)
    all_goals try (cases hs)
    all_goals try (rw [hg] at h2)
    all_goals try (cases h2)
    all_goals try (split at h2 <;> cases h2)
    all_goals (split at hs <;> cases hs <;> rw [hg] at h2)
    all_goals try (cases h2)
    all_goals (split at h2 <;> cases h2)

section exact
variable [Fintype T]

theorem deadlines_before {N : Nat} {x : Trace T} (hd : NoDeadline (x.before N)) {i : Nat} (hi : i ≤ N) :
    NoDeadline (x.before i) := by
  intro t ht
  refine hd t ?_
  simp only [Trace.before, List.mem_map, List.mem_range] at ht ⊢
  obtain ⟨a, h1, h2⟩ := ht
  exact ⟨a, by omega, h2⟩

/-- With exactly `n` threads and without timeouts no two steps are a data race. -/
theorem C80_no_data_race {n N : Nat} {x : Trace T} (hn : n < 2 ^ 32) (hcard : Fintype.card T = n)
    (h : x.Valid n N) (hd : NoDeadline (x.before N)) (i j : Nat) : ¬ DataRace x N i j := by
  intro hr
  have hkind := C80_only_line_58 h hr
  obtain ⟨hij, hj, hne, -, hno⟩ := hr
  have h1 : 1 ≤ n := by
    rw [← hcard]; exact Fintype.card_pos_iff.2 ⟨x.who i⟩
  have state : ∀ k ≤ N, ∃ G gen cur pend, Inv n (x.before k) (x.st k) G gen cur pend
      ∧ Exact (x.before k) (x.st k) G gen cur := fun k hk =>
    exact_run h1 (by omega) hcard (Valid.run h hk) (deadlines_before hd hk)
  have hcount : ∀ k ≤ N, ∀ t, (x.st k).pc t ≠ .setCount := by
    intro k hk t ht
    obtain ⟨G, gen, cur, pend, hi, -⟩ := state k hk
    have := hi.good t
    rw [ht] at this; exact this
  -- when somebody executes line 66 everybody has arrived and nobody has left
  have hall : ∀ k ≤ N, ∀ u, (x.st k).pc u = .bump → ∀ t, ((x.st k).pc t).inside = true := by
    intro k hk u hu t
    obtain ⟨G, gen, cur, pend, hi, -⟩ := state k hk
    have h2 := hi.full' u (Or.inr hu)
    obtain ⟨h3, h4⟩ := (hi.cur_mem t).1 (all_in hcard hi.cur_nodup h2 t)
    have h5 := hi.good t
    cases hp : (x.st k).pc t <;> rw [hp] at h3 h5 <;> first | rfl | cases h3 | skip
    next r => cases r <;> simp [Pc.good] at h5; omega
  rcases hkind with ⟨e1, e2⟩ | ⟨e2, e1⟩
  · -- the read first: its thread arrives before line 66
    rcases e2 with e2 | e2
    · have h2 : ¬ ((x.st j).pc (x.who i)).inside = false := by rw [hall j (by omega) _ e2]; simp
      have h3 : ((x.st (i + 1)).pc (x.who i)).inside = false := by
        have hs := h.ok i (by omega)
        rcases step_self hs with ⟨-, h4, h5⟩ | ⟨o, -, h4, -⟩ | ⟨-, h4, -⟩ | ⟨r, -, -, h4, -⟩ | ⟨-, -, h4, h5⟩
        · rw [e1] at h4; cases h4
        · rw [e1] at h4; cases h4
        · rw [e1] at h4; cases h4
        · rw [e1] at h4; cases h4
        · rw [e1] at h5
          cases hq : (x.st (i + 1)).pc (x.who i) <;> rw [hq] at h5 <;> first | rfl | cases h5
      obtain ⟨p, h4, h5, h6, h7⟩ := change (Q := fun k => ((x.st k).pc (x.who i)).inside = false)
        (show i + 1 ≤ j by omega) h3 h2
      have hwho : x.who p = x.who i := by
        by_contra hw
        rcases Valid.other h (show p < N by omega) (x.who i) hw with h8 | ⟨old, h8, h9⟩
        · rw [h8] at h7; exact h7 h6
        · rw [h8] at h6; cases h6
      have hinc : ((x.st p).pc (x.who p)).holds = true := by
        rcases step_self (h.ok p (by omega)) with ⟨-, h8, h9⟩ | ⟨o, -, h8, h9⟩ | ⟨-, h8, h9⟩ | ⟨r, -, -, h8, h9⟩
            | ⟨-, h8, h8', h9⟩
        · rw [hwho] at h9; rw [h9] at h7; exact absurd rfl h7
        · rw [h8]; rfl
        · rw [hwho] at h9; rw [h9] at h7; exact absurd rfl h7
        · rw [hwho] at h9; rw [h9] at h7; exact absurd rfl h7
        · rw [hwho] at h8 h8' h9 ⊢
          cases hq : (x.st p).pc (x.who i) <;> rw [hq] at h6 h9 <;> first | cases h6 | skip
          · exact absurd hq h8
          · cases hq' : (x.st (p + 1)).pc (x.who i) <;> rw [hq'] at h7 h9 <;> first | exact absurd rfl h7 | cases h9
          · cases hq' : (x.st (p + 1)).pc (x.who i) <;> rw [hq'] at h7 h9 <;> first | exact absurd rfl h7 | cases h9
          · rfl
          · exfalso
            have hs := h.ok p (by omega)
            rw [hwho] at hs
            cases hm : x.mv p <;> rw [hm] at hs <;> simp only [step, stepGo, hq] at hs
            · simp at hs
            · simp only [Option.some.injEq, Prod.mk.injEq] at hs
              rw [← hs.1] at h7
              simp [Conf.goto, Pc.inside] at h7
            · simp at hs
            · simp at hs
      exact hno (.trans (Valid.same (show i < p by omega) (by omega) hwho.symm)
        (Valid.ordered h h5 hj hinc (by rw [e2]; rfl)))
    · exact hcount j (by omega) _ e2
  · -- the read later: its thread has left the barrier in between
    rcases e1 with e1 | e1
    · have h2 := hall i (by omega) _ e1 (x.who j)
      have h3 : ¬ ((x.st j).pc (x.who j)).inside = true := by rw [e2]; simp [Pc.inside]
      obtain ⟨p, h4, h5, h6, h7⟩ := change (Q := fun k => ((x.st k).pc (x.who j)).inside = true)
        (show i ≤ j by omega) h2 h3
      have hwho : x.who p = x.who j := by
        by_contra hw
        rcases Valid.other h (show p < N by omega) (x.who j) hw with h8 | ⟨old, h8, h9⟩
        · rw [h8] at h7; exact h7 h6
        · rw [h9] at h7; exact h7 rfl
      have hs := h.ok p (by omega)
      rw [hwho] at hs
      obtain ⟨r, hr⟩ := inside_step hs h6 (by simpa using h7)
      have hip : i < p := by
        rcases Nat.lt_or_ge i p with hl | hl
        · exact hl
        · obtain rfl : i = p := by omega
          exact absurd hwho hne
      exact hno (.trans (Valid.ordered h hip (by omega) (by rw [e1]; rfl) (by rw [hwho, hr]; rfl))
        (Valid.same h5 hj hwho))
    · exact hcount i (by omega) _ e1

/-! ## C81  memory ordering -/

/-- With exactly `n` threads and without timeouts: the `k`-th call of `wait` by any thread `u`
(counting from 0) happens before the `k`-th return of `wait` to any thread `t`.  So everything `u`
did before this call happens before everything `t` does after this return. -/
theorem C81_ordering {n N : Nat} {x : Trace T} (hn : n < 2 ^ 32) (hcard : Fintype.card T = n)
    (h : x.Valid n N) (hd : NoDeadline (x.before N)) (t u : T) (k i j : Nat) (hi : i < N) (hj : j < N)
    (hcall : x.ev i = .call u) (hck : callsBy u (x.before i) = k)
    (hret : x.ev j = .ret t) (hrk : returnsTo t (x.before j) = k) : HB (x.act N) i j := by
  have h1 : 1 ≤ n := by
    rw [← hcard]; exact Fintype.card_pos_iff.2 ⟨t⟩
  have hwi : x.who i = u := by
    rcases ev_thread (h.ok i hi) with e | ⟨b, e⟩ | e | ⟨r, e⟩ | e | e | e <;> rw [hcall] at e <;> cases e
    rfl
  have hwj : x.who j = t ∧ (x.st j).pc t = .out .normal := by
    rcases step_self (h.ok j hj) with ⟨e, -⟩ | ⟨o, e, -⟩ | ⟨e, e2, -⟩ | ⟨r, -, e, -⟩ | ⟨e | e | e, -⟩ <;>
      rw [hret] at e <;> cases e
    exact ⟨rfl, e2⟩
  -- the moment at which `t` leaves the critical section
  obtain ⟨s, hs, hws, hps, hes⟩ := Valid.left h (show j ≤ N by omega) hwj.2
  have hsN : s ≤ N := by omega
  have hds := deadlines_before hd hsN
  have hrs := Valid.run h hsN
  have hends : endsOf t (x.before s) = k := by
    rw [hes, ends_eq_returns (calm_run (Valid.run h (show j ≤ N by omega))
      (deadlines_before hd (show j ≤ N by omega))).2, hrk]
  obtain ⟨G, gen, cur, pend, hinv, hx⟩ := exact_run h1 (by omega) hcard hrs hds
  have hG : G = k + 1 := by
    have e1 := (counts hrs t).2
    have e2 := hx.arr t
    have e3 := hinv.good t
    have e4 := hinv.cur_mem t
    rw [hps] at e1 e3 e4
    have e5 : t ∉ cur := by
      intro hc
      have := (e4.1 hc).2
      simp only [Pc.good] at e3
      omega
    rw [if_neg e5] at e2
    simp only [Pc.arrived, if_true] at e1
    omega
  -- the arrival of `u` in this round
  have harr : k < arrOf u (x.before s) := by
    have := hx.arr u
    omega
  obtain ⟨p, hps', hpe, hpk⟩ := nth_event x _ k harr
  have hwp : x.who p = u ∧ ((x.st p).pc u).holds = true ∧ ∃ b, x.ev p = .arrive u b := by
    rcases step_self (h.ok p (by omega)) with ⟨e, -⟩ | ⟨o, e, e2, -⟩ | ⟨e, e2, -⟩ | ⟨r, -, e, -⟩ | ⟨e | e | e, -⟩ <;>
      rw [e] at hpe <;> simp at hpe
    subst hpe
    rw [e2]; exact ⟨rfl, rfl, _, e⟩
  have hip : i < p := by
    rcases Nat.lt_trichotomy i p with hl | hl | hl
    · exact hl
    · subst hl; rw [hcall] at hpe; simp at hpe
    · exfalso
      have e1 : arrOf u (x.before (p + 1)) ≤ arrOf u (x.before i) := before_mono x _ (by omega)
      rw [before_succ, arrOf_snoc] at e1
      have e4 : arrOf u (x.before p) = k := hpk
      obtain ⟨b, hb⟩ := hwp.2.2
      simp only [hb, if_true] at e1
      have e2 := counts (Valid.run h (show i ≤ N by omega)) u
      have e3 : arrOf u (x.before i) ≤ callsBy u (x.before i) := by
        have : ((x.st i).pc u).arrived = true → (x.st i).pc u ≠ .idle := by
          intro h1 h2; rw [h2] at h1; cases h1
        by_cases hc : ((x.st i).pc u).arrived = true
        · rw [if_pos hc, if_neg (this hc)] at e2; omega
        · rw [if_neg hc] at e2; omega
      omega
  have hsj : HB (x.act N) s j := Valid.same hs hj (hws.trans hwj.1.symm)
  have hips : HB (x.act N) i p := Valid.same hip (by omega) (hwi.trans hwp.1.symm)
  exact .trans hips (.trans (Valid.ordered h hps' (by omega) (by rw [hwp.1]; exact hwp.2.1)
    (by rw [hws, hps]; rfl)) hsj)

end exact

/-! ### Concrete executions -/

/-- The trace of a schedule. -/
def traceOf {N : Nat} [NeZero N] (n : Nat) (s : List (Fin N × Move)) : Trace (Fin N) where
  st i := match runSched n (s.take i) (Conf.init, []) with
    | some r => r.1
    | none => Conf.init
  who i := (s[i]?.getD (0, .go)).1
  mv i := (s[i]?.getD (0, .go)).2
  ev i := match runSched n (s.take (i + 1)) (Conf.init, []) with
    | some r => r.2.getLast?.getD (.tau 0)
    | none => .tau 0

theorem runSched_append (n : Nat) (s s' : List (T × Move)) (r : Conf T × List (Ev T)) :
    runSched n (s ++ s') r = (runSched n s r).bind (runSched n s') := by
  induction s generalizing r with
  | nil => rfl
  | cons a s ih =>
    obtain ⟨c, evs⟩ := r
    simp only [List.cons_append, runSched]
    cases step n c a.1 a.2 with
    | none => rfl
    | some r => exact ih _

theorem traceOf_valid {N : Nat} [NeZero N] {n : Nat} {s : List (Fin N × Move)}
    (h : (runSched n s (Conf.init, [])).isSome = true) : (traceOf n s).Valid n s.length := by
  refine ⟨rfl, ?_⟩
  intro i hi
  obtain ⟨r, hr⟩ := Option.isSome_iff_exists.1 h
  have hsplit : ∀ k, ∃ q, runSched n (s.take k) (Conf.init, []) = some q := by
    intro k
    rw [← List.take_append_drop k s, runSched_append] at hr
    cases hq : runSched n (s.take k) (Conf.init, []) with
    | none => rw [hq] at hr; cases hr
    | some q => exact ⟨q, rfl⟩
  obtain ⟨q, hq⟩ := hsplit i
  obtain ⟨q', hq'⟩ := hsplit (i + 1)
  simp only [traceOf, hq, hq']
  rw [List.take_succ_eq_append_getElem hi, runSched_append, hq] at hq'
  simp only [List.getElem?_eq_getElem hi, Option.getD_some]
  obtain ⟨c, evs⟩ := q
  simp only [Option.bind_some, runSched] at hq'
  cases hs : step n c s[i].1 s[i].2 with
  | none => rw [hs] at hq'; cases hq'
  | some y =>
    rw [hs] at hq'
    cases hq'
    simp

/-- The hypotheses of C80 and C81 are met by two threads that run two rounds; step 0 is the first
call of thread 0, step 18 the first return to thread 1. -/
example : (traceOf 2 sampleSched).Valid 2 sampleSched.length ∧
    NoDeadline ((traceOf 2 sampleSched).before sampleSched.length) ∧ Fintype.card (Fin 2) = 2 ∧
    (traceOf 2 sampleSched).ev 0 = .call 0 ∧ callsBy 0 ((traceOf 2 sampleSched).before 0) = 0 ∧
    (traceOf 2 sampleSched).ev 18 = .ret 1 ∧ returnsTo 1 ((traceOf 2 sampleSched).before 18) = 0 ∧
    18 < sampleSched.length := by
  refine ⟨traceOf_valid (by decide), ?_, rfl, by decide, by decide, by decide, by decide, by decide⟩
  unfold NoDeadline
  decide

/-- Thread 0 sleeps; thread 1 has arrived and is about to execute line 66; thread 2 executes line
58; then thread 1 executes line 66. -/
def surplusRace : List (Fin 3 × Move) := callGo 0 5 3 ++ callGo 1 5 3 ++ callGo 2 1 3 ++ go 1 1 3

/-- With one thread too many there is a data race. -/
theorem C80_race_with_surplus : (traceOf 2 surplusRace).Valid 2 15 ∧
    NoDeadline ((traceOf 2 surplusRace).before 15) ∧ DataRace (traceOf 2 surplusRace) 15 13 14 := by
  refine ⟨traceOf_valid (s := surplusRace) (by decide), by unfold NoDeadline; decide, by decide, by decide,
    by decide, ⟨.count, false, true, by decide, by decide, by decide, by decide, by decide⟩, ?_⟩
  refine not_hb (fun k => k = 13) ?_ ?_ rfl (by decide)
  · rintro i j a b hij ha hb ht rfl
    exfalso
    have hj : j = 14 := by
      unfold Trace.act at hb
      split at hb
      · omega
      · cases hb
    subst hj
    cases ha; cases hb
    revert ht; decide
  · rintro i j a b hij ha hb hr hq rfl
    cases ha
    exfalso; revert hr; decide

/-- Thread 0 times out; thread 1 executes line 58; then thread 0 executes line 93. -/
def timeoutRace : List (Fin 2 × Move) :=
  callGo 0 5 2 ++ [(0, .deadline)] ++ go 0 4 2 ++ callGo 1 1 2 ++ go 0 1 2

/-- With a timeout even two threads at a barrier for two race. -/
theorem C80_race_with_timeout : (traceOf 2 timeoutRace).Valid 2 14 ∧
    DataRace (traceOf 2 timeoutRace) 14 12 13 := by
  refine ⟨traceOf_valid (s := timeoutRace) (by decide), by decide, by decide,
    by decide, ⟨.count, false, true, by decide, by decide, by decide, by decide, by decide⟩, ?_⟩
  refine not_hb (fun k => k = 12) ?_ ?_ rfl (by decide)
  · rintro i j a b hij ha hb ht rfl
    exfalso
    have hj : j = 13 := by
      unfold Trace.act at hb
      split at hb
      · omega
      · cases hb
    subst hj
    cases ha; cases hb
    revert ht; decide
  · rintro i j a b hij ha hb hr hq rfl
    cases ha
    exfalso; revert hr; decide

end SoDa.Bar
