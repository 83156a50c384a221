import Verif.Proof.BarrierLate
import Verif.Props.HappensBefore
import Verif.Props.MailBoxTest
import Verif.Props.BarrierTest
/-!
Property C91: a timeout needs a missing thread.

C48, C49, C57, C64, C80, C81, C87 and C90 suppose that no deadline passes.  Here deadlines may pass, at any
moment at which nobody is missing (`Complete`): the thread whose deadline passes may not even have been told
that the generation has ended.
-/
set_option linter.unusedSectionVars false
namespace SoDa.Bar
open Spec

section exact
variable {T : Type} [DecidableEq T] [Fintype T]

theorem pos_of {n : Nat} (hcard : Fintype.card T = n) (t : T) : 1 ≤ n := by
  rw [← hcard]; exact Fintype.card_pos_iff.2 ⟨t⟩

/-- C91.  `n` threads at a barrier for `n`, with any timeouts: if an exception was thrown, then a deadline passed
while some thread was missing: it had entered the barrier less often than the thread whose deadline passed. -/
theorem C91_somebody_missing {n evs} {c : Conf T} (hn : n < 2 ^ 32) (hcard : Fintype.card T = n)
    (h : Run n evs c) (t : T) (r : Out) (hr : Ev.raise t r ∈ evs) :
    ∃ pre d post u, evs = pre ++ .deadline d :: post ∧ entered u pre < entered d pre := by
  by_contra hno
  refine (calmed_run (pos_of hcard t) (by omega) hcard h ?_).2.2.2 t r hr
  intro pre d post he u
  by_contra hu
  exact hno ⟨pre, d, post, u, he, by omega⟩

/-- As long as nobody has been missing at a deadline, nobody passes before everybody has arrived. -/
theorem C91_rounds {n evs} {c : Conf T} (hn : n < 2 ^ 32) (hcard : Fintype.card T = n)
    (h : Run n evs c) (hd : Complete evs) (t u : T) : returnsTo t evs ≤ callsBy u evs := by
  have := C48_rounds hn hcard (calmed_run (pos_of hcard t) (by omega) hcard h hd).1 (calmed_noDeadline evs) t u
  rwa [returnsTo_calmed, callsBy_calmed] at this

theorem complete_append {a b : List (Ev T)} (ha : Complete a) (hb : NoDeadline b) : Complete (a ++ b) := by
  intro pre t post he u
  rcases List.append_eq_append_iff.1 he with ⟨l, h1, h2⟩ | ⟨l, h1, h2⟩
  · exact absurd (show Ev.deadline t ∈ b by rw [h2]; simp) (hb t)
  · cases l with
    | nil =>
      rw [List.nil_append] at h2
      exact absurd (show Ev.deadline t ∈ b by rw [← h2]; simp) (hb t)
    | cons x l =>
      rw [List.cons_append] at h2
      injection h2 with h3 h4
      subst h3
      exact ha pre t l h1 u

/-- However the threads are scheduled from there, everybody is released: as C49. -/
theorem C91_released {n evs} {c : Conf T} (hn : n < 2 ^ 32) (hcard : Fintype.card T = n)
    (h : Run n evs c) (hd : Complete evs) :
    ∃ bound, ∀ evs' c', GoSteps n c evs' c' → evs'.length ≤ bound ∧
      ((∀ t, step n c' t .go = none) →
        ∀ k, (∀ t, k ≤ callsBy t evs) → ∀ t, k ≤ returnsTo t (evs ++ evs')) := by
  refine ⟨c.work, ?_⟩
  intro evs' c' hgo
  refine ⟨by have := hgo.work; omega, ?_⟩
  intro hstuck k hk t
  have hn1 := pos_of hcard t
  obtain ⟨h1, -⟩ := calmed_run hn1 (by omega) hcard (h.extend hgo.steps) (complete_append hd hgo.no_deadline)
  have := stuck_done hn1 (by omega) hcard h1 (calmed_noDeadline _) (calmed_stuck hstuck) (k := k) ?_ t
  · rwa [returnsTo_calmed] at this
  · intro u
    rw [callsBy_calmed]
    refine Nat.le_trans (hk u) ?_
    unfold callsBy
    rw [List.countP_append]
    omega

/-- No data race on `barrier_count`. -/
theorem C91_no_race {n evs} {c : Conf T} (hn : n < 2 ^ 32) (hcard : Fintype.card T = n)
    (h : Run n evs c) (hd : Complete evs) : ¬ Race c := by
  rintro ⟨t, u, h1, h2, h3⟩
  obtain ⟨hr, hth, -⟩ := calmed_run (pos_of hcard t) (by omega) hcard h hd
  refine C57_no_race hn hcard hr (calmed_noDeadline _) ⟨t, u, h1, ?_, ?_⟩
  · show (c.pc t).calmed = _
    rw [h2]; rfl
  · show (c.pc u).calmed = _ ∨ (c.pc u).calmed = _
    rcases h3 with h3 | h3
    · rw [h3]; exact Or.inl rfl
    · have := hth u; rw [h3] at this; cases this

/-! ### Times -/

/-- Entering within the timeout: if everybody enters the barrier less than `D` after anybody, and no deadline passes
before `D` after entering, then nobody is missing at any deadline. -/
theorem complete_of_within {D : Nat} {tr : List (Ev T × Nat)} (h1 : InOrder tr) (h2 : NotBefore D tr)
    (h3 : Within D tr) : Complete (tr.map Prod.fst) := by
  intro pre t post he u
  obtain ⟨pre', rest, hpr, hp1, hp2⟩ := List.map_eq_append_iff.1 he
  obtain ⟨x, post', hx, hx1, hx2⟩ := List.map_eq_cons_iff.1 hp2
  subst hx
  obtain ⟨e, τ⟩ := x
  simp only at hx1
  subst hx1
  obtain ⟨a, b, σ, c, hpre, hc, hD⟩ := h2 pre' t τ post' hpr
  subst hp1
  have htr : tr = a ++ (.arrive t b, σ) :: (c ++ (.deadline t, τ) :: post') := by
    rw [hpr, hpre]; simp
  obtain ⟨a', b', σ', c', htr', hent, hσ⟩ := h3 a t b σ _ htr ⟨(.deadline t, τ), by simp, hD⟩ u
  have hte : entered t (pre'.map Prod.fst) = entered t (a.map Prod.fst) + 1 := by
    rw [hpre]
    unfold entered at hc ⊢
    simp [List.countP_append] at hc ⊢
    exact hc
  rw [hte, ← hent]
  -- the arrival of `u` comes before the deadline
  have hcmp : pre' ++ (.deadline t, τ) :: post' = a' ++ (.arrive u b', σ') :: c' := by rw [← hpr, ← htr']
  have hin : ∃ l, pre' = a' ++ (.arrive u b', σ') :: l := by
    rcases List.append_eq_append_iff.1 hcmp with ⟨l, e1, e2⟩ | ⟨l, e1, e2⟩
    · exfalso
      cases l with
      | nil =>
        rw [List.nil_append] at e2
        injection e2 with e3 e4
        injection e3 with e5
        cases e5
      | cons y l =>
        rw [List.cons_append] at e2
        injection e2 with e3 e4
        subst e3
        have hle : τ ≤ σ' := by
          rw [htr', e1] at h1
          unfold InOrder at h1
          rw [List.append_assoc] at h1
          have h4 := (List.pairwise_append.1 h1).2.1
          rw [List.cons_append] at h4
          exact (List.pairwise_cons.1 h4).1 (.arrive u b', σ') (by simp)
        omega
    · cases l with
      | nil =>
        rw [List.nil_append] at e2
        injection e2 with e3 e4
        injection e3 with e5
        cases e5
      | cons y l =>
        rw [List.cons_append] at e2
        injection e2 with e3 e4
        subst e3
        exact ⟨l, e1⟩
  obtain ⟨l, hl⟩ := hin
  rw [hl]
  unfold entered
  simp [List.countP_append]

/-- With a timeout `D`: if everybody enters the barrier for the `k`-th time less than `D` after anybody does, no
exception is thrown, however late the threads that were waiting are scheduled afterwards. -/
theorem C91_within {n tr} {c : Conf T} (hn : n < 2 ^ 32) (hcard : Fintype.card T = n)
    (h : Run n (tr.map Prod.fst) c) (D : Nat) (h1 : InOrder tr) (h2 : NotBefore D tr) (h3 : Within D tr)
    (t : T) (r : Out) : Ev.raise t r ∉ tr.map Prod.fst :=
  (calmed_run (pos_of hcard t) (by omega) hcard h (complete_of_within h1 h2 h3)).2.2.2 t r

/-! ### Happens-before -/

/-- The trace in which the deadlines are spurious wake-ups. -/
def calmTrace (x : Trace T) : Trace T where
  st i := (x.st i).calmed
  who := x.who
  mv i := (x.mv i).calmed
  ev i := (x.ev i).calmed

theorem calmTrace_before (x : Trace T) (i : Nat) : (calmTrace x).before i = (x.before i).map Ev.calmed := by
  simp [Trace.before, calmTrace]

theorem complete_before {N : Nat} {x : Trace T} (hd : Complete (x.before N)) {i : Nat} (hi : i ≤ N) :
    Complete (x.before i) := by
  have : x.before N = x.before i ++ (List.range' i (N - i)).map x.ev := by
    unfold Trace.before
    rw [← List.map_append, List.range_eq_range', List.range_eq_range']
    congr 1
    have := List.range'_append (s := 0) (m := i) (n := N - i) (step := 1)
    simp only [Nat.one_mul, Nat.zero_add] at this
    rw [this]
    congr 1
    omega
  rw [this] at hd
  exact complete_left hd

theorem calmTrace_valid {n N : Nat} {x : Trace T} (hn : n < 2 ^ 32) (hcard : Fintype.card T = n)
    (h : x.Valid n N) (hd : Complete (x.before N)) : (calmTrace x).Valid n N := by
  refine ⟨by show (x.st 0).calmed = _; rw [h.init]; rfl, ?_⟩
  intro i hi
  have h1 := pos_of hcard (x.who i)
  obtain ⟨hr, hth, hl, -⟩ := calmed_run h1 (by omega) hcard (Valid.run h (Nat.le_of_lt hi))
    (complete_before hd (Nat.le_of_lt hi))
  exact (calmed_step (h.ok i hi) (hth _) (found h1 (by omega) hcard hr hl _)).1

theorem calmTrace_act (x : Trace T) (N : Nat) : (calmTrace x).act N = x.act N := rfl

/-- No two steps are a data race. -/
theorem C91_no_data_race {n N : Nat} {x : Trace T} (hn : n < 2 ^ 32) (hcard : Fintype.card T = n)
    (h : x.Valid n N) (hd : Complete (x.before N)) (i j : Nat) : ¬ DataRace x N i j := by
  rintro ⟨h1, h2, h3, ⟨m, w, w', h4, h5, h6, h7, h8⟩, h9⟩
  have ha : ∀ p : Pc, accesses p.calmed = accesses p := by intro p; cases p <;> rfl
  refine C80_no_data_race hn hcard (calmTrace_valid hn hcard h hd)
    (by rw [calmTrace_before]; exact calmed_noDeadline _) i j
    ⟨h1, h2, h3, ⟨m, w, w', ?_, ?_, ?_, ?_, h8⟩, h9⟩
  · show (x.mv i).calmed = _; rw [h4]; rfl
  · show (x.mv j).calmed = _; rw [h5]; rfl
  · exact (ha _).trans h6
  · exact (ha _).trans h7

/-- The `k`-th call of `wait` by any thread happens before the `k`-th return to any thread: as C81. -/
theorem C91_ordering {n N : Nat} {x : Trace T} (hn : n < 2 ^ 32) (hcard : Fintype.card T = n)
    (h : x.Valid n N) (hd : Complete (x.before N)) (t u : T) (k i j : Nat) (hi : i < N) (hj : j < N)
    (hcall : x.ev i = .call u) (hck : callsBy u (x.before i) = k)
    (hret : x.ev j = .ret t) (hrk : returnsTo t (x.before j) = k) : HB (x.act N) i j := by
  rw [← calmTrace_act]
  refine C81_ordering hn hcard (calmTrace_valid hn hcard h hd)
    (by rw [calmTrace_before]; exact calmed_noDeadline _) t u k i j hi hj ?_ ?_ ?_ ?_
  · show (x.ev i).calmed = _; rw [hcall]; rfl
  · rw [calmTrace_before, callsBy_calmed]; exact hck
  · show (x.ev j).calmed = _; rw [hret]; rfl
  · rw [calmTrace_before, returnsTo_calmed]; exact hrk

end exact

/-! ### Concrete executions -/

/-- `Complete`, by positions. -/
theorem complete_of_positions {T : Type} [DecidableEq T] {evs : List (Ev T)}
    (h : ∀ i, (hi : i < evs.length) → ∀ t u, evs[i] = .deadline t →
      entered t (evs.take i) ≤ entered u (evs.take i)) : Complete evs := by
  intro pre t post he u
  subst he
  have := h pre.length (by simp) t u (by simp)
  simpa using this

/-- Thread 0 sleeps; thread 1 arrives; while it holds the mutex, and has not yet told anybody, thread 0 reaches its
deadline; then thread 1 goes on and returns, and thread 0 returns.  In the second round thread 0 reaches its
deadline after having been woken. -/
def lateSched : List (Fin 2 × Move) :=
  callGo 0 5 2 ++ callGo 1 3 2 ++ [(0, .deadline)] ++ go 1 6 2 ++ callGo 1 5 2 ++ go 0 4 2 ++ callGo 0 3 2
    ++ [(1, .deadline)] ++ go 0 6 2 ++ go 1 4 2

example : seen 2 lateSched = some [.call 0, .arrive 0 true, .call 1, .arrive 1 true, .deadline 0, .ret 1, .call 1,
    .arrive 1 true, .ret 0, .call 0, .arrive 0 true, .deadline 1, .ret 0, .ret 1] := by decide

/-- The hypotheses of the theorems above, and two deadlines. -/
example : ∃ evs c, Run (T := Fin 2) 2 evs c ∧ Complete evs ∧ Fintype.card (Fin 2) = 2 ∧
    Ev.deadline 0 ∈ evs ∧ Ev.deadline 1 ∈ evs ∧ ∀ t, returnsTo t evs = 2 := by
  refine ⟨_, _, run_sched (sch := lateSched) (by rfl), complete_of_positions ?_, rfl, by decide, by decide, by decide⟩
  decide

example : (traceOf 2 lateSched).Valid 2 lateSched.length ∧
    Complete ((traceOf 2 lateSched).before lateSched.length) :=
  ⟨traceOf_valid (by decide), complete_of_positions (by decide)⟩

/-- An exception, and the thread that was missing: thread 1. -/
example : ∃ evs c, Run (T := Fin 2) 2 evs c ∧ Ev.raise 0 .timeout ∈ evs :=
  ⟨_, _, run_sched (sch := callGo 0 5 2 ++ [(0, .deadline)] ++ go 0 8 2) (by rfl), by decide⟩

theorem split_at {α : Type} (l : List α) (j : Nat) (hj : j < l.length) : l = l.take j ++ l[j] :: l.drop (j + 1) := by
  rw [← List.drop_eq_getElem_cons hj, List.take_append_drop]

/-- The two notions of time, by positions. -/
theorem notBefore_of_positions {T : Type} [DecidableEq T] {D : Nat} {tr : List (Ev T × Nat)}
    (h : ∀ i, (hi : i < tr.length) → ∀ t, tr[i].1 = .deadline t → ∃ j, ∃ hj : j < i, ∃ b,
      tr[j].1 = .arrive t b ∧ entered t (((tr.take i).drop (j + 1)).map Prod.fst) = 0 ∧ tr[j].2 + D ≤ tr[i].2) :
    NotBefore D tr := by
  intro pre t τ post he
  subst he
  obtain ⟨j, hj, b, h1, h2, h3⟩ := h pre.length (by simp) t (by simp)
  rw [List.getElem_append_left hj] at h1 h3
  rw [List.take_left] at h2
  simp only [List.getElem_append_right (Nat.le_refl _), Nat.sub_self, List.getElem_cons_zero] at h3
  refine ⟨pre.take j, b, pre[j].2, pre.drop (j + 1), ?_, h2, h3⟩
  rw [← h1]
  exact split_at pre j hj

theorem within_of_positions {T : Type} [DecidableEq T] {D : Nat} {tr : List (Ev T × Nat)}
    (h : ∀ i, (hi : i < tr.length) → ∀ t b, tr[i].1 = .arrive t b → ∀ u, ∃ j, ∃ hj : j < tr.length, ∃ b',
      tr[j].1 = .arrive u b' ∧ entered u ((tr.take j).map Prod.fst) = entered t ((tr.take i).map Prod.fst) ∧
        tr[j].2 < tr[i].2 + D) : Within D tr := by
  intro a t b σ c he _ u
  obtain ⟨j, hj, b', h1, h2, h3⟩ := h a.length (by simp [he]) t b (by simp [he]) u
  refine ⟨tr.take j, b', tr[j].2, tr.drop (j + 1), ?_, ?_, ?_⟩
  · rw [← h1]
    exact split_at tr j hj
  · rw [h2, he, List.take_left]
  · simpa [he] using h3

/-- Times for `lateSched`: thread 1 enters 7 after thread 0 in the first round, thread 0 enters 9 after thread 1 in
the second; the deadlines pass 10 and 12 after the threads have entered. -/
def lateTimes : List (Ev (Fin 2) × Nat) :=
  (((runSched 2 lateSched (Conf.init, [])).map Prod.snd).getD []).zip
    (List.replicate 7 1 ++ List.replicate 3 8 ++ List.replicate 18 11 ++ List.replicate 3 20 ++ List.replicate 20 23)

example : ∃ c, Run (T := Fin 2) 2 (lateTimes.map Prod.fst) c ∧ InOrder lateTimes ∧ NotBefore 10 lateTimes ∧
    Within 10 lateTimes ∧ Ev.deadline 0 ∈ lateTimes.map Prod.fst := by
  have hr : ∃ c, Run (T := Fin 2) 2 (lateTimes.map Prod.fst) c := by
    have : lateTimes.map Prod.fst = ((runSched 2 lateSched (Conf.init, [])).map Prod.snd).getD [] := by decide
    rw [this]
    exact ⟨_, run_sched (sch := lateSched) (by rfl)⟩
  obtain ⟨c, hr⟩ := hr
  refine ⟨c, hr, ?_, notBefore_of_positions ?_, within_of_positions ?_, by decide⟩
  · unfold InOrder; decide
  · decide
  · set_option maxRecDepth 4000 in decide

end SoDa.Bar

namespace SoDa.Session
open Spec Monitor

variable {P : Type}

theorem calmed_exec {n : Nat} (hn : n < 2 ^ 32) {this : Mail.Addr} {name : Str}
    {ls : List (Label Nat (Mail.Op P) (Mail.Resp P))} {evs : List (Bar.Ev (Fin n))}
    {mc : Conf Nat (Mail.Box P) (Mail.Op P) (Mail.Resp P)} {bc : Bar.Conf (Fin n)}
    (h : Exec n this name ls evs mc bc) (hd : Complete evs) :
    Exec n this name ls (evs.map Bar.Ev.calmed) mc bc.calmed := by
  induction h with
  | init => exact .init
  | @mail ls evs mc bc l mc' h hs hok ih =>
    refine .mail (ih hd) hs ?_
    intro t o hl
    obtain ⟨u, hu, h1, h2, h3⟩ := hok t o hl
    refine ⟨u, hu, ?_, ?_, ?_⟩
    · show (bc.pc u).calmed = _
      rw [h1]; rfl
    · intro ho hm
      obtain ⟨e, he, hx⟩ := List.mem_map.1 hm
      cases e <;> cases hx
      exact h2 ho he
    · intro m s ho
      exact List.mem_map.2 ⟨_, h3 m s ho, rfl⟩
  | @bar ls evs mc bc t m bc' e h hs hok ih =>
    have hd' := Bar.complete_left hd
    have h1 : 1 ≤ n := by have := t.isLt; omega
    obtain ⟨hr, hth, hl, -⟩ := Bar.calmed_run h1 (by omega) (Fintype.card_fin n) h.barRun hd'
    have := (Bar.calmed_step hs (hth _) (Bar.found h1 (by omega) (Fintype.card_fin n) hr hl _)).1
    rw [List.map_append]
    refine .bar (ih hd') this ?_
    intro hm
    refine hok ?_
    cases m <;> first | rfl | cases hm

/-- The protocol of C64 loses no message, even if deadlines pass when nobody is missing at the barrier. -/
theorem C91_all_messages (n : Nat) (hn : n < 2 ^ 32) (this : Mail.Addr) (name : Str)
    (ls : List (Label Nat (Mail.Op P) (Mail.Resp P))) (evs : List (Bar.Ev (Fin n)))
    (mc : Conf Nat (Mail.Box P) (Mail.Op P) (Mail.Resp P)) (bc : Bar.Conf (Fin n))
    (h : Exec n this name ls evs mc bc) (hd : Complete evs)
    (hnorm : ∀ e ∈ completed ls, e.2.2.Normal) (hfree : mc.holder = none) (i : Int)
    (hl : Live i (Mail.historyOf ls)) (hc : ∀ e ∈ Mail.historyOf ls, Clears i e = false) :
    ∃ q, mapFind intLess i mc.shared.queues = some q ∧
      receivedEver i (Mail.historyOf ls) ++ q.filterMap id = meantFor i (Mail.historyOf ls) :=
  C64_all_messages n hn this name ls _ mc _ (calmed_exec hn h hd) (Bar.calmed_noDeadline _) hnorm hfree i hl hc

end SoDa.Session

namespace SoDa.MailTest
open Spec Monitor Mail

variable {p : Params} {this : Mail.Addr} {name : Str} {ls : List (Label Nat (Mail.Op Msg) (Mail.Resp Msg))}
  {evs : List (Bar.Ev (Fin p.threads))} {mc : Conf Nat (Box Msg) (Mail.Op Msg) (Mail.Resp Msg)}
  {bc : Bar.Conf (Fin p.threads)} {loc : Fin p.threads → Loc}

theorem bar_run (h : Exec p this name ls evs mc bc loc) : Bar.Run p.threads evs bc := by
  induction h with
  | init => exact .init
  | mail _ _ _ ih => exact ih
  | bar _ hs _ ih => exact .snoc ih hs
  | silent _ _ _ _ ih => exact ih

theorem calmed_exec (hf : p.Fits) (h : Exec p this name ls evs mc bc loc) (hd : Complete evs) :
    Exec p this name ls (evs.map Bar.Ev.calmed) mc bc.calmed loc := by
  have hn : p.threads < 2 ^ 32 := by have := hf.threads; omega
  induction h with
  | init => exact .init
  | mail h hs hok ih => exact .mail (ih hd) hs hok
  | silent t h hi hs ih => exact .silent t (ih hd) hi hs
  | @bar ls evs mc bc loc t m bc' e h hs hok ih =>
    have hd' := Bar.complete_left hd
    have h1 : 1 ≤ p.threads := by have := t.isLt; omega
    obtain ⟨hr, hth, hl, -⟩ := Bar.calmed_run h1 (by omega) (Fintype.card_fin _) (bar_run h) hd'
    have := (Bar.calmed_step hs (hth _) (Bar.found h1 (by omega) (Fintype.card_fin _) hr hl _)).1
    rw [List.map_append]
    have ha : afterBar loc e = afterBar loc e.calmed := by cases e <;> rfl
    rw [ha]
    refine .bar (ih hd') this ?_
    intro hm
    refine hok ?_
    cases m <;> first | rfl | cases hm

/-- The mailbox test program cannot fail, even if deadlines pass when nobody is missing at the barrier. -/
theorem C91_mailbox_test (hf : p.Fits) (h : Exec p this name ls evs mc bc loc) (hd : Complete evs)
    (t : Fin p.threads) : loc t ≠ .crashed ∧ (∀ c, loc t = .done c → c = 0) :=
  have := C87_returns_zero hf (calmed_exec hf h hd) (Bar.calmed_noDeadline _) t
  ⟨this.1, this.2.1⟩

end SoDa.MailTest

namespace SoDa.BarTest
open Spec Bar

variable {p : Params} {ls : List (Option (Ev (Fin p.n)))} {s : St p.n}

theorem events_calmed {n : Nat} (ls : List (Option (Ev (Fin n)))) :
    events (ls.map (Option.map Ev.calmed)) = (events ls).map Ev.calmed := by
  unfold events
  rw [List.filterMap_map, List.map_filterMap]
  congr 1

theorem calmed_exec (hr : p.threads ≤ 2147483647) (h : Exec p ls s) (hd : Complete (events ls)) :
    Exec p (ls.map (Option.map Ev.calmed)) { s with bar := s.bar.calmed } := by
  induction h with
  | init => exact .init
  | @snoc ls s l s' h hs ih =>
    have hd' : Complete (events ls) := by
      unfold events at hd
      rw [List.filterMap_append] at hd
      exact complete_left hd
    rw [List.map_append]
    refine .snoc (ih hd') ?_
    cases hs with
    | spawn hm h => exact Step.spawn (s := { s with bar := s.bar.calmed }) hm h
    | spawned hm => exact Step.spawned (s := { s with bar := s.bar.calmed }) hm
    | join hm h he => exact Step.join (s := { s with bar := s.bar.calmed }) hm h he
    | exit hm => exact Step.exit (s := { s with bar := s.bar.calmed }) hm
    | leave hl h => exact Step.leave (s := { s with bar := s.bar.calmed }) hl h
    | @bar t m b e hs hc =>
      have h1 : 1 ≤ p.n := by have := t.isLt; omega
      have hn := n_lt p hr
      obtain ⟨hrun, hth, hl, -⟩ := calmed_run h1 (by omega) (Fintype.card_fin _) (inv_exec h).run hd'
      have := (calmed_step hs (hth _) (found h1 (by omega) (Fintype.card_fin _) hrun hl _)).1
      have ha : afterBar s.loc e = afterBar s.loc e.calmed := by cases e <;> rfl
      rw [ha]
      refine Step.bar (s := { s with bar := s.bar.calmed }) this ?_
      intro hm
      refine hc ?_
      cases m <;> first | rfl | cases hm

/-- The barrier test program: if deadlines (100 ms) pass only when nobody is missing, no thread catches an exception, and at
the end every thread has passed the barrier as often as there are trials. -/
theorem C91_barrier_test (hr : p.threads ≤ 2147483647) (h : Exec p ls s) (hd : Complete (events ls)) :
    (∀ t, s.loc t ≠ .caught) ∧
    ∀ c, s.main = .exited c → ∀ t, s.loc t = .done ∧ returnsTo t (events ls) = p.trials.toNat := by
  have h' := calmed_exec hr h hd
  have hno : NoDeadline (events (ls.map (Option.map Ev.calmed))) := by
    rw [events_calmed]; exact calmed_noDeadline _
  refine ⟨fun t => C90_no_exception h' hno t, fun c hm t => ?_⟩
  have := (C90_all_pass h' hno c hm).2 t
  rw [events_calmed, returnsTo_calmed] at this
  exact this

end SoDa.BarTest
