import Verif.Proof.BarrierTimeout
/-!
Properties C48-C51, C57 and C58: barriers.

`Run n evs c`: the threads of type `T` have, from a new barrier for `n` waiters, executed some
statements of `wait` in some interleaving, with the visible events `evs`, and reached the state `c`.
-/
set_option linter.unusedSectionVars false
namespace SoDa.Bar
open Spec

section exact
variable {T : Type} [DecidableEq T] [Fintype T]

/-! ## C48  nobody passes before everybody has arrived -/

/-- With exactly `n` threads and without timeouts: if `wait` has returned to `t` for the `k`-th
time then everybody has called `wait` at least `k` times. -/
theorem C48_rounds {n evs} {c : Conf T} (hn : n < 2 ^ 32) (hcard : Fintype.card T = n)
    (h : Run n evs c) (hd : NoDeadline evs) (t u : T) : returnsTo t evs ≤ callsBy u evs := by
  have h1 : 1 ≤ n := by
    rw [← hcard]; exact Fintype.card_pos_iff.2 ⟨t⟩
  obtain ⟨G, gen, cur, pend, hi, hx⟩ := exact_run h1 (by omega) hcard h hd
  have ht := hx.bounds hd h hi t
  have hu := hx.bounds hd h hi u
  omega

/-- No exception is thrown then. -/
theorem C48_no_exception {n evs} {c : Conf T} (h : Run n evs c) (hd : NoDeadline evs) (t : T)
    (r : Out) : Ev.raise t r ∉ evs := (calm_run h hd).2 t r

/-! ## C49  everybody is released -/

/-- Continuations in which no thread starts a new call, wakes up spuriously, or times out. -/
inductive GoSteps (n : Nat) (c : Conf T) : List (Ev T) → Conf T → Prop where
  | nil : GoSteps n c [] c
  | snoc {evs c₁ t c' e} (h : GoSteps n c evs c₁) (hs : step n c₁ t .go = some (c', e)) :
      GoSteps n c (evs ++ [e]) c'

theorem GoSteps.work {n evs} {c c' : Conf T} (h : GoSteps n c evs c') :
    evs.length + c'.work ≤ c.work := by
  induction h with
  | nil => simp
  | snoc h hs ih =>
    have := work_step hs
    simp only [List.length_append, List.length_singleton]
    omega

theorem GoSteps.steps {n evs} {c c' : Conf T} (h : GoSteps n c evs c') : Steps n c evs c' := by
  induction h with
  | nil => exact Steps.nil
  | snoc h hs ih => exact Steps.snoc ih hs

theorem GoSteps.no_deadline {n evs} {c c' : Conf T} (h : GoSteps n c evs c') : NoDeadline evs := by
  induction h with
  | nil => intro t; simp
  | @snoc evs c₁ t c' e h hs ih =>
    intro u hu
    rcases List.mem_append.1 hu with hu | hu
    · exact ih u hu
    · obtain ⟨old, h1, -⟩ := step_deadline hs (List.mem_singleton.1 hu).symm
      simp [step, stepGo, h1] at hs

/-- Whatever state `n` threads have reached (spurious wake-ups included): however they are
scheduled from there, after boundedly many statements no thread can go on, and then everybody has
returned from the `k`-th call if everybody has made a `k`-th call. -/
theorem C49_released {n evs} {c : Conf T} (hn : n < 2 ^ 32) (hcard : Fintype.card T = n)
    (h : Run n evs c) (hd : NoDeadline evs) :
    ∃ bound, ∀ evs' c', GoSteps n c evs' c' → evs'.length ≤ bound ∧
      ((∀ t, step n c' t .go = none) →
        ∀ k, (∀ t, k ≤ callsBy t evs) → ∀ t, k ≤ returnsTo t (evs ++ evs')) := by
  refine ⟨c.work, ?_⟩
  intro evs' c' hgo
  refine ⟨by have := hgo.work; omega, ?_⟩
  intro hstuck k hk t
  have h1 : 1 ≤ n := by
    rw [← hcard]; exact Fintype.card_pos_iff.2 ⟨t⟩
  refine stuck_done h1 (by omega) hcard (h.extend hgo.steps) ?_ hstuck ?_ t
  · intro u hu
    rcases List.mem_append.1 hu with hu | hu
    · exact hd u hu
    · exact hgo.no_deadline u hu
  · intro u
    refine Nat.le_trans (hk u) ?_
    unfold callsBy
    rw [List.countP_append]
    omega

/-- No deadlock: as long as somebody has not returned from a round everybody has entered, some
thread can execute its next statement. -/
theorem C49_no_deadlock {n evs} {c : Conf T} (hn : n < 2 ^ 32) (hcard : Fintype.card T = n)
    (h : Run n evs c) (hd : NoDeadline evs) (k : Nat) (hk : ∀ t, k ≤ callsBy t evs) (t : T)
    (ht : returnsTo t evs < k) : ∃ u c' e, step n c u .go = some (c', e) := by
  by_contra hno
  have hstuck : ∀ u, step n c u .go = none := by
    intro u
    cases hq : step n c u .go with
    | none => rfl
    | some x => exact absurd ⟨u, x.1, x.2, hq⟩ hno
  have h1 : 1 ≤ n := by
    rw [← hcard]; exact Fintype.card_pos_iff.2 ⟨t⟩
  have := stuck_done h1 (by omega) hcard h hd hstuck hk t
  omega

/-- A thread that has returned can call `wait` again. -/
theorem C49_next_round {n evs} {c : Conf T} (h : Run n evs c) (hd : NoDeadline evs) (t : T)
    (ht : returnsTo t evs = callsBy t evs) : ∃ c', step n c t .call = some (c', .call t) := by
  have h1 := (counts h t).1
  rw [ends_eq_returns (calm_run h hd).2, ht] at h1
  by_cases hp : c.pc t = .idle
  · exact ⟨_, by simp [step, hp]; rfl⟩
  · rw [if_neg hp] at h1; omega

/-! ## C57  the unlocked read -/

/-- Two threads can execute next: one the read of `barrier_count` without the mutex (line 58), the
other an assignment to it (line 66 or 93). -/
def Race (c : Conf T) : Prop :=
  ∃ t u, t ≠ u ∧ c.pc t = .start ∧ (c.pc u = .bump ∨ c.pc u = .setCount)

omit [Fintype T] in
/-- In a `Race` both accesses are enabled. -/
theorem race_enabled {n} {c : Conf T} (h : Race c) : ∃ t u, t ≠ u ∧
    (∃ c', step n c t .go = some (c', .tau t) ∧ c'.pc t = .wantLock c.count) ∧
    (∃ c', step n c u .go = some (c', .tau u) ∧
      (c'.count = (c.count + 1) % 2 ^ 32 ∨ c'.count = 2 ^ 32 - 1)) := by
  obtain ⟨t, u, h1, h2, h3⟩ := h
  refine ⟨t, u, h1, ⟨c.goto t (.wantLock c.count), by simp [step, stepGo, h2], by simp [Conf.goto]⟩, ?_⟩
  rcases h3 with h3 | h3
  · exact ⟨_, by simp [step, stepGo, h3]; rfl, Or.inl rfl⟩
  · exact ⟨_, by simp [step, stepGo, h3]; rfl, Or.inr rfl⟩

/-- With exactly `n` threads and without timeouts there is no data race on `barrier_count`. -/
theorem C57_no_race {n evs} {c : Conf T} (hn : n < 2 ^ 32) (hcard : Fintype.card T = n)
    (h : Run n evs c) (hd : NoDeadline evs) : ¬ Race c := by
  rintro ⟨t, u, -, hp, hb⟩
  have h1 : 1 ≤ n := by
    rw [← hcard]; exact Fintype.card_pos_iff.2 ⟨t⟩
  obtain ⟨G, gen, cur, pend, hi, hx⟩ := exact_run h1 (by omega) hcard h hd
  rcases hb with hb | hb
  · have h2 := hi.full' u (Or.inr hb)
    have h3 := ((hi.cur_mem t).1 (all_in hcard hi.cur_nodup h2 t)).1
    rw [hp] at h3; cases h3
  · have h2 := hi.good u
    rw [hb] at h2; exact h2

end exact

/-! A concrete execution: two rounds of two threads, the second of which runs ahead; thread 1 also
wakes up spuriously. -/

/-- Thread `t` calls `wait` and executes `k` statements. -/
def callGo (t k : Nat) (N : Nat) [NeZero N] : List (Fin N × Move) :=
  (Fin.ofNat N t, .call) :: List.replicate k (Fin.ofNat N t, .go)

def go (t k : Nat) (N : Nat) [NeZero N] : List (Fin N × Move) := List.replicate k (Fin.ofNat N t, .go)

/-- Thread 0 sleeps, wakes up spuriously and sleeps again, thread 1 arrives and releases it, and
calls again before thread 0 has returned. -/
def sampleSched : List (Fin 2 × Move) :=
  callGo 0 5 2 ++ [(0, .spurious)] ++ go 0 2 2 ++ callGo 1 9 2 ++ callGo 1 5 2 ++ go 0 4 2

/-- Whether the schedule can be executed and what can be seen. -/
def seen {N : Nat} (n : Nat) (s : List (Fin N × Move)) : Option (List (Ev (Fin N))) :=
  (runSched n s (Conf.init, [])).map fun r => r.2.filter fun e => match e with
    | .tau _ => false
    | _ => true

example : seen 2 sampleSched = some [.call 0, .arrive 0 true, .spurious 0, .call 1, .arrive 1 true,
    .ret 1, .call 1, .arrive 1 true, .ret 0] := by decide

theorem seen_run {N n : Nat} {s : List (Fin N × Move)} {l} (h : seen n s = some l) :
    ∃ evs c, Run n evs c ∧ runSched n s (Conf.init, []) = some (c, evs) := by
  unfold seen at h
  cases hr : runSched n s (Conf.init, []) with
  | none => rw [hr] at h; cases h
  | some r => exact ⟨r.2, r.1, run_sched hr, rfl⟩

/-- The hypotheses of C48, C49 and C57 hold for it; it has a first and a second round. -/
example : ∃ evs c, Run (T := Fin 2) 2 evs c ∧ NoDeadline evs ∧ Fintype.card (Fin 2) = 2
    ∧ returnsTo 0 evs = 1 ∧ returnsTo 1 evs = 1 ∧ callsBy 1 evs = 2 ∧ callsBy 0 evs = 1 := by
  refine ⟨_, _, run_sched (sch := sampleSched) (by rfl), ?_, rfl, by decide, by decide, by decide,
    by decide⟩
  unfold NoDeadline
  decide

/-! ## C51  surplus threads -/

section surplus
variable {T : Type} [DecidableEq T]

/-- The claim, for any threads: of `a` calls so far at most `n * ⌊a / n⌋` have returned. -/
def C51_claim (T : Type) [DecidableEq T] (n : Nat) : Prop :=
  ∀ evs (c : Conf T), Run n evs c → NoDeadline evs → allReturns evs ≤ n * (allCalls evs / n)

/-- It holds in executions in which no generation ends between a thread's unlocked read of
`barrier_count` and its arrival.  Missing: executions in which one does, see the refutation. -/
theorem C51_surplus_partial {n evs} {c : Conf T} (h1 : 1 ≤ n) (hn : n < 2 ^ 32) (h : Run n evs c)
    (hd : NoDeadline evs) (hf : AllFresh evs) : allReturns evs ≤ n * (allCalls evs / n) := by
  obtain ⟨G, gen, cur, pend, hi⟩ := inv_run h1 (by omega) h hd hf
  obtain ⟨pre, -, -, hp⟩ := calls_arrivals h
  refine Nat.le_trans (hi.returns_le h1) (Nat.mul_le_mul_left n (Nat.div_le_div_right ?_))
  omega

/-- Three threads at a barrier for two (like the ten at a barrier for eight in the page comment of
Barrier.hxx): two return, the third waits. -/
example : ∃ evs c, Run (T := Fin 3) 2 evs c ∧ NoDeadline evs ∧ AllFresh evs
    ∧ allCalls evs = 3 ∧ allReturns evs = 2 := by
  refine ⟨_, _, run_sched (sch := callGo 0 5 3 ++ callGo 1 9 3 ++ callGo 2 5 3 ++ go 0 4 3)
    (by rfl), ?_, ?_, by decide, by decide⟩
  · unfold NoDeadline; decide
  · unfold AllFresh; decide

/-- Thread 2 reads `barrier_count`; threads 0 and 1 complete the generation; then thread 2 takes
the mutex, finds `barrier_count` changed, and passes the barrier alone. -/
def overtaken : List (Fin 3 × Move) :=
  callGo 2 1 3 ++ callGo 0 5 3 ++ callGo 1 9 3 ++ go 0 4 3 ++ go 2 6 3

/-- Three threads at a barrier for two: all three return. -/
theorem C51_refuted : ¬ C51_claim (Fin 3) 2 := by
  intro hc
  have h := hc _ _ (run_sched (sch := overtaken) (by rfl)) (by unfold NoDeadline; decide)
  revert h
  decide

/-- The same schedule passes through a data race (C57): thread 2 still at line 58 while thread 1
executes line 66. -/
theorem C57_race_with_surplus : ∃ evs c, Run (T := Fin 3) 2 evs c ∧ NoDeadline evs ∧ Race c := by
  refine ⟨_, _, run_sched (sch := callGo 2 0 3 ++ callGo 0 5 3 ++ callGo 1 5 3) (by rfl), ?_,
    2, 1, by decide, by decide, Or.inl (by decide)⟩
  unfold NoDeadline; decide

/-- With timeouts even two threads at a barrier for two race: thread 0 times out, thread 1 calls. -/
theorem C57_race_with_timeout : ∃ evs c, Run (T := Fin 2) 2 evs c ∧ Race c := by
  exact ⟨_, _, run_sched (sch := callGo 0 5 2 ++ [(0, .deadline)] ++ go 0 4 2 ++ callGo 1 0 2)
    (by rfl), 1, 0, by decide, by decide, Or.inr (by decide)⟩

/-! ## C50  timeouts -/

/-- The documented behaviour: a thread that sleeps at the barrier when another one times out (line
91) does not return normally from that call. -/
def C50_claim (T : Type) [DecidableEq T] (n : Nat) : Prop :=
  ∀ evs (c : Conf T) evs' c' t u old, Run n evs c → c.pc t = .setCorrupt → c.pc u = .waitCv old →
    Steps n c evs' c' → Ev.call u ∉ evs' → Ev.ret u ∉ evs'

/-- What holds in every execution: at most one call ends with `Timeout`; if some call ended with
`Corrupt` then `Timeout` was thrown or is about to be; a thread gets at most as many exceptions as
it reached deadlines, so nobody gets one before its own deadline.  Missing: `Corrupt` for the
other waiters, see the refutations. -/
theorem C50_timeout_partial {n evs} {c : Conf T} (h : Run n evs c) :
    timeouts evs ≤ 1 ∧
    ((∃ t, Ev.raise t .corrupt ∈ evs) → timeouts evs = 1 ∨ ∃ t, c.pc t = .setCount
      ∨ c.pc t = .notifyT ∨ c.pc t = .leave .timeout ∨ c.pc t = .out .timeout) ∧
    ∀ t, raisesTo t evs ≤ deadlinesOf t evs := by
  have hi := cinv_run h
  refine ⟨?_, ?_, ?_⟩
  · cases hc : c.corrupted with
    | false => have := (hi.clean hc).2.1; omega
    | true => rcases hi.dirty hc with h1 | h1 <;> omega
  · rintro ⟨t, ht⟩
    cases hc : c.corrupted with
    | false => exact absurd ht ((hi.clean hc).2.2.2 t)
    | true =>
      rcases hi.dirty hc with ⟨h1, -⟩ | ⟨-, u, h1, -⟩
      · exact Or.inl h1
      · refine Or.inr ⟨u, ?_⟩
        cases hp : c.pc u <;> rw [hp] at h1 <;> simp [Pc.timing] at h1 ⊢
        all_goals (next r => cases r <;> simp_all)
  · intro t
    have := raise_deadline h t
    omega

/-- Threads 0 and 1 sleep at a barrier for three; 0 times out. -/
def expiring : List (Fin 3 × Move) := callGo 0 5 3 ++ callGo 1 5 3 ++ [(0, .deadline)] ++ go 0 3 3

/-- Thread 1 is woken by thread 0, finds `barrier_count` changed to 0xffffffff, takes this for the
end of the generation, and returns normally. -/
theorem C50_refuted : ¬ C50_claim (Fin 3) 3 := by
  intro hc
  have hr : ∃ c evs, runSched 3 expiring (Conf.init, []) = some (c, evs) := ⟨_, _, rfl⟩
  obtain ⟨c, evs, hr⟩ := hr
  have hcc : c = ((runSched 3 expiring (Conf.init, [])).get (by decide)).1 := by
    simp only [hr]; rfl
  have hs : ∃ c' evs', runSched 3 (go 0 5 3 ++ go 1 4 3)
      (((runSched 3 expiring (Conf.init, [])).get (by decide)).1, []) = some (c', evs')
      ∧ Ev.ret 1 ∈ evs' ∧ Ev.call 1 ∉ evs' := ⟨_, _, rfl, by decide, by decide⟩
  rw [← hcc] at hs
  obtain ⟨c', evs', h1, h2, h3⟩ := hs
  exact hc evs c evs' c' 0 1 0 (run_sched hr) (by rw [hcc]; decide) (by rw [hcc]; decide)
    (steps_sched _ _ _ _ _ h1 Steps.nil) h3 h2

/-- Nor do threads that arrive later get `Corrupt`: at a barrier for two, thread 1 calls `wait`
after thread 0 has left with `Timeout`, and passes at once and alone. -/
theorem C50_refuted_later :
    seen (N := 2) 2 (callGo 0 5 2 ++ [(0, .deadline)] ++ go 0 8 2 ++ callGo 1 9 2) =
      some [.call 0, .arrive 0 true, .deadline 0, .raise 0 .timeout, .call 1, .arrive 1 true,
        .ret 1] := by decide

/-- `Corrupt` does occur: when another thread's own deadline passes later. -/
example : seen (N := 3) 3 (callGo 0 5 3 ++ [(0, .deadline)] ++ go 0 8 3 ++ callGo 1 5 3
      ++ [(1, .deadline)] ++ go 1 5 3) =
      some [.call 0, .arrive 0 true, .deadline 0, .raise 0 .timeout, .call 1, .arrive 1 true,
        .deadline 1, .raise 1 .corrupt] := by decide

end surplus

/-! ## C58  exception texts -/

/-- The texts of the exceptions, for every name and every timeout given in milliseconds. -/
theorem C58_texts (name : Str) (timeout_ms : Nat) (h : timeout_ms < 2 ^ 64) :
    timeoutWhat name (effective timeout_ms) = .ok ("Barrier ".toList ++ name ++
      " timed out after ".toList ++
      (toString (if timeout_ms = 0 then 1000 * 24 * 3600 * 1000 else timeout_ms)).toList ++
      " ms. Current state is dangerous\n".toList) ∧
    corruptWhat name = .ok ("Barrier ".toList ++ name ++ " is corrupted.\n".toList) := by
  have hs : (Fmt.mk' "Barrier %0 timed out after %1 ms. Current state is dangerous\n".toList) =
      ⟨"Barrier %0 timed out after %1 ms. Current state is dangerous\n".toList,
       [.lit "Barrier ".toList, .fld 0, .lit " timed out after ".toList, .fld 1,
        .lit " ms. Current state is dangerous\n".toList], 0⟩ := by decide
  have hs' : (Fmt.mk' "Barrier %0 is corrupted.\n".toList) =
      ⟨"Barrier %0 is corrupted.\n".toList,
       [.lit "Barrier ".toList, .fld 0, .lit " is corrupted.\n".toList], 0⟩ := by decide
  have hv : (effective timeout_ms % 18446744073709551616).toNat =
      if timeout_ms = 0 then 1000 * 24 * 3600 * 1000 else timeout_ms := by
    unfold effective
    split
    · rfl
    · omega
  have ht : ∀ v : Nat, textU v 'd' 0 nul 4 = (toString v).toList := by
    intro v
    simp [textU, padLeft, nul]
  constructor
  · unfold timeoutWhat
    rw [hs, hv]
    simp only [Fmt.addS, textS, Int.lt_irrefl, gt_iff_lt, if_false, Res.map_ok, Fmt.addU, ht]
    generalize (toString (if timeout_ms = 0 then 1000 * 24 * 3600 * 1000 else timeout_ms)).toList = w
    simp [Fmt.str, Fmt.insertField, Fmt.assemble, u32]
  · unfold corruptWhat
    rw [hs']
    simp only [Fmt.addS, textS, Int.lt_irrefl, gt_iff_lt, if_false, Res.map_ok]
    simp [Fmt.str, Fmt.insertField, Fmt.assemble]

example : timeoutWhat "b%0".toList (effective 250) =
    .ok "Barrier b%0 timed out after 250 ms. Current state is dangerous\n".toList := by decide

end SoDa.Bar
