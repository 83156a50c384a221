import Verif.Proof.BarrierClock
import Verif.Props.BarrierLate
/-!
Property C113: the timeouts of the barrier are those asked for.
-/
set_option linter.unusedSectionVars false
set_option linter.unusedSimpArgs false
namespace SoDa.Bar
open Spec

section
variable {T : Type} [DecidableEq T]

/-- C113.  Forgetting the times, an execution with a clock is one of those of the model without a clock: C48 to C57 and the others
apply. -/
theorem C113_forget {n : Nat} {tr : List (TEv T)} {s : TConf T} (h : TRun n tr s) : Run n (tr.map TEv.ev) s.bar := h.plain

theorem timeoutOf_eq : timeoutOf = limit := rfl

/-- An exception, `Timeout` or `Corrupt`, is thrown only when the timeout of the call has passed since the call; a timeout that does not
fit into nanoseconds never ends in an exception. -/
theorem C113_not_early {n : Nat} {tr : List (TEv T)} {s : TConf T} (h : TRun n tr s) (a : List (TEv T)) (t : T) (r : Out) (τ : Nat)
    (ms : Int) (c : List (TEv T)) (he : tr = a ++ ⟨.raise t r, τ, ms⟩ :: c) :
    ∃ σ : Nat, CalledLast t ms σ a ∧ (σ : Int) + limit ms * 1000000 ≤ τ ∧
      -(2 ^ 63) ≤ limit ms * 1000000 ∧ limit ms * 1000000 < 2 ^ 63 := by
  obtain ⟨s₁, t', m, s₂, h1, h2, h3, h4, h5⟩ := h.at a _ c he
  obtain ⟨p1, p2, p3, p4⟩ := tstep_plain h3
  obtain ⟨q1, -, -, -, -, q6, -⟩ := step_mover p1
  obtain ⟨g1, g2, g3⟩ := q6 t r rfl
  subst g1
  obtain ⟨i1, -, i3, i4⟩ := tinv h1 h2 t
  have hm : m = .go := by cases m <;> first | rfl | (simp [TMove.plain] at g2)
  subst hm
  have hdur : s₂.dur = s₁.dur := p3
  simp only at h4 h5
  rw [hdur] at h5
  obtain ⟨σ, j1, j2, j3⟩ := i1 (by intro h0; rw [h0] at g3; cases g3)
  have harm := Pc.overdue_armed g3
  have hf := (i3 harm).1
  rw [← h5] at j1 j3 hf
  refine ⟨σ, j1, ?_, ?_⟩
  · rw [h4]
    exact Int.le_trans (j3 harm) (i4 g3)
  · simp only [fitsLong, Bool.and_eq_true, decide_eq_true_eq] at hf
    rw [timeoutOf_eq] at hf
    omega

/-! ### Everybody in time -/

/-- The last entry before a deadline. -/
theorem deadline_after {n : Nat} {tr : List (TEv T)} {s : TConf T} (h : TRun n tr s) (a : List (TEv T)) (t : T) (τ : Nat)
    (ms : Int) (c : List (TEv T)) (he : tr = a ++ ⟨.deadline t, τ, ms⟩ :: c) :
    ∃ σ : Nat, ArrivedLast t ms σ a ∧ (σ : Int) + limit ms * 1000000 ≤ τ := by
  obtain ⟨s₁, t', m, s₂, h1, h2, h3, h4, h5⟩ := h.at a _ c he
  obtain ⟨p1, p2, p3, p4⟩ := tstep_plain h3
  obtain ⟨-, -, -, -, -, -, q7⟩ := step_mover p1
  obtain ⟨g1, g2, g3⟩ := q7 t rfl
  subst g1
  obtain ⟨-, i2, -, -⟩ := tinv h1 h2 t
  have hm : m = .deadline := by cases m <;> first | rfl | (simp [TMove.plain] at g2)
  subst hm
  have hdur : s₂.dur = s₁.dur := p3
  simp only at h4 h5
  rw [hdur] at h5
  obtain ⟨σ, j1, j2, j3⟩ := i2 (Pc.armed_counted g3)
  rw [← h5] at j1 j3
  exact ⟨σ, j1, by rw [h4]; exact Int.le_trans (j3 g3) (p4 rfl)⟩

theorem complete_of_inTime {n : Nat} {tr : List (TEv T)} {s : TConf T} (h : TRun n tr s) (hin : InTime tr) :
    Complete (tr.map TEv.ev) := by
  intro pre t post he u
  obtain ⟨pre', rest, hpr, hp1, hp2⟩ := List.map_eq_append_iff.1 he
  obtain ⟨⟨e, τ, ms⟩, post', hx, hx1, hx2⟩ := List.map_eq_cons_iff.1 hp2
  subst hx
  simp only at hx1
  subst hx1
  obtain ⟨σ, ⟨a, b, c, hpre, hc⟩, hD⟩ := deadline_after h pre' t τ ms post' hpr
  subst hp1
  have htr : tr = a ++ ⟨.arrive t b, σ, ms⟩ :: (c ++ ⟨.deadline t, τ, ms⟩ :: post') := by
    rw [hpr, hpre]; simp
  obtain ⟨a', b', σ', ms', c', htr', hent, hσ⟩ := hin a t b σ ms _ htr ⟨⟨.deadline t, τ, ms⟩, by simp, hD⟩ u
  have hte : entered t (pre'.map TEv.ev) = entered t (a.map TEv.ev) + 1 := by
    have h0 : entered t (c.map TEv.ev) = 0 := by
      unfold entered
      rw [List.countP_eq_zero]
      intro e hme
      obtain ⟨x, hx, rfl⟩ := List.mem_map.1 hme
      have := hc x hx
      cases hev : x.ev with
      | arrive v b'' =>
        rw [hev] at this
        simp only [decide_eq_true_eq]
        intro hv
        subst hv
        exact this b'' rfl
      | _ => simp
    rw [hpre]
    unfold entered at h0 ⊢
    rw [List.map_append, List.map_cons, List.countP_append, List.countP_cons_of_pos (by simp), h0]
  rw [hte, ← hent]
  have hcmp : pre' ++ ⟨.deadline t, τ, ms⟩ :: post' = a' ++ ⟨.arrive u b', σ', ms'⟩ :: c' := by rw [← hpr, ← htr']
  have hl : ∃ l, pre' = a' ++ ⟨.arrive u b', σ', ms'⟩ :: l := by
    rcases List.append_eq_append_iff.1 hcmp with ⟨l, e1, e2⟩ | ⟨l, e1, e2⟩
    · exfalso
      cases l with
      | nil =>
        rw [List.nil_append] at e2
        injection e2 with e3 e4
        injection e3 with e5
        cases e5
      | cons y l =>
        rw [List.cons_append] at e2
        injection e2 with e3 e4
        subst e3
        have hle : τ ≤ σ' := by
          have h1 := h.times.2.1
          rw [htr', e1] at h1
          rw [List.append_assoc] at h1
          have h4 := (List.pairwise_append.1 h1).2.1
          rw [List.cons_append] at h4
          exact (List.pairwise_cons.1 h4).1 (⟨.arrive u b', σ', ms'⟩ : TEv T) (by simp)
        omega
    · cases l with
      | nil =>
        rw [List.nil_append] at e2
        injection e2 with e3 e4
        injection e3 with e5
        cases e5
      | cons y l =>
        rw [List.cons_append] at e2
        injection e2 with e3 e4
        subst e3
        exact ⟨l, e1⟩
  obtain ⟨l, hl⟩ := hl
  rw [hl]
  unfold entered
  simp [List.countP_append]

/-- If everybody enters the barrier within the timeout of everybody, each call having its own timeout, nobody gets an exception, however
late the threads that were waiting are scheduled afterwards. -/
theorem C113_in_time [Fintype T] {n : Nat} {tr : List (TEv T)} {s : TConf T} (hn : n < 2 ^ 32) (hcard : Fintype.card T = n)
    (h : TRun n tr s) (hin : InTime tr) (t : T) (r : Out) (τ : Nat) (ms : Int) : ⟨.raise t r, τ, ms⟩ ∉ tr := by
  intro hm
  exact (calmed_run (pos_of hcard t) (by omega) hcard h.plain (complete_of_inTime h hin)).2.2.2 t r
    (List.mem_map.2 ⟨_, hm, rfl⟩)

/-! ### A thread whose timeout has passed -/

/-- A statement that is not line 63. -/
theorem later_go {n : Nat} {tr : List (TEv T)} {s₀ s : TConf T} (h : ClockOnward n s₀ tr s) (hu : s.ub = false) (t : T) {c : Conf T} {e : Ev T}
    (hs : stepGo n s.bar t = some (c, e)) (hp : ∀ old, s.bar.pc t ≠ .test old) :
    ClockOnward n s₀ (tr ++ [⟨e, s.now, s.dur t⟩]) { s with bar := c } := by
  have : tstep n s t .go = some ({ s with bar := c }, e) := by
    simp only [tstep, step, hs, Option.map_some]
    congr 2
    unfold TConf.arm
    cases hq : s.bar.pc t <;> first | rfl | exact absurd hq (hp _)
  exact .snoc h hu this

theorem TRun.later {n : Nat} {tr tr' : List (TEv T)} {s s' : TConf T} (h : TRun n tr s) (h' : ClockOnward n s tr' s') : TRun n (tr ++ tr') s' := by
  induction h' with
  | nil => simpa using h
  | tick _ h1 h2 ih => exact .tick ih h1 h2
  | snoc _ h1 h2 ih => rw [← List.append_assoc]; exact .snoc ih h1 h2

theorem TRun.go {n : Nat} {tr : List (TEv T)} {s : TConf T} (h : TRun n tr s) (hu : s.ub = false) (t : T) {c : Conf T} {e : Ev T}
    (hs : stepGo n s.bar t = some (c, e)) (hp : ∀ old, s.bar.pc t ≠ .test old) :
    TRun n (tr ++ [⟨e, s.now, s.dur t⟩]) { s with bar := c } := h.later (later_go .nil hu t hs hp)

theorem pc_twice (t : T) (p q : Pc) (f : T → Pc) :
    (fun u => if u = t then p else if u = t then q else f u) = fun u => if u = t then p else f u := by
  funext u
  split <;> rfl

/-- The exception that a thread gets whose timeout has passed. -/
def exceptionOf (c : Conf T) : Out := if c.corrupted then .corrupt else .timeout

/-- While the generation has not ended, a sleeping thread whose timeout passes gets its exception when it is scheduled alone from there:
it does not wait for anybody.  This takes no longer than its timeout. -/
theorem C113_expires {n : Nat} {tr : List (TEv T)} {s : TConf T} (h : TRun n tr s) (hu : s.ub = false) (t : T)
    (hp : s.bar.pc t = .waitCv s.bar.count) (hh : s.bar.holder = none) :
    ∃ τ tr' s', τ = max s.now (s.due t).toNat ∧ ClockOnward n s tr' s' ∧
      (∀ e ∈ tr', e.at_ = τ ∧ e.ms = s.dur t ∧
        (e.ev = .tau t ∨ e.ev = .deadline t ∨ e.ev = .raise t (exceptionOf s.bar))) ∧
      ∃ l, tr' = l ++ [⟨.raise t (exceptionOf s.bar), τ, s.dur t⟩] := by
  obtain ⟨-, -, i3, -⟩ := tinv h hu t
  have hf := (i3 (by rw [hp]; rfl)).2
  simp only [fitsLong, Bool.and_eq_true, decide_eq_true_eq] at hf
  have hlt := h.times.2.2
  have h0 := (ClockOnward.nil (n := n) (s := s)).tick (now' := max s.now (s.due t).toNat) (by omega) (by omega)
  generalize hτ : max s.now (s.due t).toNat = τ at h0 ⊢
  have hle : s.due t ≤ τ := by omega
  have h1 := h0.snoc (t := t) (m := .deadline)
    (s'' := { s with now := τ, bar := s.bar.goto t (.woken s.bar.count true) }) (e := .deadline t) hu (by
      simp only [tstep, hle, if_true, step, hp, Option.map_some])
  have h2 := later_go h1 hu t (c := { s.bar with holder := some t }.goto t (.predT s.bar.count)) (e := .tau t)
    (by simp [stepGo, Conf.goto, pc_twice, hh]) (by simp [Conf.goto])
  have h3 := later_go h2 hu t (c := { s.bar with holder := some t }.goto t .expired) (e := .tau t)
    (by simp [stepGo, Conf.goto, pc_twice]) (by simp [Conf.goto])
  cases hc : s.bar.corrupted with
  | true =>
    have h4 := later_go h3 hu t (c := { s.bar with holder := some t }.goto t (.leave .corrupt)) (e := .tau t)
      (by simp [stepGo, Conf.goto, pc_twice, hc]) (by simp [Conf.goto])
    have h5 := later_go h4 hu t (c := { s.bar with holder := none }.goto t (.out .corrupt)) (e := .tau t)
      (by simp [stepGo, Conf.goto, pc_twice]) (by simp [Conf.goto])
    have h6 := later_go h5 hu t (c := { s.bar with holder := none }.goto t .idle) (e := .raise t .corrupt)
      (by simp [stepGo, Conf.goto, pc_twice]) (by simp [Conf.goto])
    simp only [List.append_assoc, List.nil_append] at h6
    refine ⟨τ, _, _, rfl, h6, ?_, ?_⟩
    · simp [exceptionOf, hc]
    · simp only [exceptionOf, hc, if_true]
      exact ⟨[_, _, _, _, _], rfl⟩
  | false =>
    have h4 := later_go h3 hu t (c := { s.bar with holder := some t }.goto t .setCorrupt) (e := .tau t)
      (by simp [stepGo, Conf.goto, pc_twice, hc]) (by simp [Conf.goto])
    have h5 := later_go h4 hu t (c := { s.bar with holder := some t, corrupted := true }.goto t .setCount) (e := .tau t)
      (by simp [stepGo, Conf.goto, pc_twice]) (by simp [Conf.goto])
    have h6 := later_go h5 hu t (c := { s.bar with holder := some t, corrupted := true, count := 4294967295 }.goto t .notifyT) (e := .tau t)
      (by simp [stepGo, Conf.goto, pc_twice]) (by simp [Conf.goto])
    have h7 := later_go h6 hu t (e := .tau t) (by simp only [stepGo, Conf.goto, if_true]; rfl) (by simp [Conf.goto])
    have h8 := later_go h7 hu t (e := .tau t) (by simp only [stepGo, Conf.goto, if_true]; rfl) (by simp [Conf.goto])
    have h9 := later_go h8 hu t (e := .raise t .timeout) (by simp only [stepGo, Conf.goto, if_true]; rfl) (by simp [Conf.goto])
    simp only [List.append_assoc, List.nil_append] at h9
    refine ⟨τ, _, _, rfl, h9, ?_, ?_⟩
    · simp [exceptionOf, hc]
    · simp only [exceptionOf, hc]
      exact ⟨[_, _, _, _, _, _, _, _], rfl⟩

/-! ### What is asked for -/

theorem effective_pos {k : Nat} (hk : k < 2 ^ 64) (h : 0 ≤ effective k) :
    effective k = requested k ∧ timeoutOf (effective k) = requested k := by
  unfold timeoutOf
  unfold effective requested at *
  by_cases h0 : k = 0
  · simp [h0]
  · simp only [h0, if_false] at h ⊢
    have : (k + 9223372036854775808 : Int) % 18446744073709551616 - 9223372036854775808 = k := by omega
    rw [this]
    exact ⟨rfl, by rw [if_neg (by omega)]⟩

/-- Undefined behaviour comes from the deadline of a call. -/
theorem TRun.ub_call {n : Nat} {tr : List (TEv T)} {s : TConf T} (h : TRun n tr s) (hu : s.ub = true) :
    ∃ e ∈ tr, ∃ τ : Nat, (∃ t, e.ev = .call t) ∧ e.at_ ≤ τ ∧ τ ≤ s.now ∧ deadlineAt τ e.ms = none := by
  induction h with
  | init => cases hu
  | tick h h1 h2 ih =>
    obtain ⟨e, g1, τ, g2, g3, g4, g5⟩ := ih hu
    exact ⟨e, g1, τ, g2, g3, Nat.le_trans g4 h1, g5⟩
  | @snoc tr s t m s' e h hub hs ih =>
    have hnow := (tstep_plain hs).2.1
    have hi := tinv h hub t
    cases m with
    | go =>
      simp only [tstep, Option.map_eq_some_iff] at hs
      obtain ⟨⟨c, e'⟩, h1, h2⟩ := hs
      simp only [Prod.mk.injEq] at h2
      obtain ⟨h2, h3⟩ := h2
      subst h2; subst h3
      have : ∃ old, s.bar.pc t = .test old ∧ deadlineAt s.now (s.dur t) = none := by
        unfold TConf.arm at hu
        split at hu
        · rename_i old hp
          refine ⟨old, hp, ?_⟩
          split at hu
          · rw [hub] at hu; cases hu
          · split at hu
            · rw [hub] at hu; cases hu
            · assumption
        · rw [hub] at hu; cases hu
      obtain ⟨old, hp, hd⟩ := this
      obtain ⟨σ, ⟨a, c', g1, -⟩, g2, -⟩ := hi.called (by rw [hp]; simp)
      refine ⟨⟨.call t, σ, s.dur t⟩, by rw [g1]; simp, s.now, ⟨t, rfl⟩, g2, by rw [hnow], hd⟩
    | call ms =>
      simp only [tstep, Option.map_eq_some_iff] at hs
      obtain ⟨⟨c, e'⟩, h1, h2⟩ := hs
      simp only [Prod.mk.injEq] at h2
      obtain ⟨h2, h3⟩ := h2
      subst h2
      rw [hub] at hu; cases hu
    | spurious =>
      simp only [tstep, Option.map_eq_some_iff] at hs
      obtain ⟨⟨c, e'⟩, h1, h2⟩ := hs
      simp only [Prod.mk.injEq] at h2
      obtain ⟨h2, h3⟩ := h2
      subst h2
      rw [hub] at hu; cases hu
    | deadline =>
      simp only [tstep] at hs
      split at hs
      · simp only [Option.map_eq_some_iff] at hs
        obtain ⟨⟨c, e'⟩, h1, h2⟩ := hs
        simp only [Prod.mk.injEq] at h2
        obtain ⟨h2, h3⟩ := h2
        subst h2
        rw [hub] at hu; cases hu
      · cases hs

/-- `wait(unsigned long)` with timeouts that end before the clock does: no exception before the time asked for has passed, and no
undefined behaviour.  What is missing: larger arguments, see `C113_refuted` and `C113_exact`. -/
theorem C113_asked_partial {n : Nat} {tr : List (TEv T)} {s : TConf T} (h : TRun n tr s)
    (hask : Asked tr fun k => s.now + requested k * 1000000 < 2 ^ 63) : NotEarly tr ∧ s.ub = false := by
  have hgood : ∀ e ∈ tr, (∃ t, e.ev = .call t) → 0 < e.ms ∧ (s.now : Int) + e.ms * 1000000 < 2 ^ 63 := by
    intro e he hc
    obtain ⟨k, h1, h2, h3⟩ := hask e he hc
    have hk : (k : Int) < 2 ^ 63 := by unfold requested at h2; split at h2 <;> omega
    have : 0 ≤ effective k := by
      unfold effective
      split <;> omega
    have h4 := (effective_pos h1 this).1
    have h5 : 0 < requested k := by unfold requested; split <;> omega
    rw [h3, h4]
    constructor
    · omega
    · omega
  refine ⟨?_, ?_⟩
  · intro a t r τ k c hk he
    obtain ⟨σ, h1, h2, -⟩ := C113_not_early h a t r τ _ c he
    refine ⟨σ, h1, ?_⟩
    obtain ⟨a', c', h3, -⟩ := h1
    have := (hgood ⟨.call t, σ, effective k⟩ (by rw [he, h3]; simp) ⟨t, rfl⟩).1
    rw [← timeoutOf_eq, (effective_pos hk (Int.le_of_lt this)).2] at h2
    omega
  · by_contra hu
    obtain ⟨e, g1, τ, g2, g3, g4, g5⟩ := h.ub_call (by simpa using hu)
    obtain ⟨h1, h2⟩ := hgood e g1 g2
    unfold deadlineAt at g5
    have hto : timeoutOf e.ms = e.ms := by unfold timeoutOf; rw [if_neg (by omega)]
    rw [hto] at g5
    rw [if_pos] at g5
    · cases g5
    · simp only [fitsLong, Bool.and_eq_true, decide_eq_true_eq]
      omega

end

/-! ### Arguments that are too large -/

/-- The full statement: for all arguments of `wait(unsigned long)`, no exception before the time asked for has passed, and no undefined
behaviour. -/
def C113_claim : Prop := ∀ (n : Nat) (tr : List (TEv (Fin 2))) (s : TConf (Fin 2)), TRun n tr s →
  Asked tr (fun _ => True) → NotEarly tr ∧ s.ub = false

/-- One call of `wait(timeout_ms)`, by thread 0 at time `now`, at a barrier for two. -/
def OneCall (now : Nat) (timeout_ms : Nat) (tr : List (TEv (Fin 2))) (s : TConf (Fin 2)) : Prop :=
  TRun 2 tr s ∧ ∃ rest, tr = ⟨.call 0, now, effective timeout_ms⟩ :: rest ∧ ∀ e ∈ rest, ∀ t, e.ev ≠ .call t

/-- The state in which thread 0 has entered alone. -/
def inAlone (now : Nat) (ms : Int) : TConf (Fin 2) :=
  { bar := { waiting := 1, count := 0, corrupted := false, holder := some 0, pc := fun u => if u = 0 then .test 0 else .idle }
    now := now, dur := fun u => if u = 0 then ms else 0, due := fun _ => 0, ub := false }

theorem inAlone_run {now : Nat} (hnow : now < 2 ^ 63) (ms : Int) :
    TRun 2 [⟨.call 0, now, ms⟩, ⟨.tau 0, now, ms⟩, ⟨.tau 0, now, ms⟩, ⟨.arrive 0 true, now, ms⟩] (inAlone now ms) := by
  have h0 : TRun (T := Fin 2) 2 [] (TConf.init now) := .init (by omega)
  have h1 := TRun.snoc (n := 2) (s := (TConf.init now : TConf (Fin 2))) (t := 0) (m := .call ms)
    (s' := { TConf.init now with bar := Conf.init.goto 0 .start, dur := fun u => if u = 0 then ms else 0 }) (e := .call 0) h0 rfl rfl
  have h2 := h1.go rfl 0 (c := Conf.init.goto 0 (.wantLock 0)) (e := .tau 0) (by simp [stepGo, Conf.goto, pc_twice, Conf.init])
    (by simp [Conf.goto])
  have h3 := h2.go rfl 0 (c := { (Conf.init : Conf (Fin 2)) with holder := some 0 }.goto 0 (.incr 0)) (e := .tau 0)
    (by simp [stepGo, Conf.goto, pc_twice, Conf.init]) (by simp [Conf.goto])
  have h4 := h3.go rfl 0 (c := (inAlone now ms).bar) (e := .arrive 0 true)
    (by simp [stepGo, Conf.goto, pc_twice, Conf.init, inAlone]) (by simp [Conf.goto])
  exact h4

theorem inAlone_undefined {now : Nat} {ms : Int} (hd : deadlineAt now ms = none) :
    ∃ s' : TConf (Fin 2), tstep 2 (inAlone now ms) 0 .go = some (s', .tau 0) ∧ s'.ub = true ∧ s'.now = now ∧ s'.dur 0 = ms := by
  simp [tstep, step, stepGo, TConf.arm, inAlone, hd]

theorem inAlone_sleeps {now : Nat} (hnow : now < 2 ^ 63) {ms d : Int} (hd : deadlineAt now ms = some d) :
    ∃ s' : TConf (Fin 2), TRun 2 [⟨.call 0, now, ms⟩, ⟨.tau 0, now, ms⟩, ⟨.tau 0, now, ms⟩, ⟨.arrive 0 true, now, ms⟩, ⟨.tau 0, now, ms⟩,
        ⟨.tau 0, now, ms⟩] s' ∧ s'.ub = false ∧ s'.now = now ∧ s'.dur 0 = ms ∧ s'.due 0 = d ∧ s'.bar.pc 0 = .waitCv s'.bar.count ∧
      s'.bar.holder = none ∧ s'.bar.corrupted = false := by
  have h4 := inAlone_run hnow ms
  have h5 := TRun.snoc (s := inAlone now ms) (t := 0) (m := .go) (s' := { inAlone now ms with
      bar := (inAlone now ms).bar.goto 0 (.pred 0), due := setOf (fun _ => 0) 0 d }) (e := .tau 0) h4 rfl (by
      simp [tstep, step, stepGo, TConf.arm, inAlone, hd])
  have h6 := h5.go rfl 0 (c := { (inAlone now ms).bar with holder := none }.goto 0 (.waitCv 0)) (e := .tau 0)
    (by simp [stepGo, Conf.goto, pc_twice, inAlone]) (by simp [Conf.goto])
  exact ⟨_, h6, rfl, rfl, rfl, rfl, rfl, rfl, rfl⟩

/-- With an argument of 2^64 - 9223372036854 milliseconds or more, the exception may be thrown at once. -/
theorem C113_at_once (now : Nat) (hnow : now < 2 ^ 63) (k : Nat) (hk : k < 2 ^ 64) (hbig : 2 ^ 64 - 9223372036854 ≤ k) :
    ∃ tr s a r c, OneCall now k tr s ∧ tr = a ++ ⟨.raise 0 r, now, effective k⟩ :: c := by
  have h1 : effective k = (k : Int) - 2 ^ 64 := by
    unfold effective
    rw [if_neg (by omega)]
    omega
  have h2 : timeoutOf (effective k) = (k : Int) - 2 ^ 64 := by
    unfold timeoutOf
    rw [if_neg (by omega), h1]
  have hd : deadlineAt now (effective k) = some (now + ((k : Int) - 2 ^ 64) * 1000000) := by
    unfold deadlineAt
    rw [h2, if_pos]
    simp only [fitsLong, Bool.and_eq_true, decide_eq_true_eq]
    omega
  obtain ⟨s', r1, r2, r3, r4, r5, r6, r7, r8⟩ := inAlone_sleeps hnow hd
  obtain ⟨τ, tr', s'', e1, e2, e3, l, e4⟩ := C113_expires r1 r2 0 r6 r7
  have hτ : τ = now := by rw [e1, r3, r5]; omega
  rw [hτ, r4] at e4
  obtain ⟨a, ha⟩ : ∃ a, [⟨.call 0, now, effective k⟩, ⟨.tau 0, now, effective k⟩, ⟨.tau 0, now, effective k⟩,
      ⟨.arrive 0 true, now, effective k⟩, ⟨.tau 0, now, effective k⟩, ⟨.tau 0, now, effective k⟩] ++ tr' =
      a ++ [(⟨.raise 0 (exceptionOf s'.bar), now, effective k⟩ : TEv (Fin 2))] := ⟨_, by rw [e4, ← List.append_assoc]⟩
  refine ⟨_, s'', a, exceptionOf s'.bar, [], ⟨r1.later e2, _, rfl, ?_⟩, ha⟩
  · intro e he t
    rcases List.mem_append.1 he with he | he
    · simp only [List.mem_cons, List.not_mem_nil, or_false] at he
      rcases he with rfl | rfl | rfl | rfl | rfl <;> simp
    · rcases (e3 e he).2.2 with h | h | h <;> rw [h] <;> simp

/-- What becomes of large arguments of `wait(unsigned long)`, exactly.  With an argument of 2^64 - 9223372036854 milliseconds or more,
the exception may be thrown too early (below: at once), and with no other.  With smaller arguments, if the deadline would be after the
end of the clock, computing it is undefined, and with no others. -/
theorem C113_exact (now : Nat) (hnow : now < 2 ^ 63) (k : Nat) (hk : k < 2 ^ 64) :
    ((∃ tr s a r τ c, OneCall now k tr s ∧ tr = a ++ ⟨.raise 0 r, τ, effective k⟩ :: c ∧ τ < now + requested k * 1000000) ↔
      2 ^ 64 - 9223372036854 ≤ k) ∧
    ((∃ tr s, OneCall now k tr s ∧ s.now = now ∧ s.ub = true) ↔
      2 ^ 63 ≤ now + requested k * 1000000 ∧ k < 2 ^ 64 - 9223372036854) := by
  have heff : effective k = requested k ∧ timeoutOf (effective k) = requested k ∨
      2 ^ 63 ≤ k ∧ effective k = (k : Int) - 2 ^ 64 ∧ timeoutOf (effective k) = (k : Int) - 2 ^ 64 := by
    by_cases h : 0 ≤ effective k
    · exact Or.inl (effective_pos hk h)
    · right
      have h1 : 2 ^ 63 ≤ k ∧ effective k = (k : Int) - 2 ^ 64 := by
        unfold effective at h ⊢
        split at h
        · omega
        · rename_i h0
          rw [if_neg h0]
          omega
      refine ⟨h1.1, h1.2, ?_⟩
      unfold timeoutOf
      rw [if_neg (by omega), h1.2]
  have hreq : 2 ^ 63 ≤ k → requested k = k := by
    intro h; unfold requested; rw [if_neg (by omega)]
  have hval : deadlineAt now (effective k) = none ↔ 2 ^ 63 ≤ now + requested k * 1000000 ∧ k < 2 ^ 64 - 9223372036854 := by
    unfold deadlineAt
    have hr : requested k < 2 ^ 63 ∨ requested k = k := by
      unfold requested; split
      · left; omega
      · right; rfl
    rcases heff with ⟨h1, h2⟩ | ⟨h0, h1, h2⟩
    · have hpos : effective k < 2 ^ 63 := by unfold effective; split <;> omega
      rw [h2]
      simp only [fitsLong, ite_eq_right_iff, reduceCtorEq, imp_false, Bool.and_eq_true, decide_eq_true_eq]
      omega
    · have := hreq h0
      rw [h2]
      simp only [fitsLong, ite_eq_right_iff, reduceCtorEq, imp_false, Bool.and_eq_true, decide_eq_true_eq]
      omega
  refine ⟨⟨?_, ?_⟩, ⟨?_, ?_⟩⟩
  · rintro ⟨tr, s, a, r, τ, c, ⟨h, rest, htr, hno⟩, he, hτ⟩
    obtain ⟨σ, ⟨a', c', g1, -⟩, g2, g3, -⟩ := C113_not_early h a 0 r τ _ c he
    have hσ : σ = now := by
      have hm : (⟨.call 0, σ, effective k⟩ : TEv (Fin 2)) ∈ tr := by rw [he, g1]; simp
      rw [htr] at hm
      rcases List.mem_cons.1 hm with hm | hm
      · injection hm
      · exact absurd rfl (hno _ hm 0)
    subst hσ
    rcases heff with ⟨h1, h2⟩ | ⟨h0, h1, h2⟩
    · rw [← timeoutOf_eq, h2] at g2; omega
    · rw [← timeoutOf_eq, h2] at g3; omega
  · intro hbig
    obtain ⟨tr, s, a, r, c, h1, h2⟩ := C113_at_once now hnow k hk hbig
    exact ⟨tr, s, a, r, now, c, h1, h2, by have := hreq (by omega); omega⟩
  · rintro ⟨tr, s, ⟨h, rest, htr, hno⟩, hn, hu⟩
    obtain ⟨e, g1, τ, ⟨t, g2⟩, g3, g4, g5⟩ := h.ub_call hu
    rw [htr] at g1
    rcases List.mem_cons.1 g1 with hm | hm
    · subst hm
      have : τ = now := by
        have g3 : now ≤ τ := g3
        omega
      rw [this] at g5
      exact hval.1 g5
    · exact absurd g2 (hno _ hm t)
  · intro hh
    obtain ⟨s', u1, u2, u3, u4⟩ := inAlone_undefined (hval.2 hh)
    refine ⟨_, s', ⟨(inAlone_run hnow _).snoc rfl u1, _, rfl, ?_⟩, u3, u2⟩
    intro e he t
    change e ∈ ([⟨.tau 0, now, effective k⟩, ⟨.tau 0, now, effective k⟩, ⟨.arrive 0 true, now, effective k⟩,
      ⟨.tau 0, now, s'.dur 0⟩] : List (TEv (Fin 2))) at he
    simp only [List.mem_cons, List.not_mem_nil, or_false] at he
    rcases he with rfl | rfl | rfl | rfl <;> simp

/-- `wait(2^63 - 1)` is undefined.  (`wait(2^64 - 1)`, the largest timeout, throws `Timeout` at once: `C113_at_once`.) -/
theorem C113_refuted : ¬ C113_claim := by
  intro h
  obtain ⟨tr, s, ⟨h1, rest, h2, h3⟩, -, h4⟩ := (C113_exact 0 (by omega) (2 ^ 63 - 1) (by omega)).2.2 (by decide)
  have := (h 2 tr s h1 (fun e he hc => ?_)).2
  · rw [h4] at this; cases this
  · rw [h2] at he
    rcases List.mem_cons.1 he with he | he
    · subst he
      exact ⟨2 ^ 63 - 1, by omega, trivial, rfl⟩
    · obtain ⟨t, hc⟩ := hc
      exact absurd hc (h3 e he t)

/-! ### Concrete cases -/

/-- Executing a given schedule; a number lets time pass until then. -/
def texec {N : Nat} (n : Nat) : List (Nat ⊕ (Fin N × TMove)) → TConf (Fin N) × List (TEv (Fin N)) → Option (TConf (Fin N) × List (TEv (Fin N)))
  | [], s => some s
  | .inl now' :: rest, (s, tr) =>
    if s.now ≤ now' ∧ now' < 9223372036854775808 then texec n rest ({ s with now := now' }, tr) else none
  | .inr (t, m) :: rest, (s, tr) =>
    if s.ub then none else
    match tstep n s t m with
    | none => none
    | some (s', e) => texec n rest (s', tr ++ [⟨e, s.now, s'.dur t⟩])

theorem texec_run {N n : Nat} (l : List (Nat ⊕ (Fin N × TMove))) : ∀ {s : TConf (Fin N)} {tr} {r : TConf (Fin N) × List (TEv (Fin N))},
    TRun n tr s → texec n l (s, tr) = some r → TRun n r.2 r.1 := by
  induction l with
  | nil =>
    intro s tr r h hr
    simp only [texec, Option.some.injEq] at hr
    subst hr
    exact h
  | cons x l ih =>
    intro s tr r h hr
    rcases x with now' | ⟨t, m⟩
    · simp only [texec] at hr
      split at hr
      · rename_i hc
        exact ih (h.tick hc.1 hc.2) hr
      · cases hr
    · simp only [texec] at hr
      split at hr
      · cases hr
      · rename_i hu
        split at hr
        · cases hr
        · rename_i hs
          exact ih (h.snoc (by simpa using hu) hs) hr

/-- `InTime`, by positions. -/
theorem inTime_of_positions {T : Type} [DecidableEq T] {tr : List (TEv T)}
    (h : ∀ i, (hi : i < tr.length) → ∀ t b, tr[i].ev = .arrive t b → ∀ u, ∃ j, ∃ hj : j < tr.length, ∃ b',
      tr[j].ev = .arrive u b' ∧ entered u ((tr.take j).map TEv.ev) = entered t ((tr.take i).map TEv.ev) ∧
        (tr[j].at_ : Int) < tr[i].at_ + limit tr[i].ms * 1000000) : InTime tr := by
  intro a t b σ ms c he _ u
  obtain ⟨j, hj, b', h1, h2, h3⟩ := h a.length (by simp [he]) t b (by simp [he]) u
  refine ⟨tr.take j, b', tr[j].at_, tr[j].ms, tr.drop (j + 1), ?_, ?_, ?_⟩
  · rw [← h1]
    exact split_at tr j hj
  · rw [h2, he, List.take_left]
  · simpa [he] using h3

def goT (t k : Nat) : List (Nat ⊕ (Fin 2 × TMove)) := List.replicate k (.inr (Fin.ofNat 2 t, .go))

/-- Thread 0 calls `wait(10)` at time 5 ms and sleeps; thread 1 calls `wait(0)` at 9 ms and enters the barrier at 12 ms; thread 0 reaches
its deadline at 15 ms, before having been told; both return. -/
def clockSched : List (Nat ⊕ (Fin 2 × TMove)) :=
  [.inl 5000000, .inr (0, .call (effective 10))] ++ goT 0 5 ++ [.inl 9000000, .inr (1, .call (effective 0))] ++ [.inl 12000000] ++ goT 1 3 ++
    [.inl 15000000, .inr (0, .deadline)] ++ goT 1 6 ++ goT 0 4

def clockTrace : List (TEv (Fin 2)) := ((texec 2 clockSched (TConf.init 0, [])).map Prod.snd).getD []

example : ∃ s, TRun 2 clockTrace s ∧ InTime clockTrace ∧ s.ub = false ∧
    (Asked clockTrace fun k => s.now + requested k * 1000000 < 2 ^ 63) ∧
    (clockTrace.map TEv.ev).filter (fun e => e ≠ .tau 0 ∧ e ≠ .tau 1) =
      [.call 0, .arrive 0 true, .call 1, .arrive 1 true, .deadline 0, .ret 1, .ret 0] := by
  have hs : (texec 2 clockSched ((TConf.init 0 : TConf (Fin 2)), [])).isSome = true := by decide
  obtain ⟨r, hr⟩ := Option.isSome_iff_exists.1 hs
  have hnow : ((texec 2 clockSched ((TConf.init 0 : TConf (Fin 2)), [])).map fun r => (r.1.now, r.1.ub)) = some (15000000, false) := by
    decide
  rw [hr] at hnow
  simp only [Option.map_some, Option.some.injEq, Prod.mk.injEq] at hnow
  have ht : clockTrace = r.2 := by unfold clockTrace; rw [hr]; rfl
  have hcalls : ∀ e ∈ clockTrace, (e.ev = .call 0 ∨ e.ev = .call 1) → e.ms = effective 10 ∨ e.ms = effective 0 := by
    set_option maxRecDepth 4000 in decide
  refine ⟨r.1, by rw [ht]; exact texec_run clockSched (.init (by decide)) hr, inTime_of_positions ?_, hnow.2, ?_, by decide⟩
  · set_option maxRecDepth 4000 in decide
  · rw [hnow.1]
    rintro e he ⟨t, hc⟩
    have : e.ev = .call 0 ∨ e.ev = .call 1 := by
      rw [hc]
      match t with
      | 0 => exact Or.inl rfl
      | 1 => exact Or.inr rfl
    rcases hcalls e he this with h | h
    · exact ⟨10, by decide, by decide, h⟩
    · exact ⟨0, by decide, by decide, h⟩

/-- Alone, with a timeout of 10 ms: a sleeping thread as in `C113_expires`, and the exception of `C113_not_early`, 10 ms later. -/
example : ((texec 2 ([.inl 5000000, .inr (0, .call (effective 10))] ++ goT 0 5 ++ [.inl 15000000, .inr (0, .deadline)] ++ goT 0 8)
      ((TConf.init 0 : TConf (Fin 2)), [])).map fun r => r.2.filterMap fun e => if e.ev = .tau 0 then none else some (e.ev, e.at_)) =
    some [(.call 0, 5000000), (.arrive 0 true, 5000000), (.deadline 0, 15000000), (.raise 0 .timeout, 15000000)] := by decide

/-- The deadline does not come earlier. -/
example : (texec 2 ([.inl 5000000, .inr (0, .call (effective 10))] ++ goT 0 5 ++ [.inl 14999999, .inr (0, .deadline)])
      ((TConf.init 0 : TConf (Fin 2)), [])).isNone = true := by decide

example : ∃ tr s, TRun (T := Fin 2) 2 tr s ∧ s.ub = false ∧ s.bar.pc 0 = .waitCv s.bar.count ∧ s.bar.holder = none := by
  obtain ⟨s, h⟩ := inAlone_sleeps (now := 7) (by decide) (ms := 10) (d := 10000007) (by decide)
  exact ⟨_, s, h.1, h.2.1, h.2.2.2.2.2.1, h.2.2.2.2.2.2.1⟩

example : 2 ^ 64 - 9223372036854 ≤ 2 ^ 64 - 1 ∧ 2 ^ 63 ≤ 0 + requested (2 ^ 63 - 1) * 1000000 := by decide

end SoDa.Bar
