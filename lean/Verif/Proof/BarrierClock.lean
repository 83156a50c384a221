import Verif.Spec.BarrierClock
import Verif.Proof.BarrierLate
import Mathlib.Tactic.Ring
/-!
Invariants of the barrier with a clock.
-/
set_option linter.unusedSectionVars false
set_option linter.unusedSimpArgs false
namespace SoDa.Bar
open Spec

variable {T : Type} [DecidableEq T]

/-- Has executed `waiting++` in this call. -/
def Pc.counted : Pc → Bool
  | .idle | .start | .wantLock _ | .incr _ => false
  | _ => true

/-- Has computed its deadline in this call, and will not return normally without looking at `barrier_count` first. -/
def Pc.armed : Pc → Bool
  | .pred _ | .waitCv _ | .woken _ _ | .predT _ | .expired | .setCorrupt | .setCount | .notifyT
  | .leave .timeout | .leave .corrupt | .out .timeout | .out .corrupt => true
  | _ => false

/-- Its deadline has passed. -/
def Pc.overdue : Pc → Bool
  | .woken _ true | .predT _ | .expired | .setCorrupt | .setCount | .notifyT
  | .leave .timeout | .leave .corrupt | .out .timeout | .out .corrupt => true
  | _ => false

theorem Pc.overdue_armed {p : Pc} (h : p.overdue = true) : p.armed = true := by
  cases p <;> first | (simp [Pc.overdue] at h; done) | rfl | skip
  all_goals (rename_i r; cases r <;> first | rfl | (simp [Pc.overdue] at h))

theorem Pc.armed_counted {p : Pc} (h : p.armed = true) : p.counted = true := by
  cases p <;> first | (simp [Pc.armed] at h; done) | rfl

/-- What a step does to the threads that do not make it. -/
theorem step_others {n : Nat} {c c' : Conf T} {t : T} {m : Move} {e : Ev T} (h : step n c t m = some (c', e)) (u : T) (hu : u ≠ t) :
    (c'.pc u = .idle ↔ c.pc u = .idle) ∧ (c'.pc u).counted = (c.pc u).counted ∧ (c'.pc u).armed = (c.pc u).armed ∧
      (c'.pc u).overdue = (c.pc u).overdue := by
  have key : c'.pc u = c.pc u ∨ c'.pc u = c.wakeAll.pc u := by
    cases m with
    | call =>
      simp only [step] at h
      split at h <;> simp at h
      rw [← h.1]; simp [Conf.goto, hu]
    | spurious =>
      simp only [step] at h
      split at h <;> simp at h
      rw [← h.1]; simp [Conf.goto, hu]
    | deadline =>
      simp only [step] at h
      split at h <;> simp at h
      rw [← h.1]; simp [Conf.goto, hu]
    | go =>
      simp only [step, stepGo] at h
      split at h <;> (try split at h) <;> simp at h <;> (obtain ⟨h, -⟩ := h; subst h) <;> simp [Conf.goto, hu]
  rcases key with k | k <;> rw [k]
  · simp
  · simp only [Conf.wakeAll]
    cases h : c.pc u <;> simp [Pc.counted, Pc.armed, Pc.overdue]

/-- What a step does to the thread that makes it. -/
theorem step_mover {n : Nat} {c c' : Conf T} {t : T} {m : Move} {e : Ev T} (h : step n c t m = some (c', e)) :
    ((m = .call ∧ c.pc t = .idle ∧ c'.pc t = .start ∧ e = .call t) ∨ (m ≠ .call ∧ c.pc t ≠ .idle ∧ ∀ u, e ≠ .call u)) ∧
    ((c'.pc t).counted = true → (c.pc t).counted = true ∨ ∃ b, e = .arrive t b) ∧
    (∀ u b, e = .arrive u b → u = t ∧ (c'.pc t).armed = false) ∧
    ((c'.pc t).armed = true → (c.pc t).armed = true ∨ (m = .go ∧ ∃ old, c.pc t = .test old ∧ c.waiting ≠ n)) ∧
    ((c'.pc t).overdue = true → (c.pc t).overdue = true ∨ (m = .deadline ∧ e = .deadline t)) ∧
    (∀ u r, e = .raise u r → u = t ∧ m = .go ∧ (c.pc t).overdue = true) ∧
    (∀ u, e = .deadline u → u = t ∧ m = .deadline ∧ (c.pc t).armed = true) := by
  cases m with
  | call =>
    simp only [step] at h
    split at h <;> simp at h
    rename_i hp
    obtain ⟨h1, h2⟩ := h
    subst h1; subst h2
    simp [Conf.goto, hp, Pc.counted, Pc.armed, Pc.overdue]
  | spurious =>
    simp only [step] at h
    split at h <;> simp at h
    rename_i hp
    obtain ⟨h1, h2⟩ := h
    subst h1; subst h2
    simp [Conf.goto, hp, Pc.counted, Pc.armed, Pc.overdue]
  | deadline =>
    simp only [step] at h
    split at h <;> simp at h
    rename_i hp
    obtain ⟨h1, h2⟩ := h
    subst h1; subst h2
    simp [Conf.goto, hp, Pc.counted, Pc.armed, Pc.overdue]
  | go =>
    simp only [step] at h
    unfold stepGo at h
    cases hp : c.pc t with
    | leave r =>
      simp only [hp, Option.some.injEq, Prod.mk.injEq] at h
      obtain ⟨h1, h2⟩ := h
      subst h1; subst h2
      cases r <;> simp [Conf.goto, Pc.counted, Pc.armed, Pc.overdue]
    | out r =>
      simp only [hp, Option.some.injEq, Prod.mk.injEq] at h
      obtain ⟨h1, h2⟩ := h
      subst h1; subst h2
      cases r <;> simp [Conf.goto, Pc.counted, Pc.armed, Pc.overdue]
    | woken old b =>
      simp only [hp] at h
      split at h <;> simp at h
      obtain ⟨h1, h2⟩ := h
      subst h1; subst h2
      cases b <;> simp [Conf.goto, Pc.counted, Pc.armed, Pc.overdue]
    | _ =>
      simp only [hp] at h
      (try split at h) <;> simp at h <;> (obtain ⟨h1, h2⟩ := h; subst h1; subst h2) <;>
        simp [Conf.goto, Pc.counted, Pc.armed, Pc.overdue] <;> simp_all

/-! ### The barrier without the clock -/

/-- The move without its argument. -/
def TMove.plain : TMove → Move
  | .call _ => .call
  | .go => .go
  | .spurious => .spurious
  | .deadline => .deadline

theorem arm_bar (n : Nat) (s : TConf T) (t : T) (c : Conf T) : (s.arm n t c).bar = c ∧ (s.arm n t c).now = s.now ∧
    (s.arm n t c).dur = s.dur := by
  unfold TConf.arm
  split
  · split
    · simp
    · split <;> simp
  · simp

theorem tstep_plain {n : Nat} {s s' : TConf T} {t : T} {m : TMove} {e : Ev T} (h : tstep n s t m = some (s', e)) :
    step n s.bar t m.plain = some (s'.bar, e) ∧ s'.now = s.now ∧
      s'.dur = (match m with | .call ms => setOf s.dur t ms | _ => s.dur) ∧
      (m = .deadline → s.due t ≤ s.now) := by
  cases m with
  | call ms =>
    simp only [tstep, Option.map_eq_some_iff] at h
    obtain ⟨⟨c, e'⟩, h1, h2⟩ := h
    simp only [Prod.mk.injEq] at h2
    obtain ⟨h2, h3⟩ := h2
    subst h2; subst h3
    exact ⟨h1, rfl, rfl, by simp⟩
  | go =>
    simp only [tstep, Option.map_eq_some_iff] at h
    obtain ⟨⟨c, e'⟩, h1, h2⟩ := h
    simp only [Prod.mk.injEq] at h2
    obtain ⟨h2, h3⟩ := h2
    subst h2; subst h3
    obtain ⟨g1, g2, g3⟩ := arm_bar n s t c
    exact ⟨by rw [g1]; exact h1, g2, g3, by simp⟩
  | spurious =>
    simp only [tstep, Option.map_eq_some_iff] at h
    obtain ⟨⟨c, e'⟩, h1, h2⟩ := h
    simp only [Prod.mk.injEq] at h2
    obtain ⟨h2, h3⟩ := h2
    subst h2; subst h3
    exact ⟨h1, rfl, rfl, by simp⟩
  | deadline =>
    simp only [tstep] at h
    split at h
    · rename_i hd
      simp only [Option.map_eq_some_iff] at h
      obtain ⟨⟨c, e'⟩, h1, h2⟩ := h
      simp only [Prod.mk.injEq] at h2
      obtain ⟨h2, h3⟩ := h2
      subst h2; subst h3
      exact ⟨h1, rfl, rfl, fun _ => hd⟩
    · cases h

theorem TRun.plain {n : Nat} {tr : List (TEv T)} {s : TConf T} (h : TRun n tr s) : Run n (tr.map TEv.ev) s.bar := by
  induction h with
  | init => exact .init
  | tick _ _ _ ih => exact ih
  | snoc h hu hs ih =>
    rw [List.map_append]
    exact .snoc ih (tstep_plain hs).1

/-! ### Deadlines -/

theorem deadlineAt_some {now : Nat} {ms d : Int} (h : deadlineAt now ms = some d) :
    d = now + timeoutOf ms * 1000000 ∧ fitsLong (timeoutOf ms * 1000000) = true ∧ fitsLong d = true := by
  unfold deadlineAt at h
  split at h
  · rename_i hc
    simp only [Bool.and_eq_true] at hc
    injection h with h
    subst h
    exact ⟨rfl, hc.1, hc.2⟩
  · cases h

/-- The deadlines after a step. -/
theorem tstep_due {n : Nat} {s s' : TConf T} {t : T} {m : TMove} {e : Ev T} (h : tstep n s t m = some (s', e))
    (hub : s'.ub = false) :
    s.ub = false ∧ (∀ u, u ≠ t → s'.due u = s.due u) ∧
      (s'.due t = s.due t ∨ ∃ old, s.bar.pc t = .test old) ∧
      (m = .go → (∃ old, s.bar.pc t = .test old) → s.bar.waiting ≠ n → deadlineAt s.now (s.dur t) = some (s'.due t)) := by
  cases m with
  | go =>
    simp only [tstep, Option.map_eq_some_iff] at h
    obtain ⟨⟨c, e'⟩, h1, h2⟩ := h
    simp only [Prod.mk.injEq] at h2
    obtain ⟨h2, h3⟩ := h2
    subst h2; subst h3
    unfold TConf.arm at hub ⊢
    cases hp : s.bar.pc t with
    | test old =>
      simp only [hp] at hub ⊢
      by_cases hw : s.bar.waiting = n
      · simp only [hw, if_true] at hub ⊢
        exact ⟨hub, by simp, by simp, by simp⟩
      · simp only [hw, if_false] at hub ⊢
        cases hd : deadlineAt s.now (s.dur t) with
        | none => simp [hd] at hub
        | some d =>
          simp only [hd] at hub ⊢
          refine ⟨hub, ?_, by simp, ?_⟩
          · intro u hu; simp [setOf, hu]
          · intro _ _ _; simp [setOf]
    | _ =>
      simp only [hp] at hub ⊢
      exact ⟨hub, by simp, by simp, by rintro - ⟨_, h⟩; cases h⟩
  | call ms =>
    simp only [tstep, Option.map_eq_some_iff] at h
    obtain ⟨⟨c, e'⟩, h1, h2⟩ := h
    simp only [Prod.mk.injEq] at h2
    obtain ⟨h2, h3⟩ := h2
    subst h2; subst h3
    exact ⟨hub, by simp, by simp, by simp⟩
  | spurious =>
    simp only [tstep, Option.map_eq_some_iff] at h
    obtain ⟨⟨c, e'⟩, h1, h2⟩ := h
    simp only [Prod.mk.injEq] at h2
    obtain ⟨h2, h3⟩ := h2
    subst h2; subst h3
    exact ⟨hub, by simp, by simp, by simp⟩
  | deadline =>
    simp only [tstep] at h
    split at h
    · simp only [Option.map_eq_some_iff] at h
      obtain ⟨⟨c, e'⟩, h1, h2⟩ := h
      simp only [Prod.mk.injEq] at h2
      obtain ⟨h2, h3⟩ := h2
      subst h2; subst h3
      exact ⟨hub, by simp, by simp, by simp⟩
    · cases h

/-- The last entry of `t` into the barrier. -/
def ArrivedLast (t : T) (ms : Int) (σ : Nat) (tr : List (TEv T)) : Prop :=
  ∃ a b c, tr = a ++ ⟨.arrive t b, σ, ms⟩ :: c ∧ ∀ e ∈ c, ∀ b', e.ev ≠ .arrive t b'

/-- What is known of thread `t`. -/
structure TInv (tr : List (TEv T)) (s : TConf T) (t : T) : Prop where
  called : s.bar.pc t ≠ .idle → ∃ σ, CalledLast t (s.dur t) σ tr ∧ σ ≤ s.now ∧
    ((s.bar.pc t).armed = true → (σ : Int) + timeoutOf (s.dur t) * 1000000 ≤ s.due t)
  arrived : (s.bar.pc t).counted = true → ∃ σ, ArrivedLast t (s.dur t) σ tr ∧ σ ≤ s.now ∧
    ((s.bar.pc t).armed = true → (σ : Int) + timeoutOf (s.dur t) * 1000000 ≤ s.due t)
  fits : (s.bar.pc t).armed = true → fitsLong (timeoutOf (s.dur t) * 1000000) = true ∧ fitsLong (s.due t) = true
  over : (s.bar.pc t).overdue = true → s.due t ≤ s.now

theorem calledLast_snoc {t : T} {ms : Int} {σ : Nat} {tr : List (TEv T)} (h : CalledLast t ms σ tr) (x : TEv T) (hx : x.ev ≠ .call t) :
    CalledLast t ms σ (tr ++ [x]) := by
  obtain ⟨a, c, h1, h2⟩ := h
  refine ⟨a, c ++ [x], by rw [h1]; simp, ?_⟩
  intro e he
  rcases List.mem_append.1 he with he | he
  · exact h2 e he
  · rw [List.mem_singleton.1 he]; exact hx

theorem ArrivedLast.snoc {t : T} {ms : Int} {σ : Nat} {tr : List (TEv T)} (h : ArrivedLast t ms σ tr) (x : TEv T)
    (hx : ∀ b, x.ev ≠ .arrive t b) : ArrivedLast t ms σ (tr ++ [x]) := by
  obtain ⟨a, b, c, h1, h2⟩ := h
  refine ⟨a, b, c ++ [x], by rw [h1]; simp, ?_⟩
  intro e he
  rcases List.mem_append.1 he with he | he
  · exact h2 e he
  · rw [List.mem_singleton.1 he]; exact hx

theorem tinv {n : Nat} {tr : List (TEv T)} {s : TConf T} (h : TRun n tr s) : s.ub = false → ∀ t, TInv tr s t := by
  induction h with
  | init =>
    intro _ t
    refine ⟨?_, ?_, ?_, ?_⟩ <;> intro h <;> simp [TConf.init, Conf.init, Pc.counted, Pc.armed, Pc.overdue] at h
  | tick h h1 h2 ih =>
    intro hu t
    obtain ⟨i1, i2, i3, i4⟩ := ih hu t
    refine ⟨?_, ?_, i3, ?_⟩
    · intro hp
      obtain ⟨σ, g1, g2, g3⟩ := i1 hp
      exact ⟨σ, g1, Nat.le_trans g2 h1, g3⟩
    · intro hp
      obtain ⟨σ, g1, g2, g3⟩ := i2 hp
      exact ⟨σ, g1, Nat.le_trans g2 h1, g3⟩
    · intro hp
      exact Int.le_trans (i4 hp) (Int.ofNat_le.2 h1)
  | @snoc tr s t m s' e h hub hs ih =>
    intro hub' u
    obtain ⟨p1, p2, p3, p4⟩ := tstep_plain hs
    obtain ⟨-, d1, d2, d3⟩ := tstep_due hs hub'
    obtain ⟨q1, q2, q3, q4, q5, q6, q7⟩ := step_mover p1
    by_cases hut : u = t
    · subst hut
      obtain ⟨i1, i2, i3, i4⟩ := ih hub u
      rcases q1 with ⟨m1, m2, m3, m4⟩ | ⟨m1, m2, m3⟩
      · -- a call
        subst m4
        refine ⟨?_, ?_, ?_, ?_⟩
        · intro _
          refine ⟨s.now, ⟨tr, [], rfl, by simp⟩, by rw [p2], ?_⟩
          intro ha; rw [m3] at ha; cases ha
        · intro ha; rw [m3] at ha; cases ha
        · intro ha; rw [m3] at ha; cases ha
        · intro ha; rw [m3] at ha; cases ha
      · have hdur : s'.dur = s.dur := by
          rw [p3]
          cases m <;> first | rfl | exact absurd rfl m1
        -- the deadline, if there is one afterwards
        have harm : (s'.bar.pc u).armed = true →
            (((s.bar.pc u).armed = true ∧ s'.due u = s.due u) ∨ deadlineAt s.now (s.dur u) = some (s'.due u)) := by
          intro ha
          rcases q4 ha with g | ⟨g1, old, g2, g3⟩
          · left
            refine ⟨g, ?_⟩
            rcases d2 with d2 | ⟨old, d2⟩
            · exact d2
            · rw [d2] at g; cases g
          · right
            refine d3 ?_ ⟨old, g2⟩ g3
            cases m <;> first | rfl | (simp [TMove.plain] at g1)
        have hbound : ∀ σ : Nat, σ ≤ s.now → ((s.bar.pc u).armed = true → (σ : Int) + timeoutOf (s.dur u) * 1000000 ≤ s.due u) →
            (s'.bar.pc u).armed = true → (σ : Int) + timeoutOf (s'.dur u) * 1000000 ≤ s'.due u := by
          intro σ hσ hb ha
          rw [hdur]
          rcases harm ha with ⟨g1, g2⟩ | g
          · rw [g2]; exact hb g1
          · rw [(deadlineAt_some g).1]; omega
        refine ⟨?_, ?_, ?_, ?_⟩
        · intro hp
          obtain ⟨σ, g1, g2, g3⟩ := i1 m2
          refine ⟨σ, ?_, by rw [p2]; exact g2, hbound σ g2 g3⟩
          rw [hdur]
          exact calledLast_snoc g1 _ (m3 u)
        · intro hp
          by_cases hae : ∃ b, e = .arrive u b
          · obtain ⟨b, hb⟩ := hae
            refine ⟨s.now, ⟨tr, b, [], by rw [hb], by simp⟩, by rw [p2], ?_⟩
            intro ha
            rw [(q3 u b hb).2] at ha; cases ha
          · rcases q2 hp with g | g
            · obtain ⟨σ, g1, g2, g3⟩ := i2 g
              refine ⟨σ, ?_, by rw [p2]; exact g2, hbound σ g2 g3⟩
              rw [hdur]
              exact g1.snoc _ (fun b hb => hae ⟨b, hb⟩)
            · exact absurd g hae
        · intro ha
          rw [hdur]
          rcases harm ha with ⟨g1, g2⟩ | g
          · rw [g2]; exact i3 g1
          · exact ⟨(deadlineAt_some g).2.1, (deadlineAt_some g).2.2⟩
        · intro ho
          rw [p2]
          have hnt : s'.due u = s.due u ∨ ∃ old, s.bar.pc u = .test old := d2
          rcases q5 ho with g | ⟨g1, g2⟩
          · rcases hnt with d2 | ⟨old, d2⟩
            · rw [d2]; exact i4 g
            · rw [d2] at g; cases g
          · have hmd : m = .deadline := by cases m <;> first | rfl | (simp [TMove.plain] at g1)
            rcases hnt with d2 | ⟨old, d2⟩
            · rw [d2]; exact p4 hmd
            · have := (q7 u g2).2.2
              rw [d2] at this; cases this
    · obtain ⟨i1, i2, i3, i4⟩ := ih hub u
      obtain ⟨o1, o2, o3, o4⟩ := step_others p1 u hut
      have hdur : s'.dur u = s.dur u := by
        rw [p3]
        cases m <;> simp [setOf, hut]
      have hdue := d1 u hut
      have hcall : e ≠ .call u := by
        rcases q1 with ⟨-, -, -, m4⟩ | ⟨-, -, m3⟩
        · rw [m4]; intro h; injection h with h; exact hut h.symm
        · exact m3 u
      have harr : ∀ b, e ≠ .arrive u b := fun b hb => hut (q3 u b hb).1
      refine ⟨?_, ?_, ?_, ?_⟩
      · intro hp
        obtain ⟨σ, g1, g2, g3⟩ := i1 (fun h => hp (o1.2 h))
        rw [hdur, hdue, o3, p2]
        exact ⟨σ, calledLast_snoc g1 _ hcall, g2, g3⟩
      · intro hp
        obtain ⟨σ, g1, g2, g3⟩ := i2 (by rw [← o2]; exact hp)
        rw [hdur, hdue, o3, p2]
        exact ⟨σ, g1.snoc _ harr, g2, g3⟩
      · rw [o3, hdur, hdue]; exact i3
      · rw [o4, hdue, p2]; exact i4

/-- The clock does not go back. -/
theorem TRun.times {n : Nat} {tr : List (TEv T)} {s : TConf T} (h : TRun n tr s) :
    (∀ e ∈ tr, e.at_ ≤ s.now) ∧ tr.Pairwise (fun x y => x.at_ ≤ y.at_) ∧ s.now < 9223372036854775808 := by
  induction h with
  | init h => exact ⟨by simp, by simp, h⟩
  | tick h h1 h2 ih => exact ⟨fun e he => Nat.le_trans (ih.1 e he) h1, ih.2.1, h2⟩
  | snoc h hu hs ih =>
    obtain ⟨-, p2, -, -⟩ := tstep_plain hs
    refine ⟨?_, ?_, by rw [p2]; exact ih.2.2⟩
    · intro e he
      rw [p2]
      rcases List.mem_append.1 he with he | he
      · exact ih.1 e he
      · rw [List.mem_singleton.1 he]
    · rw [List.pairwise_append]
      refine ⟨ih.2.1, by simp, ?_⟩
      intro x hx y hy
      rw [List.mem_singleton.1 hy]
      exact ih.1 x hx

/-- The executions that lead to an event. -/
theorem TRun.at {n : Nat} {tr : List (TEv T)} {s : TConf T} (h : TRun n tr s) :
    ∀ (a : List (TEv T)) (x : TEv T) (c : List (TEv T)), tr = a ++ x :: c →
      ∃ s₁ t m s₂, TRun n a s₁ ∧ s₁.ub = false ∧ tstep n s₁ t m = some (s₂, x.ev) ∧ x.at_ = s₁.now ∧ x.ms = s₂.dur t := by
  induction h with
  | init => intro a x c h; simp at h
  | tick _ _ _ ih => exact ih
  | @snoc tr s t m s' e h hu hs ih =>
    intro a x c he
    rcases List.eq_nil_or_concat c with rfl | ⟨c', y, rfl⟩
    · have := List.append_inj' he rfl
      obtain ⟨h1, h2⟩ := this
      injection h2 with h2
      subst h1; subst h2
      exact ⟨s, t, m, s', h, hu, hs, rfl, rfl⟩
    · have he' : tr ++ [⟨e, s.now, s'.dur t⟩] = (a ++ x :: c') ++ [y] := by rw [he]; simp
      obtain ⟨h1, h2⟩ := List.append_inj' he' rfl
      exact ih a x c' h1

end SoDa.Bar
