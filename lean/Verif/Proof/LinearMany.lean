import Verif.Model.Monitors
import Verif.Proof.Linear
import Mathlib.Data.List.Induction
/-!
Several objects with a mutex each: the same histories as with one mutex for all.
-/
namespace SoDa.Monitors
open Monitor (Body Phase Label setPhase setPhase_self setPhase_ne completed completed_append visible_append)
open Spec

variable {T A S O R : Type} [DecidableEq A]

@[simp] theorem setAt_self {W : Type} (f : A → W) (a : A) (w : W) : setAt f a w a = w := by simp [setAt]

theorem setAt_ne {W : Type} (f : A → W) {a a' : A} (w : W) (h : a' ≠ a) : setAt f a w a' = f a' := by simp [setAt, h]

/-- The statements of a call on the object `a`, seen as statements on all objects. -/
def lift (a : A) : Body S R → Body (A → S) R
  | .ret r => .ret r
  | .act f k => .act (fun s => setAt s a (f (s a))) fun s => lift a (k (s a))

theorem lift_run (a : A) (b : Body S R) (s : A → S) : (lift a b).run s = (setAt s a (b.run (s a)).1, (b.run (s a)).2) := by
  induction b generalizing s with
  | ret r =>
    have : setAt s a (s a) = s := by funext x; by_cases h : x = a <;> simp [setAt, h]
    simp [lift, Body.run, this]
  | act f k ih =>
    rw [lift, Body.run, ih, setAt_self, Body.run]
    congr 1
    funext x
    by_cases h : x = a <;> simp [setAt, h]

/-- All objects as one. -/
def joint (body : A → O → Body S R) : A × O → Body (A → S) R := fun o => lift o.1 (body o.1 o.2)

theorem serial_nil {body : O → Body S R} {s0 s : S} (h : Monitor.Serial (T := T) body s0 [] s) : s = s0 := by
  generalize hc : ([] : List (T × O × R)) = c at h
  generalize s = s' at h
  cases h with
  | nil => rfl
  | snoc => simp at hc

theorem serial_joint (body : A → O → Body S R) (s0 s : A → S) (es : List (T × (A × O) × R)) :
    Monitor.Serial (joint body) s0 es s ↔ ∀ a, Monitor.Serial (body a) (s0 a) (onOnly a es) (s a) := by
  constructor
  · intro h a
    induction h with
    | nil => exact .nil
    | @snoc es s' t o r s'' h he ih =>
      obtain ⟨a', o⟩ := o
      rw [joint, lift_run] at he
      cases he
      rw [onOnly, List.filterMap_append]
      by_cases ha : a' = a
      · subst ha
        simp only [List.filterMap_cons, if_true, List.filterMap_nil, setAt_self]
        exact .snoc ih (by rfl)
      · simp only [List.filterMap_cons, if_neg ha, List.filterMap_nil, List.append_nil]
        rw [setAt_ne _ _ (fun e => ha e.symm)]
        exact ih
  · intro h
    induction es using List.reverseRecOn generalizing s with
    | nil =>
      have : s = s0 := by
        funext a
        exact serial_nil (h a)
      rw [this]
      exact .nil
    | append_singleton es e ih =>
      obtain ⟨t, ⟨a, o⟩, r⟩ := e
      have ha := h a
      have e1 : onOnly a (es ++ [(t, (a, o), r)]) = onOnly a es ++ [(t, o, r)] := by simp [onOnly]
      rw [e1] at ha
      obtain ⟨s1, h1, h2⟩ := Monitor.serial_append.1 ha
      obtain ⟨s2, h3, h4⟩ := Monitor.serial_cons h2
      have hs2 : s2 = s a := (serial_nil h4).symm
      rw [hs2] at h3
      have := ih (setAt s a s1) fun a' => by
        by_cases ha' : a' = a
        · subst ha'; rw [setAt_self]; exact h1
        · rw [setAt_ne _ _ ha']
          have := h a'
          have e2 : onOnly a' (es ++ [(t, (a, o), r)]) = onOnly a' es := by
            have : ¬ a = a' := fun e => ha' e.symm
            simp [onOnly, this]
          rwa [e2] at this
      refine .snoc this ?_
      rw [joint, lift_run, setAt_self, h3]
      congr 1
      funext x
      by_cases hx : x = a <;> simp [setAt, hx]

variable [DecidableEq T]

/-- The state before the calls that are being executed. -/
structure Inv (body : A → O → Body S R) (s0 : A → S) (es : List (T × (A × O) × R)) (c : Conf T A S O R) : Prop where
  excl : ∀ t a o b, c.phase t = .runs (a, o) b → c.holder a = some t
  holds : ∀ t a, c.holder a = some t → ∃ o b, c.phase t = .runs (a, o) b
  serial : ∃ s, Monitor.Serial (joint body) s0 es s ∧ (∀ a, c.holder a = none → c.shared a = s a) ∧
    ∀ t a o b, c.phase t = .runs (a, o) b → b.run (c.shared a) = (body a o).run (s a)

theorem inv_step {body : A → O → Body S R} {s0 : A → S} {es : List (T × (A × O) × R)} {c c' : Conf T A S O R} {l : Label T (A × O) R}
    (h : Inv body s0 es c) (hs : Step body c l c') : Inv body s0 (es ++ completed [l]) c' := by
  obtain ⟨hx, hh, s, hser, hfree, hrun⟩ := h
  cases hs with
  | @call t a o hp =>
    simp only [completed, List.filterMap_cons, List.filterMap_nil, List.append_nil]
    have hne : ∀ t' a' o' b, setPhase c.phase t (.wants (a, o)) t' = .runs (a', o') b → c.phase t' = .runs (a', o') b := by
      intro t' a' o' b hb
      by_cases ht : t' = t
      · subst ht; simp at hb
      · rwa [setPhase_ne _ _ ht] at hb
    refine ⟨fun t' a' o' b hb => hx _ _ _ _ (hne _ _ _ _ hb), fun t' a' ht' => ?_, s, hser, hfree, fun t' a' o' b hb => hrun _ _ _ _ (hne _ _ _ _ hb)⟩
    obtain ⟨o', b, hb⟩ := hh t' a' ht'
    have ht : t' ≠ t := by rintro rfl; rw [hp] at hb; simp at hb
    exact ⟨o', b, by simpa [setPhase_ne _ _ ht] using hb⟩
  | @lock t a o hp hf =>
    simp only [completed, List.filterMap_cons, List.filterMap_nil, List.append_nil]
    refine ⟨fun t' a' o' b hb => ?_, fun t' a' ht' => ?_, s, hser, fun a' ha' => ?_, fun t' a' o' b hb => ?_⟩
    · by_cases ht : t' = t
      · subst ht
        simp only [setPhase_self, Phase.runs.injEq, Prod.mk.injEq] at hb
        obtain ⟨⟨rfl, rfl⟩, rfl⟩ := hb
        exact setAt_self _ _ _
      · simp only [setPhase_ne _ _ ht] at hb
        have := hx _ _ _ _ hb
        have ha : a' ≠ a := by rintro rfl; rw [hf] at this; cases this
        show setAt _ _ _ _ = _
        rw [setAt_ne _ _ ha]
        exact this
    · by_cases ha : a' = a
      · subst ha
        simp only [setAt_self, Option.some.injEq] at ht'
        subst ht'
        exact ⟨o, body a' o, by simp⟩
      · simp only [setAt_ne _ _ ha] at ht'
        obtain ⟨o', b, hb⟩ := hh t' a' ht'
        have ht : t' ≠ t := by rintro rfl; rw [hp] at hb; simp at hb
        exact ⟨o', b, by simpa [setPhase_ne _ _ ht] using hb⟩
    · by_cases ha : a' = a
      · subst ha; simp at ha'
      · simp only [setAt_ne _ _ ha] at ha'
        exact hfree a' ha'
    · by_cases ht : t' = t
      · subst ht
        simp only [setPhase_self, Phase.runs.injEq, Prod.mk.injEq] at hb
        obtain ⟨⟨rfl, rfl⟩, rfl⟩ := hb
        simp only
        rw [hfree _ hf]
      · simp only [setPhase_ne _ _ ht] at hb
        exact hrun _ _ _ _ hb
  | @act t a o f k hp =>
    simp only [completed, List.filterMap_cons, List.filterMap_nil, List.append_nil]
    have hold := hx t a o _ hp
    refine ⟨fun t' a' o' b hb => ?_, fun t' a' ht' => ?_, s, hser, fun a' ha' => ?_, fun t' a' o' b hb => ?_⟩
    · by_cases ht : t' = t
      · subst ht
        simp only [setPhase_self, Phase.runs.injEq, Prod.mk.injEq] at hb
        obtain ⟨⟨rfl, rfl⟩, rfl⟩ := hb
        exact hold
      · simp only [setPhase_ne _ _ ht] at hb
        exact hx _ _ _ _ hb
    · simp only at ht'
      by_cases ht : t' = t
      · subst ht
        obtain ⟨o', b, hb⟩ := hh t' a' ht'
        rw [hp] at hb
        cases hb
        exact ⟨o, _, setPhase_self _ _ _⟩
      · obtain ⟨o', b, hb⟩ := hh t' a' ht'
        exact ⟨o', b, by simpa [setPhase_ne _ _ ht] using hb⟩
    · simp only at ha' ⊢
      have ha : a' ≠ a := by rintro rfl; rw [hold] at ha'; cases ha'
      rw [setAt_ne _ _ ha]
      exact hfree a' ha'
    · simp only
      by_cases ht : t' = t
      · subst ht
        simp only [setPhase_self, Phase.runs.injEq, Prod.mk.injEq] at hb
        obtain ⟨⟨rfl, rfl⟩, rfl⟩ := hb
        have := hrun _ _ _ _ hp
        rw [setAt_self]
        simpa [Body.run] using this
      · simp only [setPhase_ne _ _ ht] at hb
        have ha : a' ≠ a := by
          rintro rfl
          have := hx _ _ _ _ hb
          rw [hold] at this
          exact ht (Option.some.inj this).symm
        rw [setAt_ne _ _ ha]
        exact hrun _ _ _ _ hb
  | @unlock t a o r hp =>
    have hold := hx t a o _ hp
    have hlast := hrun t a o _ hp
    have other : ∀ t' a' o' b, setPhase c.phase t (.leaving (a, o) r) t' = .runs (a', o') b → c.phase t' = .runs (a', o') b ∧ a' ≠ a := by
      intro t' a' o' b hb
      by_cases ht : t' = t
      · subst ht; simp at hb
      · rw [setPhase_ne _ _ ht] at hb
        refine ⟨hb, ?_⟩
        rintro rfl
        have := hx _ _ _ _ hb
        rw [hold] at this
        exact ht (Option.some.inj this).symm
    refine ⟨fun t' a' o' b hb => ?_, fun t' a' ht' => ?_, setAt s a (c.shared a), ?_, fun a' ha' => ?_, fun t' a' o' b hb => ?_⟩
    · obtain ⟨hb, ha⟩ := other _ _ _ _ hb
      show setAt _ _ _ _ = _
      rw [setAt_ne _ _ ha]
      exact hx _ _ _ _ hb
    · simp only at ht'
      have ha : a' ≠ a := by rintro rfl; simp at ht'
      rw [setAt_ne _ _ ha] at ht'
      obtain ⟨o', b, hb⟩ := hh t' a' ht'
      have ht : t' ≠ t := by rintro rfl; rw [hp] at hb; cases hb; exact ha rfl
      exact ⟨o', b, by simpa [setPhase_ne _ _ ht] using hb⟩
    · refine .snoc hser ?_
      rw [joint, lift_run, ← hlast]
      rfl
    · simp only at ha' ⊢
      by_cases ha : a' = a
      · subst ha; simp
      · rw [setAt_ne _ _ ha] at ha' ⊢
        exact hfree a' ha'
    · obtain ⟨hb, ha⟩ := other _ _ _ _ hb
      rw [setAt_ne _ _ ha]
      exact hrun _ _ _ _ hb
  | @ret t a o r hp =>
    simp only [completed, List.filterMap_cons, List.filterMap_nil, List.append_nil]
    have hne : ∀ t' a' o' b, setPhase c.phase t .idle t' = .runs (a', o') b → c.phase t' = .runs (a', o') b := by
      intro t' a' o' b hb
      by_cases ht : t' = t
      · subst ht; simp at hb
      · rwa [setPhase_ne _ _ ht] at hb
    refine ⟨fun t' a' o' b hb => hx _ _ _ _ (hne _ _ _ _ hb), fun t' a' ht' => ?_, s, hser, hfree, fun t' a' o' b hb => hrun _ _ _ _ (hne _ _ _ _ hb)⟩
    obtain ⟨o', b, hb⟩ := hh t' a' ht'
    have ht : t' ≠ t := by rintro rfl; rw [hp] at hb; simp at hb
    exact ⟨o', b, by simpa [setPhase_ne _ _ ht] using hb⟩

theorem inv_steps {body : A → O → Body S R} {s0 : A → S} {ls : List (Label T (A × O) R)} {c : Conf T A S O R}
    (h : Steps body (Conf.init s0) ls c) : Inv body s0 (completed ls) c := by
  generalize hc : (Conf.init s0 : Conf T A S O R) = c0 at h
  induction h with
  | nil =>
    subst hc
    exact ⟨by simp [Conf.init], by simp [Conf.init], s0, .nil, fun _ _ => rfl, by simp [Conf.init]⟩
  | snoc h hs ih => rw [completed_append]; exact inv_step ih hs

theorem Step.phases {body : A → O → Body S R} {c c' : Conf T A S O R} {l : Label T (A × O) R} (h : Step body c l c') :
    Monitor.PhaseStep c.phase l c'.phase := by
  cases h with
  | call h => exact .call h
  | lock h _ => exact .lock h
  | act h => exact .act h
  | unlock h => exact .unlock h
  | ret h => exact .ret h

theorem order_steps {body : A → O → Body S R} {s0 : A → S} {ls : List (Label T (A × O) R)} {c : Conf T A S O R}
    (h : Steps body (Conf.init s0) ls c) : ∃ L, Monitor.Order (visible ls) (completed ls) c.phase L := by
  generalize hc : (Conf.init s0 : Conf T A S O R) = c0 at h
  induction h with
  | nil =>
    subst hc
    exact Monitor.order_init
  | snoc h hs ih =>
    obtain ⟨L, ih⟩ := ih
    rw [visible_append, completed_append]
    exact Monitor.order_step ih hs.phases

/-! ### With one mutex for all objects -/

/-- What a thread does, with one mutex and with several. -/
inductive SamePhase : Phase (A → S) (A × O) R → Phase S (A × O) R → Prop where
  | idle : SamePhase .idle .idle
  | wants (o) : SamePhase (.wants o) (.wants o)
  | runs (a o b) : SamePhase (.runs (a, o) (lift a b)) (.runs (a, o) b)
  | leaving (o r) : SamePhase (.leaving o r) (.leaving o r)

/-- Executions with one mutex are executions. -/
theorem steps_of_joint {body : A → O → Body S R} {s0 : A → S} {ls : List (Label T (A × O) R)} {c : Monitor.Conf T (A → S) (A × O) R}
    (h : Monitor.Steps (joint body) (Monitor.Conf.init s0) ls c) :
    ∃ c' : Conf T A S O R, Steps body (Conf.init s0) ls c' ∧ c'.shared = c.shared ∧ (∀ t, SamePhase (c.phase t) (c'.phase t)) ∧
      (c.holder = none → ∀ a, c'.holder a = none) := by
  have hinv := Monitor.inv_steps h
  generalize hc : (Monitor.Conf.init s0 : Monitor.Conf T (A → S) (A × O) R) = c0 at h
  induction h with
  | nil =>
    subst hc
    exact ⟨_, .nil, rfl, fun _ => .idle, fun _ _ => rfl⟩
  | @snoc ls c1 l c2 h hs ih =>
    subst hc
    have hi := Monitor.inv_steps h
    obtain ⟨c', h1, h2, h3, h4⟩ := ih hi
    have upd : ∀ (t : T) p p', SamePhase p p' → ∀ t', SamePhase (setPhase c1.phase t p t') (setPhase c'.phase t p' t') := by
      intro t p p' hp t'
      by_cases ht : t' = t
      · subst ht; simpa using hp
      · rw [setPhase_ne _ _ ht, setPhase_ne _ _ ht]; exact h3 t'
    cases hs with
    | @call t o hp =>
      have := h3 t
      rw [hp] at this
      generalize hq : c'.phase t = q at this
      cases this
      exact ⟨_, .snoc h1 (.call (a := o.1) (o := o.2) hq), h2, upd t _ _ (.wants o), h4⟩
    | @lock t o hp hf =>
      have := h3 t
      rw [hp] at this
      generalize hq : c'.phase t = q at this
      cases this
      exact ⟨_, .snoc h1 (.lock (a := o.1) (o := o.2) hq (h4 hf _)), h2, upd t _ _ (.runs o.1 o.2 _), fun h => by simp at h⟩
    | @act t o f k hp =>
      have hold := hi.excl _ _ _ hp
      have := h3 t
      rw [hp] at this
      generalize hq : c'.phase t = q at this
      generalize hb : (Body.act f k : Body (A → S) R) = b0 at this
      cases this with
      | runs a o b =>
        cases b with
        | ret r => cases hb
        | act f' k' =>
          cases hb
          refine ⟨_, .snoc h1 (.act hq), by simp only [h2], ?_, fun h => by simp [hold] at h⟩
          rw [h2]
          exact upd t _ _ (.runs a o _)
    | @unlock t o r hp =>
      have hold := hi.excl _ _ _ hp
      have := h3 t
      rw [hp] at this
      generalize hq : c'.phase t = q at this
      generalize hb : (Body.ret r : Body (A → S) R) = b0 at this
      cases this with
      | runs a o b =>
        cases b with
        | act f' k' => cases hb
        | ret r' =>
          cases hb
          refine ⟨_, .snoc h1 (.unlock hq), h2, upd t _ _ (.leaving _ _), fun _ a' => ?_⟩
          -- nobody else holds a mutex
          by_cases ha : a' = a
          · subst ha; exact setAt_self _ _ _
          · show setAt _ _ _ _ = _
            rw [setAt_ne _ _ ha]
            cases hh : c'.holder a' with
            | none => rfl
            | some u =>
              obtain ⟨o', b', hu⟩ := (inv_steps h1).holds u a' hh
              have hs := h3 u
              rw [hu] at hs
              generalize hq' : c1.phase u = q' at hs
              cases hs
              have := hi.excl _ _ _ hq'
              rw [hold] at this
              cases this
              rw [hq] at hu
              cases hu
              exact absurd rfl ha
    | @ret t o r hp =>
      have := h3 t
      rw [hp] at this
      generalize hq : c'.phase t = q at this
      cases this
      exact ⟨_, .snoc h1 (.ret (a := o.1) (o := o.2) hq), h2, upd t _ _ .idle, h4⟩

/-- The histories of several objects, each protected by its mutex, are exactly the linearisable ones. -/
theorem seen_iff_linearisable (body : A → O → Body S R) (s0 : A → S) (Q : T × (A × O) × R → Prop) (H : List (SeenEv T (A × O) R)) :
    (∃ ls c, Steps body (Conf.init s0) ls c ∧ visible ls = H ∧ ∀ e ∈ completed ls, Q e) ↔
      Linearisable (fun es => (∃ s : A → S, ∀ a, Monitor.Serial (body a) (s0 a) (onOnly a es) (s a)) ∧ ∀ e ∈ es, Q e) H := by
  have hp : (fun es : List (T × (A × O) × R) => (∃ s : A → S, ∀ a, Monitor.Serial (body a) (s0 a) (onOnly a es) (s a)) ∧ ∀ e ∈ es, Q e) =
      fun es => (∃ s, Monitor.Serial (joint body) s0 es s) ∧ ∀ e ∈ es, Q e := by
    funext es
    simp only [serial_joint]
  rw [hp]
  constructor
  · rintro ⟨ls, c, hs, rfl, hQ⟩
    obtain ⟨L, h⟩ := order_steps hs
    obtain ⟨s, hser, _⟩ := (inv_steps hs).serial
    exact ⟨h.one, L, completed ls, ⟨⟨s, hser⟩, hQ⟩, h.calls, h.nodup, h.ended, h.order⟩
  · intro h
    obtain ⟨ls, c, h1, h2, h3⟩ := (Monitor.seen_iff_linearisable (joint body) s0 Q H).2 h
    obtain ⟨c', h4, _⟩ := steps_of_joint h1
    exact ⟨ls, c', h4, h2, h3⟩

end SoDa.Monitors
