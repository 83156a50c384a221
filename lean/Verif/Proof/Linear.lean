import Verif.Spec.Linear
import Verif.Proof.Monitor
/-!
What threads see of an object protected by a mutex is linearisable, and everything linearisable can be seen.
-/
namespace SoDa.Monitor
open Spec

variable {T S O R : Type}

theorem visible_append (a b : List (Label T O R)) : visible (a ++ b) = visible a ++ visible b := by simp [visible]

/-! ### Positions in a longer history -/

theorem get_snoc_lt {H : List (SeenEv T O R)} {e : SeenEv T O R} {k : Nat} (h : k < H.length) : (H ++ [e])[k]? = H[k]? := by
  rw [List.getElem?_append_left h]

theorem get_snoc_last (H : List (SeenEv T O R)) (e : SeenEv T O R) : (H ++ [e])[H.length]? = some e := by simp

theorem get_lt {H : List (SeenEv T O R)} {k : Nat} {e : SeenEv T O R} (h : H[k]? = some e) : k < H.length :=
  (List.getElem?_eq_some_iff.1 h).1

theorem lastBefore_snoc {H : List (SeenEv T O R)} {e : SeenEv T O R} {t : T} {i j : Nat} (hj : j ≤ H.length) :
    LastBefore (H ++ [e]) t i j ↔ LastBefore H t i j := by
  unfold LastBefore
  constructor
  · rintro ⟨h1, ⟨x, hx, hw⟩, h3⟩
    rw [get_snoc_lt (by omega)] at hx
    exact ⟨h1, ⟨x, hx, hw⟩, fun k y hk hkj hy => h3 k y hk hkj (by rw [get_snoc_lt (by omega)]; exact hy)⟩
  · rintro ⟨h1, ⟨x, hx, hw⟩, h3⟩
    refine ⟨h1, ⟨x, by rw [get_snoc_lt (by omega)]; exact hx, hw⟩, fun k y hk hkj hy => ?_⟩
    rw [get_snoc_lt (by omega)] at hy
    exact h3 k y hk hkj hy

theorem lastBefore_self (H : List (SeenEv T O R)) (e : SeenEv T O R) : LastBefore (H ++ [e]) e.who H.length (H.length + 1) :=
  ⟨by omega, ⟨e, get_snoc_last H e, rfl⟩, fun k _ h1 h2 => by omega⟩

theorem lastBefore_other {H : List (SeenEv T O R)} {e : SeenEv T O R} {t : T} {i : Nat} (h : LastBefore H t i H.length) (ht : e.who ≠ t) :
    LastBefore (H ++ [e]) t i (H.length + 1) := by
  obtain ⟨h1, ⟨x, hx, hw⟩, h3⟩ := h
  refine ⟨by omega, ⟨x, by rw [get_snoc_lt h1]; exact hx, hw⟩, fun k y hk hkj hy => ?_⟩
  by_cases he : k = H.length
  · subst he
    rw [get_snoc_last] at hy
    cases hy
    exact ht
  · rw [get_snoc_lt (by omega)] at hy
    exact h3 k y hk (by omega) hy

theorem lastBefore_shrink {H : List (SeenEv T O R)} {e : SeenEv T O R} {t : T} {i : Nat} (h : LastBefore (H ++ [e]) t i (H.length + 1))
    (ht : e.who ≠ t) : LastBefore H t i H.length := by
  obtain ⟨h1, ⟨x, hx, hw⟩, h3⟩ := h
  have hi : i ≠ H.length := by
    rintro rfl
    rw [get_snoc_last] at hx
    cases hx
    exact ht hw
  have hi' : i < H.length := by omega
  rw [get_snoc_lt hi'] at hx
  exact ⟨hi', ⟨x, hx, hw⟩, fun k y hk hkj hy => h3 k y hk (by omega) (by rw [get_snoc_lt hkj]; exact hy)⟩

theorem lastBefore_unique {H : List (SeenEv T O R)} {t : T} {i i' j : Nat} (h : LastBefore H t i j) (h' : LastBefore H t i' j) : i = i' := by
  obtain ⟨h1, ⟨x, hx, hw⟩, h3⟩ := h
  obtain ⟨h1', ⟨x', hx', hw'⟩, h3'⟩ := h'
  rcases Nat.lt_trichotomy i i' with hlt | he | hlt
  · exact absurd hw' (h3 i' x' hlt h1' hx')
  · exact he
  · exact absurd hw (h3' i x hlt h1 hx)

theorem endsAt_lt {H : List (SeenEv T O R)} {i j : Nat} {r : R} (h : EndsAt H i j r) : i < j ∧ j < H.length := by
  obtain ⟨t, o, _, h2, h3⟩ := h
  exact ⟨h3.1, get_lt h2⟩

theorem endsAt_snoc {H : List (SeenEv T O R)} {e : SeenEv T O R} {i j : Nat} {r : R} (h : EndsAt (H ++ [e]) i j r) :
    EndsAt H i j r ∨ j = H.length ∧ ∃ t o, e = .ret t o r ∧ H[i]? = some (.call t o) ∧ LastBefore H t i H.length := by
  have hl := endsAt_lt h
  obtain ⟨t, o, h1, h2, h3⟩ := h
  rw [List.length_append, List.length_singleton] at hl
  rw [get_snoc_lt (by omega)] at h1
  by_cases hj : j = H.length
  · subst hj
    rw [get_snoc_last] at h2
    exact .inr ⟨rfl, t, o, Option.some.inj h2, h1, (lastBefore_snoc (Nat.le_refl _)).1 h3⟩
  · rw [get_snoc_lt (by omega)] at h2
    exact .inl ⟨t, o, h1, h2, (lastBefore_snoc (by omega)).1 h3⟩

theorem oneByOne_snoc {H : List (SeenEv T O R)} {e : SeenEv T O R} (h : OneByOne H)
    (hr : ∀ t o r, e = .ret t o r → ∃ i, H[i]? = some (.call t o) ∧ LastBefore H t i H.length)
    (hc : ∀ t o i, e = .call t o → LastBefore H t i H.length → ∃ o' r, H[i]? = some (.ret t o' r)) : OneByOne (H ++ [e]) := by
  constructor
  · intro j t o r hj
    have hl := get_lt hj
    rw [List.length_append, List.length_singleton] at hl
    by_cases he : j = H.length
    · subst he
      rw [get_snoc_last] at hj
      obtain ⟨i, h1, h2⟩ := hr t o r (Option.some.inj hj)
      exact ⟨i, by rw [get_snoc_lt h2.1]; exact h1, (lastBefore_snoc (Nat.le_refl _)).2 h2⟩
    · rw [get_snoc_lt (by omega)] at hj
      obtain ⟨i, h1, h2⟩ := h.1 j t o r hj
      exact ⟨i, by rw [get_snoc_lt (get_lt h1)]; exact h1, (lastBefore_snoc (by omega)).2 h2⟩
  · intro j t o i hj hi
    have hl := get_lt hj
    rw [List.length_append, List.length_singleton] at hl
    by_cases he : j = H.length
    · subst he
      rw [get_snoc_last] at hj
      rw [lastBefore_snoc (Nat.le_refl _)] at hi
      rw [get_snoc_lt hi.1]
      exact hc t o i (Option.some.inj hj) hi
    · rw [get_snoc_lt (by omega)] at hj
      rw [lastBefore_snoc (by omega)] at hi
      have := hi.1
      rw [get_snoc_lt (by omega)]
      exact h.2 j t o i hj hi

/-! ### Executions are linearisable -/

/-- The order of the releases of the mutex. -/
structure Order (H : List (SeenEv T O R)) (es : List (T × O × R)) (phase : T → Phase S O R) (L : List (Nat × R)) : Prop where
  one : OneByOne H
  calls : List.Forall₂ (fun x e => H[x.1]? = some (.call e.1 e.2.1) ∧ x.2 = e.2.2) L es
  nodup : (L.map (·.1)).Nodup
  ended : ∀ i j r, EndsAt H i j r → (i, r) ∈ L
  order : L.Pairwise fun x y => ∀ j r, EndsAt H y.1 j r → ¬ j < x.1
  idle : ∀ t i, phase t = .idle → LastBefore H t i H.length → ∃ o r, H[i]? = some (.ret t o r)
  before : ∀ t o, (phase t = .wants o ∨ ∃ b, phase t = .runs o b) →
    ∃ i, H[i]? = some (.call t o) ∧ LastBefore H t i H.length ∧ i ∉ L.map (·.1)
  after : ∀ t o r, phase t = .leaving o r → ∃ i, H[i]? = some (.call t o) ∧ LastBefore H t i H.length ∧ (i, r) ∈ L

theorem forall2_lt {H : List (SeenEv T O R)} {L : List (Nat × R)} {es : List (T × O × R)}
    (h : List.Forall₂ (fun x e => H[x.1]? = some (.call e.1 e.2.1) ∧ x.2 = e.2.2) L es) : ∀ x ∈ L, x.1 < H.length := by
  induction h with
  | nil => intro x hx; cases hx
  | cons h _ ih =>
    intro x hx
    rcases List.mem_cons.1 hx with rfl | hx
    · exact get_lt h.1
    · exact ih x hx

theorem forall2_snoc {H : List (SeenEv T O R)} {e : SeenEv T O R} {L : List (Nat × R)} {es : List (T × O × R)}
    (h : List.Forall₂ (fun x e => H[x.1]? = some (.call e.1 e.2.1) ∧ x.2 = e.2.2) L es) :
    List.Forall₂ (fun x e' => (H ++ [e])[x.1]? = some (.call e'.1 e'.2.1) ∧ x.2 = e'.2.2) L es :=
  h.imp fun x e' hx => ⟨by rw [get_snoc_lt (get_lt hx.1)]; exact hx.1, hx.2⟩

variable [DecidableEq T]

/-- How the threads go on, whatever happens to the objects and mutexes. -/
inductive PhaseStep : (T → Phase S O R) → Label T O R → (T → Phase S O R) → Prop where
  | call {p t o} (h : p t = .idle) : PhaseStep p (.call t o) (setPhase p t (.wants o))
  | lock {p t o b} (h : p t = .wants o) : PhaseStep p (.lock t) (setPhase p t (.runs o b))
  | act {p t o b b'} (h : p t = .runs o b) : PhaseStep p (.act t) (setPhase p t (.runs o b'))
  | unlock {p t o b r} (h : p t = .runs o b) : PhaseStep p (.unlock t o r) (setPhase p t (.leaving o r))
  | ret {p t o r} (h : p t = .leaving o r) : PhaseStep p (.ret t o r) (setPhase p t .idle)

theorem Step.phases {body : O → Body S R} {c c' : Conf T S O R} {l : Label T O R} (h : Step body c l c') : PhaseStep c.phase l c'.phase := by
  cases h with
  | call h => exact .call h
  | lock h _ => exact .lock h
  | act h => exact .act h
  | unlock h => exact .unlock h
  | ret h => exact .ret h

theorem order_step {H : List (SeenEv T O R)} {es : List (T × O × R)} {p p' : T → Phase S O R} {l : Label T O R}
    {L : List (Nat × R)} (h : Order H es p L) (hs : PhaseStep p l p') : ∃ L', Order (H ++ visible [l]) (es ++ completed [l]) p' L' := by
  cases hs with
  | @call t o hp =>
    have hlt := forall2_lt h.calls
    refine ⟨L, ?_⟩
    simp only [visible, completed, List.filterMap_cons, List.filterMap_nil, List.append_nil]
    have hE : ∀ i j r, EndsAt (H ++ [.call t o]) i j r → EndsAt H i j r := fun i j r he => by
      rcases endsAt_snoc he with he | ⟨_, _, _, he, _⟩
      · exact he
      · cases he
    refine ⟨oneByOne_snoc h.one (fun _ _ _ he => by cases he) (fun t' o' i he hl => ?_), forall2_snoc h.calls, h.nodup,
      fun i j r he => h.ended i j r (hE i j r he), h.order.imp fun hh j r he => hh j r (hE _ j r he), ?_, ?_, ?_⟩
    · cases he
      exact h.idle t i hp hl
    · intro t' i hi hl
      have ht : t' ≠ t := by rintro rfl; simp at hi
      rw [setPhase_ne _ _ ht] at hi
      rw [List.length_append, List.length_singleton] at hl
      have hl' := lastBefore_shrink hl (fun e => ht e.symm)
      obtain ⟨o', r', hr⟩ := h.idle t' i hi hl'
      exact ⟨o', r', by rw [get_snoc_lt hl'.1]; exact hr⟩
    · intro t' o' hi
      rw [List.length_append, List.length_singleton]
      by_cases ht : t' = t
      · subst ht
        have : o' = o := by rcases hi with hi | ⟨b, hi⟩ <;> simp at hi; exact hi.symm
        subst this
        refine ⟨H.length, get_snoc_last _ _, lastBefore_self _ _, fun hm => ?_⟩
        obtain ⟨x, hx, he⟩ := List.mem_map.1 hm
        have := hlt x hx
        omega
      · simp only [setPhase_ne _ _ ht] at hi
        obtain ⟨i, h1, h2, h3⟩ := h.before t' o' hi
        exact ⟨i, by rw [get_snoc_lt h2.1]; exact h1, lastBefore_other h2 (fun e => ht e.symm), h3⟩
    · intro t' o' r hi
      rw [List.length_append, List.length_singleton]
      have ht : t' ≠ t := by rintro rfl; simp at hi
      rw [setPhase_ne _ _ ht] at hi
      obtain ⟨i, h1, h2, h3⟩ := h.after t' o' r hi
      exact ⟨i, by rw [get_snoc_lt h2.1]; exact h1, lastBefore_other h2 (fun e => ht e.symm), h3⟩
  | @lock t o b0 hp =>
    refine ⟨L, ?_⟩
    simp only [visible, completed, List.filterMap_cons, List.filterMap_nil, List.append_nil]
    refine ⟨h.one, h.calls, h.nodup, h.ended, h.order, ?_, ?_, ?_⟩
    · intro t' i hi
      have ht : t' ≠ t := by rintro rfl; simp at hi
      rw [setPhase_ne _ _ ht] at hi
      exact h.idle t' i hi
    · intro t' o' hi
      by_cases ht : t' = t
      · subst ht
        have : o' = o := by rcases hi with hi | ⟨b, hi⟩ <;> simp at hi; exact hi.1.symm
        subst this
        exact h.before t' o' (.inl hp)
      · simp only [setPhase_ne _ _ ht] at hi
        exact h.before t' o' hi
    · intro t' o' r hi
      have ht : t' ≠ t := by rintro rfl; simp at hi
      rw [setPhase_ne _ _ ht] at hi
      exact h.after t' o' r hi
  | @act t o b0 b1 hp =>
    refine ⟨L, ?_⟩
    simp only [visible, completed, List.filterMap_cons, List.filterMap_nil, List.append_nil]
    refine ⟨h.one, h.calls, h.nodup, h.ended, h.order, ?_, ?_, ?_⟩
    · intro t' i hi
      have ht : t' ≠ t := by rintro rfl; simp at hi
      rw [setPhase_ne _ _ ht] at hi
      exact h.idle t' i hi
    · intro t' o' hi
      by_cases ht : t' = t
      · subst ht
        have : o' = o := by rcases hi with hi | ⟨b, hi⟩ <;> simp at hi; exact hi.1.symm
        subst this
        exact h.before t' o' (.inr ⟨_, hp⟩)
      · simp only [setPhase_ne _ _ ht] at hi
        exact h.before t' o' hi
    · intro t' o' r hi
      have ht : t' ≠ t := by rintro rfl; simp at hi
      rw [setPhase_ne _ _ ht] at hi
      exact h.after t' o' r hi
  | @unlock t o b0 r hp =>
    obtain ⟨i, hi1, hi2, hi3⟩ := h.before t o (.inr ⟨_, hp⟩)
    refine ⟨L ++ [(i, r)], ?_⟩
    simp only [visible, completed, List.filterMap_cons, List.filterMap_nil, List.append_nil]
    have hfst : ∀ t' i', LastBefore H t' i' H.length → t' ≠ t → i' ≠ i := by
      rintro t' i' ⟨_, ⟨x, hx, hw⟩, _⟩ hne rfl
      rw [hi1] at hx
      cases hx
      exact hne hw.symm
    refine ⟨h.one, List.rel_append h.calls (.cons ⟨hi1, rfl⟩ .nil), ?_, fun a b q he => List.mem_append_left _ (h.ended a b q he), ?_, ?_, ?_, ?_⟩
    · rw [List.map_append, List.nodup_append]
      refine ⟨h.nodup, by simp, ?_⟩
      rintro a ha b hb rfl
      simp only [List.map_cons, List.map_nil, List.mem_singleton] at hb
      exact hi3 (hb ▸ ha)
    · refine List.pairwise_append.2 ⟨h.order, List.pairwise_singleton _ _, ?_⟩
      rintro x hx y hy j q ⟨t', o', e1, e2, e3⟩
      rw [List.mem_singleton] at hy
      subst hy
      simp only at e1 e3
      rw [hi1] at e1
      cases e1
      exact absurd rfl (hi2.2.2 j _ e3.1 (get_lt e2) e2)
    · intro t' a hi
      have ht : t' ≠ t := by rintro rfl; simp at hi
      rw [setPhase_ne _ _ ht] at hi
      exact h.idle t' a hi
    · intro t' o' hi
      have ht : t' ≠ t := by rintro rfl; simp at hi
      simp only [setPhase_ne _ _ ht] at hi
      obtain ⟨a, h1, h2, h3⟩ := h.before t' o' hi
      refine ⟨a, h1, h2, ?_⟩
      rw [List.map_append, List.mem_append, not_or]
      exact ⟨h3, by simpa using hfst t' a h2 ht⟩
    · intro t' o' q hi
      by_cases ht : t' = t
      · subst ht
        simp only [setPhase_self, Phase.leaving.injEq] at hi
        obtain ⟨rfl, rfl⟩ := hi
        exact ⟨i, hi1, hi2, by simp⟩
      · rw [setPhase_ne _ _ ht] at hi
        obtain ⟨a, h1, h2, h3⟩ := h.after t' o' q hi
        exact ⟨a, h1, h2, List.mem_append_left _ h3⟩
  | @ret t o r hp =>
    have hlt := forall2_lt h.calls
    obtain ⟨i, hi1, hi2, hi3⟩ := h.after t o r hp
    refine ⟨L, ?_⟩
    simp only [visible, completed, List.filterMap_cons, List.filterMap_nil, List.append_nil]
    refine ⟨oneByOne_snoc h.one (fun t' o' r' he => ?_) (fun _ _ _ he => by cases he), forall2_snoc h.calls, h.nodup,
      fun a b q he => ?_, ?_, ?_, ?_, ?_⟩
    · cases he
      exact ⟨i, hi1, hi2⟩
    · rcases endsAt_snoc he with he | ⟨_, t', o', he, h1, h2⟩
      · exact h.ended a b q he
      · cases he
        rw [lastBefore_unique h2 hi2]
        exact hi3
    · refine h.order.imp_of_mem fun {x y} hx hy hh j q he => ?_
      rcases endsAt_snoc he with he | ⟨hj, _⟩
      · exact hh j q he
      · have := hlt x hx
        omega
    · intro t' a hi hl
      rw [List.length_append, List.length_singleton] at hl
      by_cases ht : t' = t
      · subst ht
        have := lastBefore_unique hl (lastBefore_self H (.ret t' o r))
        subst this
        exact ⟨o, r, get_snoc_last _ _⟩
      · rw [setPhase_ne _ _ ht] at hi
        have hl' := lastBefore_shrink hl (fun e => ht e.symm)
        obtain ⟨o', r', hr⟩ := h.idle t' a hi hl'
        exact ⟨o', r', by rw [get_snoc_lt hl'.1]; exact hr⟩
    · intro t' o' hi
      rw [List.length_append, List.length_singleton]
      have ht : t' ≠ t := by rintro rfl; simp at hi
      simp only [setPhase_ne _ _ ht] at hi
      obtain ⟨a, h1, h2, h3⟩ := h.before t' o' hi
      exact ⟨a, by rw [get_snoc_lt h2.1]; exact h1, lastBefore_other h2 (fun e => ht e.symm), h3⟩
    · intro t' o' q hi
      rw [List.length_append, List.length_singleton]
      have ht : t' ≠ t := by rintro rfl; simp at hi
      rw [setPhase_ne _ _ ht] at hi
      obtain ⟨a, h1, h2, h3⟩ := h.after t' o' q hi
      exact ⟨a, by rw [get_snoc_lt h2.1]; exact h1, lastBefore_other h2 (fun e => ht e.symm), h3⟩

omit [DecidableEq T] in
theorem order_init : ∃ L, Order (visible ([] : List (Label T O R))) (completed ([] : List (Label T O R))) (fun _ => (.idle : Phase S O R)) L := by
  refine ⟨[], ⟨by simp [visible], by simp [visible]⟩, .nil, by simp, ?_, .nil, ?_, by simp, by simp⟩
  · rintro i j r ⟨t, o, h1, _⟩
    simp [visible] at h1
  · rintro t i _ ⟨h1, _⟩
    simp [visible] at h1

theorem order_steps {body : O → Body S R} {s0 : S} {ls : List (Label T O R)} {c : Conf T S O R}
    (h : Steps body (Conf.init s0) ls c) : ∃ L, Order (visible ls) (completed ls) c.phase L := by
  generalize hc : (Conf.init s0 : Conf T S O R) = c0 at h
  induction h with
  | nil =>
    subst hc
    exact order_init
  | @snoc ls c1 l c2 h hs ih =>
    obtain ⟨L, ih⟩ := ih
    rw [visible_append, completed_append]
    exact order_step ih hs.phases

/-! ### Everything linearisable can be seen -/

/-- Thread `t` takes the mutex, executes its call and releases the mutex. -/
theorem point {body : O → Body S R} {c : Conf T S O R} {t : T} {o : O} (hp : c.phase t = .wants o) (hf : c.holder = none) :
    ∃ ls c', Steps body c ls c' ∧ visible ls = [] ∧ completed ls = [(t, o, ((body o).run c.shared).2)] ∧ c'.holder = none ∧
      c'.shared = ((body o).run c.shared).1 ∧ c'.phase = setPhase c.phase t (.leaving o ((body o).run c.shared).2) := by
  have run : ∀ (b : Body S R) (c : Conf T S O R), c.phase t = .runs o b → ∃ ls c', Steps body c ls c' ∧ visible ls = [] ∧
      completed ls = [(t, o, (b.run c.shared).2)] ∧ c'.holder = none ∧ c'.shared = (b.run c.shared).1 ∧
      c'.phase = setPhase c.phase t (.leaving o (b.run c.shared).2) := by
    intro b
    induction b with
    | ret r =>
      intro c h
      exact ⟨_, _, .one (.unlock h), rfl, rfl, rfl, rfl, rfl⟩
    | act f k ih =>
      intro c h
      obtain ⟨ls, c', h1, h2, h3, h4, h5, h6⟩ := ih c.shared
        { c with shared := f c.shared, phase := setPhase c.phase t (.runs o (k c.shared)) } (by simp)
      refine ⟨_, c', (Steps.one (.act h)).trans h1, ?_, ?_, h4, h5, ?_⟩
      · rw [visible_append, h2]; rfl
      · rw [completed_append, h3]; rfl
      · rw [h6]
        funext t'
        by_cases ht : t' = t
        · subst ht; simp [Body.run]
        · simp [setPhase_ne _ _ ht]
  obtain ⟨ls, c', h1, h2, h3, h4, h5, h6⟩ := run (body o)
    { c with holder := some t, phase := setPhase c.phase t (.runs o (body o)) } (by simp)
  refine ⟨_, c', (Steps.one (.lock hp hf)).trans h1, ?_, ?_, h4, h5, ?_⟩
  · rw [visible_append, h2]; rfl
  · rw [completed_append, h3]; rfl
  · rw [h6]
    funext t'
    by_cases ht : t' = t
    · subst ht; simp
    · simp [setPhase_ne _ _ ht]

omit [DecidableEq T] in
theorem serial_append {body : O → Body S R} {s0 s : S} {a b : List (T × O × R)} :
    Serial body s0 (a ++ b) s ↔ ∃ s1, Serial body s0 a s1 ∧ Serial body s1 b s := by
  constructor
  · intro h
    generalize hc : a ++ b = c at h
    induction h generalizing b with
    | nil =>
      obtain ⟨rfl, rfl⟩ := List.append_eq_nil_iff.1 hc
      exact ⟨_, .nil, .nil⟩
    | @snoc es s' t o r s'' h he ih =>
      rcases List.eq_nil_or_concat b with rfl | ⟨b', x, rfl⟩
      · rw [List.append_nil] at hc
        subst hc
        exact ⟨_, .snoc h he, .nil⟩
      · rw [List.concat_eq_append, ← List.append_assoc] at hc
        obtain ⟨h1, h2⟩ := List.append_inj' hc rfl
        obtain ⟨s1, h3, h4⟩ := ih h1
        cases h2
        rw [List.concat_eq_append]
        exact ⟨s1, h3, .snoc h4 he⟩
  · rintro ⟨s1, h1, h2⟩
    induction h2 with
    | nil => simpa using h1
    | snoc _ he ih => rw [← List.append_assoc]; exact .snoc ih he

omit [DecidableEq T] in
theorem serial_cons {body : O → Body S R} {s0 s : S} {t : T} {o : O} {r : R} {es : List (T × O × R)}
    (h : Serial body s0 ((t, o, r) :: es) s) : ∃ s1, (body o).run s0 = (s1, r) ∧ Serial body s1 es s := by
  obtain ⟨s1, h1, h2⟩ := serial_append (a := [(t, o, r)]).1 h
  refine ⟨s1, ?_, h2⟩
  generalize hc : [(t, o, r)] = c at h1
  cases h1 with
  | nil => cases hc
  | @snoc es s' t o r s'' h he =>
    have hl := congrArg List.length hc
    simp at hl
    subst hl
    cases hc
    generalize hd : ([] : List (T × O × R)) = d at h
    cases h with
    | nil => exact he
    | snoc => simp at hd

omit [DecidableEq T] in
theorem lastBefore_succ {H : List (SeenEv T O R)} {e : SeenEv T O R} {j : Nat} (hj : H[j]? = some e) (t : T) (i : Nat) :
    LastBefore H t i (j + 1) ↔ (e.who = t ∧ i = j) ∨ (e.who ≠ t ∧ LastBefore H t i j) := by
  constructor
  · rintro ⟨h1, ⟨x, hx, hw⟩, h3⟩
    by_cases ht : e.who = t
    · refine .inl ⟨ht, ?_⟩
      by_contra hne
      exact h3 j e (by omega) (by omega) hj ht
    · refine .inr ⟨ht, ?_, ⟨x, hx, hw⟩, fun k y hk hkj => h3 k y hk (by omega)⟩
      have : i ≠ j := by rintro rfl; rw [hj] at hx; cases hx; exact ht hw
      omega
  · rintro (⟨ht, rfl⟩ | ⟨ht, h1, h2, h3⟩)
    · exact ⟨by omega, ⟨e, hj, ht⟩, fun k _ h1 h2 => by omega⟩
    · refine ⟨by omega, h2, fun k y hk hkj hy => ?_⟩
      by_cases he : k = j
      · subst he; rw [hj] at hy; cases hy; exact ht
      · exact h3 k y hk (by omega) hy

/-- A moment of the execution that is made for a history and an order of its calls: the first `j` events and the first `m` calls are done. -/
structure At (body : O → Body S R) (H : List (SeenEv T O R)) (L : List (Nat × R)) (es : List (T × O × R)) (j m : Nat)
    (c : Conf T S O R) : Prop where
  free : c.holder = none
  rest : ∃ s, Serial body c.shared (es.drop m) s
  lt : ∀ x ∈ L.take m, x.1 < j
  ended : ∀ i j' r, EndsAt H i j' r → j' < j → (i, r) ∈ L.take m
  idle : ∀ t, (∀ i o, H[i]? = some (.call t o) → ¬ LastBefore H t i j) → c.phase t = .idle
  wants : ∀ t o i, H[i]? = some (.call t o) → LastBefore H t i j → i ∉ (L.take m).map (·.1) → c.phase t = .wants o
  leaving : ∀ t o i r, H[i]? = some (.call t o) → LastBefore H t i j → (i, r) ∈ L.take m → c.phase t = .leaving o r

/-- Such a moment is reached. -/
def Reached (body : O → Body S R) (s0 : S) (H : List (SeenEv T O R)) (L : List (Nat × R)) (es : List (T × O × R)) (j m : Nat) : Prop :=
  ∃ ls c, Steps body (Conf.init s0) ls c ∧ visible ls = H.take j ∧ completed ls = es.take m ∧ At body H L es j m c

section
variable {body : O → Body S R} {s0 : S} {H : List (SeenEv T O R)} {L : List (Nat × R)} {es : List (T × O × R)} (h1 : OneByOne H)
  (hc : List.Forall₂ (fun x e => H[x.1]? = some (.call e.1 e.2.1) ∧ x.2 = e.2.2) L es) (hn : (L.map (·.1)).Nodup)
include h1 hc hn

omit [DecidableEq T] hn hc in
/-- A call that has not ended is the last thing its thread did. -/
theorem open_last {i j : Nat} {t : T} {o : O} (hi : H[i]? = some (.call t o)) (hij : i < j)
    (hno : ∀ j' r, EndsAt H i j' r → ¬ j' < j) : LastBefore H t i j := by
  suffices ∀ k, i < k → k ≤ j → LastBefore H t i k from this j hij (Nat.le_refl _)
  intro k hk
  induction k with
  | zero => omega
  | succ k ih =>
    intro hkj
    by_cases he : k = i
    · subst he
      exact ⟨by omega, ⟨_, hi, rfl⟩, fun a _ b c => by omega⟩
    · have hl := ih (by omega) (by omega)
      cases hk' : H[k]? with
      | none =>
        obtain ⟨a, b, c⟩ := hl
        refine ⟨by omega, b, fun x y hx hxk hy => ?_⟩
        by_cases he' : x = k
        · subst he'; rw [hk'] at hy; cases hy
        · exact c x y hx (by omega) hy
      | some e =>
        rw [lastBefore_succ hk']
        refine .inr ⟨fun hw => ?_, hl⟩
        cases e with
        | call t' o' =>
          cases hw
          obtain ⟨o'', r, hr⟩ := h1.2 k t' o' i hk' hl
          rw [hi] at hr
          cases hr
        | ret t' o' r =>
          cases hw
          obtain ⟨i', a1, a2⟩ := h1.1 k t' o' r hk'
          obtain rfl := lastBefore_unique a2 hl
          exact hno k r ⟨t', o', a1, hk', a2⟩ (by omega)

/-- The next call of the order. -/
theorem reached_point {j m : Nat} (h : Reached body s0 H L es j m) (hm : m < L.length) (hj : ∀ x, L[m]? = some x → x.1 < j) :
    Reached body s0 H L es j (m + 1) := by
  obtain ⟨ls, c, hs, h2, h3, ha⟩ := h
  have hlen := hc.length_eq
  have hme : m < es.length := by omega
  have hx : L[m]? = some L[m] := List.getElem?_eq_getElem hm
  have hr := hc.get hm hme
  simp only [List.get_eq_getElem] at hr
  obtain ⟨hcall, hres⟩ := hr
  have hnm : L[m].1 ∉ (L.take m).map (·.1) := by
    intro hin
    rw [List.map_take] at hin
    obtain ⟨k, hk, he⟩ := List.getElem_of_mem hin
    rw [List.length_take, List.length_map] at hk
    rw [List.getElem_take, List.getElem_map] at he
    exact List.pairwise_iff_getElem.1 hn k m (by simp; omega) (by simpa using hm) (by omega) (by simpa using he)
  have hlast : LastBefore H es[m].1 L[m].1 j := by
    refine open_last h1 hcall (hj _ hx) fun j' r he hlt => hnm ?_
    exact List.mem_map.2 ⟨_, ha.ended _ _ _ he hlt, rfl⟩
  have hp := ha.wants _ _ _ hcall hlast hnm
  obtain ⟨s, hse⟩ := ha.rest
  rw [List.drop_eq_getElem_cons hme] at hse
  obtain ⟨s1, hrun, hse⟩ := serial_cons (t := es[m].1) (o := es[m].2.1) (r := es[m].2.2) hse
  obtain ⟨ls', c', g1, g2, g3, g4, g5, g6⟩ := point (body := body) hp ha.free
  rw [hrun] at g3 g5 g6
  have htake : L.take (m + 1) = L.take m ++ [L[m]] := by rw [List.take_add_one, hx]; rfl
  have htake' : es.take (m + 1) = es.take m ++ [es[m]] := by rw [List.take_add_one, List.getElem?_eq_getElem hme]; rfl
  refine ⟨ls ++ ls', c', hs.trans g1, ?_, ?_, g4, ⟨s, by rw [g5]; exact hse⟩, ?_, ?_, ?_, ?_, ?_⟩
  · rw [visible_append, g2, List.append_nil, h2]
  · rw [completed_append, h3, g3, htake']
  · intro x hx'
    rw [htake, List.mem_append, List.mem_singleton] at hx'
    rcases hx' with hx' | rfl
    · exact ha.lt x hx'
    · exact hj _ hx
  · intro i j' r he hlt
    rw [htake]
    exact List.mem_append_left _ (ha.ended i j' r he hlt)
  · intro t ht
    rw [g6, setPhase_ne]
    · exact ha.idle t ht
    · rintro rfl
      exact ht _ _ hcall hlast
  · intro t o i hi hl hni
    rw [htake, List.map_append, List.mem_append, not_or] at hni
    rw [g6, setPhase_ne]
    · exact ha.wants t o i hi hl hni.1
    · rintro rfl
      exact hni.2 (by rw [lastBefore_unique hl hlast]; simp)
  · intro t o i r hi hl hmem
    rw [htake, List.mem_append, List.mem_singleton] at hmem
    rw [g6]
    rcases hmem with hmem | hmem
    · rw [setPhase_ne]
      · exact ha.leaving t o i r hi hl hmem
      · rintro rfl
        have := lastBefore_unique hl hlast
        subst this
        exact hnm (List.mem_map.2 ⟨_, hmem, rfl⟩)
    · have e1 : i = L[m].1 := congrArg (·.1) hmem
      have e2 : r = L[m].2 := congrArg (·.2) hmem
      subst e1
      rw [hcall] at hi
      cases hi
      rw [setPhase_self, e2, hres]

theorem reached_points {j m : Nat} (h : Reached body s0 H L es j m) (p : Nat) (hmp : m ≤ p) (hp : p ≤ L.length)
    (hlt : ∀ x ∈ L.take p, x.1 < j) : Reached body s0 H L es j p := by
  induction p with
  | zero => rw [Nat.le_zero.1 hmp] at h; exact h
  | succ p ih =>
    by_cases he : m = p + 1
    · rw [← he]; exact h
    · refine reached_point h1 hc hn (ih (by omega) (by omega) fun x hx => hlt x ?_) (by omega) fun x hx => hlt x ?_
      · rw [List.take_add_one]; exact List.mem_append_left _ hx
      · rw [List.take_add_one, hx]; simp

/-- The next event of the history. -/
theorem reached_event (he : ∀ i j r, EndsAt H i j r → (i, r) ∈ L) (ho : L.Pairwise fun x y => ∀ j r, EndsAt H y.1 j r → ¬ j < x.1)
    {j m : Nat} (h : Reached body s0 H L es j m) (hm : m ≤ L.length) (hj : j < H.length) :
    ∃ m', m' ≤ L.length ∧ Reached body s0 H L es (j + 1) m' := by
  have hget : H[j]? = some H[j] := List.getElem?_eq_getElem hj
  cases hv : H[j] with
  | call t o =>
    rw [hv] at hget
    obtain ⟨ls, c, hs, h2, h3, ha⟩ := h
    have hidle : c.phase t = .idle := by
      refine ha.idle t fun i o' hi hl => ?_
      obtain ⟨_, _, hr⟩ := h1.2 j t o i hget hl
      rw [hi] at hr
      cases hr
    refine ⟨m, hm, ls ++ [.call t o], { c with phase := setPhase c.phase t (.wants o) }, .snoc hs (.call hidle), ?_, ?_, ha.free, ha.rest, fun x hx => ?_, fun i j' r hE hlt => ?_, ?_, ?_, ?_⟩
    · rw [visible_append, h2, List.take_add_one, hget]; rfl
    · rw [completed_append, h3]; simp [completed]
    · have := ha.lt x hx; omega
    · refine ha.ended i j' r hE ?_
      have : j' ≠ j := by
        rintro rfl
        obtain ⟨_, _, _, hr, _⟩ := hE
        rw [hget] at hr
        cases hr
      omega
    · intro t' ht
      have hne : t' ≠ t := by
        rintro rfl
        exact ht j o hget ((lastBefore_succ hget _ _).2 (.inl ⟨rfl, rfl⟩))
      show setPhase _ _ _ _ = _
      rw [setPhase_ne _ _ hne]
      exact ha.idle t' fun i o' hi hl => ht i o' hi ((lastBefore_succ hget _ _).2 (.inr ⟨fun e => hne e.symm, hl⟩))
    · intro t' o' i hi hl hni
      rcases (lastBefore_succ hget _ _).1 hl with ⟨hw, rfl⟩ | ⟨hw, hl⟩
      · cases hw
        rw [hget] at hi
        cases hi
        exact setPhase_self _ _ _
      · show setPhase _ _ _ _ = _
        rw [setPhase_ne (t := t) _ _ (fun e => hw e.symm)]
        exact ha.wants t' o' i hi hl hni
    · intro t' o' i r hi hl hmem
      rcases (lastBefore_succ hget _ _).1 hl with ⟨hw, rfl⟩ | ⟨hw, hl⟩
      · have := ha.lt _ hmem
        simp at this
      · show setPhase _ _ _ _ = _
        rw [setPhase_ne (t := t) _ _ (fun e => hw e.symm)]
        exact ha.leaving t' o' i r hi hl hmem
  | ret t o r =>
    rw [hv] at hget
    obtain ⟨i, hi, hl⟩ := h1.1 j t o r hget
    have hE : EndsAt H i j r := ⟨t, o, hi, hget, hl⟩
    obtain ⟨p, hp, hpe⟩ := List.getElem_of_mem (he i j r hE)
    -- all calls up to this one
    obtain ⟨m', hm', hin, ls, c, hs, h2, h3, ha⟩ : ∃ m', m' ≤ L.length ∧ (i, r) ∈ L.take m' ∧ Reached body s0 H L es j m' := by
      by_cases hin : (i, r) ∈ L.take m
      · exact ⟨m, hm, hin, h⟩
      · have hmp : m ≤ p := by
          by_contra hlt
          exact hin (by rw [← hpe]; exact List.mem_take_iff_getElem.2 ⟨p, by omega, rfl⟩)
        refine ⟨p + 1, hp, ?_, reached_points h1 hc hn h (p + 1) (by omega) hp fun x hx => ?_⟩
        · rw [← hpe]; exact List.mem_take_iff_getElem.2 ⟨p, by omega, rfl⟩
        · obtain ⟨k, hk, rfl⟩ := List.mem_take_iff_getElem.1 hx
          have hkl : k < L.length := by omega
          by_cases hkp : k = p
          · subst hkp; rw [hpe]; exact hl.1
          · have := List.pairwise_iff_getElem.1 ho k p hkl hp (by omega) j r (by rw [hpe]; exact hE)
            have hne : L[k].1 ≠ j := by
              intro e
              have hr := (hc.get hkl (by rw [← hc.length_eq]; exact hkl)).1
              simp only [List.get_eq_getElem] at hr
              rw [e, hget] at hr
              cases hr
            omega
    have hph := ha.leaving t o i r hi hl hin
    refine ⟨m', hm', ls ++ [.ret t o r], { c with phase := setPhase c.phase t .idle }, .snoc hs (.ret hph), ?_, ?_, ha.free, ha.rest, fun x hx => ?_, fun i' j' r' hE' hlt => ?_, ?_, ?_, ?_⟩
    · rw [visible_append, h2, List.take_add_one, hget]; rfl
    · rw [completed_append, h3]; simp [completed]
    · have := ha.lt x hx; omega
    · by_cases e : j' = j
      · subst e
        obtain ⟨t', o', a1, a2, a3⟩ := hE'
        rw [hget] at a2
        cases a2
        rw [lastBefore_unique a3 hl]
        exact hin
      · exact ha.ended i' j' r' hE' (by omega)
    · intro t' ht
      by_cases hne : t' = t
      · subst hne; simp
      · show setPhase _ _ _ _ = _
        rw [setPhase_ne _ _ hne]
        exact ha.idle t' fun i o' hi hl => ht i o' hi ((lastBefore_succ hget _ _).2 (.inr ⟨fun e => hne e.symm, hl⟩))
    · intro t' o' i' hi' hl' hni
      rcases (lastBefore_succ hget _ _).1 hl' with ⟨hw, rfl⟩ | ⟨hw, hl'⟩
      · rw [hget] at hi'
        cases hi'
      · show setPhase _ _ _ _ = _
        rw [setPhase_ne (t := t) _ _ (fun e => hw e.symm)]
        exact ha.wants t' o' i' hi' hl' hni
    · intro t' o' i' r' hi' hl' hmem
      rcases (lastBefore_succ hget _ _).1 hl' with ⟨hw, rfl⟩ | ⟨hw, hl'⟩
      · rw [hget] at hi'
        cases hi'
      · show setPhase _ _ _ _ = _
        rw [setPhase_ne (t := t) _ _ (fun e => hw e.symm)]
        exact ha.leaving t' o' i' r' hi' hl' hmem

end

/-- The histories of an object protected by a mutex are exactly the linearisable ones. -/
theorem seen_iff_linearisable (body : O → Body S R) (s0 : S) (Q : T × O × R → Prop) (H : List (SeenEv T O R)) :
    (∃ ls c, Steps body (Conf.init s0) ls c ∧ visible ls = H ∧ ∀ e ∈ completed ls, Q e) ↔
      Linearisable (fun es => (∃ s, Serial body s0 es s) ∧ ∀ e ∈ es, Q e) H := by
  constructor
  · rintro ⟨ls, c, hs, rfl, hQ⟩
    obtain ⟨L, h⟩ := order_steps hs
    obtain ⟨s, hser, _⟩ := (inv_steps hs).serial
    exact ⟨h.one, L, completed ls, ⟨⟨s, hser⟩, hQ⟩, h.calls, h.nodup, h.ended, h.order⟩
  · rintro ⟨h1, L, es, ⟨⟨s, hser⟩, hQ⟩, hc, hn, he, ho⟩
    have key : ∀ j, j ≤ H.length → ∃ m, m ≤ L.length ∧ Reached body s0 H L es j m := by
      intro j
      induction j with
      | zero =>
        refine fun _ => ⟨0, by omega, [], _, .nil, by simp [visible], by simp [completed], rfl, ⟨s, hser⟩, by simp, fun _ _ _ _ h => by omega, fun _ _ => rfl, ?_, ?_⟩
        · rintro _ _ _ _ ⟨h, _⟩; omega
        · rintro _ _ _ _ _ ⟨h, _⟩; omega
      | succ j ih =>
        intro hj
        obtain ⟨m, hm, hr⟩ := ih (by omega)
        exact reached_event h1 hc hn he ho hr hm (by omega)
    obtain ⟨m, hm, hr⟩ := key H.length (Nat.le_refl _)
    obtain ⟨ls, c, a1, a2, a3, _⟩ := reached_points h1 hc hn hr L.length hm (Nat.le_refl _) (fun x hx => forall2_lt hc x (List.mem_of_mem_take hx))
    rw [List.take_length] at a2
    rw [hc.length_eq, List.take_length] at a3
    exact ⟨ls, c, a1, a2, by rw [a3]; exact hQ⟩

end SoDa.Monitor
