import Verif.Proof.LinearMany
/-!
Several objects with a mutex each: a history can be seen exactly if each thread makes one call after the other and the history of each object
can be seen.
-/
namespace SoDa.Monitors
open Monitor (Body Phase Label setPhase setPhase_self setPhase_ne completed completed_append visible_append)
open Spec

variable {T A S O R : Type} [DecidableEq A] [DecidableEq T]

/-! ### One object of an execution -/

/-- What a thread does on the object `a`. -/
def phaseOn (a : A) : Phase S (A × O) R → Phase S O R
  | .idle => .idle
  | .wants o => if o.1 = a then .wants o.2 else .idle
  | .runs o b => if o.1 = a then .runs o.2 b else .idle
  | .leaving o r => if o.1 = a then .leaving o.2 r else .idle

/-- One object. -/
def confOn (a : A) (c : Conf T A S O R) : Monitor.Conf T S O R := ⟨c.shared a, c.holder a, fun t => phaseOn a (c.phase t)⟩

omit [DecidableEq T] in
theorem historyOf_append (a : A) (H K : List (SeenEv T (A × O) R)) : historyOf a (H ++ K) = historyOf a H ++ historyOf a K := by simp [historyOf]

omit [DecidableEq T] in
theorem onOnly_append (a : A) (H K : List (T × (A × O) × R)) : onOnly a (H ++ K) = onOnly a H ++ onOnly a K := by simp [onOnly]

theorem phaseOn_set (a : A) (f : T → Phase S (A × O) R) (t : T) (p : Phase S (A × O) R) :
    (fun t' => phaseOn a (setPhase f t p t')) = setPhase (fun t' => phaseOn a (f t')) t (phaseOn a p) := by
  funext t'
  by_cases h : t' = t
  · subst h; simp
  · rw [setPhase_ne _ _ h, setPhase_ne _ _ h]

theorem setPhase_same (f : T → Phase S O R) (t : T) (p : Phase S O R) (h : f t = p) : setPhase f t p = f := by
  funext t'
  by_cases ht : t' = t
  · subst ht; simp [h]
  · rw [setPhase_ne _ _ ht]

/-- A step of all objects is a step of this one or none. -/
theorem step_on {body : A → O → Body S R} {c c' : Conf T A S O R} {l : Label T (A × O) R} (a : A) (h : Step body c l c') :
    ∃ ls, Monitor.Steps (body a) (confOn a c) ls (confOn a c') ∧ visible ls = historyOf a (visible [l]) ∧ completed ls = onOnly a (completed [l]) := by
  have noStep : ∀ (t : T) (o : A × O) (p : Phase S (A × O) R), o.1 ≠ a → phaseOn a (c.phase t) = .idle → phaseOn a p = .idle →
      (fun t' => phaseOn a (setPhase c.phase t p t')) = fun t' => phaseOn a (c.phase t') := by
    intro t o p _ h1 h2
    rw [phaseOn_set, setPhase_same (fun t' => phaseOn a (c.phase t')) t _ (h1.trans h2.symm)]
  cases h with
  | @call t a' o hp =>
    by_cases ha : a' = a
    · subst ha
      refine ⟨[.call t o], .one ?_, by simp [visible, historyOf, SeenEv.on], by simp [completed, onOnly]⟩
      have : confOn a' { c with phase := setPhase c.phase t (.wants (a', o)) } = { confOn a' c with phase := setPhase (confOn a' c).phase t (.wants o) } := by
        simp only [confOn, phaseOn_set]
        simp [phaseOn]
      rw [this]
      exact .call (by simp [confOn, hp, phaseOn])
    · refine ⟨[], ?_, by simp [visible, historyOf, SeenEv.on, ha], by simp [completed, onOnly]⟩
      have : confOn a { c with phase := setPhase c.phase t (.wants (a', o)) } = confOn a c := by
        simp only [confOn]
        rw [noStep t (a', o) _ ha (by simp [hp, phaseOn]) (by simp [phaseOn, ha])]
      rw [this]
      exact .nil
  | @lock t a' o hp hf =>
    by_cases ha : a' = a
    · subst ha
      refine ⟨[.lock t], .one ?_, by simp [visible, historyOf], by simp [completed, onOnly]⟩
      have : confOn a' { c with holder := setAt c.holder a' (some t), phase := setPhase c.phase t (.runs (a', o) (body a' o)) } =
          { confOn a' c with holder := some t, phase := setPhase (confOn a' c).phase t (.runs o (body a' o)) } := by
        simp only [confOn, phaseOn_set]
        simp [phaseOn]
      rw [this]
      exact .lock (by simp [confOn, hp, phaseOn]) hf
    · refine ⟨[], ?_, by simp [visible, historyOf], by simp [completed, onOnly]⟩
      have : confOn a { c with holder := setAt c.holder a' (some t), phase := setPhase c.phase t (.runs (a', o) (body a' o)) } = confOn a c := by
        simp only [confOn]
        rw [noStep t (a', o) _ ha (by simp [hp, phaseOn, ha]) (by simp [phaseOn, ha]), setAt_ne _ _ (fun e => ha e.symm)]
      rw [this]
      exact .nil
  | @act t a' o f k hp =>
    by_cases ha : a' = a
    · subst ha
      refine ⟨[.act t], .one ?_, by simp [visible, historyOf], by simp [completed, onOnly]⟩
      have : confOn a' { c with shared := setAt c.shared a' (f (c.shared a')), phase := setPhase c.phase t (.runs (a', o) (k (c.shared a'))) } =
          { confOn a' c with shared := f (confOn a' c).shared, phase := setPhase (confOn a' c).phase t (.runs o (k (confOn a' c).shared)) } := by
        simp only [confOn, phaseOn_set]
        simp [phaseOn]
      rw [this]
      exact .act (by simp [confOn, hp, phaseOn])
    · refine ⟨[], ?_, by simp [visible, historyOf], by simp [completed, onOnly]⟩
      have : confOn a { c with shared := setAt c.shared a' (f (c.shared a')), phase := setPhase c.phase t (.runs (a', o) (k (c.shared a'))) } = confOn a c := by
        simp only [confOn]
        rw [noStep t (a', o) _ ha (by simp [hp, phaseOn, ha]) (by simp [phaseOn, ha]), setAt_ne _ _ (fun e => ha e.symm)]
      rw [this]
      exact .nil
  | @unlock t a' o r hp =>
    by_cases ha : a' = a
    · subst ha
      refine ⟨[.unlock t o r], .one ?_, by simp [visible, historyOf], by simp [completed, onOnly]⟩
      have : confOn a' { c with holder := setAt c.holder a' .none, phase := setPhase c.phase t (.leaving (a', o) r) } =
          { confOn a' c with holder := .none, phase := setPhase (confOn a' c).phase t (.leaving o r) } := by
        simp only [confOn, phaseOn_set]
        simp [phaseOn]
      rw [this]
      exact .unlock (by simp [confOn, hp, phaseOn])
    · refine ⟨[], ?_, by simp [visible, historyOf], by simp [completed, onOnly, ha]⟩
      have : confOn a { c with holder := setAt c.holder a' .none, phase := setPhase c.phase t (.leaving (a', o) r) } = confOn a c := by
        simp only [confOn]
        rw [noStep t (a', o) _ ha (by simp [hp, phaseOn, ha]) (by simp [phaseOn, ha]), setAt_ne _ _ (fun e => ha e.symm)]
      rw [this]
      exact .nil
  | @ret t a' o r hp =>
    by_cases ha : a' = a
    · subst ha
      refine ⟨[.ret t o r], .one ?_, by simp [visible, historyOf, SeenEv.on], by simp [completed, onOnly]⟩
      have : confOn a' { c with phase := setPhase c.phase t .idle } = { confOn a' c with phase := setPhase (confOn a' c).phase t .idle } := by
        simp only [confOn, phaseOn_set]
        simp [phaseOn]
      rw [this]
      exact .ret (by simp [confOn, hp, phaseOn])
    · refine ⟨[], ?_, by simp [visible, historyOf, SeenEv.on, ha], by simp [completed, onOnly]⟩
      have : confOn a { c with phase := setPhase c.phase t .idle } = confOn a c := by
        simp only [confOn]
        rw [noStep t (a', o) _ ha (by simp [hp, phaseOn, ha]) (by simp [phaseOn])]
      rw [this]
      exact .nil

theorem steps_on {body : A → O → Body S R} {s0 : A → S} {ls : List (Label T (A × O) R)} {c : Conf T A S O R} (a : A)
    (h : Steps body (Conf.init s0) ls c) : ∃ ls', Monitor.Steps (body a) (Monitor.Conf.init (s0 a)) ls' (confOn a c) ∧
      visible ls' = historyOf a (visible ls) ∧ completed ls' = onOnly a (completed ls) := by
  generalize hc : (Conf.init s0 : Conf T A S O R) = c0 at h
  induction h with
  | nil =>
    subst hc
    exact ⟨[], .nil, rfl, rfl⟩
  | snoc h hs ih =>
    obtain ⟨l1, h1, h2, h3⟩ := ih
    obtain ⟨l2, h4, h5, h6⟩ := step_on a hs
    exact ⟨l1 ++ l2, h1.trans h4, by rw [visible_append, visible_append, historyOf_append, h2, h5],
      by rw [completed_append, completed_append, onOnly_append, h3, h6]⟩

/-! ### Executions of the objects put together -/

/-- Of the object `a`. -/
def tag (a : A) : Phase S O R → Phase S (A × O) R
  | .idle => .idle
  | .wants o => .wants (a, o)
  | .runs o b => .runs (a, o) b
  | .leaving o r => .leaving (a, o) r

/-- Of the object `a`. -/
def tagLabel (a : A) : Label T O R → Label T (A × O) R
  | .call t o => .call t (a, o)
  | .lock t => .lock t
  | .act t => .act t
  | .unlock t o r => .unlock t (a, o) r
  | .ret t o r => .ret t (a, o) r

/-- The same threads and objects, one by one and together. -/
structure Match (cs : A → Monitor.Conf T S O R) (c : Conf T A S O R) : Prop where
  shared : ∀ a, c.shared a = (cs a).shared
  holder : ∀ a, c.holder a = (cs a).holder
  busy : ∀ t a, (cs a).phase t ≠ .idle → c.phase t = tag a ((cs a).phase t)
  idle : ∀ t, (∀ a, (cs a).phase t = .idle) → c.phase t = .idle

omit [DecidableEq A] in
theorem tag_inj {a a' : A} {p p' : Phase S O R} (h : tag a p = tag a' p') (hp : p ≠ .idle) : a = a' := by
  cases p <;> cases p' <;> simp_all [tag]

omit [DecidableEq A] [DecidableEq T] in
/-- A thread is busy with one object only. -/
theorem Match.only {cs : A → Monitor.Conf T S O R} {c : Conf T A S O R} (h : Match cs c) {t : T} {a a' : A} (hb : (cs a).phase t ≠ .idle)
    (ha : a' ≠ a) : (cs a').phase t = .idle := by
  by_contra hn
  exact ha (tag_inj ((h.busy t a' hn).symm.trans (h.busy t a hb)) hn)

/-- After a step of one object. -/
theorem Match.set {cs : A → Monitor.Conf T S O R} {c c' : Conf T A S O R} {a : A} {t : T} {d : Monitor.Conf T S O R} (h : Match cs c)
    (hs : c'.shared = setAt c.shared a d.shared) (hh : c'.holder = setAt c.holder a d.holder) {p : Phase S O R}
    (hd : d.phase = setPhase (cs a).phase t p) (hp : c'.phase = setPhase c.phase t (tag a p)) (ho : ∀ a', a' ≠ a → (cs a').phase t = .idle) :
    Match (setAt cs a d) c' where
  shared a' := by
    rw [hs]
    by_cases ha : a' = a
    · subst ha; simp
    · rw [setAt_ne _ _ ha, setAt_ne _ _ ha, h.shared]
  holder a' := by
    rw [hh]
    by_cases ha : a' = a
    · subst ha; simp
    · rw [setAt_ne _ _ ha, setAt_ne _ _ ha, h.holder]
  busy t' a' hb := by
    rw [hp]
    by_cases ha : a' = a
    · subst ha
      rw [setAt_self, hd] at hb ⊢
      by_cases ht : t' = t
      · subst ht; simp
      · rw [setPhase_ne _ _ ht] at hb ⊢
        rw [setPhase_ne _ _ ht]
        exact h.busy _ _ hb
    · rw [setAt_ne _ _ ha] at hb ⊢
      have ht : t' ≠ t := by rintro rfl; exact hb (ho a' ha)
      rw [setPhase_ne _ _ ht]
      exact h.busy _ _ hb
  idle t' hi := by
    rw [hp]
    by_cases ht : t' = t
    · subst ht
      have := hi a
      rw [setAt_self, hd, setPhase_self] at this
      simp [this, tag]
    · rw [setPhase_ne _ _ ht]
      refine h.idle t' fun a' => ?_
      have := hi a'
      by_cases ha : a' = a
      · subst ha
        rwa [setAt_self, hd, setPhase_ne _ _ ht] at this
      · rwa [setAt_ne _ _ ha] at this

theorem setAt_same {W : Type} (f : A → W) (a : A) : setAt f a (f a) = f := by
  funext x
  by_cases h : x = a <;> simp [setAt, h]

/-- A step of one object is a step of all. -/
theorem Match.step {body : A → O → Body S R} {cs : A → Monitor.Conf T S O R} {c : Conf T A S O R} {a : A} {l : Label T O R}
    {d : Monitor.Conf T S O R} (h : Match cs c) (hs : Monitor.Step (body a) (cs a) l d)
    (hc : ∀ t o, l = .call t o → ∀ a', (cs a').phase t = .idle) :
    ∃ c', Step body c (tagLabel a l) c' ∧ Match (setAt cs a d) c' := by
  generalize hca : cs a = ca at hs
  cases hs with
  | @call t o hp =>
    have hi := hc t o rfl
    refine ⟨_, .call (h.idle t hi), h.set (t := t) (p := .wants o) ?_ ?_ (by rw [hca]) rfl fun a' _ => hi a'⟩
    · simp only [← hca, ← h.shared, setAt_same]
    · simp only [← hca, ← h.holder, setAt_same]
  | @lock t o hp hf =>
    have hb : (cs a).phase t ≠ .idle := by rw [hca, hp]; simp
    have hq := h.busy t a hb
    rw [hca, hp, tag] at hq
    refine ⟨_, .lock hq (by rw [h.holder, hca, hf]), h.set (t := t) (p := .runs o (body a o)) ?_ ?_ (by rw [hca]) rfl fun a' ha => h.only hb ha⟩
    · simp only [← hca, ← h.shared, setAt_same]
    · rfl
  | @act t o f k hp =>
    have hb : (cs a).phase t ≠ .idle := by rw [hca, hp]; simp
    have hq := h.busy t a hb
    rw [hca, hp, tag] at hq
    have hsh : c.shared a = ca.shared := by rw [h.shared, hca]
    refine ⟨_, .act hq, h.set (t := t) (p := .runs o (k ca.shared)) ?_ ?_ (by rw [hca]) ?_ fun a' ha => h.only hb ha⟩
    · simp only [hsh]
    · simp only [← hca, ← h.holder, setAt_same]
    · simp only [hsh, tag]
  | @unlock t o r hp =>
    have hb : (cs a).phase t ≠ .idle := by rw [hca, hp]; simp
    have hq := h.busy t a hb
    rw [hca, hp, tag] at hq
    refine ⟨_, .unlock hq, h.set (t := t) (p := .leaving o r) ?_ ?_ (by rw [hca]) rfl fun a' ha => h.only hb ha⟩
    · simp only [← hca, ← h.shared, setAt_same]
    · rfl
  | @ret t o r hp =>
    have hb : (cs a).phase t ≠ .idle := by rw [hca, hp]; simp
    have hq := h.busy t a hb
    rw [hca, hp, tag] at hq
    refine ⟨_, .ret hq, h.set (t := t) (p := .idle) ?_ ?_ (by rw [hca]) rfl fun a' ha => h.only hb ha⟩
    · simp only [← hca, ← h.shared, setAt_same]
    · simp only [← hca, ← h.holder, setAt_same]

theorem Steps.trans {body : A → O → Body S R} {a b c : Conf T A S O R} {l1 l2 : List (Label T (A × O) R)}
    (h1 : Steps body a l1 b) (h2 : Steps body b l2 c) : Steps body a (l1 ++ l2) c := by
  induction h2 with
  | nil => simpa using h1
  | snoc _ hs ih => rw [← List.append_assoc]; exact .snoc ih hs

theorem Steps.one {body : A → O → Body S R} {a b : Conf T A S O R} {l : Label T (A × O) R} (h : Step body a l b) : Steps body a [l] b := .snoc .nil h

/-- The events of one object among all. -/
def tagEvent (a : A) (e : T × O × R) : T × (A × O) × R := (e.1, (a, e.2.1), e.2.2)

omit [DecidableEq A] [DecidableEq T] in
theorem completed_tag (a : A) (ls : List (Label T O R)) : completed (ls.map (tagLabel a)) = (completed ls).map (tagEvent a) := by
  induction ls with
  | nil => rfl
  | cons l ls ih =>
    have e1 : completed (l :: ls) = completed [l] ++ completed ls := completed_append [l] ls
    have e2 : completed (tagLabel a l :: ls.map (tagLabel a)) = completed [tagLabel a l] ++ completed (ls.map (tagLabel a)) := completed_append [_] _
    rw [List.map_cons, e1, e2, ih, List.map_append]
    cases l <;> simp [completed, tagLabel, tagEvent]

omit [DecidableEq T] in
/-- Steps of one object that cannot be seen are steps of all. -/
theorem phases_hidden {body : O → Body S R} [DecidableEq T] {c c' : Monitor.Conf T S O R} {l : Label T O R} (h : Monitor.Step body c l c')
    (hv : visible [l] = []) (t : T) : c'.phase t = .idle ↔ c.phase t = .idle := by
  cases h with
  | call => simp [visible] at hv
  | ret => simp [visible] at hv
  | @lock t' o hp hf =>
    by_cases ht : t = t'
    · subst ht; simp [hp]
    · simp [setPhase_ne _ _ ht]
  | @act t' o f k hp =>
    by_cases ht : t = t'
    · subst ht; simp [hp]
    · simp [setPhase_ne _ _ ht]
  | @unlock t' o r hp =>
    by_cases ht : t = t'
    · subst ht; simp [hp]
    · simp [setPhase_ne _ _ ht]

theorem Match.hidden {body : A → O → Body S R} {cs : A → Monitor.Conf T S O R} {c : Conf T A S O R} {a : A} {ls : List (Label T O R)}
    {ca d : Monitor.Conf T S O R} (h : Match cs c) (hca : cs a = ca) (hs : Monitor.Steps (body a) ca ls d) (hv : visible ls = []) :
    ∃ c', Steps body c (ls.map (tagLabel a)) c' ∧ visible (ls.map (tagLabel a)) = [] ∧ Match (setAt cs a d) c' ∧ ∀ t, d.phase t = .idle ↔ ca.phase t = .idle := by
  induction hs with
  | nil =>
    refine ⟨c, .nil, rfl, ?_, fun _ => Iff.rfl⟩
    rw [← hca, setAt_same]
    exact h
  | @snoc ls c1 l c2 hs hl ih =>
    rw [visible_append, List.append_eq_nil_iff] at hv
    obtain ⟨c', h1, h2, h3, h4⟩ := ih hv.1
    have hl' : Monitor.Step (body a) (setAt cs a c1 a) l c2 := by rw [setAt_self]; exact hl
    obtain ⟨c'', h5, h6⟩ := h3.step hl' (by rintro t o rfl; simp [visible] at hv)
    refine ⟨c'', ?_, ?_, ?_, fun t => (phases_hidden hl hv.2 t).trans (h4 t)⟩
    · rw [List.map_append]
      exact h1.trans (.one h5)
    · rw [List.map_append, visible_append, h2]
      have := hv.2
      cases l <;> simp_all [visible, tagLabel]
    · have : setAt (setAt cs a c1) a c2 = setAt cs a c2 := by
        funext x
        by_cases hx : x = a <;> simp [setAt, hx]
      rwa [this] at h6

theorem steps_split {body : O → Body S R} {c d : Monitor.Conf T S O R} {ls : List (Label T O R)} {e : SeenEv T O R} {v : List (SeenEv T O R)}
    (h : Monitor.Steps body c ls d) (hv : visible ls = e :: v) :
    ∃ l1 c1 l c2 l2, Monitor.Steps body c l1 c1 ∧ visible l1 = [] ∧ Monitor.Step body c1 l c2 ∧ visible [l] = [e] ∧
      Monitor.Steps body c2 l2 d ∧ visible l2 = v ∧ ls = l1 ++ l :: l2 := by
  induction h generalizing v with
  | nil => simp [visible] at hv
  | @snoc ls c1 l c2 hs hl ih =>
    rw [visible_append] at hv
    cases hls : visible ls with
    | nil =>
      rw [hls, List.nil_append] at hv
      have hn : v = [] := by cases l <;> simp_all [visible]
      subst hn
      exact ⟨ls, c1, l, c2, [], hs, hls, hl, hv, .nil, rfl, rfl⟩
    | cons e' v' =>
      rw [hls, List.cons_append, List.cons.injEq] at hv
      obtain ⟨rfl, rfl⟩ := hv
      obtain ⟨l1, d1, m, d2, l2, h1, h2, h3, h4, h5, h6, h7⟩ := ih hls
      exact ⟨l1, d1, m, d2, l2 ++ [l], h1, h2, h3, h4, .snoc h5 hl, by rw [visible_append, h6], by rw [h7]; simp⟩

/-- All executions put together, as the history says. -/
theorem together {body : A → O → Body S R} (Q : T × (A × O) × R → Prop) : ∀ (K H : List (SeenEv T (A × O) R)) (cs : A → Monitor.Conf T S O R)
    (c : Conf T A S O R), Match cs c →
    (∀ a, ∃ ls d, Monitor.Steps (body a) (cs a) ls d ∧ visible ls = historyOf a K ∧ ∀ e ∈ completed ls, Q (tagEvent a e)) →
    (∀ t a, (cs a).phase t ≠ .idle → ∃ (i : Nat) (o : O), H[i]? = some (.call t (a, o)) ∧ ∀ k e, i < k → H[k]? = some e → e.who ≠ t) →
    OneByOne (H ++ K) → ∃ ls c', Steps body c ls c' ∧ visible ls = K ∧ ∀ e ∈ completed ls, Q e
  | [], _, _, c, _, _, _, _ => ⟨[], c, .nil, rfl, by simp [completed]⟩
  | ev :: K, H, cs, c, hm, hr, hl, ho => by
    obtain ⟨a, e, he⟩ : ∃ a e, SeenEv.on a ev = some e := by
      cases ev with
      | call t o => exact ⟨o.1, _, by simp [SeenEv.on]; rfl⟩
      | ret t o r => exact ⟨o.1, _, by simp [SeenEv.on]; rfl⟩
    obtain ⟨ls, d, h1, h2, h3⟩ := hr a
    have h2' : visible ls = e :: historyOf a K := by rw [h2, historyOf, List.filterMap_cons, he]; rfl
    obtain ⟨l1, c1, l, c2, l2, g1, g2, g3, g4, g5, g6, rfl⟩ := steps_split h1 h2'
    obtain ⟨c', k1, k2, k3, k4⟩ := hm.hidden rfl g1 g2
    have g3' : Monitor.Step (body a) (setAt cs a c1 a) l c2 := by rw [setAt_self]; exact g3
    -- a thread that calls is idle
    have hidle : ∀ t o, l = .call t o → ∀ a', (setAt cs a c1 a').phase t = .idle := by
      rintro t o rfl a'
      have hev : ev = .call t (a, o) := by
        simp only [visible, List.filterMap_cons, List.filterMap_nil, List.cons.injEq, and_true] at g4
        subst g4
        cases ev with
        | call t' o' =>
          simp only [SeenEv.on, Option.ite_none_right_eq_some, Option.some.injEq, SeenEv.call.injEq] at he
          obtain ⟨rfl, rfl, rfl⟩ := he
          rfl
        | ret t' o' r => simp [SeenEv.on] at he
      by_contra hn
      have hn' : (cs a').phase t ≠ .idle := by
        by_cases ha : a' = a
        · subst ha
          rw [setAt_self] at hn
          exact fun e => hn ((k4 t).2 e)
        · rwa [setAt_ne _ _ ha] at hn
      obtain ⟨i, o', hi, hk⟩ := hl t a' hn'
      have hil := Monitor.get_lt hi
      obtain ⟨o'', r, hret⟩ := ho.2 H.length t (a, o) i (by simp [hev]) ⟨hil, ⟨_, by rw [List.getElem?_append_left hil]; exact hi, rfl⟩,
        fun k e' hik hkl hke => hk k e' hik (by rwa [List.getElem?_append_left hkl] at hke)⟩
      rw [List.getElem?_append_left hil, hi] at hret
      cases hret
    obtain ⟨c'', k5, k6⟩ := k3.step g3' hidle
    have hss : setAt (setAt cs a c1) a c2 = setAt cs a c2 := by
      funext x
      by_cases hx : x = a <;> simp [setAt, hx]
    rw [hss] at k6
    have hev : visible [tagLabel a l] = [ev] := by
      cases ev with
      | call t' o' =>
        simp only [SeenEv.on, Option.ite_none_right_eq_some, Option.some.injEq] at he
        obtain ⟨rfl, rfl⟩ := he
        cases l <;> simp_all [visible, tagLabel]
      | ret t' o' r =>
        simp only [SeenEv.on, Option.ite_none_right_eq_some, Option.some.injEq] at he
        obtain ⟨rfl, rfl⟩ := he
        cases l <;> simp_all [visible, tagLabel]
    have hcomp : completed (l1 ++ l :: l2) = completed l1 ++ (completed [l] ++ completed l2) := by
      rw [completed_append, ← completed_append [l] l2]; rfl
    rw [hcomp] at h3
    obtain ⟨ls', c3, j1, j2, j3⟩ := together Q K (H ++ [ev]) (setAt cs a c2) c'' k6
      (fun a' => by
        by_cases ha : a' = a
        · subst ha
          rw [setAt_self]
          exact ⟨l2, d, g5, g6, fun x hx => h3 x (by simp [hx])⟩
        · rw [setAt_ne _ _ ha]
          obtain ⟨ls', d', q1, q2, q3⟩ := hr a'
          refine ⟨ls', d', q1, ?_, q3⟩
          rw [q2, historyOf, List.filterMap_cons]
          have : SeenEv.on a' ev = none := by
            cases ev with
            | call t' o' =>
              simp only [SeenEv.on, Option.ite_none_right_eq_some] at he
              have : o'.1 ≠ a' := fun e => ha (e.symm.trans he.1)
              simp [SeenEv.on, this]
            | ret t' o' r =>
              simp only [SeenEv.on, Option.ite_none_right_eq_some] at he
              have : o'.1 ≠ a' := fun e => ha (e.symm.trans he.1)
              simp [SeenEv.on, this]
          rw [this]
          rfl)
      (fun t a' hb => by
        -- the thread that has done this
        have hstep : (∃ o, l = .call t o ∧ ev = .call t (a, o)) ∨ (setAt cs a c1 a').phase t ≠ .idle ∧ ev.who ≠ t ∨ False := by
          by_cases hw : ev.who = t
          · cases l with
            | call t' o =>
              simp only [tagLabel, visible, List.filterMap_cons, List.filterMap_nil, List.cons.injEq, and_true] at hev
              subst hev
              cases hw
              exact .inl ⟨o, rfl, rfl⟩
            | ret t' o r =>
              simp only [tagLabel, visible, List.filterMap_cons, List.filterMap_nil, List.cons.injEq, and_true] at hev
              subst hev
              cases hw
              exfalso
              apply hb
              generalize hx : setAt cs a c1 a = x at g3'
              cases g3' with
              | ret hp =>
                by_cases ha : a' = a
                · subst ha; simp [SeenEv.who]
                · have hbusy : (setAt cs a c1 a).phase t' ≠ .idle := by rw [hx, hp]; simp
                  have := k3.only hbusy ha
                  rwa [setAt_ne _ _ ha] at this ⊢
            | lock => simp [visible] at g4
            | act => simp [visible] at g4
            | unlock => simp [visible] at g4
          · refine .inr (.inl ⟨?_, hw⟩)
            by_cases ha : a' = a
            · subst ha
              rw [setAt_self] at hb ⊢
              have hne : c2.phase t = c1.phase t := by
                cases g3 with
                | @call t' o hp =>
                  have : t ≠ t' := by
                    rintro rfl
                    simp only [tagLabel, visible, List.filterMap_cons, List.filterMap_nil, List.cons.injEq, and_true] at hev
                    exact hw (by rw [← hev]; rfl)
                  exact setPhase_ne _ _ this
                | @ret t' o r hp =>
                  have : t ≠ t' := by
                    rintro rfl
                    simp only [tagLabel, visible, List.filterMap_cons, List.filterMap_nil, List.cons.injEq, and_true] at hev
                    exact hw (by rw [← hev]; rfl)
                  exact setPhase_ne _ _ this
                | lock => simp [visible] at g4
                | act => simp [visible] at g4
                | unlock => simp [visible] at g4
              rwa [hne] at hb
            · rwa [setAt_ne _ _ ha] at hb ⊢
        rcases hstep with ⟨o, rfl, rfl⟩ | ⟨hn, hw⟩ | hf
        · have haa : a' = a := by
            by_contra ha
            apply hb
            rw [setAt_ne _ _ ha]
            have := hidle t o rfl a'
            rwa [setAt_ne _ _ ha] at this
          subst haa
          refine ⟨H.length, o, by simp, fun k e' hk hke => ?_⟩
          have := Monitor.get_lt hke
          simp at this
          omega
        · have hn' : (cs a').phase t ≠ .idle := by
            by_cases ha : a' = a
            · subst ha
              rw [setAt_self] at hn
              exact fun e => hn ((k4 t).2 e)
            · rwa [setAt_ne _ _ ha] at hn
          obtain ⟨i, o, hi, hk⟩ := hl t a' hn'
          have hil := Monitor.get_lt hi
          refine ⟨i, o, by rw [List.getElem?_append_left hil]; exact hi, fun k e' hik hke => ?_⟩
          by_cases hkl : k < H.length
          · rw [List.getElem?_append_left hkl] at hke
            exact hk k e' hik hke
          · have := Monitor.get_lt hke
            simp at this
            have hkk : k = H.length := by omega
            subst hkk
            simp at hke
            subst hke
            exact hw
        · exact hf.elim)
      (by simpa using ho)
    refine ⟨l1.map (tagLabel a) ++ ([tagLabel a l] ++ ls'), c3, k1.trans ((Steps.one k5).trans j1), ?_, ?_⟩
    · rw [visible_append, visible_append, k2, hev, j2]
      rfl
    · intro x hx
      rw [completed_append, completed_append, completed_tag, List.mem_append, List.mem_append] at hx
      rcases hx with hx | hx | hx
      · obtain ⟨y, hy, rfl⟩ := List.mem_map.1 hx
        exact h3 y (by simp [hy])
      · have : completed [tagLabel a l] = (completed [l]).map (tagEvent a) := completed_tag a [l]
        rw [this] at hx
        obtain ⟨y, hy, rfl⟩ := List.mem_map.1 hx
        exact h3 y (by simp [hy])
      · exact j3 x hx

/-- A history can be seen exactly if each thread makes one call after the other and the history of each object can be seen. -/
theorem seen_iff_each (body : A → O → Body S R) (s0 : A → S) (Q : T × (A × O) × R → Prop) (H : List (SeenEv T (A × O) R)) :
    (∃ ls c, Steps body (Conf.init s0) ls c ∧ visible ls = H ∧ ∀ e ∈ completed ls, Q e) ↔
      OneByOne H ∧ ∀ a, ∃ ls c, Monitor.Steps (body a) (Monitor.Conf.init (s0 a)) ls c ∧ visible ls = historyOf a H ∧
        ∀ e ∈ completed ls, Q (tagEvent a e) := by
  constructor
  · rintro ⟨ls, c, h1, rfl, h3⟩
    obtain ⟨L, ho⟩ := order_steps h1
    refine ⟨ho.one, fun a => ?_⟩
    obtain ⟨ls', g1, g2, g3⟩ := steps_on a h1
    refine ⟨ls', _, g1, g2, fun e he => ?_⟩
    rw [g3] at he
    obtain ⟨x, hx, he⟩ := List.mem_filterMap.1 he
    split at he
    · rename_i hxa
      cases he
      subst hxa
      exact h3 x hx
    · cases he
  · rintro ⟨ho, hr⟩
    exact together Q H [] (fun a => Monitor.Conf.init (s0 a)) (Conf.init s0)
      ⟨fun _ => rfl, fun _ => rfl, fun t a h => absurd rfl h, fun _ _ => rfl⟩ hr (fun t a h => absurd rfl h) (by simpa using ho)

/-! ### Nobody waits for more than one mutex -/

/-- A thread in its critical section can leave it on its own. -/
theorem finish_body {body : A → O → Body S R} (t : T) (a : A) (o : O) : ∀ (b : Body S R) (c : Conf T A S O R), c.phase t = .runs (a, o) b →
    ∃ ls c' r, Steps body c ls c' ∧ (∀ l ∈ ls, l.thread = t) ∧ c'.phase t = .leaving (a, o) r ∧ c'.holder a = none ∧
      ∀ t', t' ≠ t → c'.phase t' = c.phase t' := by
  intro b
  induction b with
  | ret r =>
    intro c h
    exact ⟨_, _, r, .one (.unlock h), by simp [Label.thread], by simp, by simp, fun t' ht' => setPhase_ne _ _ ht'⟩
  | act f k ih =>
    intro c h
    obtain ⟨ls, c', r, h1, h2, h3, h4, h5⟩ := ih (c.shared a)
      { c with shared := setAt c.shared a (f (c.shared a)), phase := setPhase c.phase t (.runs (a, o) (k (c.shared a))) } (by simp)
    refine ⟨_, c', r, (Steps.one (.act h)).trans h1, ?_, h3, h4, ?_⟩
    · intro l hl
      rcases List.mem_append.mp hl with hl | hl
      · simp at hl; subst hl; rfl
      · exact h2 l hl
    · intro t' ht'; rw [h5 t' ht']; exact setPhase_ne _ _ ht'

/-- The object a thread has called. -/
def busyWith : Phase S (A × O) R → Option A
  | .idle => none
  | .wants o => some o.1
  | .runs o _ => some o.1
  | .leaving o _ => some o.1

/-- A thread that has called a method can return after steps of its own and of the thread that holds the mutex of this object, whatever the
others do. -/
theorem progress {body : A → O → Body S R} {s0 : A → S} {ls : List (Label T (A × O) R)} {c : Conf T A S O R}
    (h : Steps body (Conf.init s0) ls c) (t : T) (a : A) (hb : busyWith (c.phase t) = some a) :
    ∃ ls' c', Steps body c ls' c' ∧ c'.phase t = .idle ∧ ∀ l ∈ ls', l.thread = t ∨ c.holder a = some l.thread := by
  have inv := inv_steps h
  have fromRuns : ∀ (c : Conf T A S O R) o b, c.phase t = .runs (a, o) b →
      ∃ ls' c', Steps body c ls' c' ∧ c'.phase t = .idle ∧ ∀ l ∈ ls', l.thread = t := by
    intro c o b hp
    obtain ⟨l1, c1, r, h1, h2, h3, _, _⟩ := finish_body (body := body) t a o b c hp
    refine ⟨_, _, h1.trans (.one (.ret h3)), by simp, ?_⟩
    intro l hl
    rcases List.mem_append.mp hl with hl | hl
    · exact h2 l hl
    · simp at hl; subst hl; rfl
  have fromWants : ∀ (c : Conf T A S O R) o, c.phase t = .wants (a, o) → c.holder a = none →
      ∃ ls' c', Steps body c ls' c' ∧ c'.phase t = .idle ∧ ∀ l ∈ ls', l.thread = t := by
    intro c o hp hf
    obtain ⟨l1, c1, h1, h2, h3⟩ := fromRuns _ o (body a o)
      (show (Conf.mk c.shared (setAt c.holder a (some t)) (setPhase c.phase t (.runs (a, o) (body a o)))).phase t = _ by simp)
    refine ⟨_, c1, (Steps.one (.lock hp hf)).trans h1, h2, ?_⟩
    intro l hl
    rcases List.mem_append.mp hl with hl | hl
    · simp at hl; subst hl; rfl
    · exact h3 l hl
  cases hp : c.phase t with
  | idle => simp [hp, busyWith] at hb
  | leaving o r =>
    exact ⟨_, _, .one (.ret (a := o.1) (o := o.2) hp), by simp, by simp [Label.thread]⟩
  | runs o b =>
    obtain ⟨a', o⟩ := o
    rw [hp] at hb
    cases hb
    obtain ⟨l1, c1, h1, h2, h3⟩ := fromRuns c o b hp
    exact ⟨l1, c1, h1, h2, fun l hl => .inl (h3 l hl)⟩
  | wants o =>
    obtain ⟨a', o⟩ := o
    rw [hp] at hb
    cases hb
    cases hh : c.holder a' with
    | none =>
      obtain ⟨l1, c1, h1, h2, h3⟩ := fromWants c o hp hh
      exact ⟨l1, c1, h1, h2, fun l hl => .inl (h3 l hl)⟩
    | some u =>
      obtain ⟨o', b, hu⟩ := inv.holds u a' hh
      have hne : t ≠ u := by rintro rfl; rw [hp] at hu; simp at hu
      obtain ⟨l0, c0, r, g1, g2, _, g4, g5⟩ := finish_body (body := body) u a' o' b c hu
      obtain ⟨l1, c1, h1, h2, h3⟩ := fromWants c0 o (by rw [g5 t hne, hp]) g4
      refine ⟨_, c1, g1.trans h1, h2, ?_⟩
      intro l hl
      rcases List.mem_append.mp hl with hl | hl
      · exact .inr (by rw [g2 l hl])
      · exact .inl (h3 l hl)

end SoDa.Monitors
