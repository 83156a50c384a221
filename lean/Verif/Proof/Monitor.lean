import Verif.Model.Monitor
/-!
Objects protected by one mutex: mutual exclusion, atomicity of the critical sections, progress.
-/
namespace SoDa.Monitor

variable {T S O R : Type} [DecidableEq T]

@[simp] theorem setPhase_self (f : T → Phase S O R) (t : T) (p : Phase S O R) :
    setPhase f t p t = p := by simp [setPhase]

theorem setPhase_ne (f : T → Phase S O R) {t t' : T} (p : Phase S O R) (h : t' ≠ t) :
    setPhase f t p t' = f t' := by simp [setPhase, h]

/-- The critical sections completed in an execution, in the order of the releases of the mutex. -/
def completed (ls : List (Label T O R)) : List (T × O × R) :=
  ls.filterMap fun
    | .unlock t o r => some (t, o, r)
    | _ => none

/-- Executing calls one after the other without interruption. -/
inductive Serial (body : O → Body S R) : S → List (T × O × R) → S → Prop where
  | nil {s} : Serial body s [] s
  | snoc {s es s' t o r s''} (h : Serial body s es s') (he : (body o).run s' = (s'', r)) :
      Serial body s (es ++ [(t, o, r)]) s''

/-- Invariant of all executions: the thread in a critical section is the holder, and finishing its
body from the current state is like executing its whole body from the state before it. -/
structure Inv (body : O → Body S R) (s0 : S) (es : List (T × O × R)) (c : Conf T S O R) : Prop where
  excl : ∀ t o b, c.phase t = .runs o b → c.holder = some t
  holds : ∀ t, c.holder = some t → ∃ o b, c.phase t = .runs o b
  serial : ∃ s, Serial body s0 es s ∧ (c.holder = none → c.shared = s) ∧
    ∀ t o b, c.phase t = .runs o b → b.run c.shared = (body o).run s

omit [DecidableEq T] in
theorem completed_append (a b : List (Label T O R)) :
    completed (a ++ b) = completed a ++ completed b := by simp [completed]

theorem inv_step {body : O → Body S R} {s0 : S} {es : List (T × O × R)} {c c' : Conf T S O R}
    {l : Label T O R} (h : Inv body s0 es c) (hs : Step body c l c') :
    Inv body s0 (es ++ completed [l]) c' := by
  obtain ⟨hx, hh, s, hser, hfree, hrun⟩ := h
  cases hs with
  | @call t o hp =>
    simp only [completed, List.filterMap_cons, List.filterMap_nil, List.append_nil]
    refine ⟨?_, ?_, s, hser, hfree, ?_⟩
    · intro t' o' b hb
      by_cases ht : t' = t
      · subst ht; simp at hb
      · exact hx t' o' b (by simpa [setPhase_ne _ _ ht] using hb)
    · intro t' ht'
      obtain ⟨o', b, hb⟩ := hh t' ht'
      have ht : t' ≠ t := by rintro rfl; rw [hp] at hb; simp at hb
      exact ⟨o', b, by simpa [setPhase_ne _ _ ht] using hb⟩
    · intro t' o' b hb
      by_cases ht : t' = t
      · subst ht; simp at hb
      · exact hrun t' o' b (by simpa [setPhase_ne _ _ ht] using hb)
  | @lock t o hp hf =>
    simp only [completed, List.filterMap_cons, List.filterMap_nil, List.append_nil]
    have hs := hfree hf
    have none_runs : ∀ t' o' b, c.phase t' = .runs o' b → False := by
      intro t' o' b hb; have := hx t' o' b hb; rw [hf] at this; simp at this
    refine ⟨?_, ?_, s, hser, by simp, ?_⟩
    · intro t' o' b hb
      by_cases ht : t' = t
      · subst ht; rfl
      · exact (none_runs t' o' b (by simpa [setPhase_ne _ _ ht] using hb)).elim
    · intro t' ht'
      have : t = t' := by simpa using ht'
      subst this
      exact ⟨o, body o, by simp⟩
    · intro t' o' b hb
      by_cases ht : t' = t
      · subst ht
        simp only [setPhase_self, Phase.runs.injEq] at hb
        obtain ⟨rfl, rfl⟩ := hb
        rw [hs]
      · exact (none_runs t' o' b (by simpa [setPhase_ne _ _ ht] using hb)).elim
  | @act t o f k hp =>
    simp only [completed, List.filterMap_cons, List.filterMap_nil, List.append_nil]
    have hold := hx t o _ hp
    have only : ∀ t' o' b, c.phase t' = .runs o' b → t' = t := by
      intro t' o' b hb; have := hx t' o' b hb; rw [hold] at this; exact (Option.some.inj this).symm
    refine ⟨?_, ?_, s, hser, by simp [hold], ?_⟩
    · intro t' o' b hb
      by_cases ht : t' = t
      · subst ht; exact hold
      · exact hx t' o' b (by simpa [setPhase_ne _ _ ht] using hb)
    · intro t' ht'
      have : t = t' := by rw [show c.holder = some t from hold] at ht'; exact Option.some.inj ht'
      subst this
      exact ⟨o, k c.shared, by simp⟩
    · intro t' o' b hb
      by_cases ht : t' = t
      · subst ht
        simp only [setPhase_self, Phase.runs.injEq] at hb
        obtain ⟨rfl, rfl⟩ := hb
        have := hrun t' o _ hp
        simpa [Body.run] using this
      · exact absurd (only t' o' b (by simpa [setPhase_ne _ _ ht] using hb)) ht
  | @unlock t o r hp =>
    have hold := hx t o _ hp
    have only : ∀ t' o' b, c.phase t' = .runs o' b → t' = t := by
      intro t' o' b hb; have := hx t' o' b hb; rw [hold] at this; exact (Option.some.inj this).symm
    have hlast := hrun t o _ hp
    refine ⟨?_, by simp, c.shared, .snoc hser hlast.symm, by simp, ?_⟩
    · intro t' o' b hb
      by_cases ht : t' = t
      · subst ht; simp at hb
      · exact absurd (only t' o' b (by simpa [setPhase_ne _ _ ht] using hb)) ht
    · intro t' o' b hb
      by_cases ht : t' = t
      · subst ht; simp at hb
      · exact absurd (only t' o' b (by simpa [setPhase_ne _ _ ht] using hb)) ht
  | @ret t o r hp =>
    simp only [completed, List.filterMap_cons, List.filterMap_nil, List.append_nil]
    refine ⟨?_, ?_, s, hser, hfree, ?_⟩
    · intro t' o' b hb
      by_cases ht : t' = t
      · subst ht; simp at hb
      · exact hx t' o' b (by simpa [setPhase_ne _ _ ht] using hb)
    · intro t' ht'
      obtain ⟨o', b, hb⟩ := hh t' ht'
      have ht : t' ≠ t := by rintro rfl; rw [hp] at hb; simp at hb
      exact ⟨o', b, by simpa [setPhase_ne _ _ ht] using hb⟩
    · intro t' o' b hb
      by_cases ht : t' = t
      · subst ht; simp at hb
      · exact hrun t' o' b (by simpa [setPhase_ne _ _ ht] using hb)

theorem inv_steps {body : O → Body S R} {s0 : S} {ls : List (Label T O R)} {c : Conf T S O R}
    (h : Steps body (Conf.init s0) ls c) : Inv body s0 (completed ls) c := by
  generalize hc : (Conf.init s0 : Conf T S O R) = c0 at h
  induction h with
  | nil =>
    subst hc
    exact ⟨by simp [Conf.init], by simp [Conf.init], s0, .nil, fun _ => rfl, by simp [Conf.init]⟩
  | snoc h hs ih => rw [completed_append]; exact inv_step ih hs

theorem Steps.trans {body : O → Body S R} {a b c : Conf T S O R} {l1 l2 : List (Label T O R)}
    (h1 : Steps body a l1 b) (h2 : Steps body b l2 c) : Steps body a (l1 ++ l2) c := by
  induction h2 with
  | nil => simpa using h1
  | snoc _ hs ih => rw [← List.append_assoc]; exact .snoc ih hs

theorem Steps.one {body : O → Body S R} {a b : Conf T S O R} {l : Label T O R}
    (h : Step body a l b) : Steps body a [l] b := by
  have := Steps.snoc (.nil (body := body) (c := a)) h
  simpa using this

/-- The thread a step belongs to. -/
def Label.thread : Label T O R → T
  | .call t _ => t
  | .lock t => t
  | .act t => t
  | .unlock t _ _ => t
  | .ret t _ _ => t

/-- A thread in its critical section can leave it on its own. -/
theorem finish_body {body : O → Body S R} (t : T) (o : O) : ∀ (b : Body S R) (c : Conf T S O R),
    c.phase t = .runs o b → ∃ ls c' r, Steps body c ls c' ∧ (∀ l ∈ ls, l.thread = t) ∧
      c'.phase t = .leaving o r ∧ c'.holder = none ∧ (∀ t', t' ≠ t → c'.phase t' = c.phase t') := by
  intro b
  induction b with
  | ret r =>
    intro c h
    exact ⟨_, _, r, .one (.unlock h), by simp [Label.thread], by simp, rfl,
      fun t' ht' => setPhase_ne _ _ ht'⟩
  | act f k ih =>
    intro c h
    obtain ⟨ls, c', r, h1, h2, h3, h4, h5⟩ := ih c.shared
      { c with shared := f c.shared, phase := setPhase c.phase t (.runs o (k c.shared)) } (by simp)
    refine ⟨_, c', r, (Steps.one (.act h)).trans h1, ?_, h3, h4, ?_⟩
    · intro l hl
      rcases List.mem_append.mp hl with hl | hl
      · simp at hl; subst hl; rfl
      · exact h2 l hl
    · intro t' ht'; rw [h5 t' ht']; exact setPhase_ne _ _ ht'

/-- Nobody is blocked for ever: whatever the other threads do or do not do, a thread that has
called a method can return after steps of its own and of the thread that holds the mutex. -/
theorem progress {body : O → Body S R} {s0 : S} {ls : List (Label T O R)} {c : Conf T S O R}
    (h : Steps body (Conf.init s0) ls c) (t : T) (hb : c.phase t ≠ .idle) :
    ∃ ls' c', Steps body c ls' c' ∧ c'.phase t = .idle ∧
      ∀ l ∈ ls', l.thread = t ∨ c.holder = some l.thread := by
  have inv := inv_steps h
  -- from the critical section
  have fromRuns : ∀ (c : Conf T S O R) o b, c.phase t = .runs o b →
      ∃ ls' c', Steps body c ls' c' ∧ c'.phase t = .idle ∧ ∀ l ∈ ls', l.thread = t := by
    intro c o b hp
    obtain ⟨l1, c1, r, h1, h2, h3, _, _⟩ := finish_body (body := body) t o b c hp
    refine ⟨_, _, h1.trans (.one (.ret h3)), by simp, ?_⟩
    intro l hl
    rcases List.mem_append.mp hl with hl | hl
    · exact h2 l hl
    · simp at hl; subst hl; rfl
  have fromWants : ∀ (c : Conf T S O R) o, c.phase t = .wants o → c.holder = none →
      ∃ ls' c', Steps body c ls' c' ∧ c'.phase t = .idle ∧ ∀ l ∈ ls', l.thread = t := by
    intro c o hp hf
    obtain ⟨l1, c1, h1, h2, h3⟩ := fromRuns _ o (body o)
      (show (Conf.mk c.shared (some t) (setPhase c.phase t (.runs o (body o)))).phase t = _ by simp)
    refine ⟨_, c1, (Steps.one (.lock hp hf)).trans h1, h2, ?_⟩
    intro l hl
    rcases List.mem_append.mp hl with hl | hl
    · simp at hl; subst hl; rfl
    · exact h3 l hl
  cases hp : c.phase t with
  | idle => exact absurd hp hb
  | leaving o r =>
    exact ⟨_, _, .one (.ret hp), by simp, by simp [Label.thread]⟩
  | runs o b =>
    obtain ⟨l1, c1, h1, h2, h3⟩ := fromRuns c o b hp
    exact ⟨l1, c1, h1, h2, fun l hl => .inl (h3 l hl)⟩
  | wants o =>
    cases hh : c.holder with
    | none =>
      obtain ⟨l1, c1, h1, h2, h3⟩ := fromWants c o hp hh
      exact ⟨l1, c1, h1, h2, fun l hl => .inl (h3 l hl)⟩
    | some u =>
      obtain ⟨o', b, hu⟩ := inv.holds u hh
      have hne : t ≠ u := by rintro rfl; rw [hp] at hu; simp at hu
      obtain ⟨l0, c0, r, g1, g2, _, g4, g5⟩ := finish_body (body := body) u o' b c hu
      obtain ⟨l1, c1, h1, h2, h3⟩ := fromWants c0 o (by rw [g5 t hne, hp]) g4
      refine ⟨_, c1, g1.trans h1, h2, ?_⟩
      intro l hl
      rcases List.mem_append.mp hl with hl | hl
      · exact .inr (by rw [g2 l hl])
      · exact .inl (h3 l hl)

/-! ### Calls and returns of one thread -/

/-- The calls made by thread `t`. -/
def callsOf (t : T) (ls : List (Label T O R)) : List O :=
  ls.filterMap fun
    | .call t' o => if t' = t then some o else none
    | _ => none

/-- The calls of thread `t` that returned, with the responses returned. -/
def returnsOf (t : T) (ls : List (Label T O R)) : List (O × R) :=
  ls.filterMap fun
    | .ret t' o r => if t' = t then some (o, r) else none
    | _ => none

/-- The completed critical sections of thread `t`. -/
def completedOf (t : T) (ls : List (Label T O R)) : List (O × R) :=
  (completed ls).filterMap fun e => if e.1 = t then some e.2 else none

/-- The call thread `t` is executing, if its critical section is not completed. -/
def pendingCall : Phase S O R → List O
  | .wants o => [o]
  | .runs o _ => [o]
  | _ => []

/-- The response thread `t` is about to return. -/
def pendingReturn : Phase S O R → List (O × R)
  | .leaving o r => [(o, r)]
  | _ => []

theorem thread_order {body : O → Body S R} {s0 : S} {ls : List (Label T O R)} {c : Conf T S O R}
    (h : Steps body (Conf.init s0) ls c) (t : T) :
    completedOf t ls = returnsOf t ls ++ pendingReturn (c.phase t) ∧
    callsOf t ls = (completedOf t ls).map (·.1) ++ pendingCall (c.phase t) := by
  generalize hc : (Conf.init s0 : Conf T S O R) = c0 at h
  induction h with
  | nil => subst hc; simp [completedOf, completed, returnsOf, callsOf, Conf.init, pendingReturn, pendingCall]
  | @snoc ls c1 l c2 h hs ih =>
    obtain ⟨ih1, ih2⟩ := ih
    have e1 : completedOf t (ls ++ [l]) = completedOf t ls ++ completedOf t [l] := by
      simp [completedOf, completed]
    have e2 : returnsOf t (ls ++ [l]) = returnsOf t ls ++ returnsOf t [l] := by simp [returnsOf]
    have e3 : callsOf t (ls ++ [l]) = callsOf t ls ++ callsOf t [l] := by simp [callsOf]
    rw [e1, e2, e3, ih2, ih1]
    cases hs with
    | @call u o hp =>
      by_cases hu : t = u
      · subst hu
        simp [completedOf, completed, returnsOf, callsOf, hp, pendingReturn, pendingCall]
      · have hu' : ¬ u = t := fun e => hu e.symm
        simp [completedOf, completed, returnsOf, callsOf, setPhase_ne _ _ hu, hu']
    | @lock u o hp hf =>
      by_cases hu : t = u
      · subst hu
        simp [completedOf, completed, returnsOf, callsOf, hp, pendingReturn, pendingCall]
      · simp [completedOf, completed, returnsOf, callsOf, setPhase_ne _ _ hu]
    | @act u o f k hp =>
      by_cases hu : t = u
      · subst hu
        simp [completedOf, completed, returnsOf, callsOf, hp, pendingReturn, pendingCall]
      · simp [completedOf, completed, returnsOf, callsOf, setPhase_ne _ _ hu]
    | @unlock u o r hp =>
      by_cases hu : t = u
      · subst hu
        simp [completedOf, completed, returnsOf, callsOf, hp, pendingReturn, pendingCall]
      · have hu' : ¬ u = t := fun e => hu e.symm
        simp [completedOf, completed, returnsOf, callsOf, setPhase_ne _ _ hu, hu']
    | @ret u o r hp =>
      by_cases hu : t = u
      · subst hu
        simp [completedOf, completed, returnsOf, callsOf, hp, pendingReturn, pendingCall]
      · have hu' : ¬ u = t := fun e => hu e.symm
        simp [completedOf, completed, returnsOf, callsOf, setPhase_ne _ _ hu, hu']

/-! ### Every sequence of calls is an execution -/

theorem run_alone {body : O → Body S R} (t : T) (o : O) : ∀ (b : Body S R) (c : Conf T S O R),
    c.phase t = .runs o b → ∃ ls c', Steps body c ls c' ∧ completed ls = [(t, o, (b.run c.shared).2)] ∧
      c'.phase t = .leaving o (b.run c.shared).2 ∧ c'.holder = none ∧ c'.shared = (b.run c.shared).1 ∧
      (∀ t', t' ≠ t → c'.phase t' = c.phase t') := by
  intro b
  induction b with
  | ret r =>
    intro c h
    exact ⟨_, _, .one (.unlock h), rfl, by simp [Body.run], rfl, rfl, fun t' ht' => setPhase_ne _ _ ht'⟩
  | act f k ih =>
    intro c h
    obtain ⟨ls, c', h1, h2, h3, h4, h5, h6⟩ := ih c.shared
      { c with shared := f c.shared, phase := setPhase c.phase t (.runs o (k c.shared)) } (by simp)
    refine ⟨_, c', (Steps.one (.act h)).trans h1, ?_, h3, h4, h5, ?_⟩
    · rw [completed_append, h2]; rfl
    · intro t' ht'; rw [h6 t' ht']; exact setPhase_ne _ _ ht'

/-- Calls executed one after the other are a possible execution. -/
theorem serial_steps {body : O → Body S R} {s0 s : S} {es : List (T × O × R)}
    (h : Serial body s0 es s) : ∃ ls c, Steps body (Conf.init s0) ls c ∧ completed ls = es ∧
      c.shared = s ∧ c.holder = none ∧ ∀ t, c.phase t = .idle := by
  induction h with
  | nil => exact ⟨[], _, .nil, rfl, rfl, rfl, fun _ => rfl⟩
  | @snoc es s' t o r s'' h he ih =>
    obtain ⟨ls, c, h1, h2, h3, h4, h5⟩ := ih
    have st1 : Step body c (.call t o) { c with phase := setPhase c.phase t (.wants o) } := .call (h5 t)
    have st2 := Step.lock (body := body) (c := { c with phase := setPhase c.phase t (.wants o) })
      (t := t) (o := o) (by simp) h4
    obtain ⟨l2, c2, g1, g2, g3, g4, g5, g6⟩ := run_alone (body := body) t o (body o) _
      (show (Conf.mk c.shared (some t)
        (setPhase (setPhase c.phase t (.wants o)) t (.runs o (body o)))).phase t = _ by simp)
    refine ⟨_, _, (((h1.snoc st1).snoc st2).trans g1).snoc (.ret g3), ?_, ?_, g4, ?_⟩
    · simp only [completed_append, h2, g2, h3, he]
      simp [completed]
    · show c2.shared = s''
      rw [g5]; simp only [h3, he]
    · intro t'
      by_cases ht : t' = t
      · subst ht; simp
      · simp only [setPhase_ne _ _ ht]
        rw [g6 t' ht]; simp only [setPhase_ne _ _ ht]; exact h5 t'

end SoDa.Monitor
