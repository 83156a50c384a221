import Verif.Proof.BarrierTest
import Verif.Props.Options
import Mathlib.Data.Finset.Max
import Mathlib.Tactic.FinCases
/-!
Property C90: the program test/BarrierTest.cxx.

`Exec p ls s`: with the parameters `p`, `main` and the threads have executed the steps `ls` in some interleaving and reached
the state `s`; `events ls` are the events at the barrier.
-/
set_option linter.unusedSectionVars false
namespace SoDa.BarTest
open Bar Spec

variable {p : Params} {ls : List (Option (Ev (Fin p.n)))} {s : St p.n}

/-- No thread's behaviour is undefined: the longest random wait is not zero, and no seed overflows. -/
def Params.Sound (p : Params) : Prop := p.maxDuration ≠ 0 ∧ p.threads ≤ 9157

/-! ### What is undefined -/

theorem begin_undef (p : Params) (hr : -2147483648 ≤ p.maxDuration ∧ p.maxDuration ≤ 2147483647) (i : Nat) :
    p.begin i = .undef ↔ p.maxDuration = 0 ∨ 9157 ≤ i := by
  unfold Params.begin
  dsimp only
  split
  · next h => simp; omega
  · next h =>
    split
    · next h1 => simp; omega
    · next h1 => simp; omega

/-- `main` alone: it creates the first `k` threads. -/
theorem spawn_exec (p : Params) : ∀ k, k ≤ p.n → ∃ ls s, Exec p ls s ∧ s.main = .spawn k ∧
    ∀ t : Fin p.n, t.val < k → s.loc t = p.begin t.val := by
  intro k
  induction k with
  | zero => exact fun _ => ⟨_, _, Exec.init, rfl, fun t ht => absurd ht (by omega)⟩
  | succ k ih =>
    intro hk
    obtain ⟨ls, s, h1, h2, h3⟩ := ih (by omega)
    refine ⟨_, _, h1.snoc (Step.spawn h2 (by omega)), rfl, ?_⟩
    intro t ht
    show set s.loc ⟨k, _⟩ (p.begin k) t = _
    unfold set
    split
    · next h => rw [h]
    · next h => exact h3 t (by have : t.val ≠ k := fun h' => h (Fin.ext h'); omega)

/-- In every execution the behaviour of every thread is defined, exactly if no threads are asked for, or the longest wait is not
zero and at most 9157 threads are asked for (then no seed overflows). -/
theorem C90_defined (p : Params) (hr : -2147483648 ≤ p.maxDuration ∧ p.maxDuration ≤ 2147483647) :
    (∀ ls s, Exec p ls s → ∀ t, s.loc t ≠ .undef) ↔ p.threads ≤ 0 ∨ p.maxDuration ≠ 0 ∧ p.threads ≤ 9157 := by
  constructor
  · intro h
    by_contra hno
    obtain ⟨ls, s, h1, -, h3⟩ := spawn_exec p p.n (le_refl _)
    have hn : 0 < p.n := by unfold Params.n; omega
    by_cases hd : p.maxDuration = 0
    · exact h ls s h1 ⟨0, hn⟩ (by rw [h3 _ hn]; exact (begin_undef p hr 0).2 (.inl hd))
    · have hb : 9157 < p.n := by unfold Params.n; omega
      exact h ls s h1 ⟨9157, hb⟩ (by rw [h3 _ hb]; exact (begin_undef p hr 9157).2 (.inr (le_refl _)))
  · intro hp ls s h t ht
    have g := (inv_exec h).good t
    rw [ht] at g
    have hlt := t.isLt
    have := (begin_undef p hr t.val).1 g.2.2.2
    unfold Params.n at hlt
    omega

theorem not_undef (hp : p.Sound) (hr : -2147483648 ≤ p.maxDuration ∧ p.maxDuration ≤ 2147483647)
    (h : Exec p ls s) (t : Fin p.n) : s.loc t ≠ .undef :=
  (C90_defined p hr).2 (.inr hp) ls s h t

/-! ### Without timeouts -/

theorem n_lt (p : Params) (hr : p.threads ≤ 2147483647) : p.n < 2 ^ 32 := by
  unfold Params.n; omega

/-- As long as no deadline has been reached, no thread has caught an exception. -/
theorem C90_no_exception (h : Exec p ls s) (hd : NoDeadline (events ls)) (t : Fin p.n) : s.loc t ≠ .caught := by
  intro ht
  have hi := inv_exec h
  have g := hi.good t
  rw [ht] at g
  have h1 := raise_deadline hi.run t
  have h2 : deadlinesOf t (events ls) = 0 := by
    unfold deadlinesOf
    rw [List.countP_eq_zero]
    intro e he
    simp only [decide_eq_true_eq]
    rintro rfl
    exact hd t he
  have := g.2.2
  omega

/-- The threads stay in step: as long as no deadline has been reached, a thread that is about to begin trial `i` finds
every other thread about to begin the same trial, or at the barrier in this or the preceding trial; in the first trial
some threads may not have been created, and after the last some may have returned. -/
theorem C90_in_step (hr : p.threads ≤ 2147483647) (h : Exec p ls s) (hd : NoDeadline (events ls)) (t u : Fin p.n) (i : Int)
    (ht : s.loc t = .loop i) :
    match s.loc u with
    | .unborn | .undef => i = 0
    | .loop j => j = i
    | .inWait j => j = i ∨ j + 1 = i
    | .done => i = p.trials.toNat
    | .caught => False := by
  have hi := inv_exec h
  have gt := hi.good t
  have gu := hi.good u
  have c1 := C48_rounds (n_lt p hr) (Fintype.card_fin _) hi.run hd t u
  have c2 := C48_rounds (n_lt p hr) (Fintype.card_fin _) hi.run hd u t
  rw [ht] at gt
  obtain ⟨-, g1, g2, g3, g4, g5⟩ := gt
  cases hu : s.loc u <;> rw [hu] at gu <;> simp only [Good] at gu
  case unborn => have := gu.2.1; omega
  case undef => have := gu.2.1; omega
  case loop j => omega
  case inWait j => omega
  case done => have := gu.2.1; have := gu.2.2.2; show i = p.trials.toNat; omega
  case caught => exact absurd hu (C90_no_exception h hd u)

/-- When the program ends without any deadline having been reached, the exit code is 0 and every thread has passed the barrier
as often as there are trials. -/
theorem C90_all_pass (h : Exec p ls s) (hd : NoDeadline (events ls)) (c : Int) (hm : s.main = .exited c) :
    c = 0 ∧ ∀ t, s.loc t = .done ∧ returnsTo t (events ls) = p.trials.toNat := by
  have hi := inv_exec h
  obtain ⟨h1, h2⟩ := hi.exited c hm
  refine ⟨h1, fun t => ?_⟩
  have h3 := h2 t
  have g := hi.good t
  cases hl : s.loc t <;> rw [hl] at h3 g <;> simp only [Loc.ended] at h3 <;> try cases h3
  · exact ⟨rfl, g.2.2.2⟩
  · exact absurd hl (C90_no_exception h hd t)

/-! ### With and without timeouts -/

/-- The exit code is 0 whatever has happened, and then every thread has returned. -/
theorem C90_exit_code (h : Exec p ls s) (c : Int) (hm : s.main = .exited c) :
    c = 0 ∧ ∀ t, s.loc t = .done ∨ s.loc t = .caught := by
  obtain ⟨h1, h2⟩ := (inv_exec h).exited c hm
  refine ⟨h1, fun t => ?_⟩
  have h3 := h2 t
  cases hl : s.loc t <;> rw [hl] at h3 <;> simp only [Loc.ended] at h3 <;> simp_all

theorem length_split {n : Nat} (ls : List (Option (Ev (Fin n)))) :
    ls.length = (events ls).length + ls.countP (fun l => l.isNone) := by
  unfold events
  induction ls with
  | nil => rfl
  | cons l ls ih => cases l <;> simp [ih] <;> omega

/-- Every execution is finite: with `n` threads there are at most `n * trials` calls of `wait`, `(8 n + 19) * n * trials` events at
the barrier, and `3 n + 2` other steps, if the condition variable does not wake anybody spuriously, and five more for each
time it does. -/
theorem C90_bounded (h : Exec p ls s) :
    allCalls (events ls) ≤ p.n * p.trials.toNat ∧
    ls.length ≤ (8 * p.n + 19) * (p.n * p.trials.toNat) + 5 * spuriousCount (events ls) + (3 * p.n + 2) := by
  have hi := inv_exec h
  have hcalls : ∀ t, callsBy t (events ls) ≤ p.trials.toNat := by
    intro t
    have g := hi.good t
    cases hl : s.loc t <;> rw [hl] at g <;> simp only [Good] at g <;> omega
  have h1 : allCalls (events ls) ≤ p.n * p.trials.toNat := by
    rw [allCalls_sum]
    calc _ ≤ ∑ _ : Fin p.n, p.trials.toNat := Finset.sum_le_sum fun t _ => hcalls t
      _ = _ := by rw [Finset.sum_const, Finset.card_univ, Fintype.card_fin]; rfl
  have h2 : allDeadlines (events ls) ≤ p.n * p.trials.toNat := by
    rw [allDeadlines_sum]
    calc _ ≤ ∑ _ : Fin p.n, p.trials.toNat :=
          Finset.sum_le_sum fun t _ => by have := deadlines_le_calls hi.run t; have := hcalls t; omega
      _ = _ := by rw [Finset.sum_const, Finset.card_univ, Fintype.card_fin]; rfl
  refine ⟨h1, ?_⟩
  have h3 := events_bound hi.run
  rw [Fintype.card_fin] at h3
  have h4 := hi.quiet
  have h5 : (Finset.univ.filter fun t => s.loc t = .done).card ≤ p.n := by
    have := Finset.card_filter_le (Finset.univ : Finset (Fin p.n)) (fun t => s.loc t = .done)
    rwa [Finset.card_univ, Fintype.card_fin] at this
  have h6 : s.main.steps p.n ≤ 2 * p.n + 2 := by
    cases hm : s.main with
    | spawn i => have := (hi.spawn i hm).1; simp only [Main.steps]; omega
    | join i => have := (hi.joined i hm).1; simp only [Main.steps]; omega
    | exited c => simp [Main.steps]
  rw [length_split]
  have h7 := Nat.mul_le_mul_left (4 * p.n + 10) h1
  have h8 := Nat.mul_le_mul_left (4 * p.n + 9) h2
  have h9 : (8 * p.n + 19) * (p.n * p.trials.toNat) =
      (4 * p.n + 10) * (p.n * p.trials.toNat) + (4 * p.n + 9) * (p.n * p.trials.toNat) := by
    rw [← Nat.add_mul]; congr 1; omega
  omega

/-- The label of a step that is neither a spurious wake-up nor, unless allowed, a deadline. -/
def Proper (deadlines : Bool) {n : Nat} : Option (Ev (Fin n)) → Prop
  | some (.spurious _) => False
  | some (.deadline _) => deadlines = true
  | _ => True

theorem go_proper {n : Nat} {c c' : Conf (Fin n)} {t e} (hs : Bar.step n c t .go = some (c', e)) (b : Bool) :
    Proper b (some e) := by
  rcases step_self hs with ⟨rfl, -⟩ | ⟨o, rfl, -⟩ | ⟨rfl, -⟩ | ⟨r, hr, rfl, -⟩ | ⟨he, -⟩ <;> try trivial
  rcases he with rfl | rfl | rfl
  · trivial
  · exfalso
    simp only [Bar.step, stepGo] at hs
    cases hp : c.pc t <;> rw [hp] at hs <;> simp only [] at hs
    case out r => cases r <;> simp at hs
    case wantLock => split at hs <;> simp at hs
    case woken => split at hs <;> simp at hs
    case pred => split at hs <;> simp at hs
    all_goals simp at hs
  · obtain ⟨old, h1, -⟩ := step_deadline hs rfl
    simp [Bar.step, stepGo, h1] at hs

/-- The program never hangs: as long as it has not ended, `main` or some thread can go on, or a thread that sleeps at the
barrier reaches its deadline (100 ms).  As long as no deadline has been reached, none is needed. -/
theorem C90_goes_on (hp : p.Sound) (hr : -2147483648 ≤ p.maxDuration ∧ p.maxDuration ≤ 2147483647) (h : Exec p ls s)
    (hm : ∀ c, s.main ≠ .exited c) :
    (∃ l s', Step p s l s' ∧ Proper true l) ∧
    (NoDeadline (events ls) → ∃ l s', Step p s l s' ∧ Proper false l) := by
  have hi := inv_exec h
  -- either a proper step without deadlines, or all threads have ended or sleep
  have key : (∃ l s', Step p s l s' ∧ ∀ b, Proper b l) ∨
      ((∀ t, Bar.step p.n s.bar t .go = none) ∧
        (∀ t, s.loc t = .done ∨ s.loc t = .caught ∨ ∃ i, s.loc t = .inWait i) ∧ ∃ t i, s.loc t = .inWait i) := by
    by_cases hgo : ∃ t b e, Bar.step p.n s.bar t .go = some (b, e)
    · obtain ⟨t, b, e, hs⟩ := hgo
      exact .inl ⟨_, _, Step.bar hs (by simp), fun b => go_proper hs b⟩
    have hstuck : ∀ t, Bar.step p.n s.bar t .go = none := by
      intro t
      cases hq : Bar.step p.n s.bar t .go with
      | none => rfl
      | some x => exact absurd ⟨t, x.1, x.2, hq⟩ hgo
    by_cases hloop : ∃ t i, s.loc t = .loop i
    · left
      obtain ⟨t, i, hl⟩ := hloop
      by_cases hlt : i < p.trials
      · have g := hi.good t
        rw [hl] at g
        have hs : Bar.step p.n s.bar t .call = some (s.bar.goto t .start, .call t) := by simp [Bar.step, g.1]
        exact ⟨_, _, Step.bar hs (fun _ => ⟨i, hl, hlt⟩), fun _ => trivial⟩
      · exact ⟨_, _, Step.leave hl hlt, fun _ => trivial⟩
    cases hmain : s.main with
    | exited c => exact absurd hmain (hm c)
    | spawn i =>
      left
      by_cases hlt : i < p.n
      · exact ⟨_, _, Step.spawn hmain hlt, fun _ => trivial⟩
      · have : i = p.n := by have := (hi.spawn i hmain).1; omega
        exact ⟨_, _, Step.spawned (this ▸ hmain), fun _ => trivial⟩
    | join i =>
      by_cases hlt : i < p.n
      · by_cases he : (s.loc ⟨i, hlt⟩).ended = true
        · exact .inl ⟨_, _, Step.join hmain hlt he, fun _ => trivial⟩
        · right
          have hall : ∀ t, s.loc t = .done ∨ s.loc t = .caught ∨ ∃ i, s.loc t = .inWait i := by
            intro t
            cases hl : s.loc t with
            | unborn => exact absurd hl (hi.born (by simp [hmain]) t)
            | undef => exact absurd hl (not_undef hp hr h t)
            | loop j => exact absurd ⟨t, j, hl⟩ hloop
            | done => exact .inl rfl
            | caught => exact .inr (.inl rfl)
            | inWait j => exact .inr (.inr ⟨j, rfl⟩)
          refine ⟨hstuck, hall, ⟨i, hlt⟩, ?_⟩
          rcases hall ⟨i, hlt⟩ with h1 | h1 | h1
          · rw [h1] at he; exact absurd rfl he
          · rw [h1] at he; exact absurd rfl he
          · exact h1
      · left
        have : i = p.n := by have := (hi.joined i hmain).1; omega
        exact ⟨_, _, Step.exit (this ▸ hmain), fun _ => trivial⟩
  rcases key with ⟨l, s', h1, h2⟩ | ⟨hstuck, hall, t, i, ht⟩
  · exact ⟨⟨l, s', h1, h2 _⟩, fun _ => ⟨l, s', h1, h2 _⟩⟩
  · constructor
    · -- the sleeping thread reaches its deadline
      have g := hi.good t
      rw [ht] at g
      rcases (C83_stuck hi.run hstuck).2 t with h1 | h1
      · exact absurd h1 g.1
      · have hs : Bar.step p.n s.bar t .deadline = some (s.bar.goto t (.woken s.bar.count true), .deadline t) := by
          simp [Bar.step, h1]
        exact ⟨_, _, Step.bar hs (by simp), rfl⟩
    · intro hd
      exfalso
      -- the sleeping thread with the fewest calls
      classical
      have hfin : (Finset.univ.filter fun u : Fin p.n => ∃ i, s.loc u = Loc.inWait i).Nonempty :=
        ⟨t, by simp only [Finset.mem_filter, Finset.mem_univ, true_and]; exact ⟨i, ht⟩⟩
      obtain ⟨u, hu, hmin⟩ := Finset.exists_min_image _ (fun u => callsBy u (events ls)) hfin
      simp only [Finset.mem_filter, Finset.mem_univ, true_and] at hu hmin
      obtain ⟨j, hj⟩ := hu
      have gu := hi.good u
      rw [hj] at gu
      obtain ⟨-, g1, g2, g3, g4, g5⟩ := gu
      have hle : ∀ v, callsBy u (events ls) ≤ callsBy v (events ls) := by
        intro v
        rcases hall v with hv | hv | hv
        · have gv := hi.good v
          rw [hv] at gv
          have := gv.2.1
          omega
        · exact absurd hv (C90_no_exception h hd v)
        · exact hmin v hv
      have h1 : 1 ≤ p.n := by have := u.isLt; omega
      have h2 : p.n < 4294967296 := by have := hp.2; unfold Params.n; omega
      have := stuck_done h1 h2 (Fintype.card_fin _) hi.run hd hstuck hle u
      omega

/-! ### Concrete executions -/

/-- A choice of the scheduler. -/
inductive Pick (n : Nat) where
  | main
  | bar (t : Fin n) (m : Move)
  | leave (t : Fin n)

/-- The step that is made then. -/
def pick (p : Params) (s : St p.n) : Pick p.n → Option (Option (Ev (Fin p.n)) × St p.n)
  | .main => match s.main with
    | .spawn i =>
      if h : i < p.n then some (none, { s with main := .spawn (i + 1), loc := set s.loc ⟨i, h⟩ (p.begin i) })
      else if i = p.n then some (none, { s with main := .join 0 }) else none
    | .join i =>
      if h : i < p.n then
        (if (s.loc ⟨i, h⟩).ended = true then some (none, { s with main := .join (i + 1) }) else none)
      else if i = p.n then some (none, { s with main := .exited 0 }) else none
    | .exited _ => none
  | .bar t m =>
    match Bar.step p.n s.bar t m with
    | none => none
    | some (b, e) =>
      match s.loc t with
      | .loop i => if m = .call → i < p.trials then some (some e, { s with bar := b, loc := afterBar s.loc e }) else none
      | _ => if m = .call then none else some (some e, { s with bar := b, loc := afterBar s.loc e })
  | .leave t => match s.loc t with
    | .loop i => if i < p.trials then none else some (none, { s with loc := set s.loc t .done })
    | _ => none

theorem pick_step {p : Params} {s : St p.n} {k l s'} (h : pick p s k = some (l, s')) : Step p s l s' := by
  cases k with
  | main =>
    simp only [pick] at h
    split at h
    · next i hm =>
      split at h
      · cases h; exact Step.spawn hm _
      · split at h
        · next h1 => cases h; exact Step.spawned (h1 ▸ hm)
        · cases h
    · next i hm =>
      split at h
      · split at h
        · next h1 => cases h; exact Step.join hm _ h1
        · cases h
      · split at h
        · next h1 => cases h; exact Step.exit (h1 ▸ hm)
        · cases h
    · cases h
  | bar t m =>
    simp only [pick] at h
    split at h
    · cases h
    · next b e hs =>
      split at h
      · next i hl =>
        split at h
        · next h1 => cases h; exact Step.bar hs fun hm => ⟨i, hl, h1 hm⟩
        · cases h
      · split at h
        · cases h
        · next h1 => cases h; exact Step.bar hs fun hm => absurd hm h1
  | leave t =>
    simp only [pick] at h
    split at h
    · next i hl =>
      split at h
      · cases h
      · next h1 => cases h; exact Step.leave hl h1
    · cases h

/-- Execute a list of choices. -/
def picks (p : Params) : List (Pick p.n) → List (Option (Ev (Fin p.n))) × St p.n →
    Option (List (Option (Ev (Fin p.n))) × St p.n)
  | [], x => some x
  | k :: ks, (ls, s) =>
    match pick p s k with
    | none => none
    | some (l, s') => picks p ks (ls ++ [l], s')

theorem picks_exec {p : Params} : ∀ (ks : List (Pick p.n)) ls s ls' s', Exec p ls s → picks p ks (ls, s) = some (ls', s') →
    Exec p ls' s' := by
  intro ks
  induction ks with
  | nil => intro ls s ls' s' h hk; cases hk; exact h
  | cons k ks ih =>
    intro ls s ls' s' h hk
    simp only [picks] at hk
    split at hk
    · cases hk
    · next l s₁ hp => exact ih _ _ _ _ (h.snoc (pick_step hp)) hk

/-- One trial of two threads, at most 50 microseconds apart. -/
def two : Params := ⟨1, 2, 50⟩

instance : NeZero two.n := ⟨by decide⟩

example : two.Sound := by unfold Params.Sound two; simp

/-- `main` creates two threads; thread 0 waits, thread 1 arrives, both return; `main` joins them. -/
def twoPass : List (Pick two.n) :=
  [.main, .main, .main, .bar 0 .call] ++ List.replicate 5 (.bar 0 .go) ++ [.bar 1 .call] ++
  List.replicate 9 (.bar 1 .go) ++ List.replicate 4 (.bar 0 .go) ++ [.leave 0, .leave 1, .main, .main, .main]

/-- Thread 0 reaches its deadline before thread 1 arrives; thread 1 then waits, and reaches its own. -/
def twoFail : List (Pick two.n) :=
  [.main, .main, .main, .bar 0 .call] ++ List.replicate 5 (.bar 0 .go) ++ [.bar 0 .deadline] ++
  List.replicate 8 (.bar 0 .go) ++ [.bar 1 .call] ++ List.replicate 9 (.bar 1 .go) ++
  [.leave 1, .main, .main, .main]

example : ∃ ls s, Exec two ls s ∧ NoDeadline (events ls) ∧ s.main = .exited 0 ∧ s.loc 0 = .done ∧ s.loc 1 = .done := by
  refine ⟨_, _, picks_exec twoPass [] _ _ _ Exec.init (by rfl), ?_, by decide, by decide, by decide⟩
  unfold NoDeadline
  decide

/-- A barrier that times out does not change the exit code (it shows in what is printed, C95): here a thread catches an exception, the other one passes the barrier alone, and
the exit code is 0. -/
theorem C90_timeout_unnoticed : ∃ p ls s, Exec p ls s ∧ p.Sound ∧ s.main = .exited 0 ∧ ∃ t, s.loc t = .caught := by
  refine ⟨two, _, _, picks_exec twoFail [] _ _ _ Exec.init (by rfl), ?_, by decide, 0, by decide⟩
  unfold Params.Sound two; simp

/-! ### The command line -/

open Opts

/-- One of the three options on the command line, by its long or its short name, with a value. -/
structure Arg where
  which : Fin 3
  short : Bool
  text : Str
  value : Int

/-- The switch, as documented by the help text. -/
def switchOf (which : Fin 3) (short : Bool) : Str :=
  match which, short with
  | 0, false => "--trials".toList
  | 0, true => "-r".toList
  | 1, false => "--threads".toList
  | 1, true => "-t".toList
  | 2, false => "--maddur".toList
  | 2, true => "-m".toList

def Arg.switch (a : Arg) : Str := switchOf a.which a.short

/-- The text is that of an `int`. -/
def Arg.Valid (a : Arg) : Prop := BeginsWithInt a.text a.value ∧ -2147483648 ≤ a.value ∧ a.value ≤ 2147483647

/-- The value of the last of the arguments for option `k`, or its default. -/
def lastOr (k : Fin 3) (dflt : Int) (as : List Arg) : Int :=
  ((as.filter fun a => a.which = k).getLast?.map Arg.value).getD dflt

variable (sc : Nat → Val) (vec : Nat → List Val)

theorem cmd_ready : Ready (cmd sc vec) :=
  .addDef _ _ _ _ _ _ _ _ (.addDef _ _ _ _ _ _ _ _ (.addDef _ _ _ _ _ _ _ _ (.new _ _ _)))

/-- The declaration of option `k`. -/
def declOf (k : Fin 3) : Decl Val :=
  match k with
  | 0 => (cmd sc vec).decls[0]'(by simp [cmd, Options.addDef, Options.registerOpt, Options.new])
  | 1 => (cmd sc vec).decls[1]'(by simp [cmd, Options.addDef, Options.registerOpt, Options.new])
  | 2 => (cmd sc vec).decls[2]'(by simp [cmd, Options.addDef, Options.registerOpt, Options.new])

def Arg.item (a : Arg) : LineItem Val := .value a.switch a.which.val (declOf sc vec a.which) a.text (.int a.value)

theorem item_wf (a : Arg) (ha : a.Valid) : (a.item sc vec).WellFormed (cmd sc vec).decls := by
  have hw := (cmd_ready sc vec).wf
  have hr : intTy.read a.text = some (.int a.value) := (intTy_read_iff _ _).2 ⟨_, rfl, ha.1, ha.2.1, ha.2.2⟩
  obtain ⟨k, b, txt, v⟩ := a
  have main : Denotes (cmd sc vec).decls (Arg.mk k b txt v).switch k.val (declOf sc vec k) ∧
      ¬ HelpSwitch (Arg.mk k b txt v).switch := by
    have hh : ¬ HelpSwitch (switchOf k b) :=
      not_help (by clear ha hr; revert k b; decide) (by clear ha hr; revert k b; decide)
    fin_cases k <;> cases b
    · exact ⟨.long (n := "trials".toList) (by simp) (isLast_of_findLong hw (by rfl) rfl), hh⟩
    · exact ⟨.short (c := 'r') (r := []) (by decide) (isLast_of_findAb hw (by rfl) rfl), hh⟩
    · exact ⟨.long (n := "threads".toList) (by simp) (isLast_of_findLong hw (by rfl) rfl), hh⟩
    · exact ⟨.short (c := 't') (r := []) (by decide) (isLast_of_findAb hw (by rfl) rfl), hh⟩
    · exact ⟨.long (n := "maddur".toList) (by simp) (isLast_of_findLong hw (by rfl) rfl), hh⟩
    · exact ⟨.short (c := 'm') (r := []) (by decide) (isLast_of_findAb hw (by rfl) rfl), hh⟩
  have hd : (declOf sc vec k).kind = .scalar ∧ (declOf sc vec k).isSigned = true ∧ (declOf sc vec k).read = intTy.read ∧
      (declOf sc vec k).test = fun _ => true := by
    fin_cases k <;> exact ⟨rfl, rfl, rfl, rfl⟩
  exact ⟨main.1, main.2, by show (declOf sc vec k).kind ≠ _; rw [hd.1]; simp, .inl (.inl hd.2.1),
    by show (declOf sc vec k).read _ = _; rw [hd.2.2.1]; exact hr, by rw [hd.2.2.2]⟩

theorem values_items (k : Fin 3) (as : List Arg) :
    scalarValues k.val (as.map (Arg.item sc vec)) = (as.filter fun a => a.which = k).map fun a => Val.int a.value := by
  induction as with
  | nil => rfl
  | cons a as ih =>
    have h1 : (declOf sc vec a.which).kind = .scalar := by
      obtain ⟨j, b, txt, v⟩ := a
      fin_cases j <;> rfl
    have h2 : (declOf sc vec a.which).target = a.which.val := by
      obtain ⟨j, b, txt, v⟩ := a
      fin_cases j <;> rfl
    simp only [List.map_cons, Arg.item, scalarValues, h1, h2, true_and]
    by_cases hk : a.which = k
    · rw [if_pos (by rw [hk]), List.filter_cons_of_pos (by simpa using hk), List.map_cons, ← ih]; rfl
    · rw [if_neg (fun h => hk (Fin.ext h)), List.filter_cons_of_neg (by simpa using hk), ← ih]; rfl

/-- For every list of options in any order, short or long, repeated or not: `testBarrier` is called with the last value given
for each, or its default (100 trials, 10 threads, 50 microseconds). -/
theorem C90_arguments (prog : Str) (as : List Arg) (ha : ∀ a ∈ as, a.Valid) :
    mainParams sc vec (prog :: as.flatMap fun a => [a.switch, a.text]) =
      .ok (some ⟨lastOr 0 100 as, lastOr 1 10 as, lastOr 2 50 as⟩) := by
  obtain ⟨o', h1, h2, -⟩ := C25_well_formed (cmd sc vec) (cmd_ready sc vec) (as.map (Arg.item sc vec)) (by
    intro it hit
    obtain ⟨a, h, rfl⟩ := List.mem_map.1 hit
    exact item_wf sc vec a (ha a h))
  have h3 : (as.map (Arg.item sc vec)).flatMap LineItem.tokens = as.flatMap fun a => [a.switch, a.text] := by
    rw [List.flatMap_map]; rfl
  rw [h3] at h1
  have h4 : (cmd sc vec).parseArgv (prog :: as.flatMap fun a => [a.switch, a.text]) = .ok (o', true) := by
    unfold Options.parseArgv tokensArgv
    have : (cmd sc vec).isKvp = false := rfl
    rw [this]
    simp only [Bool.false_eq_true, if_false]
    cases hq : as with
    | nil => rw [hq] at h1; simp only [List.flatMap_nil] at h1 ⊢; rw [← h1]; rfl
    | cons a as' => rw [← hq, if_neg (by rw [hq]; simp), List.drop_one, List.tail_cons, h1]
  have h5 : ∀ (k : Fin 3) (d : Int), (cmd sc vec).sc k.val = .int d → asInt (o'.sc k.val) = lastOr k d as := by
    intro k d hd
    rw [h2, values_items, hd, List.getLast?_map]
    unfold lastOr
    cases (as.filter fun a => a.which = k).getLast? <;> rfl
  unfold mainParams
  rw [h4]
  simp only [Res.ok.injEq, Option.some.injEq, Params.mk.injEq]
  exact ⟨h5 0 100 rfl, h5 1 10 rfl, h5 2 50 rfl⟩

/-- No command line makes the reading of the options undefined. -/
theorem C90_parse_defined (argv : List Str) : ∃ r, mainParams sc vec argv = .ok r := by
  unfold mainParams Options.parseArgv
  have : (cmd sc vec).isKvp = false := rfl
  rw [this]
  simp only [Bool.false_eq_true, if_false]
  split <;> simp_all

/-- The program ends with -1, and the test is not run, exactly for the lines with an unknown switch, a request for help or
a value that is not an `int`. -/
theorem C90_refuses (prog : Str) (ts : List Str) (its : List (LineItem Val)) (e : Ending Val)
    (hr : Reads (cmd sc vec).decls ts its e) :
    mainParams sc vec (prog :: ts) = .ok none ↔
      (∃ sw, e = .unknown sw) ∨ (∃ sw, e = .help sw) ∨ ∃ sw i d txt, e = .rejected sw i d txt := by
  have hp := parse_reads (cmd_ready sc vec).wf (cmd_ready sc vec).waiting hr
  unfold mainParams
  rw [C37_argv _ rfl, hp]
  cases e with
  | done => simp [finish]
  | dangling => simp [finish]
  | unknown sw => simp [finish]
  | help sw => simp [finish]
  | rejected sw i d txt => simp [finish]

/-- `BarrierTest -t 3 --help`. -/
example : mainParams sc vec (["BarrierTest", "-t", "3", "--help"].map String.toList) = .ok none := by
  obtain ⟨h1, h2, h3, h4, h5⟩ := item_wf sc vec ⟨1, true, "3".toList, 3⟩ ⟨begins_showInt 3, by decide, by decide⟩
  exact (C90_refuses sc vec _ _ _ _ (.value h1 h2 h3 h4 h5 (.help (.inl rfl)))).2 (.inr (.inl ⟨_, rfl⟩))

/-- `BarrierTest -t 3 --trials 7 -t 4`. -/
example : mainParams sc vec (["BarrierTest", "-t", "3", "--trials", "7", "-t", "4"].map String.toList) =
    .ok (some ⟨7, 4, 50⟩) :=
  C90_arguments sc vec "BarrierTest".toList [⟨1, true, "3".toList, 3⟩, ⟨0, false, "7".toList, 7⟩, ⟨1, true, "4".toList, 4⟩] (by
    intro a h
    simp only [List.mem_cons, List.not_mem_nil, or_false] at h
    rcases h with rfl | rfl | rfl
    · exact ⟨begins_showInt 3, by decide, by decide⟩
    · exact ⟨begins_showInt 7, by decide, by decide⟩
    · exact ⟨begins_showInt 4, by decide, by decide⟩)

end SoDa.BarTest
