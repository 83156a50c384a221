import Verif.Spec.BarrierLife
import Verif.Props.BarrierWake
import Verif.Props.Barrier
import Mathlib.Algebra.BigOperators.Fin
import Mathlib.Algebra.BigOperators.Group.Finset.Basic
import Mathlib.Algebra.Order.BigOperators.Group.Finset
/-!
Properties C96 and C102: how long a barrier lives, and when one may be destroyed.
-/
namespace SoDa.Bar
open Spec

section pointers
variable {T : Type} [DecidableEq T] [Fintype T]

structure LInv (t : T) (as : List (Act T)) (s : Life T) : Prop where
  own : ∀ u, obtained t u as = dropped u as + s.own u
  refs : s.refs = ∑ u, s.own u
  busy : ∀ u, s.bar.pc u ≠ .idle → 0 < s.own u
  alive : s.destroyed = if s.refs = 0 then 1 else 0
  marks : as.countP destroys = s.destroyed

theorem linv_exec {n : Nat} {t : T} {as} {s : Life T} (h : Life.Exec n t as s) : LInv t as s := by
  induction h with
  | init =>
    refine ⟨fun u => ?_, ?_, fun u hu => absurd rfl hu, rfl, rfl⟩
    · simp [obtained, dropped, Life.make]
    · simp [Life.make]
  | @snoc as s a s' h hs ih =>
    have hpos : ∀ v, 0 < s.own v → 0 < s.refs := by
      intro v hv
      rw [ih.refs]
      exact Finset.sum_pos' (fun _ _ => Nat.zero_le _) ⟨v, Finset.mem_univ _, hv⟩
    cases hs with
    | @bar u m b e hst hc =>
      refine ⟨fun v => ?_, ih.refs, fun v hv => ?_, ih.alive, ?_⟩
      · have := ih.own v; simpa [obtained, dropped] using this
      · by_cases hvu : v = u
        · subst hvu
          by_cases hi : s.bar.pc v = .idle
          · cases m with
            | call => exact hc rfl
            | go => simp [step, stepGo, hi] at hst
            | spurious => simp [step, hi] at hst
            | deadline => simp [step, hi] at hst
          · exact ih.busy v hi
        · rcases step_other hst v hvu with h' | ⟨o, h', -⟩
          · exact ih.busy v (by rw [← h']; exact hv)
          · exact ih.busy v (by rw [h']; simp)
      · rw [List.countP_append, ih.marks]; simp [destroys]
    | @copy v u hown hi =>
      have hp := hpos v hown
      refine ⟨fun w => ?_, ?_, fun w hw => ?_, ?_, ?_⟩
      · have := ih.own w
        simp only [obtained, dropped, List.countP_append, List.countP_singleton] at this ⊢
        by_cases hwu : w = u
        · subst hwu; simp; omega
        · simp [hwu, Ne.symm hwu]; omega
      · show s.refs + 1 = ∑ w, if w = u then s.own u + 1 else s.own w
        have : ∀ w, (if w = u then s.own u + 1 else s.own w) = s.own w + if w = u then 1 else 0 := by
          intro w; split
          · next h => rw [h]
          · rfl
        simp only [this, Finset.sum_add_distrib, ih.refs]
        simp
      · have := ih.busy w hw
        show 0 < if w = u then s.own u + 1 else s.own w
        split <;> omega
      · show s.destroyed = if s.refs + 1 = 0 then 1 else 0
        have := ih.alive
        rw [if_neg (by omega)] at this
        rw [if_neg (by omega), this]
      · rw [List.countP_append, ih.marks]; simp [destroys]
    | @drop v hown hi =>
      have hp := hpos v hown
      have hal := ih.alive
      rw [if_neg (by omega)] at hal
      refine ⟨fun w => ?_, ?_, fun w hw => ?_, ?_, ?_⟩
      · have := ih.own w
        simp only [obtained, dropped, List.countP_append, List.countP_singleton] at this ⊢
        by_cases hwv : w = v
        · subst hwv; simp; omega
        · simp [hwv, Ne.symm hwv]; omega
      · show s.refs - 1 = ∑ w, if w = v then s.own v - 1 else s.own w
        have h1 : ∀ w, s.own w = (if w = v then s.own v - 1 else s.own w) + if w = v then 1 else 0 := by
          intro w; split
          · next h => rw [h]; omega
          · rfl
        have h2 : ∑ w, s.own w = (∑ w, if w = v then s.own v - 1 else s.own w) + 1 := by
          rw [Finset.sum_congr rfl (fun w _ => h1 w), Finset.sum_add_distrib]
          simp
        rw [ih.refs, h2]; rfl
      · have hne : w ≠ v := by rintro rfl; exact hw hi
        have := ih.busy w hw
        show 0 < if w = v then s.own v - 1 else s.own w
        rw [if_neg hne]; exact this
      · show s.destroyed + (if s.refs - 1 = 0 then 1 else 0) = if s.refs - 1 = 0 then 1 else 0
        rw [hal]; omega
      · rw [List.countP_append, ih.marks]
        simp only [List.countP_singleton, destroys, beq_iff_eq]

/-- The barrier is destroyed at most once, and that has happened exactly if every pointer anybody has got has been let go: "The
barrier will get cleaned up when everybody lets the barrier pointer go out of scope" (include/Barrier.hxx). -/
theorem C96_destroyed {n : Nat} {t : T} {as} {s : Life T} (h : Life.Exec n t as s) :
    as.countP destroys = (if s.destroyed = 0 then 0 else 1) ∧ (s.destroyed ≠ 0 ↔ AllDropped t as) := by
  have inv := linv_exec h
  have key : s.refs = 0 ↔ AllDropped t as := by
    rw [inv.refs, Finset.sum_eq_zero_iff]
    refine ⟨fun h u => ?_, fun h u _ => ?_⟩
    · have h1 := h u (Finset.mem_univ _); have h2 := inv.own u; omega
    · have h1 := h u; have h2 := inv.own u; omega
  rw [← key, inv.marks, inv.alive]
  split <;> simp_all

/-- As long as some thread has a pointer that it has not let go, the barrier exists. -/
theorem C96_kept {n : Nat} {t : T} {as} {s : Life T} (h : Life.Exec n t as s) (u : T) (hu : dropped u as < obtained t u as) :
    ∀ a ∈ as, destroys a = false := by
  have h1 := (C96_destroyed h)
  have h2 : ¬ AllDropped t as := fun h' => by have := h' u; omega
  have h3 : s.destroyed = 0 := by by_contra h'; exact h2 (h1.2.1 h')
  rw [if_pos h3, List.countP_eq_zero] at h1
  intro a ha
  simpa using h1.1 a ha

/-- When it is destroyed nobody is inside `wait`, and nothing happens to it, and nothing can, afterwards. -/
theorem C96_last {n : Nat} {t : T} {as} {s : Life T} (h : Life.Exec n t as s) (hd : ∃ a ∈ as, destroys a = true) :
    (∀ u, s.bar.pc u = .idle) ∧ (∀ a s', ¬ Life.Step n s a s') ∧
    ∀ pre a post, as = pre ++ a :: post → destroys a = true → post = [] := by
  have inv := linv_exec h
  have h1 : s.destroyed ≠ 0 := by
    intro h'
    have := (C96_destroyed h).1
    rw [if_pos h', List.countP_eq_zero] at this
    obtain ⟨a, ha, hda⟩ := hd
    exact this a ha hda
  have dead : ∀ {as} {s : Life T}, Life.Exec n t as s → s.destroyed ≠ 0 →
      (∀ u, s.bar.pc u = .idle) ∧ ∀ a s', ¬ Life.Step n s a s' := by
    intro as s h h1
    have inv := linv_exec h
    have h2 : s.refs = 0 := by by_contra h'; exact h1 (by rw [inv.alive, if_neg h'])
    have h3 : ∀ u, s.own u = 0 := by
      intro u
      have h4 := inv.refs
      rw [h2] at h4
      exact (Finset.sum_eq_zero_iff.1 h4.symm) u (Finset.mem_univ _)
    have h5 : ∀ u, s.bar.pc u = .idle := by
      intro u
      by_contra h'
      have := inv.busy u h'
      rw [h3 u] at this; cases this
    refine ⟨h5, ?_⟩
    intro a s' hs
    cases hs with
    | @bar u m b e hst hc =>
      have hi := h5 u
      cases m with
      | call => have := hc rfl; rw [h3 u] at this; cases this
      | go => simp [step, stepGo, hi] at hst
      | spurious => simp [step, hi] at hst
      | deadline => simp [step, hi] at hst
    | copy h _ => rw [h3] at h; cases h
    | drop h _ => rw [h3] at h; cases h
  refine ⟨(dead h h1).1, (dead h h1).2, ?_⟩
  clear inv h1 hd
  induction h with
  | init => intro pre a post he; simp at he
  | @snoc as s b s' h hs ih =>
    intro pre a post he hda
    rcases List.eq_nil_or_concat post with rfl | ⟨post', x, rfl⟩
    · rfl
    · exfalso
      simp only [List.concat_eq_append, ← List.cons_append, ← List.append_assoc] at he
      obtain ⟨he, -⟩ := List.append_inj' he rfl
      have hc := (C96_destroyed h).1
      have : s.destroyed ≠ 0 := by
        intro h'
        rw [if_pos h', List.countP_eq_zero, he] at hc
        exact hc a (by simp) hda
      exact (dead h this).2 _ _ hs

end pointers

/-! ### A barrier that is not owned by pointers -/

section plain
variable {T : Type} [DecidableEq T]

/-- From any state of any execution: no thread that is now inside `wait` uses the barrier any more, however they continue, exactly
if each is outside of `wait` or has nothing left to do but to return. -/
theorem C102_safe_to_destroy {n evs} {c : Conf T} (h : Run n evs c) :
    (∀ evs' c', Steps n c evs' c' → (∀ t, .call t ∉ evs') → ∀ e ∈ evs', touches e = false) ↔
      ∀ t, c.pc t = .idle ∨ ∃ r, c.pc t = .out r := by
  obtain ⟨hx, -⟩ := safe_run h
  constructor
  · intro hno t
    by_contra hpc
    rw [not_or, not_exists] at hpc
    have bad : ∀ (u : T) m, c.pc u ≠ .idle → (∀ r, c.pc u ≠ .out r) → step n c u m = none := by
      intro u m h1 h2
      cases hs : step n c u m with
      | none => rfl
      | some x =>
        obtain ⟨c', e⟩ := x
        exfalso
        have he : touches e = true ∧ ∀ v, e ≠ .call v := by
          rcases step_self hs with ⟨-, h3, -⟩ | ⟨o, rfl, -⟩ | ⟨-, h3, -⟩ | ⟨r, -, -, h3, -⟩ | ⟨h3, -⟩
          · exact absurd h3 h1
          · exact ⟨rfl, by simp⟩
          · exact absurd h3 (h2 _)
          · exact absurd h3 (h2 _)
          · rcases h3 with rfl | rfl | rfl <;> exact ⟨rfl, by simp⟩
        have := hno [e] c' (by simpa using Steps.nil.snoc hs) (fun v hv => he.2 v (by simpa using hv : Ev.call v = e).symm) e (by simp)
        rw [he.1] at this; cases this
    -- an owner of the mutex can go on
    have owner : ∀ u, c.holder = some u → False := by
      intro u hu
      have h1 := (hx u).2 hu
      have h2 := bad u .go (by intro h; rw [h] at h1; cases h1) (by intro r h; rw [h] at h1; cases h1)
      cases hp : c.pc u <;> rw [hp] at h1 <;> simp only [Pc.holds] at h1 <;> try cases h1
      all_goals
        simp only [step, stepGo, hp] at h2
        first | cases h2 | (split at h2 <;> cases h2)
    have hfree : c.holder = none := by
      cases hh : c.holder with
      | none => rfl
      | some u => exact (owner u hh).elim
    cases hp : c.pc t with
    | idle => exact hpc.1 hp
    | out r => exact hpc.2 r hp
    | waitCv old =>
      have := bad t .spurious (by rw [hp]; simp) (by rw [hp]; simp)
      simp [step, hp] at this
    | start =>
      have := bad t .go (by rw [hp]; simp) (by rw [hp]; simp)
      simp [step, stepGo, hp] at this
    | wantLock old =>
      have := bad t .go (by rw [hp]; simp) (by rw [hp]; simp)
      simp [step, stepGo, hp, hfree] at this
    | woken old b =>
      have := bad t .go (by rw [hp]; simp) (by rw [hp]; simp)
      simp [step, stepGo, hp, hfree] at this
    | _ =>
      have := (hx t).1 (by rw [hp]; rfl)
      rw [hfree] at this; cases this
  · intro hall evs' c' hs hnc
    have key : (∀ t, c'.pc t = .idle ∨ ∃ r, c'.pc t = .out r) ∧ ∀ e ∈ evs', touches e = false := by
      induction hs with
      | nil => exact ⟨hall, by simp⟩
      | @snoc evs₁ c₁ t m c' e hs hst ih =>
        obtain ⟨ih1, ih2⟩ := ih (fun t ht => hnc t (by simp [ht]))
        have hm : e ≠ .call t := fun h => hnc t (by simp [h])
        have hself : c'.pc t = .idle ∧ touches e = false := by
          rcases ih1 t with hp | ⟨r, hp⟩
          · cases m with
            | call => simp [step, hp] at hst; exact absurd hst.2.symm hm
            | go => simp [step, stepGo, hp] at hst
            | spurious => simp [step, hp] at hst
            | deadline => simp [step, hp] at hst
          · cases m with
            | call => simp [step, hp] at hst
            | go =>
              simp only [step, stepGo, hp, Option.some.injEq, Prod.mk.injEq] at hst
              obtain ⟨rfl, rfl⟩ := hst
              exact ⟨by simp [Conf.goto], by cases r <;> rfl⟩
            | spurious => simp [step, hp] at hst
            | deadline => simp [step, hp] at hst
        refine ⟨fun u => ?_, fun x hx => ?_⟩
        · by_cases hu : u = t
          · exact .inl (hu ▸ hself.1)
          · rcases step_other hst u hu with h' | ⟨o, h', -⟩
            · rw [h']; exact ih1 u
            · rcases ih1 u with h'' | ⟨r, h''⟩ <;> rw [h''] at h' <;> cases h'
        · simp only [List.mem_append, List.mem_singleton] at hx
          rcases hx with hx | rfl
          · exact ih2 x hx
          · exact hself.2
    exact key.2

/-- What a program that has the barrier as a variable would like to rely on: a thread whose `wait` has returned may destroy the
barrier, since everybody has arrived. -/
def C102_claim (T : Type) [DecidableEq T] (n : Nat) : Prop :=
  ∀ evs (c : Conf T), Run n evs c → NoDeadline evs → ∀ t, 0 < returnsTo t evs →
    ∀ evs' c', Steps n c evs' c' → (∀ u, .call u ∉ evs') → ∀ e ∈ evs', touches e = false

end plain

/-- Thread 0 sleeps; thread 1 arrives and returns; thread 0 still has to take the mutex. -/
def earlySched : List (Fin 2 × Move) := callGo 0 5 2 ++ callGo 1 9 2

/-- It may not: the other thread still has to take the mutex of the barrier and to look at its counter. -/
theorem C102_refuted : ¬ C102_claim (Fin 2) 2 := by
  intro hc
  have h1 : Run 2 _ _ := run_sched (n := 2) (sch := earlySched) (by rfl)
  have h2 := (C102_safe_to_destroy h1).1 (hc _ _ h1 (by unfold NoDeadline; decide) 1 (by decide)) 0
  revert h2
  rintro (h2 | ⟨r, h2⟩)
  · cases h2
  · cases h2

section plain
variable {T : Type} [DecidableEq T]

/-- It may when every call has ended, as after the threads have been joined.  Missing: that it may as soon as its own call has. -/
theorem C102_all_ended_partial {n evs} {c : Conf T} (h : Run n evs c) (hall : ∀ t, callsBy t evs = endsOf t evs) :
    ∀ evs' c', Steps n c evs' c' → (∀ u, .call u ∉ evs') → evs' = [] := by
  have hidle : ∀ t, c.pc t = .idle := by
    intro t
    have h1 := (counts h t).1
    rw [hall t] at h1
    by_contra h2
    rw [if_neg h2] at h1
    omega
  intro evs' c' hs hnc
  induction hs with
  | nil => rfl
  | @snoc evs₁ c₁ t m c' e hs hst ih =>
    have h1 := ih (fun u hu => hnc u (by simp [hu]))
    subst h1
    have h2 : c₁ = c := by
      generalize he : ([] : List (Ev T)) = l at hs
      cases hs with
      | nil => rfl
      | snoc => simp at he
    subst h2
    rcases step_self hst with ⟨rfl, -⟩ | ⟨o, -, h3, -⟩ | ⟨-, h3, -⟩ | ⟨r, -, -, h3, -⟩ | ⟨-, h3, -⟩
    · exact absurd (by simp) (hnc t)
    all_goals (rw [hidle t] at h3; first | cases h3 | exact absurd rfl h3)

end plain

/-! ### An execution -/

/-- The choices of a scheduler. -/
inductive Choice (T : Type) where
  | bar (t : T) (m : Move)
  | copy (t u : T)
  | drop (t : T)

/-- The step made then. -/
def Life.choose {T : Type} [DecidableEq T] (n : Nat) (s : Life T) : Choice T → Option (Act T × Life T)
  | .bar t m =>
    match step n s.bar t m with
    | none => none
    | some (b, e) => if m = .call → 0 < s.own t then some (.bar e, { s with bar := b }) else none
  | .copy t u =>
    if 0 < s.own t ∧ s.bar.pc t = .idle then
      some (.copy t u, { s with own := fun v => if v = u then s.own u + 1 else s.own v, refs := s.refs + 1 })
    else none
  | .drop t =>
    if 0 < s.own t ∧ s.bar.pc t = .idle then
      some (.drop t (s.refs - 1 == 0), { s with own := fun v => if v = t then s.own t - 1 else s.own v, refs := s.refs - 1, destroyed := s.destroyed + if s.refs - 1 = 0 then 1 else 0 })
    else none

def Life.chooseAll {T : Type} [DecidableEq T] (n : Nat) : List (Choice T) → List (Act T) × Life T → Option (List (Act T) × Life T)
  | [], x => some x
  | c :: cs, (as, s) =>
    match s.choose n c with
    | none => none
    | some (a, s') => Life.chooseAll n cs (as ++ [a], s')

theorem chooseAll_exec {T : Type} [DecidableEq T] {n : Nat} {t : T} : ∀ (cs : List (Choice T)) as s as' s', Life.Exec n t as s →
    Life.chooseAll n cs (as, s) = some (as', s') → Life.Exec n t as' s' := by
  intro cs
  induction cs with
  | nil => intro as s as' s' h he; cases he; exact h
  | cons c cs ih =>
    intro as s as' s' h he
    simp only [Life.chooseAll] at he
    cases hc : s.choose n c with
    | none => rw [hc] at he; cases he
    | some x =>
      obtain ⟨a, s₁⟩ := x
      rw [hc] at he
      refine ih _ _ _ _ (h.snoc ?_) he
      cases c with
      | bar t m =>
        simp only [Life.choose] at hc
        split at hc
        · cases hc
        · next hst => split at hc <;> cases hc; next h1 => exact .bar hst h1
      | copy t u => simp only [Life.choose] at hc; split at hc <;> cases hc; next h1 => exact .copy h1.1 h1.2
      | drop t => simp only [Life.choose] at hc; split at hc <;> cases hc; next h1 => exact .drop h1.1 h1.2

/-- Thread 0 makes the barrier and gives a pointer to thread 1; they meet; thread 1 lets its pointer go before thread 0 has returned,
and so does thread 0 in the end. -/
def lifeSched : List (Choice (Fin 2)) :=
  [.copy 0 1] ++ ((callGo 0 5 2 ++ callGo 1 9 2).map fun x => .bar x.1 x.2) ++ [.drop 1] ++
    ((go 0 4 2).map fun x => .bar x.1 x.2)

example : ∃ as s, Life.Exec 2 (0 : Fin 2) as s ∧ dropped 0 as < obtained 0 0 as ∧ dropped 1 as = 1 ∧ returnsTo 0
    (as.filterMap fun a => match a with | .bar e => some e | _ => none) = 1 :=
  ⟨_, _, chooseAll_exec lifeSched _ _ _ _ .init (by rfl), by decide, by decide, by decide⟩

example : ∃ as s, Life.Exec 2 (0 : Fin 2) as s ∧ (∃ a ∈ as, destroys a = true) ∧ AllDropped 0 as := by
  refine ⟨_, _, chooseAll_exec (lifeSched ++ [.drop 0]) _ _ _ _ .init (by rfl), ?_, ?_⟩
  · exact ⟨.drop 0 true, by decide, rfl⟩
  · unfold AllDropped; decide

/-- Two threads that have met, and a barrier that may be destroyed. -/
example : ∃ evs c, Run (T := Fin 2) 2 evs c ∧ returnsTo 0 evs = 1 ∧ ∀ t, callsBy t evs = endsOf t evs :=
  ⟨_, _, run_sched (sch := earlySched ++ go 0 4 2) (by rfl), by decide, by decide⟩

end SoDa.Bar
