import Verif.Model.BarrierTest
import Verif.Props.BarrierWake
import Mathlib.Algebra.BigOperators.Group.Finset.Piecewise
/-!
Lemmas about the program test/BarrierTest.cxx.
-/
set_option linter.unusedSectionVars false
namespace SoDa.Bar
open Spec

section bound
variable {T : Type} [DecidableEq T]

/-- The thread is in `wait` and has not reached its deadline in this call. -/
def Pc.credit : Pc → Bool
  | .idle | .woken _ true | .predT _ | .expired | .setCorrupt | .setCount | .notifyT | .leave _ | .out _ => false
  | _ => true

theorem credit_self {n} {c c' : Conf T} {u m e} (hs : step n c u m = some (c', e)) :
    (c'.pc u).credit.toNat + (if e = .deadline u then 1 else 0) ≤
      (c.pc u).credit.toNat + if e = .call u then 1 else 0 := by
  have hg : ∀ (c₁ : Conf T) p, (c₁.goto u p).pc u = p := by
    intro c₁ p; simp [Conf.goto]
  cases m with
  | call =>
    simp only [step] at hs; split at hs
    · next hp => cases hs; simp [hg, hp, Pc.credit]
    · cases hs
  | spurious =>
    simp only [step] at hs; split at hs
    · next hp => cases hs; simp [hg, hp, Pc.credit]
    · cases hs
  | deadline =>
    simp only [step] at hs; split at hs
    · next hp => cases hs; simp [hg, hp, Pc.credit]
    · cases hs
  | go =>
    simp only [step, stepGo] at hs
    cases hp : c.pc u <;> rw [hp] at hs <;> simp only [] at hs
    case idle => cases hs
    case waitCv => cases hs
    case wantLock => split at hs <;> cases hs; simp [hg, Pc.credit]
    case woken o b => split at hs <;> cases hs; cases b <;> simp [hg, Pc.credit]
    case pred => split at hs <;> cases hs <;> simp [hg, Pc.credit]
    case test => cases hs; split <;> simp [hg, Pc.credit]
    case predT => cases hs; split <;> simp [hg, Pc.credit]
    case expired => cases hs; split <;> simp [hg, Pc.credit]
    case out r => cases hs; cases r <;> simp [hg, Pc.credit]
    all_goals (cases hs; simp [hg, Pc.credit])

/-- A step is a step of its thread. -/
theorem step_whose {n} {c c' : Conf T} {t m e u} (hs : step n c t m = some (c', e))
    (he : e = .call u ∨ e = .ret u ∨ e = .deadline u ∨ ∃ r, e = .raise u r) : u = t := by
  rcases step_self hs with h | ⟨o, h, -⟩ | h | ⟨r, h1, h, -⟩ | h
  · rw [h.1] at he; simpa [eq_comm] using he
  · rw [h] at he; simp at he
  · rw [h.1] at he; simpa [eq_comm] using he
  · rw [h] at he; simpa [eq_comm] using he
  · rcases h.1 with h | h | h <;> rw [h] at he <;> simp at he; exact he.symm

/-- At most one deadline in each call. -/
theorem deadlines_le_calls {n evs} {c : Conf T} (h : Run n evs c) (t : T) :
    deadlinesOf t evs + (c.pc t).credit.toNat ≤ callsBy t evs := by
  induction h with
  | init => simp [deadlinesOf, Conf.init, Pc.credit]
  | @snoc evs c u m c' e h hs ih =>
    unfold deadlinesOf callsBy at ih ⊢
    rw [countP_snoc, countP_snoc]
    by_cases hu : t = u
    · subst hu
      have := credit_self hs
      simp only [decide_eq_true_eq]
      omega
    · have h1 : e ≠ .deadline t := fun he => hu (step_whose hs (.inr (.inr (.inl he))))
      have h2 : (c'.pc t).credit = (c.pc t).credit := by
        rcases step_other hs t hu with h3 | ⟨o, h3, h4⟩
        · rw [h3]
        · rw [h3, h4]; rfl
      rw [h2]
      simp only [decide_eq_true_eq, if_neg h1]
      omega

def spuriousCount (evs : List (Ev T)) : Nat := evs.countP fun e => match e with
  | .spurious _ => true
  | _ => false

def allDeadlines (evs : List (Ev T)) : Nat := evs.countP fun e => match e with
  | .deadline _ => true
  | _ => false

theorem allDeadlines_snoc (evs : List (Ev T)) (e : Ev T) :
    allDeadlines (evs ++ [e]) = allDeadlines evs + match e with | .deadline _ => 1 | _ => 0 := by
  unfold allDeadlines; rw [countP_snoc]; cases e <;> rfl

theorem spurious_snoc (evs : List (Ev T)) (e : Ev T) :
    spuriousCount (evs ++ [e]) = spuriousCount evs + match e with | .spurious _ => 1 | _ => 0 := by
  unfold spuriousCount; rw [countP_snoc]; cases e <;> rfl

variable [Fintype T]

theorem allCalls_sum (evs : List (Ev T)) : allCalls evs = ∑ t, callsBy t evs := by
  unfold allCalls callsBy
  induction evs with
  | nil => simp
  | cons e evs ih =>
    simp only [List.countP_cons, Finset.sum_add_distrib, ← ih]
    cases e <;> simp

theorem allDeadlines_sum (evs : List (Ev T)) : allDeadlines evs = ∑ t, deadlinesOf t evs := by
  unfold allDeadlines deadlinesOf
  induction evs with
  | nil => simp
  | cons e evs ih =>
    simp only [List.countP_cons, Finset.sum_add_distrib, ← ih]
    cases e <;> simp

theorem work_goto_eq (c : Conf T) (t : T) (p : Pc) :
    (c.goto t p).work + (c.pc t).weight (Fintype.card T) = c.work + p.weight (Fintype.card T) := by
  unfold Conf.work
  rw [← Finset.add_sum_erase _ _ (Finset.mem_univ t), ← Finset.add_sum_erase (a := t) _ _ (Finset.mem_univ t)]
  have h1 : ((c.goto t p).pc t) = p := by simp [Conf.goto]
  have h2 : ∑ u ∈ Finset.univ.erase t, ((c.goto t p).pc u).weight (Fintype.card T)
      = ∑ u ∈ Finset.univ.erase t, (c.pc u).weight (Fintype.card T) := by
    apply Finset.sum_congr rfl
    intro u hu
    have hut : u ≠ t := (Finset.mem_erase.1 hu).1
    simp [Conf.goto, hut]
  rw [h1, h2]; omega

/-- How many events there can be. -/
theorem events_bound {n evs} {c : Conf T} (h : Run n evs c) :
    evs.length + c.work ≤ (4 * Fintype.card T + 10) * allCalls evs
      + (4 * Fintype.card T + 9) * allDeadlines evs + 5 * spuriousCount evs := by
  induction h with
  | init => simp [Conf.work, Conf.init, Pc.weight]
  | @snoc evs c u m c' e h hs ih =>
    rw [List.length_append, List.length_singleton]
    rw [allCalls_snoc, allDeadlines_snoc, spurious_snoc]
    cases m with
    | go =>
      have := work_step hs
      simp only [Nat.mul_add]
      omega
    | call =>
      simp only [step] at hs; split at hs
      · next hp =>
        cases hs
        have := work_goto_eq c u .start
        rw [hp] at this
        simp only [Pc.weight] at this
        simp only [Nat.mul_add, Nat.add_zero, Nat.mul_one]
        omega
      · cases hs
    | spurious =>
      simp only [step] at hs; split at hs
      · next old hp =>
        cases hs
        have := work_goto_eq c u (.woken old false)
        rw [hp] at this
        simp only [Pc.weight] at this
        simp only [Nat.mul_add, Nat.add_zero, Nat.mul_one]
        omega
      · cases hs
    | deadline =>
      simp only [step] at hs; split at hs
      · next old hp =>
        cases hs
        have := work_goto_eq c u (.woken old true)
        rw [hp] at this
        simp only [Pc.weight] at this
        simp only [Nat.mul_add, Nat.add_zero, Nat.mul_one]
        omega
      · cases hs

end bound
end SoDa.Bar

namespace SoDa.BarTest
open Bar Spec

/-- What is known of a thread. -/
def Good (p : Params) (evs : List (Ev (Fin p.n))) (pc : Pc) (t : Fin p.n) : Loc → Prop
  | .unborn => pc = .idle ∧ callsBy t evs = 0 ∧ raisesTo t evs = 0 ∧ returnsTo t evs = 0
  | .undef => pc = .idle ∧ callsBy t evs = 0 ∧ raisesTo t evs = 0 ∧ p.begin t.val = .undef
  | .loop i => pc = .idle ∧ 0 ≤ i ∧ (i ≤ p.trials ∨ i = 0) ∧ (callsBy t evs : Int) = i ∧ raisesTo t evs = 0
      ∧ (returnsTo t evs : Int) = i
  | .inWait i => pc ≠ .idle ∧ 0 ≤ i ∧ i < p.trials ∧ (callsBy t evs : Int) = i + 1 ∧ raisesTo t evs = 0
      ∧ (returnsTo t evs : Int) = i
  | .done => pc = .idle ∧ callsBy t evs = p.trials.toNat ∧ raisesTo t evs = 0 ∧ returnsTo t evs = p.trials.toNat
  | .caught => pc = .idle ∧ callsBy t evs ≤ p.trials.toNat ∧ raisesTo t evs = 1

/-- How many steps `main` has executed. -/
def Main.steps (n : Nat) : Main → Nat
  | .spawn i => i
  | .join i => n + 1 + i
  | .exited _ => 2 * n + 2

structure Inv (p : Params) (ls : List (Option (Ev (Fin p.n)))) (s : St p.n) : Prop where
  run : Run p.n (events ls) s.bar
  good : ∀ t, Good p (events ls) (s.bar.pc t) t (s.loc t)
  spawn : ∀ i, s.main = .spawn i → i ≤ p.n ∧ ∀ t : Fin p.n, s.loc t = .unborn ↔ i ≤ t.val
  born : (∀ i, s.main ≠ .spawn i) → ∀ t, s.loc t ≠ .unborn
  joined : ∀ i, s.main = .join i → i ≤ p.n ∧ ∀ t : Fin p.n, t.val < i → (s.loc t).ended = true
  exited : ∀ c, s.main = .exited c → c = 0 ∧ ∀ t, (s.loc t).ended = true
  /-- how many steps `main` and the ends of threads have been -/
  quiet : ls.countP (fun l => l.isNone) ≤ s.main.steps p.n
    + (Finset.univ.filter fun t => s.loc t = .done).card

theorem events_snoc {n : Nat} (ls : List (Option (Ev (Fin n)))) (l) :
    events (ls ++ [l]) = events ls ++ l.toList := by
  unfold events
  rw [List.filterMap_append]
  cases l <;> rfl

theorem calls_snoc {n : Nat} (t : Fin n) (evs : List (Ev (Fin n))) (e) :
    callsBy t (evs ++ [e]) = callsBy t evs + if e = .call t then 1 else 0 := by
  unfold callsBy; rw [countP_snoc]; simp

theorem returns_snoc {n : Nat} (t : Fin n) (evs : List (Ev (Fin n))) (e) :
    returnsTo t (evs ++ [e]) = returnsTo t evs + if e = .ret t then 1 else 0 := by
  unfold returnsTo; rw [countP_snoc]; simp

theorem raises_snoc {n : Nat} (t : Fin n) (evs : List (Ev (Fin n))) (e) :
    raisesTo t (evs ++ [e]) = raisesTo t evs + match e with | .raise u _ => if u = t then 1 else 0 | _ => 0 := by
  unfold raisesTo; rw [countP_snoc]; cases e <;> simp

theorem raises_snoc_other {n : Nat} {t : Fin n} {evs : List (Ev (Fin n))} {e} (h : ∀ r, e ≠ .raise t r) :
    raisesTo t (evs ++ [e]) = raisesTo t evs := by
  rw [raises_snoc]
  cases e <;> simp
  next u r => rintro rfl; exact h r rfl

theorem good_bar {p : Params} {evs : List (Ev (Fin p.n))} {s : St p.n} {t m b e}
    (hs : Bar.step p.n s.bar t m = some (b, e)) (hc : m = .call → ∃ i, s.loc t = .loop i ∧ i < p.trials)
    (hg : ∀ u, Good p evs (s.bar.pc u) u (s.loc u)) (u : Fin p.n) :
    Good p (evs ++ [e]) (b.pc u) u (afterBar s.loc e u) ∧
      (s.loc u = .unborn ↔ afterBar s.loc e u = .unborn) ∧
      (s.loc u = .done ↔ afterBar s.loc e u = .done) ∧
      ((s.loc u).ended = true → (afterBar s.loc e u).ended = true) := by
  have hgu := hg u
  by_cases hu : u = t
  · subst hu
    rcases step_self hs with ⟨rfl, h1, h2⟩ | ⟨o, rfl, h1, h2⟩ | ⟨rfl, h1, h2⟩ | ⟨r, hr, rfl, h1, h2⟩ | h
    · -- call
      have hm : m = .call := by
        cases m with
        | call => rfl
        | go => simp [Bar.step, stepGo, h1] at hs
        | spurious => simp [Bar.step, h1] at hs
        | deadline => simp [Bar.step, h1] at hs
      obtain ⟨i, hi, hlt⟩ := hc hm
      rw [hi] at hgu
      obtain ⟨-, g1, g2, g3, g4, g5⟩ := hgu
      simp only [afterBar, set, if_true, hi, Loc.enter, Loc.ended]
      refine ⟨⟨by rw [h2]; simp, g1, hlt, ?_, ?_, ?_⟩, by simp⟩
      · rw [calls_snoc]; simp [g3]
      · rw [raises_snoc_other (by simp)]; exact g4
      · rw [returns_snoc]; simp [g5]
    · -- arrive
      refine ⟨?_, Iff.rfl, Iff.rfl, id⟩
      show Good p _ _ u (s.loc u)
      have e1 : callsBy u (evs ++ [Ev.arrive u (decide (o = s.bar.count))]) = callsBy u evs := by rw [calls_snoc]; simp
      have e2 : returnsTo u (evs ++ [Ev.arrive u (decide (o = s.bar.count))]) = returnsTo u evs := by rw [returns_snoc]; simp
      have e3 : raisesTo u (evs ++ [Ev.arrive u (decide (o = s.bar.count))]) = raisesTo u evs := raises_snoc_other (by simp)
      cases hl : s.loc u <;> rw [hl] at hgu <;> simp only [Good, h1, h2, e1, e2, e3] at hgu ⊢ <;> simp at hgu ⊢
      exact hgu
    · -- ret
      cases hl : s.loc u <;> rw [hl] at hgu <;> simp only [Good, h1] at hgu <;> simp at hgu
      next i =>
        obtain ⟨g1, g2, g3, g4, g5⟩ := hgu
        simp only [afterBar, set, if_true, hl, Loc.after, Loc.ended]
        refine ⟨⟨h2, by omega, by omega, ?_, ?_, ?_⟩, by simp⟩
        · rw [calls_snoc]; simp [g3]
        · rw [raises_snoc_other (by simp)]; exact g4
        · rw [returns_snoc]; simp [g5]
    · -- raise
      cases hl : s.loc u <;> rw [hl] at hgu <;> simp only [Good, h1] at hgu <;> simp at hgu
      next i =>
        obtain ⟨g1, g2, g3, g4, g5⟩ := hgu
        simp only [afterBar, set, if_true, hl, Loc.after, Loc.ended]
        refine ⟨⟨h2, ?_, ?_⟩, by simp⟩
        · rw [calls_snoc]; simp; omega
        · rw [raises_snoc]; simp [g4]
    · -- another statement
      obtain ⟨he, h1, h2, -⟩ := h
      have e0 : afterBar s.loc e = s.loc := by rcases he with rfl | rfl | rfl <;> rfl
      rw [e0]
      refine ⟨?_, Iff.rfl, Iff.rfl, id⟩
      have e1 : callsBy u (evs ++ [e]) = callsBy u evs := by
        rw [calls_snoc]; rcases he with rfl | rfl | rfl <;> simp
      have e2 : returnsTo u (evs ++ [e]) = returnsTo u evs := by
        rw [returns_snoc]; rcases he with rfl | rfl | rfl <;> simp
      have e3 : raisesTo u (evs ++ [e]) = raisesTo u evs :=
        raises_snoc_other (by rcases he with rfl | rfl | rfl <;> simp)
      cases hl : s.loc u <;> rw [hl] at hgu <;> simp only [Good, e1, e2, e3] at hgu ⊢ <;>
        first | exact absurd hgu.1 h1 | exact ⟨h2, hgu.2⟩
  · have e0 : afterBar s.loc e u = s.loc u := by
      cases e <;> simp only [afterBar, set] <;> try rfl
      next v => rw [if_neg]; rintro rfl; exact hu (step_whose hs (.inl rfl))
      next v => rw [if_neg]; rintro rfl; exact hu (step_whose hs (.inr (.inl rfl)))
      next v r => rw [if_neg]; rintro rfl; exact hu (step_whose hs (.inr (.inr (.inr ⟨r, rfl⟩))))
    rw [e0]
    refine ⟨?_, Iff.rfl, Iff.rfl, id⟩
    have e1 : callsBy u (evs ++ [e]) = callsBy u evs := by
      rw [calls_snoc, if_neg]; simp; rintro rfl; exact hu (step_whose hs (.inl rfl))
    have e2 : returnsTo u (evs ++ [e]) = returnsTo u evs := by
      rw [returns_snoc, if_neg]; simp; rintro rfl; exact hu (step_whose hs (.inr (.inl rfl)))
    have e3 : raisesTo u (evs ++ [e]) = raisesTo u evs := raises_snoc_other (by
      rintro r rfl; exact hu (step_whose hs (.inr (.inr (.inr ⟨r, rfl⟩)))))
    have e4 : b.pc u = .idle ↔ s.bar.pc u = .idle := by
      rcases step_other hs u hu with h3 | ⟨o, h3, h4⟩
      · rw [h3]
      · rw [h3, h4]; simp
    cases hl : s.loc u <;> rw [hl] at hgu <;> simp only [Good, e1, e2, e3, ne_eq, e4] at hgu ⊢ <;> exact hgu

theorem quiet_snoc {n : Nat} (ls : List (Option (Ev (Fin n)))) (l : Option (Ev (Fin n))) :
    (ls ++ [l]).countP (fun l => l.isNone) = ls.countP (fun l => l.isNone) + if l.isNone then 1 else 0 := countP_snoc _ _ _

theorem begin_cases (p : Params) (i : Nat) : p.begin i = .loop 0 ∨ p.begin i = .undef := by
  unfold Params.begin; dsimp only; split
  · exact .inr rfl
  · split
    · exact .inr rfl
    · exact .inl rfl

attribute [local irreducible] Params.begin in
theorem inv_exec {p : Params} {ls s} (h : Exec p ls s) : Inv p ls s := by
  induction h with
  | init =>
    refine ⟨Run.init, ?_, ?_, ?_, ?_, ?_, ?_⟩
    · intro t; exact ⟨rfl, rfl, rfl, rfl⟩
    · intro i hi; cases hi; exact ⟨Nat.zero_le _, fun t => by simp [St.start]⟩
    · intro hne; exact absurd rfl (hne 0)
    · intro i hi; cases hi
    · intro c hc; cases hc
    · simp
  | @snoc ls s l s' h hs ih =>
    obtain ⟨run, good, spawn, born, joined, exited, quiet⟩ := ih
    cases hs with
    | @spawn i hm hi =>
      have hev : events (ls ++ [none]) = events ls := by rw [events_snoc]; simp
      have hun := (spawn i hm).2
      have hbeg := begin_cases p i
      refine ⟨by rw [hev]; exact run, ?_, ?_, ?_, ?_, ?_, ?_⟩
      · intro t
        rw [hev]
        show Good p _ (s.bar.pc t) t (set s.loc ⟨i, hi⟩ (p.begin i) t)
        unfold set
        split
        · next ht =>
          have g := good t
          rw [(hun t).2 (by rw [ht])] at g
          have hti : t.val = i := by rw [ht]
          refine hbeg.elim (fun hb => ?_) (fun hb => ?_) <;> rw [hb]
          · exact ⟨g.1, le_refl _, .inr rfl, by simp [g.2.1], g.2.2.1, by simp [g.2.2.2]⟩
          · exact ⟨g.1, g.2.1, g.2.2.1, by rw [hti]; exact hb⟩
        · exact good t
      · intro j hj
        cases hj
        refine ⟨hi, ?_⟩
        intro t
        show set s.loc ⟨i, hi⟩ (p.begin i) t = .unborn ↔ _
        unfold set
        split
        · next ht =>
          have : t.val = i := by rw [ht]
          refine hbeg.elim (fun hb => ?_) (fun hb => ?_) <;> rw [hb] <;> simp <;> omega
        · next ht =>
          rw [hun t]
          have : t.val ≠ i := fun h => ht (Fin.ext h)
          omega
      · intro hne; exact absurd rfl (hne _)
      · intro j hj; cases hj
      · intro c hc; cases hc
      · rw [quiet_snoc]
        rw [hm] at quiet
        have : (Finset.univ.filter fun t => s.loc t = .done) ⊆
            Finset.univ.filter fun t => set s.loc ⟨i, hi⟩ (p.begin i) t = .done := by
          intro t ht
          rw [Finset.mem_filter] at ht ⊢
          refine ⟨ht.1, ?_⟩
          unfold set
          rw [if_neg, ht.2]
          rintro rfl
          have h1 := (hun ⟨i, hi⟩).2 (le_refl _)
          rw [ht.2] at h1; cases h1
        have := Finset.card_le_card this
        simp only [Option.isNone_none, if_true, Main.steps] at *
        omega
    | spawned hm =>
      have hev : events (ls ++ [none]) = events ls := by rw [events_snoc]; simp
      refine ⟨by rw [hev]; exact run, by rw [hev]; exact good, ?_, ?_, ?_, ?_, ?_⟩
      · intro j hj; cases hj
      · intro _ t ht
        have := (((spawn _ hm).2 t).1 ht)
        have := t.isLt
        omega
      · intro j hj; cases hj; exact ⟨Nat.zero_le _, fun t ht => absurd ht (by omega)⟩
      · intro c hc; cases hc
      · rw [quiet_snoc]
        rw [hm] at quiet
        simp only [Option.isNone_none, if_true, Main.steps] at *
        omega
    | @join i hm hi he =>
      have hev : events (ls ++ [none]) = events ls := by rw [events_snoc]; simp
      refine ⟨by rw [hev]; exact run, by rw [hev]; exact good, ?_, ?_, ?_, ?_, ?_⟩
      · intro j hj; cases hj
      · intro _; exact born (by intro j; rw [hm]; simp)
      · intro j hj
        cases hj
        refine ⟨hi, ?_⟩
        intro t ht
        by_cases hti : t.val = i
        · have : t = ⟨i, hi⟩ := Fin.ext hti
          rw [this]; exact he
        · exact (joined i hm).2 t (by omega)
      · intro c hc; cases hc
      · rw [quiet_snoc]
        rw [hm] at quiet
        simp only [Option.isNone_none, if_true, Main.steps] at *
        omega
    | exit hm =>
      have hev : events (ls ++ [none]) = events ls := by rw [events_snoc]; simp
      refine ⟨by rw [hev]; exact run, by rw [hev]; exact good, ?_, ?_, ?_, ?_, ?_⟩
      · intro j hj; cases hj
      · intro _; exact born (by intro j; rw [hm]; simp)
      · intro j hj; cases hj
      · intro c hc; cases hc; exact ⟨rfl, fun t => (joined _ hm).2 t t.isLt⟩
      · rw [quiet_snoc]
        rw [hm] at quiet
        simp only [Option.isNone_none, if_true, Main.steps] at *
        omega
    | @bar t m b e hs hc =>
      have hev : events (ls ++ [some e]) = events ls ++ [e] := by rw [events_snoc]; rfl
      have key := good_bar hs hc good
      refine ⟨by rw [hev]; exact Run.snoc run hs, by rw [hev]; exact fun u => (key u).1, ?_, ?_, ?_, ?_, ?_⟩
      · intro j hj
        exact ⟨(spawn j hj).1, fun u => by rw [← (spawn j hj).2 u]; exact (key u).2.1.symm⟩
      · intro hne u hu; exact born hne u ((key u).2.1.2 hu)
      · intro j hj; exact ⟨(joined j hj).1, fun u hu => (key u).2.2.2 ((joined j hj).2 u hu)⟩
      · intro c hc; exact ⟨(exited c hc).1, fun u => (key u).2.2.2 ((exited c hc).2 u)⟩
      · rw [quiet_snoc]
        have : (Finset.univ.filter fun t => afterBar s.loc e t = .done) = Finset.univ.filter fun t => s.loc t = .done := by
          apply Finset.filter_congr
          intro u _
          exact (key u).2.2.1.symm
        show _ ≤ _ + (Finset.univ.filter fun t => afterBar s.loc e t = .done).card
        rw [this]
        simpa using quiet
    | @leave t i hl hi =>
      have hev : events (ls ++ [none]) = events ls := by rw [events_snoc]; simp
      have g := good t
      rw [hl] at g
      obtain ⟨g1, g2, g3, g4, g5, g6⟩ := g
      have hsub : (Finset.univ.filter fun u => s.loc u = .done) ⊂
          Finset.univ.filter fun u => set s.loc t .done u = .done := by
        rw [Finset.ssubset_iff_of_subset]
        · exact ⟨t, by simp [set], by simp [hl]⟩
        · intro u hu
          rw [Finset.mem_filter] at hu ⊢
          refine ⟨hu.1, ?_⟩
          unfold set; split
          · rfl
          · exact hu.2
      have hset : ∀ u, u ≠ t → set s.loc t .done u = s.loc u := fun u hu => if_neg hu
      have hsett : set s.loc t .done t = .done := if_pos rfl
      refine ⟨by rw [hev]; exact run, ?_, ?_, ?_, ?_, ?_, ?_⟩
      · intro u
        rw [hev]
        show Good p _ (s.bar.pc u) u (set s.loc t .done u)
        by_cases hu : u = t
        · subst hu
          rw [hsett]
          exact ⟨g1, by omega, g5, by omega⟩
        · rw [hset u hu]; exact good u
      · intro j hj
        refine ⟨(spawn j hj).1, fun u => ?_⟩
        show set s.loc t .done u = .unborn ↔ _
        rw [← (spawn j hj).2 u]
        by_cases hu : u = t
        · subst hu; rw [hsett, hl]; simp
        · rw [hset u hu]
      · intro hne u
        show set s.loc t .done u ≠ .unborn
        by_cases hu : u = t
        · subst hu; rw [hsett]; simp
        · rw [hset u hu]; exact born hne u
      · intro j hj
        refine ⟨(joined j hj).1, fun u huj => ?_⟩
        show (set s.loc t .done u).ended = true
        by_cases hu : u = t
        · subst hu; rw [hsett]; rfl
        · rw [hset u hu]; exact (joined j hj).2 u huj
      · intro c hc
        refine ⟨(exited c hc).1, fun u => ?_⟩
        show (set s.loc t .done u).ended = true
        by_cases hu : u = t
        · subst hu; rw [hsett]; rfl
        · rw [hset u hu]; exact (exited c hc).2 u
      · rw [quiet_snoc]
        have := Finset.card_lt_card hsub
        simp only [Option.isNone_none, if_true]
        show _ ≤ _ + (Finset.univ.filter fun u => set s.loc t .done u = .done).card
        omega

end SoDa.BarTest
