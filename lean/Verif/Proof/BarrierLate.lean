import Verif.Proof.BarrierTimeout
/-!
Deadlines that pass after everybody has entered the barrier: an execution with such deadlines is,
step by step, an execution in which the same wake-ups are spurious.
-/
set_option linter.unusedSectionVars false
namespace SoDa.Bar
open Spec

variable {T : Type} [DecidableEq T]

/-- The deadline taken for a spurious wake-up. -/
def Ev.calmed : Ev T → Ev T
  | .deadline t => .spurious t
  | e => e

def Move.calmed : Move → Move
  | .deadline => .spurious
  | m => m

def Pc.calmed : Pc → Pc
  | .woken old _ => .woken old false
  | .predT old => .pred old
  | p => p

def Conf.calmed (c : Conf T) : Conf T := { c with pc := fun t => (c.pc t).calmed }

/-- The thread has been woken by its deadline and has not yet looked at `barrier_count`. -/
def Pc.late : Pc → Bool
  | .woken _ true | .predT _ => true
  | _ => false

/-- The thread is throwing. -/
def Pc.throwing : Pc → Bool
  | .expired | .setCorrupt | .setCount | .notifyT | .leave .timeout
  | .leave .corrupt | .out .timeout | .out .corrupt => true
  | _ => false

@[simp] theorem calmed_goto (c : Conf T) (t : T) (p : Pc) :
    (c.goto t p).calmed = c.calmed.goto t p.calmed := by
  unfold Conf.calmed Conf.goto
  simp only [Conf.mk.injEq, true_and]
  funext u
  split <;> rfl

@[simp] theorem calmed_wakeAll (c : Conf T) : c.wakeAll.calmed = c.calmed.wakeAll := by
  unfold Conf.calmed Conf.wakeAll
  simp only [Conf.mk.injEq, true_and]
  funext u
  cases c.pc u <;> rfl

theorem calmed_init : (Conf.init : Conf T).calmed = Conf.init := rfl

/-- One step, provided a thread that looks at `barrier_count` after its deadline finds it changed. -/
theorem calmed_step {n} {c c' : Conf T} {t m e} (hs : step n c t m = some (c', e))
    (hth : (c.pc t).throwing = false) (hT : ∀ old, c.pc t = .predT old → old ≠ c.count) :
    step n c.calmed t m.calmed = some (c'.calmed, e.calmed) ∧ (c'.pc t).throwing = false := by
  have hg : ∀ (c₁ : Conf T) p, (c₁.goto t p).pc t = p := by
    intro c₁ p; simp [Conf.goto]
  cases m with
  | call =>
    simp only [step] at hs
    split at hs
    · next hp =>
      cases hs
      refine ⟨?_, by rw [hg]; rfl⟩
      have : c.calmed.pc t = .idle := by simp [Conf.calmed, hp, Pc.calmed]
      rw [calmed_goto]
      simp [step, this, Pc.calmed, Ev.calmed, Move.calmed]
    · cases hs
  | spurious =>
    simp only [step] at hs
    split at hs
    · next old hp =>
      cases hs
      refine ⟨?_, by rw [hg]; rfl⟩
      have : c.calmed.pc t = .waitCv old := by simp [Conf.calmed, hp, Pc.calmed]
      rw [calmed_goto]
      simp [step, this, Pc.calmed, Ev.calmed, Move.calmed]
    · cases hs
  | deadline =>
    simp only [step] at hs
    split at hs
    · next old hp =>
      cases hs
      refine ⟨?_, by rw [hg]; rfl⟩
      have : c.calmed.pc t = .waitCv old := by simp [Conf.calmed, hp, Pc.calmed]
      rw [calmed_goto]
      simp [step, this, Pc.calmed, Ev.calmed, Move.calmed]
    · cases hs
  | go =>
    simp only [step] at hs
    simp only [stepGo] at hs
    have hpc : c.calmed.pc t = (c.pc t).calmed := rfl
    have hh : c.calmed.holder = c.holder := rfl
    have hc : c.calmed.count = c.count := rfl
    have hw : c.calmed.waiting = c.waiting := rfl
    refine ⟨?_, ?_⟩
    · simp only [Move.calmed, step, stepGo, hpc]
      cases hp : c.pc t <;> rw [hp] at hs hth <;> simp only [Pc.calmed] at hs ⊢
      case idle => cases hs
      case waitCv => cases hs
      case expired => cases hth
      case setCorrupt => cases hth
      case setCount => cases hth
      case notifyT => cases hth
      case wantLock old =>
        split at hs
        · next h0 => cases hs; rw [hh, if_pos h0, calmed_goto]; rfl
        · cases hs
      case woken old b =>
        split at hs
        · next h0 =>
          cases hs; rw [hh, if_pos h0, calmed_goto]
          cases b <;> rfl
        · cases hs
      case pred old =>
        split at hs
        · next h0 => cases hs; rw [hc, if_pos h0, calmed_goto]; rfl
        · next h0 => cases hs; rw [hc, if_neg h0, calmed_goto]; rfl
      case predT old =>
        cases hs
        have h0 := hT old hp
        rw [hc, if_pos h0, if_pos h0, calmed_goto]; rfl
      case test old =>
        cases hs; rw [hw, calmed_goto]
        split <;> rfl
      case notify => cases hs; rw [calmed_goto, calmed_wakeAll]; rfl
      case leave r => cases hs; rw [calmed_goto]; rfl
      case out r =>
        cases hs; rw [calmed_goto]
        cases r <;> rfl
      all_goals
        cases hs
        rw [calmed_goto]
        rfl
    · cases hp : c.pc t <;> rw [hp] at hs hth <;> simp only [] at hs
      case idle => cases hs
      case waitCv => cases hs
      case expired => cases hth
      case setCorrupt => cases hth
      case setCount => cases hth
      case notifyT => cases hth
      case wantLock old =>
        split at hs
        · cases hs; rw [hg]; rfl
        · cases hs
      case woken old b =>
        split at hs
        · cases hs; rw [hg]; cases b <;> rfl
        · cases hs
      case pred old =>
        split at hs
        · cases hs; rw [hg]; rfl
        · cases hs; rw [hg]; rfl
      case predT old => cases hs; rw [hg, if_pos (hT old hp)]; rfl
      case test old => cases hs; rw [hg]; split <;> rfl
      case leave r => cases hs; rw [hg]; cases r <;> first | rfl | cases hth
      all_goals
        cases hs
        rw [hg]
        rfl

theorem entered_eq (t : T) (evs : List (Ev T)) : entered t evs = arrOf t evs := rfl

theorem complete_left {l l' : List (Ev T)} (h : Complete (l ++ l')) : Complete l := by
  intro pre t post he u
  exact h pre t (post ++ l') (by rw [he]; simp) u

theorem calmed_noDeadline (evs : List (Ev T)) : NoDeadline (evs.map Ev.calmed) := by
  intro t ht
  obtain ⟨e, -, he⟩ := List.mem_map.1 ht
  cases e <;> cases he

theorem arrOf_calmed (t : T) (evs : List (Ev T)) : arrOf t (evs.map Ev.calmed) = arrOf t evs := by
  unfold arrOf
  rw [List.countP_map]
  congr 1
  funext e
  cases e <;> rfl

theorem callsBy_calmed (t : T) (evs : List (Ev T)) :
    callsBy t (evs.map Ev.calmed) = callsBy t evs := by
  unfold callsBy
  rw [List.countP_map]
  congr 1
  funext e
  cases e <;> simp [Ev.calmed]

theorem returnsTo_calmed (t : T) (evs : List (Ev T)) :
    returnsTo t (evs.map Ev.calmed) = returnsTo t evs := by
  unfold returnsTo
  rw [List.countP_map]
  congr 1
  funext e
  cases e <;> simp [Ev.calmed]

/-- Where a thread that is late comes from. -/
theorem late_step {n} {c c' : Conf T} {t m e} (hs : step n c t m = some (c', e))
    (h : (c'.pc t).late = true) : e = .deadline t ∨ ((c.pc t).late = true ∧ e = .tau t) := by
  have hg : ∀ (c₁ : Conf T) p, (c₁.goto t p).pc t = p := by
    intro c₁ p; simp [Conf.goto]
  cases m with
  | call =>
    simp only [step] at hs
    split at hs
    · cases hs; rw [hg] at h; cases h
    · cases hs
  | spurious =>
    simp only [step] at hs
    split at hs
    · cases hs; rw [hg] at h; cases h
    · cases hs
  | deadline =>
    simp only [step] at hs
    split at hs
    · cases hs; exact Or.inl rfl
    · cases hs
  | go =>
    simp only [step, stepGo] at hs
    right
    cases hp : c.pc t <;> rw [hp] at hs <;> simp only [] at hs
    case idle => cases hs
    case waitCv => cases hs
    case wantLock =>
      split at hs
      · cases hs; rw [hg] at h; cases h
      · cases hs
    case woken o b =>
      split at hs
      · cases hs; rw [hg] at h
        cases b
        · cases h
        · exact ⟨rfl, rfl⟩
      · cases hs
    case pred =>
      split at hs
      · cases hs; rw [hg] at h; cases h
      · cases hs; rw [hg] at h; cases h
    case test => cases hs; rw [hg] at h; split at h <;> cases h
    case predT => cases hs; rw [hg] at h; split at h <;> cases h
    case expired => cases hs; rw [hg] at h; split at h <;> cases h
    all_goals
      cases hs
      rw [hg] at h
      cases h

section exact
variable [Fintype T]

/-- A thread that looks at `barrier_count` after its deadline finds it changed. -/
theorem found {n evs} {c : Conf T} (hn : 1 ≤ n) (hn32 : n < 4294967296)
    (hcard : Fintype.card T = n) (hr : Run n (evs.map Ev.calmed) c.calmed)
    (hl : ∀ t, (c.pc t).late = true → ∀ u, arrOf t evs ≤ arrOf u evs) (t : T) (old : Nat)
    (hp : c.pc t = .predT old) : old ≠ c.count := by
  intro heq
  obtain ⟨G, gen, cur, pend, hi, he⟩ := exact_run hn hn32 hcard hr (calmed_noDeadline evs)
  have hp' : c.calmed.pc t = .pred old := by simp [Conf.calmed, hp, Pc.calmed]
  have hgood := hi.good t
  have harr : (c.calmed.pc t).arrived = true := by rw [hp']; rfl
  have hgen := he.gen t harr
  have hcount := hi.count
  have hcc : c.calmed.count = c.count := rfl
  rw [hp'] at hgood
  simp only [Pc.good] at hgood
  have hG : gen t = G := by
    have h1 : old = gen t % 4294967296 := by tauto
    have h2 : gen t ≤ G := by tauto
    omega
  have hcur : t ∈ cur := (hi.cur_mem t).2 ⟨harr, hG⟩
  have hall : ∀ u, u ∈ cur := by
    intro u
    have h1 := hl t (by rw [hp]; rfl) u
    have h2 := he.arr t
    have h3 := he.arr u
    rw [arrOf_calmed] at h2 h3
    rw [if_pos hcur] at h2
    by_contra hu
    rw [if_neg hu] at h3
    omega
  have hlen : cur.length = n := by
    rw [← hcard, ← List.toFinset_card_of_nodup hi.cur_nodup, ← Finset.card_univ]
    congr 1
    ext u
    simp [hall u]
  obtain ⟨u, hu⟩ := hi.full hlen
  have hhold : (c.calmed.pc t).holds = true := by rw [hp']; rfl
  have huh : (c.calmed.pc u).holds = true := by
    rcases hu with ⟨o, hu⟩ | hu | hu <;> rw [hu] <;> rfl
  have h1 := (hi.excl t).1 hhold
  have h2 := (hi.excl u).1 huh
  rw [h1] at h2
  cases h2
  rw [hp'] at hu
  simp at hu

/-- The simulation. -/
theorem calmed_run {n evs} {c : Conf T} (hn : 1 ≤ n) (hn32 : n < 4294967296)
    (hcard : Fintype.card T = n) (h : Run n evs c) (hd : Complete evs) :
    Run n (evs.map Ev.calmed) c.calmed ∧ (∀ t, (c.pc t).throwing = false) ∧
      (∀ t, (c.pc t).late = true → ∀ u, arrOf t evs ≤ arrOf u evs) ∧
      (∀ t r, Ev.raise t r ∉ evs) := by
  induction h with
  | init =>
    exact ⟨Run.init, fun _ => rfl, fun t ht => by simp [Conf.init, Pc.late] at ht, by simp⟩
  | @snoc evs c t m c' e h hs ih =>
    obtain ⟨hr, hth, hl, hx⟩ := ih (complete_left hd)
    have hT := found hn hn32 hcard hr hl t
    obtain ⟨hs', hth'⟩ := calmed_step hs (hth t) hT
    refine ⟨?_, ?_, ?_, ?_⟩
    · rw [List.map_append]
      exact Run.snoc hr hs'
    · intro u
      by_cases hu : u = t
      · rw [hu]; exact hth'
      · rcases step_other hs u hu with h1 | ⟨old, h1, h2⟩
        · rw [h1]; exact hth u
        · rw [h2]; rfl
    · intro u hu v
      by_cases hut : u = t
      · subst hut
        rcases late_step hs hu with he | ⟨h1, he⟩
        · subst he
          have := hd evs u [] (by simp) v
          simpa [entered_eq, arrOf_snoc] using this
        · subst he
          simpa [arrOf_snoc] using hl u h1 v
      · have h1 : (c.pc u).late = true := by
          rcases step_other hs u hut with h1 | ⟨old, h1, h2⟩
          · rw [← h1]; exact hu
          · rw [h2] at hu; cases hu
        have h2 := hl u h1 v
        have h3 : arrOf u (evs ++ [e]) = arrOf u evs := by
          rcases step_self hs with ⟨he, -⟩ | ⟨old, he, -⟩ | ⟨he, -⟩ | ⟨r, -, he, -⟩ | ⟨he, -⟩
          · subst he; simp [arrOf_snoc]
          · subst he; simp [arrOf_snoc, Ne.symm hut]
          · subst he; simp [arrOf_snoc]
          · subst he; simp [arrOf_snoc]
          · rcases he with he | he | he <;> subst he <;> simp [arrOf_snoc]
        have h4 : arrOf v evs ≤ arrOf v (evs ++ [e]) := by
          rw [arrOf_snoc]; exact Nat.le_add_right _ _
        omega
    · intro u r hu
      rcases List.mem_append.1 hu with hu | hu
      · exact hx u r hu
      · have he : e = .raise u r := (List.mem_singleton.1 hu).symm
        subst he
        rcases step_self hs with ⟨he, -⟩ | ⟨old, he, -⟩ | ⟨he, -⟩ | ⟨r', hr', he, hp, -⟩ | ⟨he, -⟩
        · cases he
        · cases he
        · cases he
        · have := hth t; rw [hp] at this
          cases r' <;> first | exact hr' rfl | cases this
        · rcases he with he | he | he <;> cases he

end exact

/-- Statements that can be executed stay executable. -/
theorem calmed_stuck {n} {c : Conf T}
    (h : ∀ t, step n c t .go = none) (t : T) : step n c.calmed t .go = none := by
  have h1 := h t
  simp only [step, stepGo] at h1 ⊢
  have hpc : c.calmed.pc t = (c.pc t).calmed := rfl
  have hh : c.calmed.holder = c.holder := rfl
  rw [hpc]
  cases hp : c.pc t <;> rw [hp] at h1 <;> simp only [Pc.calmed] at h1 ⊢
  case wantLock => rw [hh]; split at h1 <;> simp_all
  case woken => rw [hh]; split at h1 <;> simp_all
  case pred => split at h1 <;> simp_all
  all_goals simp_all

end SoDa.Bar
