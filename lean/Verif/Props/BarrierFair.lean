import Verif.Proof.BarrierFair
/-!
C119: with a fair scheduler every call of `wait` ends.
-/
set_option linter.unusedSectionVars false
namespace SoDa.Bar
open Spec

variable {T : Type} [DecidableEq T]
variable {n : Nat} {σ : Nat → Conf T} {act : Nat → Option (T × Move × Ev T)}

theorem goto_pc (c : Conf T) (t : T) (p : Pc) : (c.goto t p).pc t = p := by simp [Conf.goto]

/-- A thread that has called `wait` enters the barrier. -/
theorem will_arrive [Fintype T] (h : Infinite n σ act) (hf : Fair n σ act) (i : Nat) (t : T)
    (hp : (σ i).pc t ≠ .idle) (ha : ((σ i).pc t).arrived = false) :
    ∃ j, i ≤ j ∧ arrOf t (happened act i) + 1 ≤ arrOf t (happened act j) := by
  have hincr : ∀ i old, (σ i).pc t = .incr old → ∃ j, i ≤ j ∧ arrOf t (happened act i) + 1 ≤ arrOf t (happened act j) := by
    intro i old hp
    obtain ⟨j, hij, hpj, e, hs, hap⟩ := goes h hf i t (by rw [hp]; rfl)
    rw [hp] at hpj
    simp only [step, stepGo, hpj, Option.some.injEq, Prod.mk.injEq] at hs
    refine ⟨j + 1, by omega, ?_⟩
    rw [hap, arrOf_snoc, ← hs.2]
    have : arrOf t (happened act i) ≤ arrOf t (happened act j) := countP_mono _ hij
    simp only [if_true]
    omega
  have hlock : ∀ i old, (σ i).pc t = .wantLock old → ∃ j, i ≤ j ∧ arrOf t (happened act i) + 1 ≤ arrOf t (happened act j) := by
    intro i old hp
    obtain ⟨j, hij, hpj, e, hs, hap⟩ := goes h hf i t (by rw [hp]; rfl)
    rw [hp] at hpj
    simp only [step, stepGo, hpj] at hs
    split at hs
    · simp only [Option.some.injEq, Prod.mk.injEq] at hs
      obtain ⟨j', h1, h2⟩ := hincr (j + 1) old (by rw [← hs.1]; exact goto_pc _ _ _)
      have : arrOf t (happened act i) ≤ arrOf t (happened act (j + 1)) := countP_mono _ (by omega)
      exact ⟨j', by omega, by omega⟩
    · cases hs
  cases hq : (σ i).pc t <;> rw [hq] at ha <;> simp only [Pc.arrived, Bool.true_eq_false] at ha
  case idle => exact absurd hq hp
  case incr old => exact hincr i old hq
  case wantLock old => exact hlock i old hq
  case start =>
    obtain ⟨j, hij, hpj, e, hs, hap⟩ := goes h hf i t (by rw [hq]; rfl)
    rw [hq] at hpj
    simp only [step, stepGo, hpj, Option.some.injEq, Prod.mk.injEq] at hs
    obtain ⟨j', h1, h2⟩ := hlock (j + 1) _ (by rw [← hs.1]; exact goto_pc _ _ _)
    have : arrOf t (happened act i) ≤ arrOf t (happened act (j + 1)) := countP_mono _ (by omega)
    exact ⟨j', by omega, by omega⟩

/-- What happens for every thread at some time, and lasts, is the case for all threads at some time. -/
theorem all_at_once [Fintype T] {P : T → Nat → Prop} (hm : ∀ t i j, i ≤ j → P t i → P t j) (h : ∀ t, ∃ i, P t i) :
    ∃ i, ∀ t, P t i := by
  choose f hf using h
  exact ⟨Finset.univ.sup f, fun t => hm t (f t) _ (Finset.le_sup (Finset.mem_univ t)) (hf t)⟩

/-- `k` generations are complete. -/
def Complete' [Fintype T] (n : Nat) (evs : List (Ev T)) (c : Conf T) (k : Nat) : Prop :=
  ∃ G gen cur pend, Inv n evs c G gen cur pend ∧ Exact evs c G gen cur ∧ k ≤ G

theorem complete_mono [Fintype T] (hn : 1 ≤ n) (hn32 : n < 4294967296) (hcard : Fintype.card T = n) (h : Infinite n σ act)
    (hd : ∀ i, NoDeadline (happened act i)) {k i j : Nat} (hij : i ≤ j) (hc : Complete' n (happened act i) (σ i) k) :
    Complete' n (happened act j) (σ j) k := by
  induction hij with
  | refl => exact hc
  | @step j hij ih =>
    cases ha : act j with
    | none =>
      rw [happened_succ, ha, h.none j ha]
      simpa using ih
    | some a =>
      obtain ⟨u, m, e⟩ := a
      obtain ⟨G, gen, cur, pend, hi, hx, hk⟩ := ih
      have hs := h.some j u m e ha
      have hh : happened act (j + 1) = happened act j ++ [e] := by rw [happened_succ, ha]; rfl
      obtain ⟨G', gen', cur', pend', hi', hx', hG⟩ := exact_step hn hn32 hcard hi hx hs
        (fun he => hd (j + 1) u (by rw [hh, he]; simp))
      exact ⟨G', gen', cur', pend', by rw [hh]; exact hi', by rw [hh]; exact hx', by omega⟩

/-- When all threads have entered the barrier for the `k`-th time, the generation will be completed. -/
theorem will_complete [Fintype T] (hn : 1 ≤ n) (hn32 : n < 4294967296) (hcard : Fintype.card T = n) (h : Infinite n σ act)
    (hf : Fair n σ act) (hd : ∀ i, NoDeadline (happened act i)) {k i : Nat} (ha : ∀ t, k ≤ arrOf t (happened act i)) :
    ∃ j, i ≤ j ∧ Complete' n (happened act j) (σ j) k := by
  by_contra hno
  have hbusy : ∀ j, i ≤ j → ∃ u, (∃ old, (σ j).pc u = .test old) ∨ (σ j).pc u = .reset ∨ (σ j).pc u = .bump := by
    intro j hij
    obtain ⟨G, gen, cur, pend, hi, hx⟩ := exact_run hn hn32 hcard (inf_run h j) (hd j)
    have hG : ¬ k ≤ G := fun hG => hno ⟨j, hij, G, gen, cur, pend, hi, hx, hG⟩
    apply hi.full
    have hall : ∀ t, t ∈ cur := by
      intro t
      by_contra ht
      have h1 := hx.arr t
      rw [if_neg ht] at h1
      have h2 : arrOf t (happened act i) ≤ arrOf t (happened act j) := countP_mono _ hij
      have := ha t
      omega
    rw [← hcard, ← List.toFinset_card_of_nodup hi.cur_nodup, Finset.card_eq_iff_eq_univ]
    ext u; simp [hall u]
  have hone : ∀ j u v, ((σ j).pc u).holds = true → ((σ j).pc v).holds = true → u = v := fun j u v h1 h2 =>
    (safe_run (inf_run h j)).1.eq h2 h1
  have hholds : ∀ j u, ((∃ old, (σ j).pc u = .test old) ∨ (σ j).pc u = .reset ∨ (σ j).pc u = .bump) → ((σ j).pc u).holds = true := by
    rintro j u (⟨old, h1⟩ | h1 | h1) <;> rw [h1] <;> rfl
  have hbump : ∀ j u, i ≤ j → (σ j).pc u = .bump → False := by
    intro j u hij hp
    obtain ⟨j', h1, hpj, e, hs, -⟩ := goes h hf j u (by rw [hp]; rfl)
    rw [hp] at hpj
    simp only [step, stepGo, hpj, Option.some.injEq, Prod.mk.injEq] at hs
    have h2 : (σ (j' + 1)).pc u = .notify := by rw [← hs.1]; exact goto_pc _ _ _
    obtain ⟨v, hv⟩ := hbusy (j' + 1) (by omega)
    have := hone (j' + 1) u v (by rw [h2]; rfl) (hholds _ _ hv)
    subst this
    rw [h2] at hv
    simp at hv
  have hreset : ∀ j u, i ≤ j → (σ j).pc u = .reset → False := by
    intro j u hij hp
    obtain ⟨j', h1, hpj, e, hs, -⟩ := goes h hf j u (by rw [hp]; rfl)
    rw [hp] at hpj
    simp only [step, stepGo, hpj, Option.some.injEq, Prod.mk.injEq] at hs
    exact hbump (j' + 1) u (by omega) (by rw [← hs.1]; exact goto_pc _ _ _)
  obtain ⟨u, ⟨old, hu⟩ | hu | hu⟩ := hbusy i (Nat.le_refl _)
  · obtain ⟨j', h1, hpj, e, hs, -⟩ := goes h hf i u (by rw [hu]; rfl)
    rw [hu] at hpj
    simp only [step, stepGo, hpj, Option.some.injEq, Prod.mk.injEq] at hs
    have h2 := hs.1
    by_cases hw : (σ j').waiting = n
    · rw [if_pos hw] at h2
      exact hreset (j' + 1) u (by omega) (by rw [← h2]; exact goto_pc _ _ _)
    · rw [if_neg hw] at h2
      have h3 : (σ (j' + 1)).pc u = .pred old := by rw [← h2]; exact goto_pc _ _ _
      obtain ⟨v, hv⟩ := hbusy (j' + 1) (by omega)
      have := hone (j' + 1) u v (by rw [h3]; rfl) (hholds _ _ hv)
      subst this
      rw [h3] at hv
      simp at hv
  · exact hreset i u (Nat.le_refl _) hu
  · exact hbump i u (Nat.le_refl _) hu

/-- When generation `k` is complete, everybody returns from it. -/
theorem will_return [Fintype T] (hn : 1 ≤ n) (hn32 : n < 4294967296) (hcard : Fintype.card T = n) (h : Infinite n σ act)
    (hf : Fair n σ act) (hd : ∀ i, NoDeadline (happened act i)) {k i : Nat} (hc : Complete' n (happened act i) (σ i) k) (t : T) :
    ∃ j, k ≤ returnsTo t (happened act j) := by
  by_contra hno
  have hlt : ∀ j, returnsTo t (happened act j) < k := fun j => by
    by_contra hge; exact hno ⟨j, by omega⟩
  have F : ∀ j, i ≤ j → (∃ G g, (σ j).count = G % 4294967296 ∧ G = g + 1 ∧ ((σ j).pc t).good G g) ∧
      returnsTo t (happened act j) + 1 = k ∧ ((σ j).pc t).arrived = true ∧
      (∀ old, (σ j).pc t = .waitCv old → old ≠ (σ j).count → ∃ u, (σ j).pc u = .notify) := by
    intro j hij
    obtain ⟨G, gen, cur, pend, hi, hx, hk⟩ := complete_mono hn hn32 hcard h hd hij hc
    have hr := inf_run h j
    have h1 := (counts hr t).2
    rw [ends_eq_returns (calm_run hr (hd j)).2] at h1
    have h2 := hx.arr t
    have h3 := hlt j
    have h4 : ((σ j).pc t).arrived = true := by
      by_contra h4
      rw [if_neg h4] at h1
      omega
    rw [if_pos h4] at h1
    have h5 : t ∉ cur := by
      intro h5
      rw [if_pos h5] at h2
      omega
    have h6 : gen t ≠ G := fun h6 => h5 ((hi.cur_mem t).2 ⟨h4, h6⟩)
    have h7 := hx.gen t h4
    have h8 := hi.good t
    refine ⟨⟨G, gen t, hi.count, ?_, h8⟩, ?_, h4, fun old => hi.awake t old⟩
    · cases hp : (σ j).pc t <;> rw [hp] at h8 h4 <;> simp only [Pc.good, Pc.arrived, Bool.false_eq_true] at h8 h4 <;> try omega
      case woken old b => cases b <;> simp only at h8; omega
      case leave r => cases r <;> simp only at h8; omega
      case out r => cases r <;> simp only at h8; omega
    · rw [if_neg h5] at h2; omega
  have hout : ∀ j, i ≤ j → (σ j).pc t = .out .normal → False := by
    intro j hij hp
    obtain ⟨j', h1, hpj, e, hs, hap⟩ := goes h hf j t (by rw [hp]; rfl)
    rw [hp] at hpj
    simp only [step, stepGo, hpj, Option.some.injEq, Prod.mk.injEq] at hs
    have h2 := (F j' (by omega)).2.1
    have h3 := hlt (j' + 1)
    rw [hap, ← hs.2] at h3
    unfold returnsTo at h2 h3
    rw [countP_snoc] at h3
    simp at h3
    omega
  have hleave : ∀ j, i ≤ j → (σ j).pc t = .leave .normal → False := by
    intro j hij hp
    obtain ⟨j', h1, hpj, e, hs, hap⟩ := goes h hf j t (by rw [hp]; rfl)
    rw [hp] at hpj
    simp only [step, stepGo, hpj, Option.some.injEq, Prod.mk.injEq] at hs
    exact hout (j' + 1) (by omega) (by rw [← hs.1]; exact goto_pc _ _ _)
  have hnotify : ∀ j, i ≤ j → (σ j).pc t = .notify → False := by
    intro j hij hp
    obtain ⟨j', h1, hpj, e, hs, hap⟩ := goes h hf j t (by rw [hp]; rfl)
    rw [hp] at hpj
    simp only [step, stepGo, hpj, Option.some.injEq, Prod.mk.injEq] at hs
    exact hleave (j' + 1) (by omega) (by rw [← hs.1]; exact goto_pc _ _ _)
  have hpred : ∀ j old, i ≤ j → (σ j).pc t = .pred old → False := by
    intro j old hij hp
    obtain ⟨j', h1, hpj, e, hs, hap⟩ := goes h hf j t (by rw [hp]; rfl)
    rw [hp] at hpj
    obtain ⟨⟨G, g, hc', hG, hg⟩, -⟩ := F j' (by omega)
    rw [hpj] at hg
    have hne : old ≠ (σ j').count := by
      rw [hc', hg.1]; omega
    simp only [step, stepGo, hpj] at hs
    rw [if_pos hne] at hs
    simp only [Option.some.injEq, Prod.mk.injEq] at hs
    exact hleave (j' + 1) (by omega) (by rw [← hs.1]; exact goto_pc _ _ _)
  have hwoken : ∀ j old, i ≤ j → (σ j).pc t = .woken old false → False := by
    intro j old hij hp
    obtain ⟨j', h1, hpj, e, hs, hap⟩ := goes h hf j t (by rw [hp]; rfl)
    rw [hp] at hpj
    simp only [step, stepGo, hpj] at hs
    split at hs
    · simp only [Option.some.injEq, Prod.mk.injEq] at hs
      exact hpred (j' + 1) old (by omega) (by rw [← hs.1]; exact goto_pc _ _ _)
    · cases hs
  have hawake : ∀ j, i ≤ j → ∃ old, (σ j).pc t = .waitCv old := by
    intro j hij
    obtain ⟨⟨G, g, hc', hG, hg⟩, -, harr, -⟩ := F j hij
    cases hp : (σ j).pc t <;> rw [hp] at hg harr <;> simp only [Pc.good, Pc.arrived, Bool.false_eq_true] at hg harr
    case waitCv old => exact ⟨old, rfl⟩
    case pred old => exact (hpred j old hij hp).elim
    case notify => exact (hnotify j hij hp).elim
    case woken old b =>
      cases b
      · exact (hwoken j old hij hp).elim
      · simp only at hg
    case leave r => cases r <;> first | exact (hleave j hij hp).elim | (simp only at hg)
    case out r => cases r <;> first | exact (hout j hij hp).elim | (simp only at hg)
    all_goals omega
  obtain ⟨old, hp⟩ := hawake i (Nat.le_refl _)
  obtain ⟨⟨G, g, hc', hG, hg⟩, -, -, haw⟩ := F i (Nat.le_refl _)
  rw [hp] at hg
  obtain ⟨u, hu⟩ := haw old hp (by rw [hc', hg.1]; omega)
  obtain ⟨j, hij, hpj, e, hs, -⟩ := goes h hf i u (by rw [hu]; rfl)
  rw [hu] at hpj
  obtain ⟨old', hp'⟩ := hawake j hij
  have hut : t ≠ u := by rintro rfl; rw [hp'] at hpj; cases hpj
  simp only [step, stepGo, hpj, Option.some.injEq, Prod.mk.injEq] at hs
  have h1 : (σ (j + 1)).pc t = .woken old' false := by
    rw [← hs.1]
    simp [Conf.goto, Conf.wakeAll, hut, hp']
  exact hwoken (j + 1) old' (by omega) h1

/-- C119: with exactly as many threads as the barrier is for, a fair scheduler, and no timeouts: if every thread calls `wait` for the
`k`-th time (at some time), then this call returns to every thread, whatever the threads do otherwise, and however often they wake up
without reason. -/
theorem C119_returns [Fintype T] (hn : n < 2 ^ 32) (hcard : Fintype.card T = n) (h : Infinite n σ act) (hf : Fair n σ act)
    (hd : ∀ i, NoDeadline (happened act i)) (k : Nat) (hcall : ∀ t, ∃ i, k ≤ callsBy t (happened act i)) (t : T) :
    ∃ i, k ≤ returnsTo t (happened act i) := by
  have h1 : 1 ≤ n := by rw [← hcard]; exact Fintype.card_pos_iff.2 ⟨t⟩
  have hn32 : n < 4294967296 := by omega
  induction k generalizing t with
  | zero => exact ⟨0, Nat.zero_le _⟩
  | succ k ih =>
    have hret := all_at_once (P := fun t i => k ≤ returnsTo t (happened act i))
      (fun t i j hij hp => Nat.le_trans hp (countP_mono _ hij)) (ih fun t => (hcall t).imp fun i hi => by omega)
    have hcl := all_at_once (P := fun t i => k + 1 ≤ callsBy t (happened act i))
      (fun t i j hij hp => Nat.le_trans hp (countP_mono _ hij)) hcall
    obtain ⟨i1, hi1⟩ := hret
    obtain ⟨i2, hi2⟩ := hcl
    have harr : ∀ u, ∃ j, k + 1 ≤ arrOf u (happened act j) := by
      intro u
      have hr := inf_run h (max i1 i2)
      have hcu := counts hr u
      rw [ends_eq_returns (calm_run hr (hd _)).2] at hcu
      have h2 : returnsTo u (happened act i1) ≤ returnsTo u (happened act (max i1 i2)) := countP_mono _ (Nat.le_max_left _ _)
      have h3 : callsBy u (happened act i2) ≤ callsBy u (happened act (max i1 i2)) := countP_mono _ (Nat.le_max_right _ _)
      have h4 := hi1 u
      have h5 := hi2 u
      by_cases ha : ((σ (max i1 i2)).pc u).arrived = true
      · rw [if_pos ha] at hcu
        exact ⟨max i1 i2, by omega⟩
      · by_cases hid : (σ (max i1 i2)).pc u = .idle
        · rw [if_pos hid] at hcu
          exact ⟨max i1 i2, by omega⟩
        · obtain ⟨j, -, hj⟩ := will_arrive h hf (max i1 i2) u hid (by simpa using ha)
          exact ⟨j, by omega⟩
    obtain ⟨i3, hi3⟩ := all_at_once (P := fun t i => k + 1 ≤ arrOf t (happened act i))
      (fun t i j hij hp => Nat.le_trans hp (countP_mono _ hij)) harr
    obtain ⟨j, -, hj⟩ := will_complete h1 hn32 hcard h hf hd hi3
    exact will_return h1 hn32 hcard h hf hd hj t

/-- C119: with any number of threads, a fair scheduler, and deadlines that pass: every call of `wait` ends, by returning or by an
exception. -/
theorem C119_ends (h : Infinite n σ act) (hf : Fair n σ act) (hp : DeadlinesPass σ act) (t : T) (i : Nat) :
    ∃ j, i ≤ j ∧ callsBy t (happened act i) ≤ endsOf t (happened act j) := by
  suffices hid : ∃ j, i ≤ j ∧ (σ j).pc t = .idle by
    obtain ⟨j, hij, hj⟩ := hid
    have h1 := (counts (inf_run h j) t).1
    rw [if_pos hj] at h1
    have h2 : callsBy t (happened act i) ≤ callsBy t (happened act j) := countP_mono _ hij
    exact ⟨j, hij, by omega⟩
  by_contra hno
  have hne : ∀ j, i ≤ j → (σ j).pc t ≠ .idle := fun j hij hj => hno ⟨j, hij, hj⟩
  have hout : ∀ j r, i ≤ j → (σ j).pc t = .out r → False := by
    intro j r hij hp
    obtain ⟨j', h1, hpj, e, hs, -⟩ := goes h hf j t (by rw [hp]; rfl)
    rw [hp] at hpj
    simp only [step, stepGo, hpj, Option.some.injEq, Prod.mk.injEq] at hs
    exact hne (j' + 1) (by omega) (by rw [← hs.1]; exact goto_pc _ _ _)
  have hleave : ∀ j r, i ≤ j → (σ j).pc t = .leave r → False := by
    intro j r hij hp
    obtain ⟨j', h1, hpj, e, hs, -⟩ := goes h hf j t (by rw [hp]; rfl)
    rw [hp] at hpj
    simp only [step, stepGo, hpj, Option.some.injEq, Prod.mk.injEq] at hs
    exact hout (j' + 1) r (by omega) (by rw [← hs.1]; exact goto_pc _ _ _)
  have hnotify : ∀ j, i ≤ j → (σ j).pc t = .notifyT → False := by
    intro j hij hp
    obtain ⟨j', h1, hpj, e, hs, -⟩ := goes h hf j t (by rw [hp]; rfl)
    rw [hp] at hpj
    simp only [step, stepGo, hpj, Option.some.injEq, Prod.mk.injEq] at hs
    exact hleave (j' + 1) .timeout (by omega) (by rw [← hs.1]; exact goto_pc _ _ _)
  have hcount : ∀ j, i ≤ j → (σ j).pc t = .setCount → False := by
    intro j hij hp
    obtain ⟨j', h1, hpj, e, hs, -⟩ := goes h hf j t (by rw [hp]; rfl)
    rw [hp] at hpj
    simp only [step, stepGo, hpj, Option.some.injEq, Prod.mk.injEq] at hs
    exact hnotify (j' + 1) (by omega) (by rw [← hs.1]; exact goto_pc _ _ _)
  have hcorrupt : ∀ j, i ≤ j → (σ j).pc t = .setCorrupt → False := by
    intro j hij hp
    obtain ⟨j', h1, hpj, e, hs, -⟩ := goes h hf j t (by rw [hp]; rfl)
    rw [hp] at hpj
    simp only [step, stepGo, hpj, Option.some.injEq, Prod.mk.injEq] at hs
    exact hcount (j' + 1) (by omega) (by rw [← hs.1]; exact goto_pc _ _ _)
  have hexpired : ∀ j, i ≤ j → (σ j).pc t = .expired → False := by
    intro j hij hp
    obtain ⟨j', h1, hpj, e, hs, -⟩ := goes h hf j t (by rw [hp]; rfl)
    rw [hp] at hpj
    simp only [step, stepGo, hpj, Option.some.injEq, Prod.mk.injEq] at hs
    have h2 := hs.1
    split at h2
    · exact hleave (j' + 1) .corrupt (by omega) (by rw [← h2]; exact goto_pc _ _ _)
    · exact hcorrupt (j' + 1) (by omega) (by rw [← h2]; exact goto_pc _ _ _)
  have hpredT : ∀ j old, i ≤ j → (σ j).pc t = .predT old → False := by
    intro j old hij hp
    obtain ⟨j', h1, hpj, e, hs, -⟩ := goes h hf j t (by rw [hp]; rfl)
    rw [hp] at hpj
    simp only [step, stepGo, hpj, Option.some.injEq, Prod.mk.injEq] at hs
    have h2 := hs.1
    split at h2
    · exact hleave (j' + 1) .normal (by omega) (by rw [← h2]; exact goto_pc _ _ _)
    · exact hexpired (j' + 1) (by omega) (by rw [← h2]; exact goto_pc _ _ _)
  have hwokenT : ∀ j old, i ≤ j → (σ j).pc t = .woken old true → False := by
    intro j old hij hp
    obtain ⟨j', h1, hpj, e, hs, -⟩ := goes h hf j t (by rw [hp]; rfl)
    rw [hp] at hpj
    simp only [step, stepGo, hpj] at hs
    split at hs
    · simp only [Option.some.injEq, Prod.mk.injEq, if_true] at hs
      exact hpredT (j' + 1) old (by omega) (by rw [← hs.1]; exact goto_pc _ _ _)
    · cases hs
  have hnotifyN : ∀ j, i ≤ j → (σ j).pc t = .notify → False := by
    intro j hij hp
    obtain ⟨j', h1, hpj, e, hs, -⟩ := goes h hf j t (by rw [hp]; rfl)
    rw [hp] at hpj
    simp only [step, stepGo, hpj, Option.some.injEq, Prod.mk.injEq] at hs
    exact hleave (j' + 1) .normal (by omega) (by rw [← hs.1]; exact goto_pc _ _ _)
  have hbump : ∀ j, i ≤ j → (σ j).pc t = .bump → False := by
    intro j hij hp
    obtain ⟨j', h1, hpj, e, hs, -⟩ := goes h hf j t (by rw [hp]; rfl)
    rw [hp] at hpj
    simp only [step, stepGo, hpj, Option.some.injEq, Prod.mk.injEq] at hs
    exact hnotifyN (j' + 1) (by omega) (by rw [← hs.1]; exact goto_pc _ _ _)
  have hreset : ∀ j, i ≤ j → (σ j).pc t = .reset → False := by
    intro j hij hp
    obtain ⟨j', h1, hpj, e, hs, -⟩ := goes h hf j t (by rw [hp]; rfl)
    rw [hp] at hpj
    simp only [step, stepGo, hpj, Option.some.injEq, Prod.mk.injEq] at hs
    exact hbump (j' + 1) (by omega) (by rw [← hs.1]; exact goto_pc _ _ _)
  have hpred : ∀ j old, i ≤ j → (σ j).pc t = .pred old → ∃ l, j ≤ l ∧ ∃ old, (σ l).pc t = .waitCv old := by
    intro j old hij hp
    obtain ⟨j', h1, hpj, e, hs, -⟩ := goes h hf j t (by rw [hp]; rfl)
    rw [hp] at hpj
    simp only [step, stepGo, hpj] at hs
    split at hs <;> simp only [Option.some.injEq, Prod.mk.injEq] at hs
    · exact (hleave (j' + 1) .normal (by omega) (by rw [← hs.1]; exact goto_pc _ _ _)).elim
    · exact ⟨j' + 1, by omega, old, by rw [← hs.1]; exact goto_pc _ _ _⟩
  have hwoken : ∀ j old, i ≤ j → (σ j).pc t = .woken old false → ∃ l, j ≤ l ∧ ∃ old, (σ l).pc t = .waitCv old := by
    intro j old hij hp
    obtain ⟨j', h1, hpj, e, hs, -⟩ := goes h hf j t (by rw [hp]; rfl)
    rw [hp] at hpj
    simp only [step, stepGo, hpj] at hs
    split at hs
    · simp only [Option.some.injEq, Prod.mk.injEq] at hs
      obtain ⟨l, hl, ho⟩ := hpred (j' + 1) old (by omega) (by rw [← hs.1]; exact goto_pc _ _ _)
      exact ⟨l, by omega, ho⟩
    · cases hs
  have htest : ∀ j old, i ≤ j → (σ j).pc t = .test old → ∃ l, j ≤ l ∧ ∃ old, (σ l).pc t = .waitCv old := by
    intro j old hij hp
    obtain ⟨j', h1, hpj, e, hs, -⟩ := goes h hf j t (by rw [hp]; rfl)
    rw [hp] at hpj
    simp only [step, stepGo, hpj, Option.some.injEq, Prod.mk.injEq] at hs
    have h2 := hs.1
    split at h2
    · exact (hreset (j' + 1) (by omega) (by rw [← h2]; exact goto_pc _ _ _)).elim
    · obtain ⟨l, hl, ho⟩ := hpred (j' + 1) old (by omega) (by rw [← h2]; exact goto_pc _ _ _)
      exact ⟨l, by omega, ho⟩
  have hincr : ∀ j old, i ≤ j → (σ j).pc t = .incr old → ∃ l, j ≤ l ∧ ∃ old, (σ l).pc t = .waitCv old := by
    intro j old hij hp
    obtain ⟨j', h1, hpj, e, hs, -⟩ := goes h hf j t (by rw [hp]; rfl)
    rw [hp] at hpj
    simp only [step, stepGo, hpj, Option.some.injEq, Prod.mk.injEq] at hs
    obtain ⟨l, hl, ho⟩ := htest (j' + 1) old (by omega) (by rw [← hs.1]; exact goto_pc _ _ _)
    exact ⟨l, by omega, ho⟩
  have hlock : ∀ j old, i ≤ j → (σ j).pc t = .wantLock old → ∃ l, j ≤ l ∧ ∃ old, (σ l).pc t = .waitCv old := by
    intro j old hij hp
    obtain ⟨j', h1, hpj, e, hs, -⟩ := goes h hf j t (by rw [hp]; rfl)
    rw [hp] at hpj
    simp only [step, stepGo, hpj] at hs
    split at hs
    · simp only [Option.some.injEq, Prod.mk.injEq] at hs
      obtain ⟨l, hl, ho⟩ := hincr (j' + 1) old (by omega) (by rw [← hs.1]; exact goto_pc _ _ _)
      exact ⟨l, by omega, ho⟩
    · cases hs
  have hsleep : ∀ j, i ≤ j → ∃ l, j ≤ l ∧ ∃ old, (σ l).pc t = .waitCv old := by
    intro j hij
    cases hq : (σ j).pc t
    case idle => exact (hne j hij hq).elim
    case start =>
      obtain ⟨j', h1, hpj, e, hs, -⟩ := goes h hf j t (by rw [hq]; rfl)
      rw [hq] at hpj
      simp only [step, stepGo, hpj, Option.some.injEq, Prod.mk.injEq] at hs
      obtain ⟨l, hl, ho⟩ := hlock (j' + 1) _ (by omega) (by rw [← hs.1]; exact goto_pc _ _ _)
      exact ⟨l, by omega, ho⟩
    case wantLock old => exact hlock j old hij hq
    case incr old => exact hincr j old hij hq
    case test old => exact htest j old hij hq
    case reset => exact (hreset j hij hq).elim
    case bump => exact (hbump j hij hq).elim
    case notify => exact (hnotifyN j hij hq).elim
    case pred old => exact hpred j old hij hq
    case waitCv old => exact ⟨j, Nat.le_refl _, old, hq⟩
    case woken old b =>
      cases b
      · exact hwoken j old hij hq
      · exact (hwokenT j old hij hq).elim
    case predT old => exact (hpredT j old hij hq).elim
    case expired => exact (hexpired j hij hq).elim
    case setCorrupt => exact (hcorrupt j hij hq).elim
    case setCount => exact (hcount j hij hq).elim
    case notifyT => exact (hnotify j hij hq).elim
    case leave r => exact (hleave j r hij hq).elim
    case out r => exact (hout j r hij hq).elim
  obtain ⟨j, hij, e, hj⟩ := hp t i hne hsleep
  have hs := h.some j t .deadline e hj
  simp only [step] at hs
  split at hs
  · next old _ =>
    simp only [Option.some.injEq, Prod.mk.injEq] at hs
    exact hwokenT (j + 1) old (by omega) (by rw [← hs.1]; exact goto_pc _ _ _)
  · cases hs

/-! ### Fair executions exist -/

/-- A finite execution, after which nothing happens. -/
theorem inf_of_run {evs : List (Ev T)} {c : Conf T} (h : Run n evs c) :
    ∃ σ act i, Infinite n σ act ∧ happened act i = evs ∧ ∀ j, i ≤ j → σ j = c ∧ act j = none := by
  induction h with
  | init => exact ⟨fun _ => Conf.init, fun _ => none, 0, ⟨rfl, by simp, by simp⟩, rfl, fun j _ => ⟨rfl, rfl⟩⟩
  | @snoc evs c t m c' e _ hs ih =>
    obtain ⟨σ, act, i, hinf, hh, hst⟩ := ih
    refine ⟨fun j => if j ≤ i then σ j else c', fun j => if j = i then some (t, m, e) else act j, i + 1, ⟨?_, ?_, ?_⟩, ?_, ?_⟩
    · rw [if_pos (Nat.zero_le _)]; exact hinf.init
    · intro j u m' e' hj
      by_cases hji : j = i
      · subst hji
        rw [if_pos rfl] at hj
        cases hj
        rw [if_pos (Nat.le_refl _), if_neg (by omega), (hst j (Nat.le_refl _)).1]
        exact hs
      · rw [if_neg hji] at hj
        have hlt : j < i := by
          by_contra hge
          rw [(hst j (by omega)).2] at hj
          cases hj
        rw [if_pos (by omega), if_pos (by omega)]
        exact hinf.some j u m' e' hj
    · intro j hj
      by_cases hji : j = i
      · rw [if_pos hji] at hj; cases hj
      · rw [if_neg hji] at hj
        by_cases hlt : j < i
        · rw [if_pos (by omega), if_pos (by omega)]; exact hinf.none j hj
        · rw [if_neg (by omega), if_neg (by omega)]
    · have h1 : happened (fun j => if j = i then some (t, m, e) else act j) i = happened act i := by
        unfold happened
        apply List.filterMap_congr
        intro j hj
        dsimp only
        rw [if_neg (by have := List.mem_range.1 hj; omega)]
      rw [happened_succ, h1, hh, if_pos rfl]
      rfl
    · intro j hj
      exact ⟨if_neg (by omega), (if_neg (by omega)).trans (hst j (by omega)).2⟩

/-- If no thread can go on at its end, it is fair. -/
theorem C119_fair_exists {evs : List (Ev T)} {c : Conf T} (h : Run n evs c) (hstuck : ∀ t, step n c t .go = none) :
    ∃ σ act i, Infinite n σ act ∧ Fair n σ act ∧ ∀ j, i ≤ j → σ j = c ∧ happened act j = evs := by
  obtain ⟨σ, act, i, h1, h2, h3⟩ := inf_of_run h
  refine ⟨σ, act, i, h1, ?_, fun j hj => ⟨(h3 j hj).1, ?_⟩⟩
  rotate_left
  · induction hj with
    | refl => exact h2
    | @step j hj ih =>
      rw [happened_succ, ih, (h3 j hj).2]
      simp
  intro t ht
  obtain ⟨j, hij, hj⟩ := ht i
  rw [(h3 j hij).1, hstuck t] at hj
  cases hj

/-- A fair execution: two threads wait twice each, thread 1 wakes up without reason, and then nothing happens any more. -/
def twice : List (Fin 2 × Move) :=
  [(0, .call), (0, .go), (0, .go), (0, .go), (0, .go), (0, .go), (0, .spurious), (1, .call), (1, .go), (0, .go), (0, .go),
   (1, .go), (1, .go), (1, .go), (1, .go), (1, .go), (1, .go), (1, .go), (1, .go),
   (1, .call), (1, .go), (1, .go), (1, .go), (1, .go), (1, .go), (0, .go), (0, .go), (0, .go), (0, .go),
   (0, .call), (0, .go), (0, .go), (0, .go), (0, .go), (0, .go), (0, .go), (0, .go), (0, .go), (0, .go),
   (1, .go), (1, .go), (1, .go), (1, .go)]

theorem C119_example : ∃ (σ : Nat → Conf (Fin 2)) (act : Nat → Option (Fin 2 × Move × Ev (Fin 2))),
    Infinite 2 σ act ∧ Fair 2 σ act ∧ (∀ i, NoDeadline (happened act i)) ∧
      (∀ t, ∃ i, 2 ≤ callsBy t (happened act i)) ∧ ∀ t, ∃ i, 2 ≤ returnsTo t (happened act i) := by
  obtain ⟨c, evs, h⟩ : ∃ c evs, runSched 2 twice (Conf.init, []) = some (c, evs) := ⟨_, _, rfl⟩
  have hr := run_sched h
  have hc : c = ((runSched 2 twice (Conf.init, [])).get (by decide)).1 := by simp [h]
  have he : evs = ((runSched 2 twice (Conf.init, [])).get (by decide)).2 := by simp [h]
  have hstuck : ∀ t, step 2 c t .go = none := by rw [hc]; decide
  obtain ⟨σ, act, i, h1, h2, h3⟩ := C119_fair_exists hr hstuck
  have hno : ∀ j, NoDeadline (happened act j) := by
    intro j t ht
    obtain ⟨l, hl⟩ := happened_prefix act (Nat.le_max_right i j)
    have hmem : Ev.deadline t ∈ evs := by
      rw [← (h3 (max i j) (Nat.le_max_left _ _)).2, hl]
      exact List.mem_append_left _ ht
    rw [he] at hmem
    clear ht
    revert hmem t
    decide
  have hcall : ∀ t, ∃ i, 2 ≤ callsBy t (happened act i) := fun t => ⟨i, by rw [(h3 i (Nat.le_refl _)).2, he]; revert t; decide⟩
  exact ⟨σ, act, h1, h2, hno, hcall, C119_returns (by decide) (by decide) h1 h2 hno 2 hcall⟩

/-- One thread alone at a barrier for two: its deadline passes, and the call ends with an exception. -/
def alone : List (Fin 1 × Move) :=
  [(0, .call), (0, .go), (0, .go), (0, .go), (0, .go), (0, .go), (0, .spurious), (0, .go), (0, .go), (0, .deadline),
   (0, .go), (0, .go), (0, .go), (0, .go), (0, .go), (0, .go), (0, .go), (0, .go)]

theorem C119_ends_example : ∃ (σ : Nat → Conf (Fin 1)) (act : Nat → Option (Fin 1 × Move × Ev (Fin 1))),
    Infinite 2 σ act ∧ Fair 2 σ act ∧ DeadlinesPass σ act ∧ ∃ i, callsBy 0 (happened act i) = 1 := by
  obtain ⟨c, evs, h⟩ : ∃ c evs, runSched 2 alone (Conf.init, []) = some (c, evs) := ⟨_, _, rfl⟩
  have hr := run_sched h
  have hc : c = ((runSched 2 alone (Conf.init, [])).get (by decide)).1 := by simp [h]
  have he : evs = ((runSched 2 alone (Conf.init, [])).get (by decide)).2 := by simp [h]
  have hstuck : ∀ t, step 2 c t .go = none := by rw [hc]; decide
  have hidle : ∀ t, c.pc t = .idle := by rw [hc]; decide
  obtain ⟨σ, act, i, h1, h2, h3⟩ := C119_fair_exists hr hstuck
  refine ⟨σ, act, h1, h2, ?_, i, by rw [(h3 i (Nat.le_refl _)).2, he]; decide⟩
  intro t k hne _
  exact absurd (by rw [(h3 (max i k) (Nat.le_max_left _ _)).1]; exact hidle t) (hne (max i k) (Nat.le_max_right _ _))

end SoDa.Bar
