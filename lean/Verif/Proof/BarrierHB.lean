import Verif.Spec.BarrierTrace
import Verif.Proof.HappensBefore
import Verif.Proof.BarrierTimeout
/-!
Happens-before in executions of the barrier.
-/
set_option linter.unusedSectionVars false
namespace SoDa.Bar
open Spec

variable {T : Type} [DecidableEq T]

theorem before_succ (x : Trace T) (i : Nat) : x.before (i + 1) = x.before i ++ [x.ev i] := by
  simp [Trace.before, List.range_succ]

theorem Valid.run {x : Trace T} {n N : Nat} (h : x.Valid n N) {i : Nat} (hi : i ≤ N) :
    Run n (x.before i) (x.st i) := by
  induction i with
  | zero => rw [h.init]; exact Run.init
  | succ i ih => rw [before_succ]; exact Run.snoc (ih (by omega)) (h.ok i (by omega))

/-- Every execution has a trace. -/
theorem Run.trace [Nonempty T] {n evs} {c : Conf T} (h : Run n evs c) :
    ∃ x : Trace T, x.Valid n evs.length ∧ x.before evs.length = evs ∧ x.st evs.length = c := by
  induction h with
  | init =>
    exact ⟨⟨fun _ => Conf.init, fun _ => Classical.arbitrary T, fun _ => .go, fun _ => .tau (Classical.arbitrary T)⟩,
      ⟨rfl, by simp⟩, rfl, rfl⟩
  | @snoc evs c t m c' e h hs ih =>
    obtain ⟨x, h1, h2, h3⟩ := ih
    have hb : ∀ (y : Trace T), (∀ i < evs.length, y.ev i = x.ev i) → y.before evs.length = evs := by
      intro y hy
      have : y.before evs.length = x.before evs.length := by
        refine List.map_congr_left ?_
        intro i hi
        exact hy i (List.mem_range.1 hi)
      rw [this, h2]
    refine ⟨⟨fun i => if i ≤ evs.length then x.st i else c', fun i => if i < evs.length then x.who i else t,
      fun i => if i < evs.length then x.mv i else m, fun i => if i < evs.length then x.ev i else e⟩,
      ⟨by simpa using h1.init, ?_⟩, ?_, by simp⟩
    · intro i hi
      simp only [List.length_append, List.length_singleton] at hi
      by_cases hlt : i < evs.length
      · simp only [if_pos (Nat.le_of_lt hlt), if_pos hlt, if_pos (Nat.succ_le_of_lt hlt)]
        exact h1.ok i hlt
      · obtain rfl : i = evs.length := by omega
        simp only [Nat.le_refl, if_true, Nat.lt_irrefl, if_false, Nat.not_succ_le_self]
        rw [h3]; exact hs
    · rw [List.length_append, List.length_singleton, before_succ, hb _ (by intro i hi; simp [hi])]
      simp

theorem excl_run {n evs} {c : Conf T} (h : Run n evs c) : Excl c := by
  induction h with
  | init => intro t; simp [Conf.init, Pc.holds]
  | snoc _ hs ih => exact excl_step ih hs

/-- What a step of `t` does to the mutex. -/
theorem step_holder {n} {c c' : Conf T} {t m e} (hx : Excl c) (hs : step n c t m = some (c', e)) :
    (c'.holder = c.holder) ∨ (c.holder = none ∧ c'.holder = some t) ∨
      (c.holder = some t ∧ c'.holder = none) := by
  have hh := (hx t).1
  cases m with
  | call => simp only [step] at hs; split at hs <;> cases hs; exact .inl rfl
  | spurious => simp only [step] at hs; split at hs <;> cases hs; exact .inl rfl
  | deadline => simp only [step] at hs; split at hs <;> cases hs; exact .inl rfl
  | go =>
    simp only [step, stepGo] at hs
    cases hp : c.pc t <;> rw [hp] at hs hh <;> simp only [] at hs
    case idle => cases hs
    case waitCv => cases hs
    case wantLock =>
      split at hs
      · next h0 => cases hs; exact .inr (.inl ⟨h0, rfl⟩)
      · cases hs
    case woken =>
      split at hs
      · next h0 => cases hs; exact .inr (.inl ⟨h0, rfl⟩)
      · cases hs
    case leave => cases hs; exact .inr (.inr ⟨hh rfl, rfl⟩)
    case pred =>
      split at hs
      · cases hs; exact .inl rfl
      · cases hs; exact .inr (.inr ⟨hh rfl, rfl⟩)
    all_goals (cases hs; exact .inl rfl)

theorem Valid.owned {x : Trace T} {n N : Nat} (h : x.Valid n N) :
    Owned (x.act N) (fun i => (x.st i).holder) := by
  have key : ∀ i a, x.act N i = some a → i < N ∧ a.thread = x.who i ∧ a.sync = syncOf (x.st i) (x.st (i + 1)) := by
    intro i a ha
    unfold Trace.act at ha
    split at ha
    · next hi => cases ha; exact ⟨hi, rfl, rfl⟩
    · cases ha
  constructor
  all_goals
    intro i a ha hs
    obtain ⟨hi, h1, h2⟩ := key i a ha
    rw [h2] at hs
    have h3 := step_holder (excl_run (Valid.run h (Nat.le_of_lt hi))) (h.ok i hi)
    try rw [h1]
    unfold syncOf at hs
    rcases h3 with h3 | ⟨h3, h4⟩ | ⟨h3, h4⟩
    · rw [h3] at hs ⊢
      all_goals (cases hh : (x.st i).holder <;> simp [hh] at hs)
    · simp [h3, h4] at hs ⊢
    · simp [h3, h4] at hs ⊢

/-- Two steps executed by owners of the mutex are ordered. -/
theorem Valid.ordered {x : Trace T} {n N : Nat} (h : x.Valid n N) {i j : Nat} (hij : i < j) (hj : j < N)
    (h1 : ((x.st i).pc (x.who i)).holds = true) (h2 : ((x.st j).pc (x.who j)).holds = true) :
    HB (x.act N) i j := by
  have e1 := (excl_run (Valid.run h (show i ≤ N by omega)) _).1 h1
  have e2 := (excl_run (Valid.run h (show j ≤ N by omega)) _).1 h2
  exact (Valid.owned h).ordered (N := N) (by intro k hk; simp [Trace.act, hk]) hij hj
    (a := ⟨x.who i, _⟩) (b := ⟨x.who j, _⟩) (by simp only [Trace.act]; rw [if_pos (by omega)])
    (by simp only [Trace.act]; rw [if_pos hj]) (.inr e1) (.inr e2)

theorem Valid.same {x : Trace T} {N : Nat} {i j : Nat} (hij : i < j) (hj : j < N)
    (ht : x.who i = x.who j) : HB (x.act N) i j :=
  .thread (a := ⟨x.who i, _⟩) (b := ⟨x.who j, _⟩) hij
    (by simp only [Trace.act]; rw [if_pos (by omega)]) (by simp only [Trace.act]; rw [if_pos hj]) ht

/-- A step of another thread. -/
theorem Valid.other {x : Trace T} {n N : Nat} (h : x.Valid n N) {i : Nat} (hi : i < N) (t : T)
    (ht : x.who i ≠ t) : (x.st (i + 1)).pc t = (x.st i).pc t ∨
      ∃ old, (x.st i).pc t = .waitCv old ∧ (x.st (i + 1)).pc t = .woken old false :=
  step_other (h.ok i hi) t (fun e => ht e.symm)

/-- The events are those of the thread that executes the step. -/
theorem ev_thread {n} {c c' : Conf T} {t m e} (hs : step n c t m = some (c', e)) :
    e = .call t ∨ (∃ b, e = .arrive t b) ∨ e = .ret t ∨ (∃ r, e = .raise t r) ∨ e = .tau t ∨ e = .spurious t
      ∨ e = .deadline t := by
  rcases step_self hs with ⟨h, -⟩ | ⟨o, h, -⟩ | ⟨h, -⟩ | ⟨r, -, h, -⟩ | ⟨h | h | h, -⟩ <;> simp [h]

/-- A thread that is about to return has left the critical section, and has done nothing since. -/
theorem Valid.left {x : Trace T} {n N : Nat} (h : x.Valid n N) {j : Nat} (hj : j ≤ N) {t : T} {r : Out}
    (hp : (x.st j).pc t = .out r) : ∃ s < j, x.who s = t ∧ (x.st s).pc t = .leave r ∧
      endsOf t (x.before s) = endsOf t (x.before j) := by
  induction j with
  | zero => rw [h.init] at hp; cases hp
  | succ j ih =>
    by_cases ht : x.who j = t
    · refine ⟨j, by omega, ht, ?_⟩
      have hs := h.ok j (by omega)
      rw [ht] at hs
      have hc : (x.st j).pc t = .leave r ∧ x.ev j = .tau t := by
        have hg : ∀ (c₁ : Conf T) p, (c₁.goto t p).pc t = p := by
          intro c₁ p; simp [Conf.goto]
        cases hm : x.mv j <;> rw [hm] at hs
        · simp only [step] at hs; split at hs
          · simp only [Option.some.injEq, Prod.mk.injEq] at hs; rw [← hs.1, hg] at hp; cases hp
          · cases hs
        · simp only [step, stepGo] at hs
          cases hq : (x.st j).pc t <;> rw [hq] at hs <;> simp only [] at hs
          case leave r' =>
            simp only [Option.some.injEq, Prod.mk.injEq] at hs
            rw [← hs.1, hg] at hp
            cases hp
            exact ⟨rfl, hs.2.symm⟩
          all_goals exfalso
          all_goals try (cases hs)
          all_goals try (simp only [Option.some.injEq, Prod.mk.injEq] at hs; rw [← hs.1, hg] at hp; cases hp)
          all_goals try (simp only [Option.some.injEq, Prod.mk.injEq] at hs; rw [← hs.1, hg] at hp; split at hp <;> cases hp)
          all_goals
            split at hs
            all_goals try (cases hs)
            all_goals simp only [Option.some.injEq, Prod.mk.injEq] at hs; rw [← hs.1, hg] at hp
            all_goals try (cases hp)
          split at hp <;> cases hp
        · simp only [step] at hs; split at hs
          · simp only [Option.some.injEq, Prod.mk.injEq] at hs; rw [← hs.1, hg] at hp; cases hp
          · cases hs
        · simp only [step] at hs; split at hs
          · simp only [Option.some.injEq, Prod.mk.injEq] at hs; rw [← hs.1, hg] at hp; cases hp
          · cases hs
      refine ⟨hc.1, ?_⟩
      rw [before_succ, hc.2]
      unfold endsOf
      rw [countP_snoc]; simp
    · rcases Valid.other h (show j < N by omega) t ht with h1 | ⟨old, h1, h2⟩
      · rw [h1] at hp
        obtain ⟨s, hs, h2, h3, h4⟩ := ih (by omega) hp
        refine ⟨s, by omega, h2, h3, ?_⟩
        rw [h4, before_succ]
        unfold endsOf
        rw [countP_snoc]
        rcases ev_thread (h.ok j (by omega)) with h | ⟨b, h⟩ | h | ⟨r, h⟩ | h | h | h <;> simp [h, ht]
      · rw [h2] at hp; cases hp

/-- The step at which the `k+1`-st element satisfying a predicate is added. -/
theorem nth_event (x : Trace T) (p : Ev T → Bool) (k : Nat) {s : Nat} (h : k < (x.before s).countP p) :
    ∃ i < s, p (x.ev i) = true ∧ (x.before i).countP p = k := by
  induction s with
  | zero => simp [Trace.before] at h
  | succ s ih =>
    rw [before_succ, countP_snoc] at h
    by_cases hk : k < (x.before s).countP p
    · obtain ⟨i, h1, h2⟩ := ih hk
      exact ⟨i, by omega, h2⟩
    · by_cases hp : p (x.ev s) = true
      · rw [if_pos hp] at h
        exact ⟨s, by omega, hp, by omega⟩
      · rw [if_neg hp] at h; omega

theorem before_mono (x : Trace T) (p : Ev T → Bool) {i j : Nat} (h : i ≤ j) :
    (x.before i).countP p ≤ (x.before j).countP p := by
  induction j with
  | zero => obtain rfl : i = 0 := by omega
            exact Nat.le_refl _
  | succ j ih =>
    rcases Nat.lt_or_ge j i with h1 | h1
    · obtain rfl : i = j + 1 := by omega
      exact Nat.le_refl _
    · rw [before_succ, countP_snoc]
      have := ih h1
      omega

end SoDa.Bar
