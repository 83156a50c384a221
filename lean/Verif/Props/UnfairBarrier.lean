import Verif.Spec.Unfair
import Verif.Props.BarrierFair
/-!
# C142  A barrier when mutexes are given to anybody and threads are woken up without reason for ever
-/
namespace SoDa.Bar
open Spec

/-- The first thread calls `wait` and sleeps; the second calls it and wants the mutex; then the first is woken up without reason again and again, and
gets the mutex every time. -/
def spinAt (i : Nat) : Fin 2 × Move :=
  if i < 8 then [(0, .call), (0, .go), (0, .go), (0, .go), (0, .go), (0, .go), (1, .call), (1, .go)].getD i (0, .go)
  else if (i - 8) % 3 = 0 then (0, .spurious) else (0, .go)

def spinState : Nat → Conf (Fin 2)
  | 0 => Conf.init
  | i + 1 => ((step 2 (spinState i) (spinAt i).1 (spinAt i).2).map (·.1)).getD (spinState i)

def spinAct (i : Nat) : Option (Fin 2 × Move × Ev (Fin 2)) :=
  (step 2 (spinState i) (spinAt i).1 (spinAt i).2).map fun y => ((spinAt i).1, (spinAt i).2, y.2)

theorem spin_infinite : Infinite 2 spinState spinAct where
  init := rfl
  some i t m e ha := by
    unfold spinAct at ha
    cases hs : step 2 (spinState i) (spinAt i).1 (spinAt i).2 with
    | none => rw [hs] at ha; cases ha
    | some y =>
      rw [hs] at ha
      simp only [Option.map_some, Option.some.injEq, Prod.mk.injEq] at ha
      obtain ⟨rfl, rfl, rfl⟩ := ha
      simp [spinState, hs]
  none i ha := by
    unfold spinAct at ha
    cases hs : step 2 (spinState i) (spinAt i).1 (spinAt i).2 with
    | none => simp [spinState, hs]
    | some y => rw [hs] at ha; cases ha

/-- The three states of the loop. -/
def spinConf (r : Nat) : Conf (Fin 2) where
  waiting := 1
  count := 0
  corrupted := false
  holder := if r = 2 then some 0 else none
  pc := fun t => if t = 0 then (if r = 0 then .waitCv 0 else if r = 1 then .woken 0 false else .pred 0) else .wantLock 0

theorem conf_ext {c d : Conf (Fin 2)} (h1 : c.waiting = d.waiting) (h2 : c.count = d.count) (h3 : c.corrupted = d.corrupted) (h4 : c.holder = d.holder)
    (h5 : ∀ t, c.pc t = d.pc t) : c = d := by
  obtain ⟨c1, c2, c3, c4, c5⟩ := c
  obtain ⟨d1, d2, d3, d4, d5⟩ := d
  obtain rfl : c5 = d5 := funext h5
  simp_all

theorem spin_loop (r : Nat) (hr : r < 3) : ∃ e, (step 2 (spinConf r) 0 (if r = 0 then .spurious else .go)) = some (spinConf ((r + 1) % 3), e) ∧
    (e = .spurious 0 ∨ e = .tau 0) := by
  match r with
  | 0 => exact ⟨.spurious 0, congrArg some (Prod.ext (conf_ext rfl rfl rfl rfl (by decide)) rfl), .inl rfl⟩
  | 1 => exact ⟨.tau 0, congrArg some (Prod.ext (conf_ext rfl rfl rfl rfl (by decide)) rfl), .inr rfl⟩
  | 2 => exact ⟨.tau 0, congrArg some (Prod.ext (conf_ext rfl rfl rfl rfl (by decide)) rfl), .inr rfl⟩
  | r + 3 => omega

theorem spin_at (k : Nat) : spinState (8 + k) = spinConf (k % 3) := by
  induction k with
  | zero => exact conf_ext rfl rfl rfl rfl (by decide)
  | succ k ih =>
    obtain ⟨e, he, -⟩ := spin_loop (k % 3) (Nat.mod_lt _ (by omega))
    have h1 : spinAt (8 + k) = (0, if k % 3 = 0 then .spurious else .go) := by
      unfold spinAt
      rw [if_neg (by omega), Nat.add_sub_cancel_left]
      split <;> rfl
    show spinState (8 + k + 1) = _
    simp only [spinState, ih, h1, he, Option.map_some, Option.getD_some]
    congr 1
    omega

theorem spin_act (k : Nat) : ∃ e, spinAct (8 + k) = some (0, if k % 3 = 0 then .spurious else .go, e) ∧ (e = .spurious 0 ∨ e = .tau 0) := by
  obtain ⟨e, he, h⟩ := spin_loop (k % 3) (Nat.mod_lt _ (by omega))
  have h1 : spinAt (8 + k) = (0, if k % 3 = 0 then .spurious else .go) := by
    unfold spinAt
    rw [if_neg (by omega), Nat.add_sub_cancel_left]
    split <;> rfl
  exact ⟨e, by simp only [spinAct, spin_at, h1, he, Option.map_some], h⟩

theorem spin_event (i : Nat) (x) (hx : spinAct i = some x) : ∀ u, x.2.2 ≠ .ret u ∧ x.2.2 ≠ .deadline u := by
  by_cases hi : i < 8
  · have key : ∀ i : Fin 8, ∀ u : Fin 2, ((spinAct i).map (·.2.2)) ≠ some (.ret u) ∧ ((spinAct i).map (·.2.2)) ≠ some (.deadline u) := by decide +kernel
    intro u
    have := key ⟨i, hi⟩ u
    rw [show spinAct ((⟨i, hi⟩ : Fin 8) : Nat) = some x from hx] at this
    simpa using this
  · obtain ⟨k, rfl⟩ := Nat.exists_eq_add_of_le (Nat.le_of_not_lt hi)
    obtain ⟨e, he, h⟩ := spin_act k
    rw [hx] at he
    cases he
    intro u
    rcases h with rfl | rfl <;> simp

/-- If it is only promised that a thread that can go on all the time does so, and threads may be woken up without reason for ever, then a barrier for
two threads to which both have come need not be passed: the one that is woken up gets the mutex every time. -/
theorem C142_wait_starves : ∃ (σ : Nat → Conf (Fin 2)) (act : Nat → Option (Fin 2 × Move × Ev (Fin 2))), Infinite 2 σ act ∧
    (∀ t i, (∀ j, i ≤ j → (step 2 (σ j) t .go).isSome) → ∃ j e, i ≤ j ∧ act j = some (t, .go, e)) ∧ (∀ i, NoDeadline (happened act i)) ∧
    (∀ t, ∃ i, 1 ≤ callsBy t (happened act i)) ∧ ∀ t i, returnsTo t (happened act i) = 0 := by
  refine ⟨spinState, spinAct, spin_infinite, fun t i hen => ?_, fun i u hu => ?_, fun t => ⟨8, ?_⟩, fun t i => ?_⟩
  · match t with
    | 0 =>
      obtain ⟨e, he, -⟩ := spin_act (3 * i + 1)
      rw [if_neg (by omega)] at he
      exact ⟨8 + (3 * i + 1), e, by omega, he⟩
    | 1 =>
      exfalso
      have := hen (8 + (3 * i + 2)) (by omega)
      rw [spin_at, show (3 * i + 2) % 3 = 2 by omega] at this
      exact absurd this (by decide)
  · unfold happened at hu
    simp only [List.mem_filterMap, List.mem_range, Option.map_eq_some_iff] at hu
    obtain ⟨j, -, x, hx, he⟩ := hu
    exact (spin_event j x hx u).2 he
  · revert t
    decide +kernel
  · unfold returnsTo
    rw [List.countP_eq_zero]
    intro e he
    unfold happened at he
    simp only [List.mem_filterMap, List.mem_range, Option.map_eq_some_iff] at he
    obtain ⟨j, -, x, hx, rfl⟩ := he
    simpa using (spin_event j x hx t).1

end SoDa.Bar
