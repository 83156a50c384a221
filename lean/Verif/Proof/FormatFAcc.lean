import Verif.Proof.FormatF
import Mathlib.Tactic.FieldSimp
import Mathlib.Tactic.GCongr
import Mathlib.Algebra.Order.Field.Power
/-!
Error analysis of engineering notation, for any arithmetic whose operations have relative error at
most `u` (exact arithmetic: `u = 0`).
-/
set_option linter.unusedSectionVars false

namespace SoDa
open Spec

/-- Rounding error at most `u` relative (absolute `u * lo` below `lo`), no overflow up to `hi`. -/
structure Arith.Close (A : Arith) (u lo hi : ℚ) : Prop where
  u0 : 0 ≤ u
  u1 : u < 1
  lo0 : 0 ≤ lo
  err : ∀ q, 0 ≤ q → q ≤ hi → ∃ r, A.rnd q = some r ∧ |r - q| ≤ u * max q lo

/-- `x` is `y` up to `n` roundings. -/
def Near (u : ℚ) (n : Nat) (x y : ℚ) : Prop := y * (1 - u) ^ n ≤ x ∧ x ≤ y * (1 + u) ^ n

namespace Near
variable {u : ℚ} (h0 : 0 ≤ u) (h1 : u < 1)

theorem refl (x : ℚ) : Near u 0 x x := by simp [Near]

include h0 h1

theorem mono {n m : Nat} {x y : ℚ} (hy : 0 ≤ y) (hnm : n ≤ m) (h : Near u n x y) : Near u m x y := by
  constructor
  · refine le_trans ?_ h.1
    apply mul_le_mul_of_nonneg_left _ hy
    exact pow_le_pow_of_le_one (by linarith) (by linarith) hnm
  · refine le_trans h.2 ?_
    apply mul_le_mul_of_nonneg_left _ hy
    exact pow_le_pow_right₀ (by linarith) hnm

theorem nonneg {n : Nat} {x y : ℚ} (hy : 0 ≤ y) (h : Near u n x y) : 0 ≤ x :=
  le_trans (mul_nonneg hy (pow_nonneg (by linarith) _)) h.1

theorem scale {n : Nat} {x y c : ℚ} (hc : 0 ≤ c) (h : Near u n x y) : Near u n (x * c) (y * c) := by
  constructor
  · have := mul_le_mul_of_nonneg_right h.1 hc; nlinarith
  · have := mul_le_mul_of_nonneg_right h.2 hc; nlinarith

theorem add {n : Nat} {x y x' y' : ℚ} (h : Near u n x y) (h' : Near u n x' y') :
    Near u n (x + x') (y + y') := by
  constructor
  · have := h.1; have := h'.1; nlinarith
  · have := h.2; have := h'.2; nlinarith

theorem mul {n m : Nat} {x y x' y' : ℚ} (hy : 0 ≤ y) (hy' : 0 ≤ y')
    (h : Near u n x y) (h' : Near u m x' y') : Near u (n + m) (x * x') (y * y') := by
  have hx := nonneg h0 h1 hy h
  have hx' := nonneg h0 h1 hy' h'
  have p1 : 0 ≤ y' * (1 - u) ^ m := mul_nonneg hy' (pow_nonneg (by linarith) _)
  have p2 : 0 ≤ y * (1 + u) ^ n := mul_nonneg hy (pow_nonneg (by linarith) _)
  constructor
  · calc y * y' * (1 - u) ^ (n + m) = (y * (1 - u) ^ n) * (y' * (1 - u) ^ m) := by rw [pow_add]; ring
      _ ≤ x * x' := mul_le_mul h.1 h'.1 p1 hx
  · calc x * x' ≤ (y * (1 + u) ^ n) * (y' * (1 + u) ^ m) := mul_le_mul h.2 h'.2 hx' p2
      _ = y * y' * (1 + u) ^ (n + m) := by rw [pow_add]; ring

omit h0 h1 in
theorem rnd {A : Arith} {lo hi : ℚ} (hA : A.Close u lo hi) {n : Nat} {x y : ℚ} (hy : 0 ≤ y)
    (h : Near u n x y) (hlo : lo ≤ x) (hhi : x ≤ hi) : ∃ r, A.rnd x = some r ∧ Near u (n + 1) r y := by
  have hx := nonneg hA.u0 hA.u1 hy h
  obtain ⟨r, hr, herr⟩ := hA.err x hx hhi
  rw [max_eq_left hlo, abs_le] at herr
  have h0 := hA.u0
  have h1 := hA.u1
  refine ⟨r, hr, ?_, ?_⟩
  · have a1 : x * (1 - u) ≤ r := by linarith
    have a2 := mul_le_mul_of_nonneg_right h.1 (show 0 ≤ 1 - u by linarith)
    rw [pow_succ]; linarith
  · have a1 : r ≤ x * (1 + u) := by linarith
    have a2 := mul_le_mul_of_nonneg_right h.2 (show 0 ≤ 1 + u by linarith)
    rw [pow_succ]; linarith

/-- With `N` roundings bounded by `ε`. -/
theorem bounds {N : Nat} {ε x y : ℚ} {n : Nat} (hn : n ≤ N) (hy : 0 ≤ y)
    (hlo : 1 - ε ≤ (1 - u) ^ N) (hhi : (1 + u) ^ N ≤ 1 + ε) (h : Near u n x y) :
    y * (1 - ε) ≤ x ∧ x ≤ y * (1 + ε) := by
  have h := mono h0 h1 hy hn h
  exact ⟨le_trans (mul_le_mul_of_nonneg_left hlo hy) h.1,
    le_trans h.2 (mul_le_mul_of_nonneg_left hhi hy)⟩

end Near

/-- Laws about representable numbers (those that rounding leaves alone): rounding is idempotent, the
fractional part of a representable number is representable (`modf` is exact), and ten times a
representable number below one stays below ten. -/
structure Arith.Digits (A : Arith) : Prop where
  idem : ∀ q r, A.rnd q = some r → A.rnd r = some r
  fract : ∀ x, 0 ≤ x → A.rnd x = some x → A.rnd (Int.fract x) = some (Int.fract x)
  lt_ten : ∀ x, 0 ≤ x → x < 1 → A.rnd x = some x → ∃ y, A.rnd (x * 10) = some y ∧ y < 10

theorem exactArith_digits : exactArith.Digits where
  idem := by intro q r _; rfl
  fract := by intro x _ _; rfl
  lt_ten := by intro x _ h _; exact ⟨x * 10, rfl, by linarith⟩

/-- The fraction digits are those of the fraction, up to a small error. -/
theorem fracLoop_spec {A : Arith} {u lo hi : ℚ} (hS : A.Sane) (hC : A.Close u lo hi) (hD : A.Digits) (hlo : lo ≤ 10)
    (hhi : 10 ≤ hi) (k : Nat) : ∀ (x : ℚ) (f r : Int), 0 ≤ x → x < 1 → A.rnd x = some x → 0 ≤ f →
    fracLoop A k x f = .ok r →
    f * 10 ^ k ≤ r ∧ r < (f + 1) * 10 ^ k ∧
    ((f : ℚ) + x) * 10 ^ k - 1 - 2 * u * 10 ^ k < r ∧ (r : ℚ) ≤ ((f : ℚ) + x) * 10 ^ k + 2 * u * 10 ^ k := by
  have hu0 := hC.u0
  induction k with
  | zero =>
    intro x f r hx hx1 _ hf h
    simp [fracLoop] at h
    subst h
    refine ⟨by simp, by simp, ?_, ?_⟩
    · simp; linarith
    · simp; linarith
  | succ k ih =>
    intro x f r hx hx1 hrep hf h
    rw [fracLoop] at h
    obtain ⟨y, hy, hy10⟩ := hD.lt_ten x hx hx1 hrep
    rw [hy] at h
    dsimp only at h
    have h0 : (0 : ℚ) ≤ y := by
      have := hS.ge_of_ge (n := 0) (by norm_num) (q := x * 10) (by push_cast; positivity) hy
      exact_mod_cast this
    split at h
    · have hfl0 := Int.floor_nonneg.mpr h0
      have hfl9 : ⌊y⌋ ≤ 9 := by
        have : ⌊y⌋ < 10 := Int.floor_lt.mpr (by exact_mod_cast hy10)
        omega
      obtain ⟨i1, i2, i3, i4⟩ := ih (Int.fract y) (10 * f + ⌊y⌋) r (Int.fract_nonneg _) (Int.fract_lt_one _)
        (hD.fract y h0 (hD.idem _ _ hy)) (by omega) h
      have hp : (0 : Int) < 10 ^ k := by positivity
      have hpq : (0 : ℚ) < 10 ^ k := by positivity
      have hsum : (((10 * f + ⌊y⌋ : Int)) : ℚ) + Int.fract y = 10 * f + y := by
        push_cast
        have := Int.floor_add_fract y
        linarith
      rw [hsum] at i3 i4
      obtain ⟨y', hy', herr⟩ := hC.err (x * 10) (by positivity) (by linarith)
      rw [hy] at hy'
      rw [← Option.some.inj hy'] at herr
      have hm : max (x * 10) lo ≤ 10 := max_le (by linarith) hlo
      have herr' : |y - x * 10| ≤ u * 10 := herr.trans (by gcongr)
      rw [abs_le] at herr'
      refine ⟨?_, ?_, ?_, ?_⟩
      · rw [pow_succ]; nlinarith
      · rw [pow_succ]; nlinarith
      · rw [pow_succ]; nlinarith [mul_nonneg hu0 hpq.le]
      · rw [pow_succ]; nlinarith [mul_nonneg hu0 hpq.le]
    · simp at h

/-- No overflow in the fraction while it has at most nine digits. -/
theorem fracLoop_runs {A : Arith} (hS : A.Sane) (hD : A.Digits) (k : Nat) : ∀ (x : ℚ) (f : Int), 0 ≤ x → x < 1 →
    A.rnd x = some x → 0 ≤ f → (f + 1) * 10 ^ k ≤ 10 ^ 9 → ∃ r, fracLoop A k x f = .ok r := by
  induction k with
  | zero => intro x f _ _ _ _ _; exact ⟨f, rfl⟩
  | succ k ih =>
    intro x f hx hx1 hrep hf hle
    rw [fracLoop]
    obtain ⟨y, hy, hy10⟩ := hD.lt_ten x hx hx1 hrep
    rw [hy]
    dsimp only
    have h0 : (0 : ℚ) ≤ y := by
      have := hS.ge_of_ge (n := 0) (by norm_num) (q := x * 10) (by push_cast; positivity) hy
      exact_mod_cast this
    have hfl0 := Int.floor_nonneg.mpr h0
    have hfl9 : ⌊y⌋ ≤ 9 := by
      have : ⌊y⌋ < 10 := Int.floor_lt.mpr (by exact_mod_cast hy10)
      omega
    have hp : (1 : Int) ≤ 10 ^ k := one_le_pow₀ (by norm_num)
    rw [pow_succ] at hle
    have hf1 : (f + 1) * 10 ≤ 10 ^ 9 := by nlinarith
    rw [if_pos (by unfold intMax; omega)]
    refine ih _ _ (Int.fract_nonneg _) (Int.fract_lt_one _) (hD.fract y h0 (hD.idem _ _ hy)) (by omega) ?_
    nlinarith

/-- The digits of zero. -/
theorem fracLoop_zero {A : Arith} (hA : A.Sane) (k : Nat) : fracLoop A k 0 0 = .ok 0 := by
  induction k with
  | zero => rfl
  | succ k ih =>
    have h0 : A.rnd (0 * 10) = some 0 := by
      have := hA.fix 0 (by norm_num)
      rw [zero_mul]; exact_mod_cast this
    rw [fracLoop, h0]
    dsimp only
    rw [if_pos (by simp [intMax]), Int.floor_zero, Int.fract_zero]
    simpa using ih

/-- Everything assumed about the arithmetic and the magnitude of the value. -/
structure Setting (A : Arith) (u lo hi ε : ℚ) (L N d : Nat) : Prop where
  sane : A.Sane
  close : A.Close u lo hi
  lo_le : lo ≤ 1 / 10 ^ (L + 3)
  lo_d : lo ≤ 1 / 10 ^ (d + 3)
  le_hi : (10 : ℚ) ^ (L + 3) ≤ hi
  hN : 3 * L + d + 10 ≤ N
  elo : 1 - ε ≤ (1 - u) ^ N
  ehi : (1 + u) ^ N ≤ 1 + ε
  eps0 : 0 ≤ ε
  eps : ε ≤ 1 / 10 ^ (d + 3)
  hd : 1 ≤ d
  hd' : d < 2 ^ 31

section
variable {A : Arith} {u lo hi ε : ℚ} {L N d : Nat} (S : Setting A u lo hi ε L N d)
include S

theorem Setting.eps_small : ε ≤ 1 / 10000 := by
  refine le_trans S.eps ?_
  have : (10 : ℚ) ^ 4 ≤ 10 ^ (d + 3) := pow_le_pow_right₀ (by norm_num) (by have := S.hd; omega)
  calc 1 / (10 : ℚ) ^ (d + 3) ≤ 1 / 10 ^ 4 := one_div_le_one_div_of_le (by norm_num) this
    _ = 1 / 10000 := by norm_num

theorem Setting.near {n : Nat} {x y : ℚ} (hn : n ≤ N) (hy : 0 ≤ y) (h : Near u n x y) :
    y * (1 - ε) ≤ x ∧ x ≤ y * (1 + ε) :=
  Near.bounds S.close.u0 S.close.u1 hn hy S.elo S.ehi h

theorem Setting.lo_small : lo ≤ 1 / 1000 := by
  refine le_trans S.lo_le ?_
  have : (10 : ℚ) ^ 3 ≤ 10 ^ (L + 3) := pow_le_pow_right₀ (by norm_num) (by omega)
  calc 1 / (10 : ℚ) ^ (L + 3) ≤ 1 / 10 ^ 3 := one_div_le_one_div_of_le (by norm_num) this
    _ = 1 / 1000 := by norm_num

theorem Setting.hi_big : (1000 : ℚ) ≤ hi := by
  refine le_trans ?_ S.le_hi
  calc (1000 : ℚ) = 10 ^ 3 := by norm_num
    _ ≤ 10 ^ (L + 3) := pow_le_pow_right₀ (by norm_num) (by omega)

/-- `scaleDown` from `(q, 1)`. -/
theorem scaleDown_spec {q : ℚ} (hq0 : 0 < q) (hq : q ≤ 10 ^ L) (fuel : Nat) (hf : L + 2 ≤ fuel) :
    ∃ a b : ℚ, ∃ i : Nat, i ≤ L ∧ scaleDown A fuel (some q, some 1) = some (some a, some b) ∧
      Near u i a (q / 10 ^ i) ∧ Near u i b (10 ^ i) ∧ a < 10 ∧ (i = 0 ∧ a = q ∨ 1 ≤ a) := by
  -- generalise over the state after `i` iterations
  have gen : ∀ k i : Nat, ∀ a b : ℚ, i + k = L → Near u i a (q / 10 ^ i) → Near u i b (10 ^ i) →
      (i = 0 ∧ a = q ∨ 1 ≤ a) → ∀ fuel, k + 2 ≤ fuel →
      ∃ a' b' : ℚ, ∃ j : Nat, j ≤ L ∧ scaleDown A fuel (some a, some b) = some (some a', some b') ∧
        Near u j a' (q / 10 ^ j) ∧ Near u j b' (10 ^ j) ∧ a' < 10 ∧ (j = 0 ∧ a' = q ∨ 1 ≤ a') := by
    intro k
    induction k with
    | zero =>
      intro i a b hik ha hb h1 fuel hfuel
      have hi : i = L := by omega
      have hN := S.hN
      have hlt : a < 10 := by
        have := (S.near (by omega) (by positivity) ha).2
        have h2 : q / 10 ^ i ≤ 1 := by rw [div_le_one (by positivity), hi]; exact hq
        have h3 := S.eps_small
        have h4 := S.eps0
        have h5 : q / 10 ^ i * (1 + ε) ≤ 1 * (1 + ε) := by gcongr
        linarith
      obtain ⟨f, rfl⟩ : ∃ f, fuel = f + 1 := ⟨fuel - 1, by omega⟩
      refine ⟨a, b, i, by omega, ?_, ha, hb, hlt, h1⟩
      have hc : ¬ (10 : ℚ) ≤ a := by linarith
      simp [scaleDown, whileFuel, Mag.ge, hc]
    | succ k ih =>
      intro i a b hik ha hb h1 fuel hfuel
      obtain ⟨f, rfl⟩ : ∃ f, fuel = f + 1 := ⟨fuel - 1, by omega⟩
      by_cases hc : (10 : ℚ) ≤ a
      · have hN := S.hN
        have hlo := S.lo_small
        have hhi := S.le_hi
        have h3 := S.eps_small
        have h4 := S.eps0
        have hab := S.near (by omega) (by positivity) ha
        have hbb := S.near (by omega) (by positivity) hb
        have hpow : (10 : ℚ) ^ L ≤ 10 ^ (L + 3) := pow_le_pow_right₀ (by norm_num) (by omega)
        have haq : a ≤ 10 ^ L * (1 + ε) := by
          refine le_trans hab.2 ?_
          have : q / 10 ^ i ≤ q := div_le_self hq0.le (one_le_pow₀ (by norm_num))
          gcongr; linarith
        have hLp : (0 : ℚ) < 10 ^ L := by positivity
        have h13 : (10 : ℚ) ^ (L + 3) = 10 ^ L * 1000 := by rw [pow_add]; norm_num
        obtain ⟨a', ha', hna⟩ := Near.rnd S.close (x := a * (1 / 10)) (y := q / 10 ^ i * (1 / 10)) (by positivity)
          (Near.scale S.close.u0 S.close.u1 (by norm_num) ha) (by linarith) (by nlinarith)
        have hib : (10 : ℚ) ^ i ≤ 10 ^ L := pow_le_pow_right₀ (by norm_num) (by omega)
        have hi1 : (1 : ℚ) ≤ 10 ^ i := one_le_pow₀ (by norm_num)
        have hbL : b ≤ 10 ^ L * (1 + ε) := le_trans hbb.2 (by gcongr)
        have hb1 : (1 : ℚ) / 2 ≤ b := by
          refine le_trans ?_ hbb.1
          have : (1 : ℚ) * (1 / 2) ≤ 10 ^ i * (1 - ε) := by gcongr; linarith
          linarith
        obtain ⟨b', hb', hnb⟩ := Near.rnd S.close (x := b * 10) (y := 10 ^ i * 10) (by positivity)
          (Near.scale S.close.u0 S.close.u1 (by norm_num) hb) (by linarith) (by nlinarith)
        have ha1 : (1 : ℚ) ≤ a' := by
          have := S.sane.ge_of_ge (n := 1) (by norm_num) (q := a * (1 / 10)) (by push_cast; linarith) ha'
          exact_mod_cast this
        have := ih (i + 1) a' b' (by omega)
          (by rw [pow_succ]; convert hna using 1; field_simp)
          (by rw [pow_succ]; exact hnb) (Or.inr ha1) f (by omega)
        obtain ⟨a'', b'', j, hj, hrun, rest⟩ := this
        refine ⟨a'', b'', j, hj, ?_, rest⟩
        rw [← hrun]
        unfold scaleDown
        rw [whileFuel]
        have e1 : a / 10 = a * (1 / 10) := by ring
        simp only [Mag.ge, hc, decide_true, if_true, Arith.divc, Arith.mul, e1, ha', hb']
      · refine ⟨a, b, i, by omega, ?_, ha, hb, by linarith, h1⟩
        simp [scaleDown, whileFuel, Mag.ge, hc]
  exact gen L 0 q 1 (by omega) (by simpa using Near.refl q) (by simpa using Near.refl (1 : ℚ))
    (Or.inl ⟨rfl, rfl⟩) fuel hf

/-- `scaleUp` from `(q, 1)`. -/
theorem scaleUp_spec {q : ℚ} (hq : 1 / 10 ^ L ≤ q) (hq10 : q ≤ 10) (fuel : Nat) (hf : L + 3 ≤ fuel) :
    ∃ a b : ℚ, ∃ i : Nat, i ≤ L + 1 ∧ scaleUp A fuel (some q, some 1) = some (some a, some b) ∧
      Near u i a (q * 10 ^ i) ∧ Near u i b (1 / 10 ^ i) ∧ 1 ≤ a ∧ a ≤ 10 := by
  have hq0 : 0 < q := lt_of_lt_of_le (by positivity) hq
  have gen : ∀ k i : Nat, ∀ a b : ℚ, i + k = L + 1 → Near u i a (q * 10 ^ i) → Near u i b (1 / 10 ^ i) →
      a ≤ 10 → ∀ fuel, k + 2 ≤ fuel →
      ∃ a' b' : ℚ, ∃ j : Nat, j ≤ L + 1 ∧ scaleUp A fuel (some a, some b) = some (some a', some b') ∧
        Near u j a' (q * 10 ^ j) ∧ Near u j b' (1 / 10 ^ j) ∧ 1 ≤ a' ∧ a' ≤ 10 := by
    intro k
    induction k with
    | zero =>
      intro i a b hik ha hb h1 fuel hfuel
      have hi : i = L + 1 := by omega
      have hN := S.hN
      have hge : 1 ≤ a := by
        have := (S.near (by omega) (by positivity) ha).1
        have h2 : (10 : ℚ) ≤ q * 10 ^ i := by
          rw [hi, pow_succ]
          have := mul_le_mul_of_nonneg_right hq (show (0 : ℚ) ≤ 10 ^ L * 10 by positivity)
          have h10 : 1 / (10 : ℚ) ^ L * (10 ^ L * 10) = 10 := by field_simp
          linarith
        have h3 := S.eps_small
        have h4 := S.eps0
        have h5 : (10 : ℚ) * (1 - ε) ≤ q * 10 ^ i * (1 - ε) := by gcongr; linarith
        linarith
      obtain ⟨f, rfl⟩ : ∃ f, fuel = f + 1 := ⟨fuel - 1, by omega⟩
      refine ⟨a, b, i, by omega, ?_, ha, hb, hge, h1⟩
      have hc : ¬ a < 1 := by linarith
      simp [scaleUp, whileFuel, Mag.lt, hc]
    | succ k ih =>
      intro i a b hik ha hb h1 fuel hfuel
      obtain ⟨f, rfl⟩ : ∃ f, fuel = f + 1 := ⟨fuel - 1, by omega⟩
      by_cases hc : a < 1
      · have hN := S.hN
        have hlo := S.lo_le
        have hhi := S.hi_big
        have h3 := S.eps_small
        have h4 := S.eps0
        have hab := S.near (by omega) (by positivity) ha
        have hbb := S.near (by omega) (by positivity) hb
        have hLp : (0 : ℚ) < 1 / 10 ^ L := by positivity
        have h13 : (1 : ℚ) / 10 ^ (L + 3) = 1 / 10 ^ L * (1 / 1000) := by rw [pow_add]; field_simp; norm_num
        have hi1 : (1 : ℚ) ≤ 10 ^ i := one_le_pow₀ (by norm_num)
        have haq : 1 / 10 ^ L * (1 / 2) ≤ a := by
          refine le_trans ?_ hab.1
          have : 1 / 10 ^ L * (1 / 2) ≤ (q * 10 ^ i) * (1 - ε) := by
            gcongr
            · nlinarith
            · linarith
          exact this
        obtain ⟨a', ha', hna⟩ := Near.rnd S.close (x := a * 10) (y := q * 10 ^ i * 10) (by positivity)
          (Near.scale S.close.u0 S.close.u1 (by norm_num) ha) (by linarith) (by linarith)
        have hib : 1 / (10 : ℚ) ^ L ≤ 1 / 10 ^ i :=
          one_div_le_one_div_of_le (by positivity) (pow_le_pow_right₀ (by norm_num) (by omega))
        have hi1' : 1 / (10 : ℚ) ^ i ≤ 1 := by rw [div_le_one (by positivity)]; exact hi1
        have hbL : b ≤ 1 * (1 + ε) := le_trans hbb.2 (by gcongr)
        have hb1 : 1 / 10 ^ L * (1 / 2) ≤ b := by
          refine le_trans ?_ hbb.1
          gcongr; linarith
        obtain ⟨b', hb', hnb⟩ := Near.rnd S.close (x := b * (1 / 10)) (y := 1 / 10 ^ i * (1 / 10)) (by positivity)
          (Near.scale S.close.u0 S.close.u1 (by norm_num) hb) (by linarith) (by linarith)
        have ha1 : a' ≤ 10 := by
          obtain ⟨z, hz, hle⟩ := S.sane.le_of_le (n := 10) (by norm_num) (q := a * 10) (by push_cast; linarith)
          rw [ha'] at hz
          have := Option.some.inj hz
          push_cast at hle; linarith
        have := ih (i + 1) a' b' (by omega)
          (by rw [pow_succ]; convert hna using 1; ring)
          (by rw [pow_succ]; convert hnb using 1; field_simp) ha1 f (by omega)
        obtain ⟨a'', b'', j, hj, hrun, rest⟩ := this
        refine ⟨a'', b'', j, hj, ?_, rest⟩
        rw [← hrun]
        unfold scaleUp
        rw [whileFuel]
        have e1 : b / 10 = b * (1 / 10) := by ring
        simp only [Mag.lt, hc, decide_true, if_true, Arith.divc, Arith.mul, e1, ha', hb']
      · refine ⟨a, b, i, by omega, ?_, ha, hb, by linarith, h1⟩
        simp [scaleUp, whileFuel, Mag.lt, hc]
  exact gen (L + 1) 0 q 1 (by omega) (by simpa using Near.refl q) (by simpa using Near.refl (1 : ℚ))
    hq10 fuel hf

/-- Both scaling loops: the value is brought to `[1, 10]` by a power of ten. -/
theorem scale_spec {q : ℚ} (hq1 : 1 / 10 ^ L ≤ q) (hq2 : q ≤ 10 ^ L) (fuel : Nat) (hf : L + 3 ≤ fuel) :
    ∃ a b : ℚ, ∃ k : ℤ,
      ((scaleDown A fuel (some q, some 1)).bind fun s => scaleUp A fuel s) = some (some a, some b) ∧
      Near u (L + 1) a (q / 10 ^ k) ∧ Near u (L + 1) b (10 ^ k) ∧ 1 ≤ a ∧ a ≤ 10 := by
  have hq0 : 0 < q := lt_of_lt_of_le (by positivity) hq1
  obtain ⟨a, b, i, hi, hrun, na, nb, hlt, hcase⟩ := scaleDown_spec S hq0 hq2 fuel (by omega)
  by_cases h1 : 1 ≤ a
  · refine ⟨a, b, i, ?_, ?_, ?_, h1, hlt.le⟩
    · rw [hrun]
      obtain ⟨f, rfl⟩ : ∃ f, fuel = f + 1 := ⟨fuel - 1, by omega⟩
      have hc : ¬ a < 1 := by linarith
      simp [scaleUp, whileFuel, Mag.lt, hc]
    · rw [zpow_natCast]
      exact Near.mono S.close.u0 S.close.u1 (by positivity) (by omega) na
    · rw [zpow_natCast]
      exact Near.mono S.close.u0 S.close.u1 (by positivity) (by omega) nb
  · obtain ⟨rfl, rfl⟩ := hcase.resolve_right h1
    have hb : b = 1 := by
      have := nb
      simp only [Near, pow_zero, mul_one] at this
      linarith
    subst hb
    obtain ⟨a', b', j, hj, hrun2, na2, nb2, g1, g2⟩ := scaleUp_spec S hq1 (by linarith) fuel hf
    refine ⟨a', b', -(j : ℤ), ?_, ?_, ?_, g1, g2⟩
    · rw [hrun]; exact hrun2
    · rw [zpow_neg, zpow_natCast, div_inv_eq_mul]
      exact Near.mono S.close.u0 S.close.u1 (by positivity) (by omega) na2
    · rw [zpow_neg, zpow_natCast, ← one_div]
      exact Near.mono S.close.u0 S.close.u1 (by positivity) (by omega) nb2

theorem roundIncr_spec (n : Nat) (hn : n ≤ d) : ∃ r, roundIncr A n = some r ∧ Near u n r (5 / 10 ^ n) := by
  induction n with
  | zero => exact ⟨5, rfl, by simpa using Near.refl (5 : ℚ)⟩
  | succ n ih =>
    obtain ⟨r, hr, hnear⟩ := ih (by omega)
    have hN := S.hN
    have hb := S.near (by omega) (by positivity) hnear
    have h3 := S.eps_small
    have h4 := S.eps0
    have hlo := S.lo_d
    have hhi := S.hi_big
    have h1 : (1 : ℚ) / 10 ^ (d + 3) ≤ 1 / 10 ^ (n + 3) :=
      one_div_le_one_div_of_le (by positivity) (pow_le_pow_right₀ (by norm_num) (by omega))
    have h2 : (1 : ℚ) / 10 ^ (n + 3) = 5 / 10 ^ n * (1 / 5000) := by rw [pow_add]; field_simp; norm_num
    have h5 : (0 : ℚ) < 5 / 10 ^ n := by positivity
    have h6 : (5 : ℚ) / 10 ^ n ≤ 5 := div_le_self (by norm_num) (one_le_pow₀ (by norm_num))
    have hr1 : 5 / 10 ^ n * (1 / 2) ≤ r := le_trans (by gcongr; linarith) hb.1
    have hr2 : r ≤ 10 := le_trans hb.2 (by nlinarith)
    obtain ⟨r', hr', hnear'⟩ := Near.rnd S.close (x := r * (1 / 10)) (y := 5 / 10 ^ n * (1 / 10)) (by positivity)
      (Near.scale S.close.u0 S.close.u1 (by norm_num) hnear) (by linarith) (by linarith)
    refine ⟨r', ?_, ?_⟩
    · have e1 : r / 10 = r * (1 / 10) := by ring
      simp only [roundIncr, hr, Arith.divc, e1, hr']
    · rw [pow_succ]; convert hnear' using 1; field_simp

theorem normDown_spec {Y : ℚ} (hY0 : 0 < Y) (hY : Y ≤ 30 * 10 ^ L) {x0 : ℚ} {n0 : Nat} (hn0 : n0 + L + 1 ≤ N)
    (hx0 : Near u n0 x0 Y) (fuel : Nat) (hf : L + 3 ≤ fuel) :
    ∃ x : ℚ, ∃ e : Int, normDown A fuel (some x0, 0) = some (some x, e) ∧ Near u (n0 + L + 1) x (Y / 10 ^ e) := by
  have gen : ∀ k i : Nat, ∀ x : ℚ, i + k = L → Near u (n0 + i) x (Y / 1000 ^ i) →
      ∀ fuel, k + 2 ≤ fuel →
      ∃ x' : ℚ, ∃ j : Nat, j ≤ L ∧ normDown A fuel (some x, 3 * (i : Int)) = some (some x', 3 * (j : Int)) ∧
        Near u (n0 + j) x' (Y / 1000 ^ j) := by
    intro k
    induction k with
    | zero =>
      intro i x hik hx fuel hfuel
      have hi : i = L := by omega
      have h3 := S.eps_small
      have h4 := S.eps0
      have hle : x ≤ 1000 := by
        have := (S.near (by omega) (by positivity) hx).2
        have h2 : Y / 1000 ^ i ≤ 30 := by
          rw [div_le_iff₀ (by positivity), hi]
          refine le_trans hY ?_
          gcongr; norm_num
        have h5 : Y / 1000 ^ i * (1 + ε) ≤ 30 * (1 + ε) := by gcongr
        linarith
      obtain ⟨f, rfl⟩ : ∃ f, fuel = f + 1 := ⟨fuel - 1, by omega⟩
      refine ⟨x, i, by omega, ?_, hx⟩
      have hc : ¬ (1000 : ℚ) < x := by linarith
      simp [normDown, whileFuel, Mag.gt, hc]
    | succ k ih =>
      intro i x hik hx fuel hfuel
      obtain ⟨f, rfl⟩ : ∃ f, fuel = f + 1 := ⟨fuel - 1, by omega⟩
      by_cases hc : (1000 : ℚ) < x
      · have hlo := S.lo_small
        have hhi := S.le_hi
        have h3 := S.eps_small
        have h4 := S.eps0
        have hxb := S.near (by omega) (by positivity) hx
        have hxu : x ≤ 30 * 10 ^ L * (1 + ε) := by
          refine le_trans hxb.2 ?_
          have : Y / 1000 ^ i ≤ Y := div_le_self hY0.le (one_le_pow₀ (by norm_num))
          gcongr; linarith
        have hLp : (0 : ℚ) < 10 ^ L := by positivity
        have h13 : (10 : ℚ) ^ (L + 3) = 10 ^ L * 1000 := by rw [pow_add]; norm_num
        obtain ⟨x', hx', hnx⟩ := Near.rnd S.close (x := x * (1 / 1000)) (y := Y / 1000 ^ i * (1 / 1000)) (by positivity)
          (Near.scale S.close.u0 S.close.u1 (by norm_num) hx) (by linarith) (by nlinarith)
        obtain ⟨x'', j, hj, hrun, rest⟩ := ih (i + 1) x' (by omega)
          (by rw [pow_succ, ← add_assoc]; convert hnx using 1; field_simp) f (by omega)
        refine ⟨x'', j, hj, ?_, rest⟩
        rw [← hrun]
        unfold normDown
        rw [whileFuel]
        have e1 : x / 1000 = x * (1 / 1000) := by ring
        have e2 : 3 * (i : Int) + 3 = 3 * ((i + 1 : Nat) : Int) := by push_cast; ring
        simp only [Mag.gt, hc, decide_true, if_true, Arith.divc, e1, hx', e2]
      · refine ⟨x, i, by omega, ?_, hx⟩
        simp [normDown, whileFuel, Mag.gt, hc]
  obtain ⟨x, j, hj, hrun, hx⟩ := gen L 0 x0 (by omega) (by simpa using hx0) fuel (by omega)
  refine ⟨x, 3 * (j : Int), by simpa using hrun, ?_⟩
  have : (10 : ℚ) ^ (3 * (j : Int)) = 1000 ^ j := by
    rw [zpow_mul]; norm_num
  rw [this]
  exact Near.mono S.close.u0 S.close.u1 (by positivity) (by omega) hx

theorem normUp_spec {Y : ℚ} (hY : 1 / 10 ^ L ≤ Y) {x0 : ℚ} {n0 : Nat} (hn0 : n0 + L + 1 ≤ N)
    (hx0 : Near u n0 x0 Y) (fuel : Nat) (hf : L + 3 ≤ fuel) :
    ∃ x : ℚ, ∃ e : Int, normUp A fuel (some x0, 0) = some (some x, e) ∧ Near u (n0 + L + 1) x (Y / 10 ^ e) := by
  have hY0 : 0 < Y := lt_of_lt_of_le (by positivity) hY
  have gen : ∀ k i : Nat, ∀ x : ℚ, i + k = L + 1 → Near u (n0 + i) x (Y * 1000 ^ i) →
      ∀ fuel, k + 2 ≤ fuel →
      ∃ x' : ℚ, ∃ j : Nat, j ≤ L + 1 ∧ normUp A fuel (some x, -(3 * (i : Int))) = some (some x', -(3 * (j : Int))) ∧
        Near u (n0 + j) x' (Y * 1000 ^ j) := by
    intro k
    induction k with
    | zero =>
      intro i x hik hx fuel hfuel
      have hi : i = L + 1 := by omega
      have h3 := S.eps_small
      have h4 := S.eps0
      have hge : 1 ≤ x := by
        have := (S.near (by omega) (by positivity) hx).1
        have h2 : 1000 ≤ Y * 1000 ^ i := by
          rw [hi, pow_succ]
          have h1 : (1 : ℚ) ≤ Y * 1000 ^ L := by
            calc (1 : ℚ) = 1 / 10 ^ L * 10 ^ L := by field_simp
              _ ≤ Y * 1000 ^ L := by gcongr; norm_num
          linarith
        have h5 : 1000 * (1 - ε) ≤ Y * 1000 ^ i * (1 - ε) := by gcongr; linarith
        linarith
      obtain ⟨f, rfl⟩ : ∃ f, fuel = f + 1 := ⟨fuel - 1, by omega⟩
      refine ⟨x, i, by omega, ?_, hx⟩
      have hc : ¬ x < 1 := by linarith
      simp [normUp, whileFuel, Mag.lt, hc]
    | succ k ih =>
      intro i x hik hx fuel hfuel
      obtain ⟨f, rfl⟩ : ∃ f, fuel = f + 1 := ⟨fuel - 1, by omega⟩
      by_cases hc : x < 1
      · have hlo := S.lo_le
        have hhi := S.hi_big
        have h3 := S.eps_small
        have h4 := S.eps0
        have hxb := S.near (by omega) (by positivity) hx
        have hLp : (0 : ℚ) < 1 / 10 ^ L := by positivity
        have h13 : (1 : ℚ) / 10 ^ (L + 3) = 1 / 10 ^ L * (1 / 1000) := by rw [pow_add]; field_simp; norm_num
        have hxl : 1 / 10 ^ L * (1 / 2) ≤ x := by
          refine le_trans ?_ hxb.1
          have : Y ≤ Y * 1000 ^ i := le_mul_of_one_le_right hY0.le (one_le_pow₀ (by norm_num))
          gcongr
          · linarith
          · linarith
        obtain ⟨x', hx', hnx⟩ := Near.rnd S.close (x := x * 1000) (y := Y * 1000 ^ i * 1000) (by positivity)
          (Near.scale S.close.u0 S.close.u1 (by norm_num) hx) (by linarith) (by linarith)
        obtain ⟨x'', j, hj, hrun, rest⟩ := ih (i + 1) x' (by omega)
          (by rw [pow_succ, ← add_assoc, ← mul_assoc]; exact hnx) f (by omega)
        refine ⟨x'', j, hj, ?_, rest⟩
        rw [← hrun]
        unfold normUp
        rw [whileFuel]
        have e2 : -(3 * (i : Int)) - 3 = -(3 * ((i + 1 : Nat) : Int)) := by push_cast; ring
        simp only [Mag.lt, hc, decide_true, if_true, Arith.mul, hx', e2]
      · refine ⟨x, i, by omega, ?_, hx⟩
        simp [normUp, whileFuel, Mag.lt, hc]
  obtain ⟨x, j, hj, hrun, hx⟩ := gen (L + 1) 0 x0 (by omega) (by simpa using hx0) fuel (by omega)
  refine ⟨x, -(3 * (j : Int)), by simpa using hrun, ?_⟩
  have : (10 : ℚ) ^ (-(3 * (j : Int))) = (1000 ^ j)⁻¹ := by
    rw [zpow_neg, zpow_mul]; norm_num
  rw [this, div_inv_eq_mul]
  exact Near.mono S.close.u0 S.close.u1 (by positivity) (by omega) hx

theorem loopCount_small {n : Nat} (h : n < 2 ^ 31) : loopCount n = n := by
  have hm : n % u32 = n := Nat.mod_eq_of_lt (by simp [u32]; omega)
  simp only [loopCount, setwWidth, hm]
  rw [if_pos (by omega)]

/-- `log1k` finishes, and returns (up to the accumulated rounding) the value plus half a unit of the
`d`-th digit, scaled by a power of 1000. -/
theorem log1k_spec {q : ℚ} (hq1 : 1 / 10 ^ L ≤ q) (hq2 : q ≤ 10 ^ L) (fuel : Nat) (hf : L + 3 ≤ fuel)
    {d' : Nat} (hd' : d' ≤ d) :
    ∃ x : ℚ, ∃ e k : Int, ∃ a : ℚ, log1k A fuel q d' = some (some x, e) ∧
      Near u (L + 1) a (q / 10 ^ k) ∧ 1 ≤ a ∧ a ≤ 10 ∧
      Near u N x ((q + 5 * 10 ^ k / 10 ^ d') / 10 ^ e) := by
  have hq0 : 0 < q := lt_of_lt_of_le (by positivity) hq1
  obtain ⟨a, b, k, hrun, na, nb, ha1, ha2⟩ := scale_spec S hq1 hq2 fuel hf
  obtain ⟨ri, hri, nri⟩ := roundIncr_spec S d' hd'
  have hN := S.hN
  have h3 := S.eps_small
  have h4 := S.eps0
  have hlo := S.lo_small
  have hlo' := S.lo_le
  have hhi := S.hi_big
  have hhi' := S.le_hi
  have hkp : (0 : ℚ) < 10 ^ k := by positivity
  have ba := S.near (by omega) (by positivity) na
  have bb := S.near (by omega) hkp.le nb
  have bri := S.near (by omega) (by positivity) nri
  have hr5 : (5 : ℚ) / 10 ^ d' ≤ 5 := by
    rw [div_le_iff₀ (by positivity)]
    have : (1 : ℚ) ≤ 10 ^ d' := one_le_pow₀ (by norm_num)
    linarith
  have hri0 : 0 ≤ ri := Near.nonneg S.close.u0 S.close.u1 (by positivity) nri
  have hri1 : ri ≤ 6 := le_trans bri.2 (by nlinarith)
  -- the sum
  obtain ⟨s, hs, ns⟩ := Near.rnd S.close (x := a + ri) (y := q / 10 ^ k + 5 / 10 ^ d') (by positivity)
    (Near.add S.close.u0 S.close.u1
      (Near.mono S.close.u0 S.close.u1 (by positivity) (show L + 1 ≤ L + 1 + d' by omega) na)
      (Near.mono S.close.u0 S.close.u1 (by positivity) (show d' ≤ L + 1 + d' by omega) nri))
    (by linarith) (by linarith)
  have hs1 : 1 ≤ s := by
    have := S.sane.ge_of_ge (n := 1) (by norm_num) (q := a + ri) (by push_cast; linarith) hs
    exact_mod_cast this
  have hs2 : s ≤ 16 := by
    obtain ⟨z, hz, hle⟩ := S.sane.le_of_le (n := 16) (by norm_num) (q := a + ri) (by push_cast; linarith)
    rw [hs] at hz
    have := Option.some.inj hz
    push_cast at hle; linarith
  -- size of 10^k
  have hk1 : 1 / 10 ^ L * (1 / 20) ≤ (10 : ℚ) ^ k := by
    have h1 : q / 10 ^ k * (1 / 2) ≤ 10 := le_trans (by gcongr; linarith) (le_trans ba.1 ha2)
    have h2 : q * (1 / 2) ≤ 10 * 10 ^ k := by
      have := mul_le_mul_of_nonneg_right h1 hkp.le
      have e : q / 10 ^ k * (1 / 2) * 10 ^ k = q * (1 / 2) := by field_simp
      linarith
    linarith
  have hk2 : (10 : ℚ) ^ k ≤ 2 * 10 ^ L := by
    have h1 : 1 ≤ q / 10 ^ k * 2 := le_trans ha1 (le_trans ba.2 (by gcongr; linarith))
    have h2 := mul_le_mul_of_nonneg_right h1 hkp.le
    have e : q / 10 ^ k * 2 * 10 ^ k = 2 * q := by field_simp
    linarith
  have hb1 : 1 / 10 ^ L * (1 / 40) ≤ b := le_trans (by nlinarith) bb.1
  have hb2 : b ≤ 3 * 10 ^ L := le_trans bb.2 (by nlinarith)
  have hLp : (0 : ℚ) < 1 / 10 ^ L := by positivity
  have hLp' : (0 : ℚ) < 10 ^ L := by positivity
  have h13 : (1 : ℚ) / 10 ^ (L + 3) = 1 / 10 ^ L * (1 / 1000) := by rw [pow_add]; field_simp; norm_num
  have h13' : (10 : ℚ) ^ (L + 3) = 10 ^ L * 1000 := by rw [pow_add]; norm_num
  -- the product
  obtain ⟨T, hT, nT⟩ := Near.rnd S.close (x := s * b) (y := (q / 10 ^ k + 5 / 10 ^ d') * 10 ^ k) (by positivity)
    (Near.mul S.close.u0 S.close.u1 (by positivity) hkp.le ns nb)
    (by nlinarith) (by nlinarith)
  have eY : (q / 10 ^ k + 5 / 10 ^ d') * 10 ^ k = q + 5 * 10 ^ k / 10 ^ d' := by field_simp
  rw [eY] at nT
  set Y := q + 5 * 10 ^ k / 10 ^ d' with hYdef
  have hextra : 5 * (10 : ℚ) ^ k / 10 ^ d' = 5 / 10 ^ d' * 10 ^ k := by ring
  have hY1 : 1 / 10 ^ L ≤ Y := by
    have : 0 ≤ 5 * (10 : ℚ) ^ k / 10 ^ d' := by positivity
    linarith
  have hY2 : Y ≤ 30 * 10 ^ L := by
    have : 5 / (10 : ℚ) ^ d' * 10 ^ k ≤ 5 * (2 * 10 ^ L) := by gcongr
    rw [← hextra] at this
    linarith
  have hlog : log1k A fuel q d' =
      if Mag.lt (some T) 1 then normUp A fuel (some T, 0) else normDown A fuel (some T, 0) := by
    unfold log1k
    rw [loopCount_small S (lt_of_le_of_lt hd' S.hd'), hri]
    cases hsd : scaleDown A fuel (some q, some 1) with
    | none => rw [hsd] at hrun; simp at hrun
    | some s1 =>
      rw [hsd] at hrun
      simp only [Option.bind_some] at hrun ⊢
      rw [hrun]
      simp only [Option.bind_some, Arith.add, hs, Arith.mul, hT]
  have hn : L + 1 + d' + 1 + (L + 1) + 1 + L + 1 ≤ N := by omega
  by_cases hlt : Mag.lt (some T) 1 = true
  · obtain ⟨x, e, hx, nx⟩ := normUp_spec S hY1 hn nT fuel hf
    refine ⟨x, e, k, a, by rw [hlog, if_pos hlt, hx], na, ha1, ha2, ?_⟩
    exact Near.mono S.close.u0 S.close.u1 (by positivity) hn nx
  · obtain ⟨x, e, hx, nx⟩ := normDown_spec S (lt_of_lt_of_le hLp hY1) hY2 hn nT fuel hf
    refine ⟨x, e, k, a, by rw [hlog, if_neg hlt, hx], na, ha1, ha2, ?_⟩
    exact Near.mono S.close.u0 S.close.u1 (by positivity) hn nx

/-- `getIntPartWidth` finishes, and the width is enough for the value (up to rounding). -/
theorem getIntPartWidth_run {x : ℚ} (hx1 : 1 ≤ x) (hx2 : x ≤ 1000) (fuel : Nat) (hf : 4 ≤ fuel) :
    ∃ w, getIntPartWidth A fuel (some x) = some w ∧ x * (1 - ε) ≤ 10 ^ w := by
  have gen : ∀ k i : Nat, ∀ y : ℚ, i + k = 3 → y ≤ 10 ^ k → Near u i y (x / 10 ^ i) →
      ∀ fuel, k + 1 ≤ fuel →
      ∃ y' : ℚ, ∃ j : Nat, j ≤ 3 ∧ y' ≤ 1 ∧ Near u j y' (x / 10 ^ j) ∧
        whileFuel (fun s : Mag × Nat => s.1.gt 1) (fun s => (A.divc s.1 10, s.2 + 1)) fuel (some y, i)
          = some (some y', j) := by
    intro k
    induction k with
    | zero =>
      intro i y hik hy hn fuel hfuel
      obtain ⟨f, rfl⟩ : ∃ f, fuel = f + 1 := ⟨fuel - 1, by omega⟩
      have hc : ¬ (1 : ℚ) < y := by simpa using hy
      exact ⟨y, i, by omega, by simpa using hy, hn, by simp [whileFuel, Mag.gt, hc]⟩
    | succ k ih =>
      intro i y hik hy hn fuel hfuel
      obtain ⟨f, rfl⟩ : ∃ f, fuel = f + 1 := ⟨fuel - 1, by omega⟩
      by_cases hc : (1 : ℚ) < y
      · have hlo := S.lo_small
        have hhi := S.hi_big
        have hk : (10 : ℚ) ^ k ≤ 10 ^ 2 := pow_le_pow_right₀ (by norm_num) (by omega)
        have hy' : y * (1 / 10) ≤ 10 ^ k := by rw [pow_succ] at hy; linarith
        obtain ⟨z, hz, nz⟩ := Near.rnd S.close (x := y * (1 / 10)) (y := x / 10 ^ i * (1 / 10)) (by positivity)
          (Near.scale S.close.u0 S.close.u1 (by norm_num) hn) (by linarith) (by linarith)
        have hzk : z ≤ 10 ^ k := by
          obtain ⟨z', hz', hle⟩ := S.sane.le_of_le (n := 10 ^ k)
            (by
              have : 10 ^ k ≤ 10 ^ 2 := Nat.pow_le_pow_right (by norm_num) (by omega)
              omega) (q := y * (1 / 10)) (by push_cast; exact hy')
          rw [hz] at hz'
          rw [Option.some.inj hz']
          exact_mod_cast hle
        obtain ⟨y', j, h1, h2, h3, h4⟩ := ih (i + 1) z (by omega) hzk
          (by rw [pow_succ]; convert nz using 1; field_simp) f (by omega)
        refine ⟨y', j, h1, h2, h3, ?_⟩
        rw [whileFuel]
        have e1 : y / 10 = y * (1 / 10) := by ring
        simp only [Mag.gt, hc, decide_true, if_true, Arith.divc, e1, hz]
        exact h4
      · exact ⟨y, i, by omega, by linarith, hn, by simp [whileFuel, Mag.gt, hc]⟩
  obtain ⟨y, j, hj, hy, hn, hrun⟩ := gen 3 0 x rfl (by norm_num; exact hx2) (by simpa using Near.refl x) fuel hf
  refine ⟨j, by simp [getIntPartWidth, hrun], ?_⟩
  have hN := S.hN
  have := (S.near (by omega) (by positivity) hn).1
  have h2 : x / 10 ^ j * (1 - ε) ≤ 1 := this.trans hy
  have hp : (0 : ℚ) < 10 ^ j := by positivity
  have h3 := mul_le_mul_of_nonneg_right h2 hp.le
  have e : x / 10 ^ j * (1 - ε) * 10 ^ j = x * (1 - ε) := by field_simp
  linarith

/-- What `fractionate` returns: the number read off its result is a multiple of a unit of the `d`-th digit just
below `x`. -/
theorem fractionate_acc (D : A.Digits) {x : ℚ} (hx1 : 1 ≤ x) (hx2 : x ≤ 1000) (hrep : A.rnd x = some x)
    {fuel : Nat} {r : Fractioned} (h : fractionate A fuel (some x) d = some (.ok r)) :
    r.fracPart < 10 ^ r.fracWid ∧
    (∃ m : Int, (r.intPart : ℚ) + r.fracPart / 10 ^ r.fracWid = m * (10 : ℚ) ^ ((r.intWid : Int) - d)) ∧
    x - (10 : ℚ) ^ ((r.intWid : Int) - d) - 2 * u < (r.intPart : ℚ) + r.fracPart / 10 ^ r.fracWid ∧
    (r.intPart : ℚ) + r.fracPart / 10 ^ r.fracWid ≤ x + 2 * u ∧
    (1 ≤ r.intWid → (10 : ℚ) ^ (r.intWid - 1) ≤ (r.intPart : ℚ) + r.fracPart / 10 ^ r.fracWid) ∧
    (1 ≤ r.intWid → (10 : ℚ) ^ (r.intWid - 1) < x) ∧ (r.intWid = 0 → x = 1) := by
  obtain ⟨p1, p2, p3, p4, p5, p6, p7, p8, p9⟩ := fractionate_spec S.sane hx1 hx2 S.hd h
  have hd' := S.hd'
  have hlo := S.lo_small
  have hhi := S.hi_big
  have hu0 := S.close.u0
  rw [loopCount_small S (by omega)] at p6
  obtain ⟨f1, f2, f3, f4⟩ := fracLoop_spec S.sane S.close D (by linarith) (by linarith) r.fracWid (Int.fract x) 0 r.fracPart
    (Int.fract_nonneg _) (Int.fract_lt_one _) (D.fract x (by linarith) hrep) (le_refl _) p7
  have hfw : (0 : ℚ) < 10 ^ r.fracWid := by positivity
  have hfx := Int.floor_add_fract x
  refine ⟨by simpa using f2, ?_, ?_, ?_, ?_, p9, fun h0 => le_antisymm (p8 h0) hx1⟩
  · by_cases hw : d ≤ r.intWid
    · have h0 : r.fracWid = 0 := by omega
      have hf0 : r.fracPart = 0 := by rw [h0] at f1 f2; simp at f1 f2; omega
      have e5 := Int.emod_add_mul_ediv ⌊x⌋ (10 ^ (r.intWid - d))
      refine ⟨⌊x⌋ / 10 ^ (r.intWid - d), ?_⟩
      have e6 : r.intPart = ⌊x⌋ / 10 ^ (r.intWid - d) * 10 ^ (r.intWid - d) := by
        rw [p5, mul_comm]; omega
      have e7 : (10 : ℚ) ^ ((r.intWid : Int) - d) = 10 ^ (r.intWid - d) := by
        rw [← zpow_natCast]; congr 1; omega
      rw [hf0, e7, e6]; push_cast; ring
    · have e7 : (10 : ℚ) ^ ((r.intWid : Int) - d) = (10 ^ r.fracWid)⁻¹ := by
        rw [← zpow_natCast, ← zpow_neg]; congr 1; omega
      refine ⟨r.intPart * 10 ^ r.fracWid + r.fracPart, ?_⟩
      rw [e7]; push_cast; field_simp
  · by_cases hw : d ≤ r.intWid
    · have h0 : r.fracWid = 0 := by omega
      have hf0 : r.fracPart = 0 := by rw [h0] at f1 f2; simp at f1 f2; omega
      have e7 : (10 : ℚ) ^ ((r.intWid : Int) - d) = 10 ^ (r.intWid - d) := by
        rw [← zpow_natCast]; congr 1; omega
      rw [hf0, e7, p5]
      have h1 := Int.emod_lt_of_pos ⌊x⌋ (show (0 : Int) < 10 ^ (r.intWid - d) by positivity)
      have h2 : ((⌊x⌋ % 10 ^ (r.intWid - d) : Int) : ℚ) + 1 ≤ 10 ^ (r.intWid - d) := by exact_mod_cast h1
      have h3 := Int.fract_lt_one x
      simp only [Int.cast_zero, zero_div, add_zero, Int.cast_sub]
      linarith
    · have e7 : (10 : ℚ) ^ ((r.intWid : Int) - d) = (10 ^ r.fracWid)⁻¹ := by
        rw [← zpow_natCast, ← zpow_neg]; congr 1; omega
      have hip : r.intPart = ⌊x⌋ := by
        rw [p5, show r.intWid - d = 0 by omega]; simp
      rw [e7, hip]
      have : Int.fract x - (10 ^ r.fracWid)⁻¹ - 2 * u < r.fracPart / 10 ^ r.fracWid := by
        rw [lt_div_iff₀ hfw]
        have e : (Int.fract x - (10 ^ r.fracWid)⁻¹ - 2 * u) * 10 ^ r.fracWid =
          Int.fract x * 10 ^ r.fracWid - 1 - 2 * u * 10 ^ r.fracWid := by field_simp
        rw [e]
        push_cast at f3; linarith
      linarith
  · have h1 : (r.fracPart : ℚ) / 10 ^ r.fracWid ≤ Int.fract x + 2 * u := by
      rw [div_le_iff₀ hfw]
      push_cast at f4; linarith
    have h2 : r.intPart ≤ ⌊x⌋ := by
      rw [p5]
      have := Int.emod_nonneg ⌊x⌋ (show (10 : Int) ^ (r.intWid - d) ≠ 0 by positivity)
      omega
    have h3 : (r.intPart : ℚ) ≤ ⌊x⌋ := by exact_mod_cast h2
    linarith
  · intro hw
    have h1 : ((10 : ℚ)) ^ (r.intWid - 1) ≤ r.intPart := by exact_mod_cast p1
    have h2 : (0 : ℚ) ≤ r.fracPart / 10 ^ r.fracWid := by
      have : (0 : ℚ) ≤ r.fracPart := by exact_mod_cast p3
      positivity
    linarith

/-- `fractionate` succeeds when at most nine digits are asked for. -/
theorem fractionate_runs (D : A.Digits) {x : ℚ} (hx1 : 1 ≤ x) (hx2 : x ≤ 1000) (hrep : A.rnd x = some x)
    {fuel : Nat} (hf : 4 ≤ fuel) {d' : Nat} (hd10 : d' ≤ 10) :
    ∃ r, fractionate A fuel (some x) d' = some (.ok r) := by
  obtain ⟨w, hw, _⟩ := getIntPartWidth_run S hx1 hx2 fuel hf
  obtain ⟨g1, g2, _⟩ := getIntPartWidth_spec S.sane hx2 hw
  have hf2 : ⌊x⌋ ≤ 1000 := by
    have : ((⌊x⌋ : Int) : ℚ) ≤ 1000 := (Int.floor_le x).trans hx2
    exact_mod_cast this
  rw [fractionate, hw]
  simp only [Option.map_some]
  rw [if_pos (by unfold intMax; omega), modvalLoop_eq _ (by omega), loopCount_small S (by omega)]
  have hfr := D.fract x (by linarith) hrep
  obtain ⟨r, hr⟩ : ∃ r, fracLoop A (d' - w) (Int.fract x) 0 = .ok r := by
    by_cases hw0 : w = 0
    · have : x = 1 := le_antisymm (g2 hw0) hx1
      rw [this, Int.fract_one] at hfr ⊢
      exact ⟨0, fracLoop_zero S.sane _⟩
    · exact fracLoop_runs S.sane D (d' - w) (Int.fract x) 0 (Int.fract_nonneg _) (Int.fract_lt_one _)
        hfr (le_refl _) (by
          have : (10 : Int) ^ (d' - w) ≤ 10 ^ 9 := pow_le_pow_right₀ (by norm_num) (by omega)
          linarith)
  simp [hr]

end

/-- Numbers on the grid `g` that are less than one step above a grid point are that point. -/
theorem grid_eq {P P0 g : ℚ} (hg : 0 < g) {m m0 : Int} (hP : P = m * g) (hP0 : P0 = m0 * g)
    (h1 : P0 ≤ P) (h2 : P < P0 + g) : P = P0 := by
  have a1 : (m0 : ℚ) ≤ m := by
    rw [hP, hP0] at h1; exact le_of_mul_le_mul_right h1 hg
  have a2 : (m : ℚ) < m0 + 1 := by
    rw [hP, hP0] at h2
    have : (m : ℚ) * g < (m0 + 1) * g := by linarith
    exact lt_of_mul_lt_mul_right this hg.le
  have b1 : m0 ≤ m := by exact_mod_cast a1
  have b2 : m < m0 + 1 := by exact_mod_cast a2
  have : m = m0 := by omega
  rw [hP, hP0, this]

/-- The situation in engineering notation: `Q` is the value, `x` the value with half a unit added (up to rounding), `P` the
number printed, that is `x` truncated to `d` digits; all in units of the power of a thousand used. -/
structure Decade (Q x P ε u : ℚ) (K : Int) (w d : Nat) : Prop where
  hd : 1 ≤ d
  he0 : 0 ≤ ε
  hue : u ≤ ε
  hed : ε ≤ 1 / 10 ^ (d + 3)
  hQ1 : (10 : ℚ) ^ K ≤ Q * (1 + ε)
  hQ2 : Q * (1 - ε) ≤ 10 * 10 ^ K
  hx : (Q + 5 * 10 ^ K / 10 ^ d) * (1 - ε) ≤ x
  hx' : x ≤ (Q + 5 * 10 ^ K / 10 ^ d) * (1 + ε)
  hx1 : 1 ≤ x
  hw : x * (1 - ε) ≤ 10 ^ w
  hw1 : 1 ≤ w → (10 : ℚ) ^ (w - 1) < x
  hw0 : w = 0 → x = 1
  hm : ∃ m : Int, P = m * (10 : ℚ) ^ ((w : Int) - d)
  hP1 : x - (10 : ℚ) ^ ((w : Int) - d) - 2 * u < P
  hP2 : P ≤ x + 2 * u
  hP3 : 1 ≤ w → (10 : ℚ) ^ (w - 1) ≤ P

/-- Half a unit has been added, the result truncated: the outcome is the nearest multiple of the unit (up to
rounding). -/
theorem decade_core {Q x P ε u : ℚ} {K κ : Int} {w d : Nat} (Dc : Decade Q x P ε u K w d)
    (hκ' : Q < 10 ^ (κ + 1)) :
    |P - Q| ≤ 5 * 10 ^ κ / 10 ^ d + 10 * ε * Q := by
  obtain ⟨hd, he0, hue, hed, hQ1, hQ2, hx, hx', hx1, hw, hw1, hw0, hm, hP1, hP2, hP3⟩ := Dc
  set T : ℚ := 10 ^ K with hT
  have hT0 : 0 < T := by positivity
  set E : ℚ := 1 / 10 ^ d with hE
  have hE0 : 0 < E := by positivity
  have hE1 : E ≤ 1 / 10 := by
    rw [hE]
    refine one_div_le_one_div_of_le (by norm_num) ?_
    calc (10 : ℚ) = 10 ^ 1 := by norm_num
      _ ≤ 10 ^ d := pow_le_pow_right₀ (by norm_num) hd
  have heE : ε ≤ E / 1000 := by
    refine hed.trans (le_of_eq ?_)
    rw [hE, pow_add]; field_simp; norm_num
  have hHeq : 5 * T / 10 ^ d = 5 * T * E := by rw [hE]; ring
  rw [hHeq] at hx hx'
  have he4 : ε ≤ 1 / 10000 := by linarith
  -- sizes
  have hQ0 : 0 < Q := by
    by_contra hc
    have : Q * (1 + ε) ≤ 0 := mul_nonpos_of_nonpos_of_nonneg (by linarith) (by linarith)
    linarith
  have hQl : T * (1 - ε) ≤ Q := by
    have : T * (1 - ε) ≤ Q * (1 + ε) * (1 - ε) := mul_le_mul_of_nonneg_right hQ1 (by linarith)
    nlinarith [mul_nonneg hQ0.le (mul_nonneg he0 he0)]
  have hQu : Q ≤ 10 * T * (1 + 2 * ε) := by
    have h1 : Q * (1 - ε) * (1 + 2 * ε) ≤ 10 * T * (1 + 2 * ε) := mul_le_mul_of_nonneg_right hQ2 (by linarith)
    nlinarith [mul_nonneg hQ0.le he0, mul_nonneg (mul_nonneg hQ0.le he0) (show 0 ≤ 1 - 2 * ε by linarith)]
  have hTE : T * ε ≤ T * E / 1000 := by
    have := mul_le_mul_of_nonneg_left heE hT0.le
    linarith
  have hTE0 : 0 < T * E := mul_pos hT0 hE0
  have hTE1 : T * E ≤ T / 10 := by
    have := mul_le_mul_of_nonneg_left hE1 hT0.le
    linarith
  have hTe0 : 0 ≤ T * ε := mul_nonneg hT0.le he0
  have hQe0 : 0 ≤ Q * ε := mul_nonneg hQ0.le he0
  have hQT : T * (9999 / 10000) ≤ Q := by
    refine le_trans ?_ hQl
    gcongr; linarith
  have hQT' : Q ≤ 11 * T := by
    refine hQu.trans ?_
    nlinarith
  -- error terms are small compared with ε Q
  have hHQ : 5 * T * E ≤ Q := by nlinarith
  have hxQ : x ≤ 2 * Q * (1 + ε) := by
    refine hx'.trans ?_
    have : (Q + 5 * T * E) * (1 + ε) ≤ (Q + Q) * (1 + ε) := by gcongr
    linarith
  have hQhalf : 2 / 5 ≤ Q := by nlinarith
  have huQ : u ≤ 5 / 2 * (ε * Q) := by nlinarith
  have hsum : ε * (Q + 5 * T * E) ≤ 2 * (ε * Q) := by nlinarith
  have hxU : x ≤ Q + 5 * (T * E) + 2 * (ε * Q) := by linarith
  have hxL : Q + 5 * (T * E) - 2 * (ε * Q) ≤ x := by linarith
  have hQE : ε * Q ≤ T * E / 50 := by
    have : ε * Q ≤ ε * (11 * T) := by gcongr
    linarith
  clear hxQ hx hx' hsum hHQ
  -- the width
  have hx12 : x ≤ 13 * T := by linarith
  have hxe : x * ε ≤ T * E / 50 := by
    have : x * ε ≤ 13 * T * ε := by gcongr
    linarith
  have w2 : (w : Int) = K + 1 ∨ ((w : Int) = K + 2 ∧ 1 ≤ w) := by
    have h1 : K < (w : Int) := by
      have : (10 : ℚ) ^ K < 10 ^ (w : Int) := by
        rw [zpow_natCast]
        refine lt_of_lt_of_le ?_ hw
        rw [← hT]
        linarith
      exact (zpow_lt_zpow_iff_right₀ (by norm_num)).mp this
    by_cases hw0' : w = 0
    · have h2 : (10 : ℚ) ^ (0 : Int) < 10 ^ (K + 2) := by
        rw [zpow_add₀ (by norm_num), zpow_zero]
        norm_num
        rw [← hT]; linarith
      have := (zpow_lt_zpow_iff_right₀ (by norm_num : (1:ℚ) < 10)).mp h2
      left; subst hw0'; push_cast at h1 ⊢; omega
    · have h2 : (10 : ℚ) ^ ((w : Int) - 1) < 10 ^ (K + 2) := by
        have e : (10 : ℚ) ^ ((w : Int) - 1) = 10 ^ (w - 1) := by
          rw [← zpow_natCast]; congr 1; omega
        rw [e, zpow_add₀ (by norm_num)]
        refine lt_trans (hw1 (by omega)) ?_
        norm_num
        rw [← hT]; linarith
      have := (zpow_lt_zpow_iff_right₀ (by norm_num : (1:ℚ) < 10)).mp h2
      omega
  -- first bound: half a unit at the decade used
  obtain ⟨m, hm⟩ := hm
  have hκ1 : (10 : ℚ) ^ (κ + 1) = 10 * 10 ^ κ := by rw [zpow_add₀ (by norm_num)]; ring
  have hzE : ∀ z : Int, (10 : ℚ) ^ (z - d) = 10 ^ z * E := by
    intro z
    rw [zpow_sub₀ (by norm_num), hE, zpow_natCast]; ring
  have hlow : ∀ z : Int, ∃ m0 : Int, (10 : ℚ) ^ z = m0 * (10 : ℚ) ^ (z + 1 - d) := by
    intro z
    refine ⟨10 ^ (d - 1), ?_⟩
    push_cast
    rw [← zpow_natCast, ← zpow_add₀ (by norm_num)]
    congr 1; omega
  have main : |P - Q| ≤ 5 * T * E + 10 * (ε * Q) ∧
      (Q < T → |P - Q| ≤ 10 * (ε * Q)) := by
    rcases w2 with hwK | ⟨hwK, hwpos⟩
    · have hg : (10 : ℚ) ^ ((w : Int) - d) = 10 * T * E := by
        rw [hzE, hwK, zpow_add₀ (by norm_num), ← hT]; ring
      rw [hg] at hP1
      constructor
      · rw [abs_le]; constructor <;> linarith
      · intro hQT2
        -- P = T
        have hwpos : 1 ≤ w := by
          by_contra hc
          have h0 : w = 0 := by omega
          have hK : K = -1 := by omega
          have : T = 1 / 10 := by rw [hT, hK]; norm_num
          linarith
        have hPT : T ≤ P := by
          refine le_trans (le_of_eq ?_) (hP3 hwpos)
          rw [hT, ← zpow_natCast]; congr 1; omega
        obtain ⟨m0, hm0⟩ := hlow K
        rw [← hwK] at hm0
        have hP : P = T := grid_eq (by positivity) hm hm0 hPT (by rw [hg]; linarith)
        rw [hP, abs_le]; constructor <;> linarith
    · have hg : (10 : ℚ) ^ ((w : Int) - d) = 100 * T * E := by
        rw [hzE, hwK, zpow_add₀ (by norm_num), ← hT, show (10 : ℚ) ^ (2 : Int) = 100 by norm_num]; ring
      have hw10 : (10 : ℚ) ^ (w - 1) = 10 * T := by
        rw [← zpow_natCast, show ((w - 1 : Nat) : Int) = K + 1 by omega, zpow_add₀ (by norm_num), ← hT]
        ring
      have hxw := hw1 hwpos
      have hPw := hP3 hwpos
      rw [hw10] at hxw hPw
      obtain ⟨m0, hm0⟩ := hlow (K + 1)
      rw [show K + 1 + 1 = (w : Int) by omega] at hm0
      have e10 : (10 : ℚ) ^ (K + 1) = 10 * T := by rw [zpow_add₀ (by norm_num), ← hT]; ring
      have hP : P = 10 * T := by
        rw [← e10]
        refine grid_eq (by positivity) hm hm0 (by rw [e10]; exact hPw) ?_
        rw [e10, hg]
        linarith
      constructor
      · rw [hP, abs_le]; constructor <;> linarith
      · intro hQT2
        exfalso
        linarith
  have hgoal : 5 * (10 : ℚ) ^ κ / 10 ^ d = 5 * 10 ^ κ * E := by rw [hE]; ring
  rw [hgoal]
  have hκ0 : (0 : ℚ) < 10 ^ κ := by positivity
  by_cases hc : Q < T
  · have := main.2 hc
    have : 0 ≤ 5 * (10 : ℚ) ^ κ * E := by positivity
    linarith
  · have hKκ : K ≤ κ := by
      have : (10 : ℚ) ^ K < 10 ^ (κ + 1) := by rw [← hT]; linarith
      have := (zpow_lt_zpow_iff_right₀ (by norm_num : (1:ℚ) < 10)).mp this
      omega
    have hTκ : T ≤ 10 ^ κ := zpow_le_zpow_right₀ (by norm_num) hKκ
    have h1 := main.1
    have : 5 * T * E ≤ 5 * 10 ^ κ * E := by gcongr
    linarith

/-- The normalised value is representable. -/
theorem log1k_repr {A : Arith} (D : A.Digits) {fuel : Nat} {q x : ℚ} {d : Nat} {e : Int}
    (h : log1k A fuel q d = some (some x, e)) : A.rnd x = some x := by
  simp only [log1k, Option.bind_eq_some_iff] at h
  obtain ⟨s, _, s2, _, h⟩ := h
  have hmul : ∀ a b y, A.mul a b = some y → A.rnd y = some y := by
    intro a b y h
    unfold Arith.mul at h
    split at h
    · exact D.idem _ _ h
    · simp at h
  have hdiv : ∀ a c y, A.divc a c = some y → A.rnd y = some y := by
    intro a b y h
    unfold Arith.divc at h
    split at h
    · exact D.idem _ _ h
    · simp at h
  split at h
  · have := (whileFuel_inv _ _ (fun s : Mag × Int => ∀ y, s.1 = some y → A.rnd y = some y)
      (by intro s _ _ y hy; exact hmul _ _ y hy) _ _ _ (by intro y hy; exact hmul _ _ y hy) h).1
    exact this x rfl
  · have := (whileFuel_inv _ _ (fun s : Mag × Int => ∀ y, s.1 = some y → A.rnd y = some y)
      (by intro s _ _ y hy; exact hdiv _ _ y hy) _ _ _ (by intro y hy; exact hmul _ _ y hy) h).1
    exact this x rfl

/-! ### More fuel does not change a result -/

theorem bind_mono {α β : Type} {x x' : Option α} {f f' : α → Option β} {b : β}
    (hx : ∀ a, x = some a → x' = some a) (hf : ∀ a b, f a = some b → f' a = some b)
    (h : x.bind f = some b) : x'.bind f' = some b := by
  simp only [Option.bind_eq_some_iff] at h ⊢
  obtain ⟨a, ha, hb⟩ := h
  exact ⟨a, hx a ha, hf a b hb⟩

theorem log1k_mono {A : Arith} {fuel : Nat} (k : Nat) {q : ℚ} {d : Nat} {r : Mag × Int}
    (h : log1k A fuel q d = some r) : log1k A (fuel + k) q d = some r := by
  unfold log1k at h ⊢
  refine bind_mono (fun a ha => whileFuel_mono _ _ _ k _ _ ha) (fun a b hb => ?_) h
  refine bind_mono (fun a ha => whileFuel_mono _ _ _ k _ _ ha) (fun a b hb => ?_) hb
  dsimp only at hb ⊢
  split at hb
  · rename_i hc; rw [if_pos hc]; exact whileFuel_mono _ _ _ k _ _ hb
  · rename_i hc; rw [if_neg hc]; exact whileFuel_mono _ _ _ k _ _ hb

theorem fractionate_mono {A : Arith} {fuel : Nat} (k : Nat) {v : Mag} {d : Nat} {r : Res Empty Fractioned}
    (h : fractionate A fuel v d = some r) : fractionate A (fuel + k) v d = some r := by
  unfold fractionate getIntPartWidth at h ⊢
  simp only [Option.map_map, Option.map_eq_some_iff] at h ⊢
  obtain ⟨a, ha, hr⟩ := h
  exact ⟨a, whileFuel_mono _ _ _ k _ _ ha, hr⟩

/-- The text does not depend on the fuel, as long as there is enough. -/
theorem textF_mono {A : Arith} {fuel : Nat} (k : Nat) {radix : Char} {v : Dbl} {fmt : Char} {width d : Nat}
    {r : Res Empty Str} (h : textF A fuel radix v fmt width d = some r) :
    textF A (fuel + k) radix v fmt width d = some r := by
  cases v with
  | nan => exact h
  | inf n => exact h
  | fin neg q =>
    unfold textF at h ⊢
    dsimp only at h ⊢
    split_ifs at h ⊢ <;> first | exact h | skip
    all_goals
      refine bind_mono (fun a ha => log1k_mono k ha) (fun a b hb => ?_) h
      simp only [Option.map_eq_some_iff] at hb ⊢
      obtain ⟨r, hr, hb⟩ := hb
      exact ⟨r, fractionate_mono k hr, hb⟩

/-! ### Reading the number back -/

theorem valueFrom_start (b : Nat) : ∀ (s : Str) (a n : Nat), valueFrom b 0 s = some n →
    valueFrom b a s = some (a * b ^ s.length + n) := by
  have gen : ∀ (s : Str) (a a' n : Nat), valueFrom b a s = some n →
      valueFrom b (a' + a) s = some (a' * b ^ s.length + n) := by
    intro s
    induction s with
    | nil => intro a a' n h; simp [valueFrom] at h ⊢; omega
    | cons c s ih =>
      intro a a' n h
      simp only [valueFrom] at h ⊢
      cases hd : digitValue b c with
      | none => rw [hd] at h; simp at h
      | some v =>
        rw [hd] at h
        simp only [Option.bind_some] at h ⊢
        have := ih (a * b + v) (a' * b) n h
        rw [show (a' + a) * b + v = a' * b + (a * b + v) by ring, this]
        simp [pow_succ]; ring
  intro s a n h
  exact gen s 0 a n h

theorem numeral_append {b m n : Nat} {s t : Str} (hs : numeral b s = some m) (ht : numeral b t = some n) :
    numeral b (s ++ t) = some (m * b ^ t.length + n) := by
  unfold numeral at hs ht ⊢
  split at hs
  · simp at hs
  · rename_i hne
    split at ht
    · simp at ht
    · rw [if_neg (by simp [hne]), valueFrom_append, hs]
      exact valueFrom_start b t m n ht

theorem length_padLeft_digits {n w : Nat} (h : n < 10 ^ w) (hw : 0 < w) :
    (padLeft '0' w (Nat.toDigits 10 n)).length = w := by
  have := (Nat.length_toDigits_le_iff (b := 10) (by omega) hw).mpr h
  simp [padLeft]; omega

/-- The value of the printed number. -/
theorem eng_value {neg : Bool} {ip fp w : Nat} {e : Int} (hfp : fp < 10 ^ w) :
    (Eng.mk neg (Nat.toDigits 10 ip)
      (if 0 < w then padLeft '0' w (Nat.toDigits 10 fp) else []) e).value =
      some (((ip : ℚ) + fp / 10 ^ w) * 10 ^ e) := by
  unfold Eng.value
  dsimp only
  by_cases hw : 0 < w
  · have h2 : numeral 10 (padLeft '0' w (Nat.toDigits 10 fp)) = some fp := by
      rw [padLeft, numeral_zeros _ (by omega) _ _ Nat.toDigits_ne_nil, numeral_toDigits _ (by omega) (by omega)]
    rw [if_pos hw, numeral_append (numeral_toDigits 10 (by omega) (by omega) ip) h2, length_padLeft_digits hfp hw]
    rw [Option.map_some]
    congr 1
    push_cast
    field_simp
  · have h0 : w = 0 := by omega
    subst h0
    have : fp = 0 := by simpa using hfp
    simp [numeral_toDigits 10 (by omega) (by omega), this]

section
variable {A : Arith} {u lo hi ε : ℚ} {L N d : Nat} (S : Setting A u lo hi ε L N d)
include S

/-- The value, the normalised value with half a unit added, and the number printed, in units of the exponent. -/
theorem eng_decade (D : A.Digits) {q : ℚ} (hq1 : 1 / 10 ^ L ≤ q) (hq2 : q ≤ 10 ^ L) {fuel : Nat} {radix : Char}
    {neg : Bool} {width : Nat} {t : Str} (h : textF A fuel radix (.fin neg q) 'e' width d = some (.ok t)) :
    ∃ n v, ∃ e K : Int, ∃ w x, readEng t = some n ∧ n.neg = neg ∧ n.value = some (v * 10 ^ e) ∧
      Decade (q / 10 ^ e) x v ε u K w d := by
  have hq0 : 0 < q := lt_of_lt_of_le (by positivity) hq1
  have h := textF_mono (L + 4) h
  obtain ⟨x, e, r, hl, hf, hx1, hx2, _, hread⟩ := textF_eng S.sane hq0.ne' S.hd h
  obtain ⟨x', e', k, a, hl', na, ha1, ha2, nx⟩ := log1k_spec S hq1 hq2 (fuel + (L + 4)) (by omega) (le_refl d)
  rw [hl] at hl'
  obtain ⟨rfl, rfl⟩ : x = x' ∧ e = e' := by simpa using hl'
  have hrep := log1k_repr D hl
  obtain ⟨f1, f2, f3, f4, f5, f6, f7⟩ := fractionate_acc S D hx1 hx2 hrep hf
  obtain ⟨p1, p2, p3, _⟩ := fractionate_spec S.sane hx1 hx2 S.hd hf
  obtain ⟨w, hw, hxw⟩ := getIntPartWidth_run S hx1 hx2 (fuel + (L + 4)) (by omega)
  have hrw : r.intWid = w := by
    rw [fractionate, hw] at hf
    simp only [Option.map_some, Option.some.injEq] at hf
    split at hf
    · generalize modvalLoop (w - d) 1 = mv at hf
      cases mv with
      | ub => simp at hf
      | throw e => exact e.elim
      | ok mv =>
        simp only [Res.bind_ok] at hf
        generalize fracLoop A (loopCount (d - w)) (Int.fract x) 0 = fl at hf
        cases fl with
        | ub => simp at hf
        | throw e => exact e.elim
        | ok fl => simp only [Res.bind_ok, Res.ok.injEq] at hf; rw [← hf]
    · simp at hf
  rw [← hrw] at hxw
  obtain ⟨ip, hip⟩ := Int.eq_ofNat_of_zero_le (show 0 ≤ r.intPart from le_trans (by positivity) p1)
  obtain ⟨fp, hfp⟩ := Int.eq_ofNat_of_zero_le p3
  rw [hip, hfp] at hread f2 f3 f4 f5
  rw [hfp] at f1
  refine ⟨_, (ip : ℚ) + fp / 10 ^ r.fracWid, e, k - e, r.intWid, x, hread, rfl, ?_, ?_⟩
  · simp only [Int.toNat_natCast]
    exact eng_value (by exact_mod_cast f1)
  have hN := S.hN
  have he0 : (0 : ℚ) < 10 ^ e := by positivity
  have ba := S.near (by omega) (by positivity) na
  have bx := S.near (le_refl N) (by positivity) nx
  have hzk : (10 : ℚ) ^ (k - e) = 10 ^ k / 10 ^ e := zpow_sub₀ (by norm_num) _ _
  have hkp : (0 : ℚ) < 10 ^ k := by positivity
  simp only [Int.cast_natCast] at f2 f3 f4 f5
  exact {
    hd := S.hd
    he0 := S.eps0
    hue := by
      have h1 := one_add_mul_le_pow (show (-2 : ℚ) ≤ u by have := S.close.u0; linarith) N
      have h2 := S.ehi
      have h3 : (1 : ℚ) ≤ N := by exact_mod_cast (by omega : 1 ≤ N)
      have h4 := S.close.u0
      nlinarith
    hed := S.eps
    hQ1 := by
      rw [hzk, div_mul_eq_mul_div]
      refine div_le_div_of_nonneg_right ?_ he0.le
      have h1 : 1 ≤ q / 10 ^ k * (1 + ε) := ha1.trans ba.2
      have h2 := mul_le_mul_of_nonneg_right h1 hkp.le
      have e1 : q / 10 ^ k * (1 + ε) * 10 ^ k = q * (1 + ε) := by field_simp
      linarith
    hQ2 := by
      rw [hzk, div_mul_eq_mul_div, ← mul_div_assoc]
      refine div_le_div_of_nonneg_right ?_ he0.le
      have h1 : q / 10 ^ k * (1 - ε) ≤ 10 := ba.1.trans ha2
      have h2 := mul_le_mul_of_nonneg_right h1 hkp.le
      have e1 : q / 10 ^ k * (1 - ε) * 10 ^ k = q * (1 - ε) := by field_simp
      linarith
    hx := by
      refine le_trans (le_of_eq ?_) bx.1
      rw [hzk]; field_simp
    hx' := by
      refine le_trans bx.2 (le_of_eq ?_)
      rw [hzk]; field_simp
    hx1 := hx1
    hw := hxw
    hw1 := f6
    hw0 := f7
    hm := f2
    hP1 := f3
    hP2 := f4
    hP3 := f5 }

/-- Accuracy of engineering notation. -/
theorem eng_accurate (D : A.Digits) {q : ℚ} (hq1 : 1 / 10 ^ L ≤ q) (hq2 : q ≤ 10 ^ L) {fuel : Nat} {radix : Char}
    {neg : Bool} {width : Nat} {t : Str} (h : textF A fuel radix (.fin neg q) 'e' width d = some (.ok t))
    {κ : Int} (hκ : q < 10 ^ (κ + 1)) :
    ∃ n v, readEng t = some n ∧ n.neg = neg ∧ n.value = some v ∧ |v - q| ≤ 5 * 10 ^ κ / 10 ^ d + 10 * ε * q := by
  obtain ⟨n, v, e, K, w, x, h1, h2, h3, Dc⟩ := eng_decade S D hq1 hq2 h
  refine ⟨n, _, h1, h2, h3, ?_⟩
  have he0 : (0 : ℚ) < 10 ^ e := by positivity
  have hzκ : (10 : ℚ) ^ (κ - e + 1) = 10 ^ (κ + 1) / 10 ^ e := by
    rw [← zpow_sub₀ (by norm_num)]; congr 1; ring
  have hzκ' : (10 : ℚ) ^ (κ - e) = 10 ^ κ / 10 ^ e := zpow_sub₀ (by norm_num) _ _
  have key := decade_core (κ := κ - e) Dc (by rw [hzκ]; gcongr)
  have hscale : |v * 10 ^ e - q| = |v - q / 10 ^ e| * 10 ^ e := by
    rw [← abs_of_pos he0, ← abs_mul, abs_of_pos he0]
    congr 1
    field_simp
  rw [hscale]
  refine (mul_le_mul_of_nonneg_right key he0.le).trans (le_of_eq ?_)
  rw [hzκ']; field_simp

omit S in
/-- The exponent only shifts. -/
theorem normUp_shift : ∀ (f : Nat) (m : Mag) (e c : Int) (x : Mag) (e' : Int), normUp A f (m, e) = some (x, e') →
    normUp A f (m, e + c) = some (x, e' + c) := by
  intro f
  induction f with
  | zero => intro m e c x e' h; simp [normUp, whileFuel] at h
  | succ f ih =>
    intro m e c x e' h
    unfold normUp at h ⊢
    rw [whileFuel] at h ⊢
    dsimp only at h ⊢
    split at h
    · rename_i hc
      rw [if_pos hc, show e + c - 3 = e - 3 + c by ring]
      exact ih _ _ _ _ _ h
    · rename_i hc
      rw [if_neg hc]
      simp only [Option.some.injEq, Prod.mk.injEq] at h ⊢
      exact ⟨h.1, by omega⟩

/-- The rounding increment, for any number of digits. -/
theorem roundIncr_le (m : Nat) : ∃ ri : ℚ, roundIncr A m = some ri ∧ 0 ≤ ri ∧ ri ≤ 5 := by
  induction m with
  | zero => exact ⟨5, rfl, by norm_num, le_refl _⟩
  | succ m ih =>
    obtain ⟨r, hr, h0, h5⟩ := ih
    obtain ⟨z, hz, hle⟩ := S.sane.le_of_le (n := 5) (by norm_num) (q := r / 10) (by push_cast; linarith)
    have hz0 := S.sane.ge_of_ge (n := 0) (by norm_num) (q := r / 10) (by push_cast; positivity) hz
    refine ⟨z, by simp [roundIncr, hr, Arith.divc, hz], ?_, ?_⟩
    · exact_mod_cast hz0
    · exact_mod_cast hle

/-- `log1k` finishes whatever number of digits is asked for. -/
theorem log1k_stops {q : ℚ} (hq1 : 1 / 10 ^ L ≤ q) (hq2 : q ≤ 10 ^ L) (fuel : Nat) (hf : L + 4 ≤ fuel) (d' : Nat) :
    ∃ x : ℚ, ∃ e : Int, log1k A fuel q d' = some (some x, e) := by
  have hq0 : 0 < q := lt_of_lt_of_le (by positivity) hq1
  obtain ⟨a, b, k, hrun, na, nb, ha1, ha2⟩ := scale_spec S hq1 hq2 fuel (by omega)
  obtain ⟨ri, hri, hri0, hri5⟩ := roundIncr_le S (loopCount d')
  have hN := S.hN
  have h3 := S.eps_small
  have h4 := S.eps0
  have hlo := S.lo_small
  have hlo' := S.lo_le
  have hhi := S.hi_big
  have hhi' := S.le_hi
  have hkp : (0 : ℚ) < 10 ^ k := by positivity
  have ba := S.near (by omega) (by positivity) na
  have bb := S.near (by omega) hkp.le nb
  obtain ⟨s, hs, hs2⟩ := S.sane.le_of_le (n := 15) (by norm_num) (q := a + ri) (by push_cast; linarith)
  have hs1 := S.sane.ge_of_ge (n := 1) (by norm_num) (q := a + ri) (by push_cast; linarith) hs
  push_cast at hs1 hs2
  have hk1 : 1 / 10 ^ L * (1 / 20) ≤ (10 : ℚ) ^ k := by
    have h1 : q / 10 ^ k * (1 / 2) ≤ 10 := le_trans (by gcongr; linarith) (le_trans ba.1 ha2)
    have h2 : q * (1 / 2) ≤ 10 * 10 ^ k := by
      have := mul_le_mul_of_nonneg_right h1 hkp.le
      have e : q / 10 ^ k * (1 / 2) * 10 ^ k = q * (1 / 2) := by field_simp
      linarith
    linarith
  have hk2 : (10 : ℚ) ^ k ≤ (1 + 1 / 10) * q := by
    have h1 : 1 ≤ q / 10 ^ k * (1 + 1 / 10) := le_trans ha1 (le_trans ba.2 (by gcongr; linarith))
    have h2 := mul_le_mul_of_nonneg_right h1 hkp.le
    have e : q / 10 ^ k * (1 + 1 / 10) * 10 ^ k = (1 + 1 / 10) * q := by field_simp
    linarith
  have hb1 : 1 / 10 ^ L * (1 / 40) ≤ b := le_trans (by nlinarith) bb.1
  have hb2 : b ≤ 3 / 2 * 10 ^ L := le_trans bb.2 (by nlinarith)
  have hb3 : 10 ^ k * (9 / 10) ≤ b := le_trans (by gcongr; linarith) bb.1
  have hLp : (0 : ℚ) < 1 / 10 ^ L := by positivity
  have hLp' : (0 : ℚ) < 10 ^ L := by positivity
  have h13 : (1 : ℚ) / 10 ^ (L + 3) = 1 / 10 ^ L * (1 / 1000) := by rw [pow_add]; field_simp; norm_num
  have h13' : (10 : ℚ) ^ (L + 3) = 10 ^ L * 1000 := by rw [pow_add]; norm_num
  have hb0 : 0 < b := by linarith
  have hsb1 : b ≤ s * b := le_mul_of_one_le_left hb0.le hs1
  have hsb2 : s * b ≤ 15 * b := mul_le_mul_of_nonneg_right hs2 hb0.le
  -- the product
  obtain ⟨T, hT, nT⟩ := Near.rnd S.close (x := s * b) (y := s * b) (by positivity) (Near.refl _)
    (by linarith) (by linarith)
  have hY2 : s * b ≤ 30 * 10 ^ L := by linarith
  have hlog : log1k A fuel q d' =
      if Mag.lt (some T) 1 then normUp A fuel (some T, 0) else normDown A fuel (some T, 0) := by
    unfold log1k
    rw [hri]
    cases hsd : scaleDown A fuel (some q, some 1) with
    | none => rw [hsd] at hrun; simp at hrun
    | some s1 =>
      rw [hsd] at hrun
      simp only [Option.bind_some] at hrun ⊢
      rw [hrun]
      simp only [Option.bind_some, Arith.add, hs, Arith.mul, hT]
  by_cases hlt : Mag.lt (some T) 1 = true
  · obtain ⟨f, rfl⟩ : ∃ f, fuel = f + 1 := ⟨fuel - 1, by omega⟩
    -- the product may be a little below 10^-L; one step brings it above
    have hTu : T ≤ 1 := by simp [Mag.lt] at hlt; linarith
    have bT := S.near (by omega) (by positivity) nT
    have hTl : 1 / 10 ^ L * (1 / 50) ≤ T := by
      refine le_trans ?_ bT.1
      have : s * b * (9 / 10) ≤ s * b * (1 - ε) := by gcongr; linarith
      linarith
    have hT0 : 0 < T := by linarith
    obtain ⟨T', hT', nT'⟩ := Near.rnd S.close (x := T * 1000) (y := T * 1000) (by positivity) (Near.refl _)
      (by linarith) (by linarith)
    have key : ∃ x : ℚ, ∃ e : Int, normUp A f (some T', 0) = some (some x, e) := by
      obtain ⟨x, e, hx, _⟩ := normUp_spec S (Y := T * 1000) (by linarith) (n0 := 0 + 1) (by omega) nT' f (by omega)
      exact ⟨x, e, hx⟩
    obtain ⟨x, e, hx⟩ := key
    refine ⟨x, e + (-3), ?_⟩
    rw [hlog, if_pos hlt, normUp, whileFuel]
    dsimp only
    rw [if_pos hlt]
    have : A.mul (some T) (some 1000) = some T' := by simp [Arith.mul, hT']
    rw [this, show (0 : Int) - 3 = 0 + (-3) by ring]
    exact normUp_shift f _ _ _ _ _ hx
  · obtain ⟨x, e, hx, nx⟩ := normDown_spec S (by positivity) hY2 (by omega) nT fuel (by omega)
    exact ⟨x, e, by rw [hlog, if_neg hlt, hx]⟩

/-- Engineering notation terminates (possibly with undefined behaviour) however many digits are asked for. -/
theorem eng_stops {q : ℚ} (hq1 : 1 / 10 ^ L ≤ q) (hq2 : q ≤ 10 ^ L) {fuel : Nat} (hf : L + 4 ≤ fuel)
    (radix : Char) (neg : Bool) (width d' : Nat) :
    ∃ r, textF A fuel radix (.fin neg q) 'e' width d' = some r := by
  have hq0 : 0 < q := lt_of_lt_of_le (by positivity) hq1
  obtain ⟨x, e, hl⟩ := log1k_stops S hq1 hq2 fuel (by omega) d'
  obtain ⟨x', hx', hx1, hx2⟩ := log1k_range S.sane hl
  obtain rfl : x = x' := by simpa using hx'
  obtain ⟨w, hw, _⟩ := getIntPartWidth_run S hx1 hx2 fuel (by omega)
  simp [textF, hq0.ne', hl, fractionate, hw]

/-- Engineering notation terminates without undefined behaviour for up to ten digits. -/
theorem eng_runs (D : A.Digits) {q : ℚ} (hq1 : 1 / 10 ^ L ≤ q) (hq2 : q ≤ 10 ^ L) {fuel : Nat} (hf : L + 4 ≤ fuel)
    {d' : Nat} (hd10 : d' ≤ 10) (radix : Char) (neg : Bool) (width : Nat) :
    ∃ t, textF A fuel radix (.fin neg q) 'e' width d' = some (.ok t) := by
  have hq0 : 0 < q := lt_of_lt_of_le (by positivity) hq1
  obtain ⟨x, e, hl⟩ := log1k_stops S hq1 hq2 fuel (by omega) d'
  obtain ⟨x', hx', hx1, hx2⟩ := log1k_range S.sane hl
  obtain rfl : x = x' := by simpa using hx'
  obtain ⟨r, hr⟩ := fractionate_runs S D hx1 hx2 (log1k_repr D hl) (fuel := fuel) (by omega) hd10
  simp [textF, hq0.ne', hl, hr]

end

end SoDa
