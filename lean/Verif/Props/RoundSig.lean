import Verif.Model.RoundSig
import Verif.Model.Binary64
import Verif.Proof.RoundSig
import Verif.Props.FormatF
import Mathlib.Algebra.Order.Archimedean.Basic
import Mathlib.Tactic.Linarith
import Mathlib.Tactic.Positivity
import Mathlib.Tactic.Ring
import Mathlib.Tactic.FieldSimp
import Mathlib.Tactic.NormNum
/-!
Properties of `Format::roundToSigDigs`.
-/
namespace SoDa

/-- Specification: `r` is `v` rounded to `s` significant digits: a whole number `N` of at most `s` digits (or `10 ^ s`)
times a power of ten, not more than half a unit away from `v`. -/
def RoundsTo (v r : ℚ) (s : Nat) : Prop :=
  ∃ (N : Nat) (k : Int), 10 ^ (s - 1) ≤ N ∧ N ≤ 10 ^ s ∧ r = N * 10 ^ k ∧ |r - v| ≤ 10 ^ k / 2

/-- The claim: for every finite double and 1 to 15 digits the function returns the rounded value (negative values being
rounded like their opposites, zero giving zero). -/
def C72_claim (A : Arith) : Prop :=
  ∀ (q : ℚ) (s : Nat), A.rnd |q| = some |q| → 1 ≤ s → s ≤ 15 → ∃ fuel r, roundToSigDigs A fuel (.fin q) s = some (.fin r) ∧
    (0 < q → RoundsTo q r s) ∧ (q = 0 → r = 0) ∧ (q < 0 → RoundsTo (-q) (-r) s)

section exact

theorem exact_round (q : ℚ) : SDbl.round exactArith q = .fin q := by
  unfold SDbl.round exactArith
  simp only
  split
  · rename_i h; rw [abs_of_neg h]; simp
  · rename_i h; rw [abs_of_nonneg (not_lt.1 h)]

theorem exact_tenth : tenth exactArith = 1 / 10 := rfl

theorem exact_thr (s : Nat) : sigThreshold exactArith s = .fin (10 ^ s - 1 / 2) := by
  simp [sigThreshold, exact_round]

theorem exact_mulc (q c : ℚ) : (SDbl.fin q).mulc exactArith c = .fin (q * c) := exact_round _

/-- The loop that divides. -/
theorem exact_down (thr : ℚ) : ∀ (n : Nat) (q : ℚ) (c : ℚ), 0 < q → q ≤ thr * 10 ^ n → ∃ (j : Nat),
    whileFuel (fun s : SDbl × SDbl => (SDbl.fin thr).lt s.1)
      (fun s => (s.1.mulc exactArith (tenth exactArith), s.2.mulc exactArith 10)) (n + 1) (.fin q, .fin c) =
        some (.fin (q / 10 ^ j), .fin (c * 10 ^ j)) ∧ q / 10 ^ j ≤ thr ∧ (q ≤ thr → j = 0) ∧
      (thr < q → thr / 10 < q / 10 ^ j) := by
  intro n
  induction n with
  | zero =>
    intro q c hq h
    rw [pow_zero, mul_one] at h
    refine ⟨0, ?_, by simpa using h, fun _ => rfl, fun h' => absurd h' (not_lt.2 h)⟩
    rw [whileFuel, if_neg (by simpa [SDbl.lt] using h)]
    simp
  | succ n ih =>
    intro q c hq h
    by_cases hle : q ≤ thr
    · refine ⟨0, ?_, by simpa using hle, fun _ => rfl, fun h' => absurd h' (not_lt.2 hle)⟩
      rw [whileFuel, if_neg (by simpa [SDbl.lt] using hle)]
      simp
    · have hlt := not_le.1 hle
      obtain ⟨j, h1, h2, h4, h3⟩ := ih (q / 10) (c * 10) (by positivity) (by rw [pow_succ] at h; linarith)
      refine ⟨j + 1, ?_, ?_, fun h' => absurd h' hle, ?_⟩
      · rw [whileFuel, if_pos (by simpa [SDbl.lt] using hlt)]
        dsimp only
        rw [exact_mulc, exact_mulc, exact_tenth, show q * (1 / 10) = q / 10 by ring]
        rw [exact_tenth] at h1
        rw [h1]
        simp only [Option.some.injEq, Prod.mk.injEq, SDbl.fin.injEq]
        constructor <;> (rw [pow_succ]; field_simp)
      · rw [pow_succ, mul_comm, ← div_div]; exact h2
      · intro _
        rw [pow_succ, mul_comm, ← div_div]
        by_cases h5 : thr < q / 10
        · exact h3 h5
        · rw [h4 (not_lt.1 h5), pow_zero, div_one]
          linarith

/-- The loop that multiplies. -/
theorem exact_up (thr : ℚ) : ∀ (n : Nat) (q : ℚ) (c : ℚ), 0 < q → thr ≤ q * 10 ^ n → ∃ (j : Nat),
    whileFuel (fun s : SDbl × SDbl => s.1.lt (SDbl.fin thr))
      (fun s => (s.1.mulc exactArith 10, s.2.mulc exactArith (tenth exactArith))) (n + 1) (.fin q, .fin c) =
        some (.fin (q * 10 ^ j), .fin (c / 10 ^ j)) ∧ thr ≤ q * 10 ^ j ∧ (thr ≤ q → j = 0) ∧
      (q < thr → q * 10 ^ j < thr * 10) := by
  intro n
  induction n with
  | zero =>
    intro q c hq h
    rw [pow_zero, mul_one] at h
    refine ⟨0, ?_, by simpa using h, fun _ => rfl, fun h' => absurd h' (not_lt.2 h)⟩
    rw [whileFuel, if_neg (by simpa [SDbl.lt] using h)]
    simp
  | succ n ih =>
    intro q c hq h
    by_cases hle : thr ≤ q
    · refine ⟨0, ?_, by simpa using hle, fun _ => rfl, fun h' => absurd h' (not_lt.2 hle)⟩
      rw [whileFuel, if_neg (by simpa [SDbl.lt] using hle)]
      simp
    · have hlt := not_le.1 hle
      obtain ⟨j, h1, h2, h4, h3⟩ := ih (q * 10) (c / 10) (by positivity) (by rw [pow_succ] at h; linarith)
      refine ⟨j + 1, ?_, ?_, fun h' => absurd h' hle, ?_⟩
      · rw [whileFuel, if_pos (by simpa [SDbl.lt] using hlt)]
        dsimp only
        rw [exact_mulc, exact_mulc, exact_tenth, show c * (1 / 10) = c / 10 by ring]
        rw [exact_tenth] at h1
        rw [h1]
        simp only [Option.some.injEq, Prod.mk.injEq, SDbl.fin.injEq]
        constructor <;> (rw [pow_succ]; field_simp)
      · rw [pow_succ, mul_comm (10 ^ j), ← mul_assoc]; exact h2
      · intro _
        rw [pow_succ, mul_comm (10 ^ j), ← mul_assoc]
        by_cases h5 : q * 10 < thr
        · exact h3 h5
        · rw [h4 (not_lt.1 h5), pow_zero, mul_one]
          linarith

/-- Rounding and scaling back. -/
theorem exact_finish {y : ℚ} {s : Nat} (k : Int) (hs : 1 ≤ s) (h1 : (10 ^ s - 1 / 2) / 10 ≤ y)
    (h2 : y ≤ (10 : ℚ) ^ s - 1 / 2) :
    ∃ r, ((addHalf exactArith (.fin y)).trunc.mul exactArith (.fin (10 ^ k))) = .fin r ∧ RoundsTo (y * 10 ^ k) r s := by
  obtain ⟨t, rfl⟩ : ∃ t, s = t + 1 := ⟨s - 1, by omega⟩
  have ht : (1 : ℚ) ≤ 10 ^ t := one_le_pow₀ (by norm_num)
  have hy : 0 < y := by rw [pow_succ] at h1; linarith
  have hf1 := Int.floor_le y
  have hf2 := Int.lt_floor_add_one y
  have hpos : (0 : ℚ) < 10 ^ k := by positivity
  -- the whole number that is printed
  have main : ∃ N : Nat, (addHalf exactArith (.fin y)).trunc = .fin N ∧ |(N : ℚ) - y| ≤ 1 / 2 ∧ y < N + 1 / 2 := by
    simp only [addHalf, exact_round]
    split
    · rename_i h
      have hn : 0 ≤ ⌊y + 1 / 2⌋ := Int.floor_nonneg.2 (by linarith)
      obtain ⟨N, hN⟩ := Int.eq_ofNat_of_zero_le hn
      have g1 := Int.floor_le (y + 1 / 2)
      have g2 := Int.lt_floor_add_one (y + 1 / 2)
      rw [hN] at g1 g2
      push_cast at g1 g2
      refine ⟨N, ?_, ?_, by linarith⟩
      · simp only [SDbl.trunc]
        rw [if_neg (by linarith), hN]
        simp
      · rw [abs_le]; constructor <;> linarith
    · rename_i h
      have hn : 0 ≤ ⌊y⌋ := Int.floor_nonneg.2 hy.le
      obtain ⟨N, hN⟩ := Int.eq_ofNat_of_zero_le hn
      rw [hN] at hf1 hf2 h
      push_cast at hf1 hf2 h
      refine ⟨N, ?_, ?_, by linarith⟩
      · simp only [SDbl.trunc]
        rw [if_neg (by linarith), hN]
        simp
      · rw [abs_le]; constructor <;> linarith
  obtain ⟨N, hN, herr, hlt⟩ := main
  refine ⟨N * 10 ^ k, ?_, N, k, ?_, ?_, rfl, ?_⟩
  · rw [hN]
    exact exact_round _
  · rw [show t + 1 - 1 = t by omega]
    have : (10 : ℚ) ^ t < N + 1 := by rw [pow_succ] at h1; linarith
    have : 10 ^ t < N + 1 := by exact_mod_cast this
    omega
  · rw [abs_le] at herr
    have : (N : ℚ) ≤ 10 ^ (t + 1) := by linarith
    exact_mod_cast this
  · rw [← sub_mul, abs_mul, abs_of_pos hpos]
    have := mul_le_mul_of_nonneg_right herr hpos.le
    linarith

theorem exists_pow_ge (x : ℚ) : ∃ n : Nat, x ≤ 10 ^ n := by
  obtain ⟨n, hn⟩ := pow_unbounded_of_one_lt x (show (1 : ℚ) < 10 by norm_num)
  exact ⟨n, hn.le⟩

end exact

/-- C72, what holds: with exact arithmetic, positive values of any size are rounded correctly to any number of digits.
Missing: zero and negative values (the loop does not end, `C72_refuted`), and the rounding of every single operation. -/
theorem C72_round_partial (q : ℚ) (hq : 0 < q) (s : Nat) (hs : 1 ≤ s) :
    ∃ fuel r, roundToSigDigs exactArith fuel (.fin q) s = some (.fin r) ∧ RoundsTo q r s := by
  have ht : (0 : ℚ) < 10 ^ s - 1 / 2 := by
    have : (1 : ℚ) ≤ 10 ^ s := one_le_pow₀ (by norm_num)
    linarith
  unfold roundToSigDigs scaleSig
  rw [exact_thr]
  generalize hthr : (10 : ℚ) ^ s - 1 / 2 = thr at ht
  rcases lt_trichotomy thr q with hlt | heq | hgt
  · obtain ⟨n, hn⟩ := exists_pow_ge (q / thr)
    obtain ⟨j, h1, h2, _, h3⟩ := exact_down thr n q 1 hq (by rw [div_le_iff₀ ht] at hn; linarith)
    obtain ⟨r, g1, g2⟩ := exact_finish (y := q / 10 ^ j) (s := s) j hs (by rw [hthr]; exact (h3 hlt).le) (by rw [hthr]; exact h2)
    refine ⟨n + 1, r, ?_, ?_⟩
    · rw [if_pos (by simpa [SDbl.lt] using hlt), h1, one_mul]
      simpa using g1
    · rw [zpow_natCast, div_mul_cancel₀ _ (by positivity)] at g2
      exact g2
  · obtain ⟨r, g1, g2⟩ := exact_finish (y := q) (s := s) 0 hs (by rw [hthr]; linarith) (by rw [hthr]; linarith)
    refine ⟨0, r, ?_, by simpa using g2⟩
    rw [if_neg (by simp [SDbl.lt, heq]), if_neg (by simp [SDbl.lt, heq])]
    simpa using g1
  · obtain ⟨n, hn⟩ := exists_pow_ge (thr / q)
    obtain ⟨j, h1, h2, _, h3⟩ := exact_up thr n q 1 hq (by rw [div_le_iff₀ hq] at hn; linarith)
    obtain ⟨r, g1, g2⟩ := exact_finish (y := q * 10 ^ j / 10) (s := s) (1 - j) hs
      (by rw [hthr]; linarith) (by rw [hthr]; linarith [h3 hgt])
    have hsh : (10 : ℚ) ^ (1 - (j : Int)) = 10 / 10 ^ j := by
      rw [zpow_sub₀ (by norm_num), zpow_one, zpow_natCast]
    rw [hsh] at g1 g2
    refine ⟨n + 1, r, ?_, ?_⟩
    · rw [if_neg (by simpa [SDbl.lt] using hgt.le), if_pos (by simpa [SDbl.lt] using hgt), h1]
      simp only [Option.map_some, exact_mulc, exact_tenth, Option.some.injEq]
      rw [show q * 10 ^ j * (1 / 10) = q * 10 ^ j / 10 by ring, show 1 / (10 : ℚ) ^ j * 10 = 10 / 10 ^ j by ring]
      exact g1
    · have : q * 10 ^ j / 10 * (10 / 10 ^ j) = q := by field_simp
      rw [this] at g2
      exact g2

set_option exponentiation.threshold 2000 in
theorem binary64_sig (s : Nat) (hs : 1 ≤ s) (hs9 : s ≤ 9) :
    SigSetting binary64 (1 / 2 ^ 53) (1 / 2 ^ 1022) (2 ^ 1023) (2 / 10 ^ 13) 290 931 s where
  sane := binary64_sane
  close := binary64_close
  digits := binary64_digits
  thr := by interval_cases s <;> decide +kernel
  lo_le := by
    have : (10 : ℚ) ^ (290 + s + 3) ≤ 10 ^ 302 := pow_le_pow_right₀ (by norm_num) (by omega)
    calc (1 : ℚ) / 2 ^ 1022 ≤ 1 / 10 ^ 302 := by norm_num
      _ ≤ _ := one_div_le_one_div_of_le (by positivity) this
  le_hi := by
    have : (10 : ℚ) ^ (290 + s + 3) ≤ 10 ^ 302 := pow_le_pow_right₀ (by norm_num) (by omega)
    exact le_trans this (by norm_num)
  hN := by omega
  elo := (binary64_setting 1 le_rfl (by norm_num)).elo
  ehi := (binary64_setting 1 le_rfl (by norm_num)).ehi
  eps0 := by norm_num
  eps := by
    have : (10 : ℚ) ^ (s + 3) ≤ 10 ^ 12 := pow_le_pow_right₀ (by norm_num) (by omega)
    calc (2 : ℚ) / 10 ^ 13 ≤ 1 / 10 ^ 12 := by norm_num
      _ ≤ _ := one_div_le_one_div_of_le (by positivity) this
  hs := hs
  hs' := by omega

/-- C72 for `double`, one to nine digits and values between 10^-290 and 10^290: the function returns within 300
iterations, and the result is, up to a relative error of 2·10^-13, a whole number of at most `s` digits times a power of
ten, half a unit away from the value up to `4·10^(s-13)` units.  Missing: zero and negative values, more digits, values
outside the range. -/
theorem C72_binary64_partial (q : ℚ) (hrep : binary64.rnd q = some q) (h1 : 1 / 10 ^ 290 ≤ q) (h2 : q ≤ 10 ^ 290) (s : Nat)
    (hs : 1 ≤ s) (hs9 : s ≤ 9) :
    ∃ r, roundToSigDigs binary64 300 (.fin q) s = some (.fin r) ∧ ∃ (M : Nat) (k : Int), 10 ^ (s - 1) ≤ M ∧ M ≤ 10 ^ s ∧
      |r - M * 10 ^ k| ≤ 2 / 10 ^ 13 * (M * 10 ^ k) ∧
      |(M : ℚ) * 10 ^ k - q| ≤ (1 / 2 + 2 * (2 / 10 ^ 13) * 10 ^ s) * 10 ^ k :=
  sig_spec (binary64_sig s hs hs9) h1 h2 hrep 300 (show 290 + s + 1 ≤ 300 by omega)

/-- A value that stays below the threshold keeps the loop going for ever. -/
theorem up_hangs (A : Arith) (thr : SDbl) (P : SDbl → Prop) (hP : ∀ x, P x → x.lt thr = true ∧ P (x.mulc A 10)) :
    ∀ fuel (x c : SDbl), P x → whileFuel (fun s : SDbl × SDbl => s.1.lt thr)
      (fun s => (s.1.mulc A 10, s.2.mulc A (tenth A))) fuel (x, c) = none := by
  intro fuel
  induction fuel with
  | zero => intro x c _; rfl
  | succ n ih =>
    intro x c hx
    rw [whileFuel, if_pos (hP x hx).1]
    exact ih _ _ (hP x hx).2

/-- In any arithmetic that rounds zero to zero and in which the threshold is positive, zero and negative values are never
finished. -/
theorem C72_hangs (A : Arith) (h0 : A.rnd 0 = some 0) (hnn : ∀ q m, 0 ≤ q → A.rnd q = some m → 0 ≤ m) (sig : Int) (thr : ℚ)
    (ht : sigThreshold A sig = .fin thr) (hpos : 0 < thr) (q : ℚ) (hq : q ≤ 0) (fuel : Nat) :
    roundToSigDigs A fuel (.fin q) sig = none := by
  unfold roundToSigDigs scaleSig
  rw [ht]
  have h1 : (SDbl.fin thr).lt (.fin q) = false := by simp [SDbl.lt]; linarith
  have h2 : (SDbl.fin q).lt (.fin thr) = true := by simp [SDbl.lt]; linarith
  rw [h1, h2]
  simp only [Bool.false_eq_true, if_false, if_true]
  rw [up_hangs A (.fin thr) (fun x => x = .inf true ∨ ∃ p ≤ 0, x = .fin p)]
  · rfl
  · rintro x (rfl | ⟨p, hp, rfl⟩)
    · exact ⟨rfl, Or.inl rfl⟩
    · refine ⟨by simp [SDbl.lt]; linarith, ?_⟩
      simp only [SDbl.mulc, SDbl.round]
      rcases hr : A.rnd |p * 10| with _ | m
      · left
        have : p ≠ 0 := by
          rintro rfl
          simp [h0] at hr
        have : p * 10 < 0 := by
          have := lt_of_le_of_ne hp this
          linarith
        simp [this]
      · right
        have hm := hnn _ _ (abs_nonneg _) hr
        refine ⟨_, ?_, rfl⟩
        split
        · linarith
        · have hp0 : p = 0 := by linarith
          rw [hp0] at hr
          simp [h0] at hr
          exact hr.symm.le
  · exact Or.inr ⟨q, hq, rfl⟩

theorem Arith.Sane.zero {A : Arith} (h : A.Sane) : A.rnd 0 = some 0 := by simpa using h.fix 0 (by norm_num)

theorem Arith.Sane.nonneg {A : Arith} (h : A.Sane) (q m : ℚ) (hq : 0 ≤ q) (hm : A.rnd q = some m) : 0 ≤ m := by
  obtain ⟨a, h1, h2⟩ := h.mono 0 q m hq hm
  rw [h.zero] at h1
  cases h1
  exact h2

theorem C72_refuted : ¬ C72_claim binary64 ∧ ¬ C72_claim exactArith := by
  constructor
  · intro h
    obtain ⟨fuel, r, h1, _⟩ := h 0 3 (by simpa using binary64_sane.zero) (by norm_num) (by norm_num)
    have := C72_hangs binary64 binary64_sane.zero binary64_sane.nonneg 3 (1999 / 2) (by decide +kernel) (by norm_num) 0
      le_rfl fuel
    rw [show ((3 : Nat) : Int) = 3 from rfl, this] at h1
    cases h1
  · intro h
    obtain ⟨fuel, r, h1, _⟩ := h 0 3 (by simpa using exactArith_sane.zero) (by norm_num) (by norm_num)
    have := C72_hangs exactArith exactArith_sane.zero exactArith_sane.nonneg 3 (10 ^ 3 - 1 / 2) (exact_thr 3)
      (by norm_num) 0 le_rfl fuel
    rw [show ((3 : Nat) : Int) = 3 from rfl, this] at h1
    cases h1

example : binary64.rnd 31415 = some 31415 := by decide +kernel

example : roundToSigDigs binary64 10 (.fin 31415) 3 = some (.fin 31400) := by decide +kernel

example : roundToSigDigs exactArith 10 (.fin (99996 / 10000000)) 4 = some (.fin (1 / 100)) := by decide +kernel

end SoDa
