import Verif.Props.FormatF
/-!
C22 for more than nine digits.
-/
namespace SoDa
open Spec

set_option exponentiation.threshold 2000 in
/-- The setting of C22 for other ranges of magnitudes. -/
theorem binary64_setting_of {L N d : Nat} {ε : ℚ} (hL : L ≤ 304) (hN : 3 * L + d + 10 ≤ N) (hN' : N ≤ 2 ^ 53) (h0 : 0 ≤ ε)
    (hε : (N : ℚ) / 2 ^ 53 * (1 + ε) ≤ ε) (hd : 1 ≤ d) (hd' : d ≤ 100) (hεd : ε ≤ 1 / 10 ^ (d + 3)) :
    Setting binary64 (1 / 2 ^ 53) (1 / 2 ^ 1022) (2 ^ 1023) ε L N d := by
  have hpow : ∀ m n : Nat, m ≤ n → (10 : ℚ) ^ m ≤ 10 ^ n := fun m n h => pow_le_pow_right₀ (by norm_num) h
  have hNq : (N : ℚ) / 2 ^ 53 ≤ 1 := by
    rw [div_le_one (by positivity)]; exact_mod_cast hN'
  have hNn : (0 : ℚ) ≤ (N : ℚ) / 2 ^ 53 := by positivity
  have h1 := one_add_mul_le_pow (show (-2 : ℚ) ≤ -(1 / 2 ^ 53) by norm_num) N
  rw [← sub_eq_add_neg] at h1
  have h1' : 1 - (N : ℚ) / 2 ^ 53 ≤ (1 - 1 / 2 ^ 53) ^ N := by
    refine le_trans (le_of_eq ?_) h1; ring
  have hle : (N : ℚ) / 2 ^ 53 ≤ ε := by nlinarith
  constructor
  · exact binary64_sane
  · exact binary64_close
  · have := hpow (L + 3) 307 (by omega)
    calc (1 : ℚ) / 2 ^ 1022 ≤ 1 / 10 ^ 307 := by norm_num
      _ ≤ 1 / 10 ^ (L + 3) := one_div_le_one_div_of_le (by positivity) this
  · have := hpow (d + 3) 103 (by omega)
    calc (1 : ℚ) / 2 ^ 1022 ≤ 1 / 10 ^ 103 := by norm_num
      _ ≤ 1 / 10 ^ (d + 3) := one_div_le_one_div_of_le (by positivity) this
  · exact (hpow (L + 3) 307 (by omega)).trans (by norm_num)
  · exact hN
  · linarith
  · have h2 : ((1 : ℚ) + 1 / 2 ^ 53) ^ N * (1 - 1 / 2 ^ 53) ^ N ≤ 1 := by
      rw [← mul_pow]
      exact pow_le_one₀ (by norm_num) (by norm_num)
    have h3 : (0 : ℚ) ≤ (1 + 1 / 2 ^ 53) ^ N := by positivity
    generalize ((1 : ℚ) + 1 / 2 ^ 53) ^ N = X at h2 h3 ⊢
    generalize ((1 : ℚ) - 1 / 2 ^ 53) ^ N = Y at h1' h2
    generalize (N : ℚ) / 2 ^ 53 = t at *
    have h4 : X * (1 - t) ≤ 1 := le_trans (mul_le_mul_of_nonneg_left h1' h3) h2
    have h5 : t < 1 := by
      by_contra hc
      have : ε ≤ 1 := hεd.trans (by rw [div_le_one (by positivity)]; exact one_le_pow₀ (by norm_num))
      nlinarith
    have h6 : 1 ≤ (1 - t) * (1 + ε) := by linarith
    by_contra hc
    have h7 : (1 - t) * (1 + ε) < (1 - t) * X := mul_lt_mul_of_pos_left (by linarith) (by linarith)
    linarith
  · exact h0
  · exact hεd
  · exact hd
  · omega

/-- The error in units of the last digit. -/
theorem eng_accurate_units {L N d : Nat} {ε : ℚ} (S : Setting binary64 (1 / 2 ^ 53) (1 / 2 ^ 1022) (2 ^ 1023) ε L N d) {q : ℚ}
    (hq1 : 1 / 10 ^ L ≤ q) (hq2 : q ≤ 10 ^ L) {w fuel : Nat} {radix : Char} {neg : Bool} {f f' : Fmt} {k : Int}
    (hk' : q < 10 ^ (k + 1)) (h : f.addF binary64 fuel radix (.fin neg q) 'e' w d = some (.ok f')) :
    ∃ t n v, Inserts f f' t ∧ readEng t = some n ∧ n.neg = neg ∧ n.value = some v ∧
      |v - q| ≤ (1 / 2 + 10 * ε * 10 ^ d) * (10 : ℚ) ^ (k + 1 - d) := by
  obtain ⟨t, ht, hi⟩ := addF_some h
  obtain ⟨n, v, hr, hneg, hv, herr⟩ := eng_accurate S binary64_digits hq1 hq2 ht hk'
  refine ⟨t, n, v, hi, hr, hneg, hv, herr.trans ?_⟩
  rw [half_unit]
  have e1 : (10 : ℚ) ^ (k + 1 - d) * 10 ^ d = 10 ^ (k + 1) := by
    rw [← zpow_natCast, ← zpow_add₀ (by norm_num)]; congr 1; ring
  have e0 := S.eps0
  have e5 : 10 * ε * q ≤ 10 * ε * ((10 : ℚ) ^ (k + 1 - d) * 10 ^ d) := by rw [e1]; gcongr
  calc _ ≤ (10 : ℚ) ^ (k + 1 - d) / 2 + 10 * ε * ((10 : ℚ) ^ (k + 1 - d) * 10 ^ d) := by linarith
    _ = _ := by ring

/-- C22 for ten digits (the most for which `frac_part` cannot overflow): magnitudes from 1e-293 to 1e293, within 0.51 units of
the last digit.  For eleven digits, if the call returns: magnitudes from 1e-23 to 1e23. -/
theorem C22_eng_more_digits_partial (q : ℚ) (w d : Nat) (fuel : Nat) (radix : Char) (neg : Bool) (f f' : Fmt) (k : Int)
    (hq : (d = 10 ∧ 1 / 10 ^ 293 ≤ q ∧ q ≤ 10 ^ 293) ∨ (d = 11 ∧ 1 / 10 ^ 23 ≤ q ∧ q ≤ 10 ^ 23)) (hk' : q < 10 ^ (k + 1))
    (h : f.addF binary64 fuel radix (.fin neg q) 'e' w d = some (.ok f')) :
    ∃ t n v, Inserts f f' t ∧ readEng t = some n ∧ n.neg = neg ∧ n.value = some v ∧
      |v - q| ≤ 51 / 100 * (10 : ℚ) ^ (k + 1 - d) := by
  rcases hq with ⟨rfl, h1, h2⟩ | ⟨rfl, h1, h2⟩
  · have S := binary64_setting_of (L := 293) (N := 899) (d := 10) (ε := 1 / 10 ^ 13) (by omega) (by omega) (by norm_num)
      (by norm_num) (by norm_num) (by omega) (by omega) (by norm_num)
    obtain ⟨t, n, v, h3, h4, h5, h6, h7⟩ := eng_accurate_units S h1 h2 hk' h
    refine ⟨t, n, v, h3, h4, h5, h6, h7.trans ?_⟩
    gcongr
    norm_num
  · have S := binary64_setting_of (L := 23) (N := 90) (d := 11) (ε := 1 / 10 ^ 14) (by omega) (by omega) (by norm_num)
      (by norm_num) (by norm_num) (by omega) (by omega) (by norm_num)
    obtain ⟨t, n, v, h3, h4, h5, h6, h7⟩ := eng_accurate_units S h1 h2 hk' h
    refine ⟨t, n, v, h3, h4, h5, h6, h7.trans ?_⟩
    gcongr
    norm_num

/-- The hypotheses are met: 31415.926535897932 (the double nearest to it). -/
example : (binary64.rnd (31415926535897932 / 10 ^ 12)).bind (fun q => textF binary64 20 '.' (.fin false q) 'e' 0 10) =
      some (.ok " 31.41592654e+3 ".toList) ∧
    (binary64.rnd (31415926535897932 / 10 ^ 12)).bind (fun q => textF binary64 20 '.' (.fin false q) 'e' 0 11) =
      some (.ok " 31.415926536e+3 ".toList) := by decide +kernel

end SoDa
