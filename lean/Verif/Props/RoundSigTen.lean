import Verif.Props.RoundSig
import Verif.Props.FormatFTen
/-!
C72 for more than nine digits.
-/
namespace SoDa
open Spec

set_option exponentiation.threshold 2000 in
theorem binary64_sig_of {L N s : Nat} {ε : ℚ} (hs : 1 ≤ s) (hs' : s ≤ 15) (hL : L + s ≤ 303) (hN : 3 * (L + s) + 10 ≤ N)
    (S : Setting binary64 (1 / 2 ^ 53) (1 / 2 ^ 1022) (2 ^ 1023) ε L N s) :
    SigSetting binary64 (1 / 2 ^ 53) (1 / 2 ^ 1022) (2 ^ 1023) ε L N s where
  sane := binary64_sane
  close := binary64_close
  digits := binary64_digits
  thr := by interval_cases s <;> decide +kernel
  lo_le := by
    have : (10 : ℚ) ^ (L + s + 3) ≤ 10 ^ 306 := pow_le_pow_right₀ (by norm_num) (by omega)
    calc (1 : ℚ) / 2 ^ 1022 ≤ 1 / 10 ^ 306 := by norm_num
      _ ≤ _ := one_div_le_one_div_of_le (by positivity) this
  le_hi := by
    have : (10 : ℚ) ^ (L + s + 3) ≤ 10 ^ 306 := pow_le_pow_right₀ (by norm_num) (by omega)
    exact le_trans this (by norm_num)
  hN := hN
  elo := S.elo
  ehi := S.ehi
  eps0 := S.eps0
  eps := S.eps
  hs := hs
  hs' := hs'

/-- C72 for ten digits, 10^-286 to 10^286, and for eleven digits, 10^-15 to 10^15. -/
theorem C72_more_digits_partial (q : ℚ) (hrep : binary64.rnd q = some q) :
    (1 / 10 ^ 286 ≤ q → q ≤ 10 ^ 286 →
      ∃ r, roundToSigDigs binary64 297 (.fin q) 10 = some (.fin r) ∧ ∃ (M : Nat) (k : Int), 10 ^ 9 ≤ M ∧ M ≤ 10 ^ 10 ∧
        |r - M * 10 ^ k| ≤ 1 / 10 ^ 13 * (M * 10 ^ k) ∧ |(M : ℚ) * 10 ^ k - q| ≤ 502 / 1000 * 10 ^ k) ∧
    (1 / 10 ^ 15 ≤ q → q ≤ 10 ^ 15 →
      ∃ r, roundToSigDigs binary64 27 (.fin q) 11 = some (.fin r) ∧ ∃ (M : Nat) (k : Int), 10 ^ 10 ≤ M ∧ M ≤ 10 ^ 11 ∧
        |r - M * 10 ^ k| ≤ 1 / 10 ^ 14 * (M * 10 ^ k) ∧ |(M : ℚ) * 10 ^ k - q| ≤ 502 / 1000 * 10 ^ k) := by
  constructor
  · intro h1 h2
    have S := binary64_setting_of (L := 286) (N := 899) (d := 10) (ε := 1 / 10 ^ 13) (by omega) (by omega) (by norm_num)
      (by norm_num) (by norm_num) (by omega) (by omega) (by norm_num)
    obtain ⟨r, g1, M, k, g2, g3, g4, g5⟩ :=
      sig_spec (binary64_sig_of (by omega) (by omega) (by omega) (by omega) S) h1 h2 hrep 297 (by omega)
    exact ⟨r, g1, M, k, g2, g3, g4, g5.trans (by gcongr; norm_num)⟩
  · intro h1 h2
    have S := binary64_setting_of (L := 15) (N := 90) (d := 11) (ε := 1 / 10 ^ 14) (by omega) (by omega) (by norm_num)
      (by norm_num) (by norm_num) (by omega) (by omega) (by norm_num)
    obtain ⟨r, g1, M, k, g2, g3, g4, g5⟩ :=
      sig_spec (binary64_sig_of (by omega) (by omega) (by omega) (by omega) S) h1 h2 hrep 27 (by omega)
    exact ⟨r, g1, M, k, g2, g3, g4, g5.trans (by gcongr; norm_num)⟩

/-- Doubles: 1/3 and 2^40. -/
example : binary64.rnd (6004799503160661 / 2 ^ 54) = some (6004799503160661 / 2 ^ 54) ∧ binary64.rnd (2 ^ 40) = some (2 ^ 40) := by
  decide +kernel

end SoDa
