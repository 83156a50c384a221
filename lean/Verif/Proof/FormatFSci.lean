import Mathlib.Data.List.TakeWhile
import Verif.Proof.FormatFAcc
import Verif.Proof.Binary64
import Verif.Spec.FormatF
import Verif.Props.Format
/-!
Scientific and default float notation: digits, exponent, removal of trailing zeros.
-/
namespace SoDa
open Spec

theorem rhe_eq_of_near {y : ℚ} {n : Nat} (hy : 0 ≤ y) (h1 : (n : ℚ) - 1 / 2 < y) (h2 : y < n + 1 / 2) :
    roundHalfEven y = n := by
  have he := rhe_err hy
  rw [abs_le] at he
  have h3 : (roundHalfEven y : ℚ) < n + 1 := by linarith
  have h4 : (n : ℚ) - 1 < roundHalfEven y := by linarith
  have h3' : roundHalfEven y < n + 1 := by exact_mod_cast h3
  have h4' : n < roundHalfEven y + 1 := by
    have : (n : ℚ) < roundHalfEven y + 1 := by linarith
    exact_mod_cast this
  omega

theorem log_bounds {q : ℚ} (hq : 0 < q) : (10 : ℚ) ^ Int.log 10 q ≤ q ∧ q < (10 : ℚ) ^ (Int.log 10 q + 1) := by
  have h1 := Int.zpow_log_le_self (b := 10) (by norm_num) hq
  have h2 := Int.lt_zpow_succ_log_self (b := 10) (by norm_num) q
  push_cast at h1 h2
  exact ⟨h1, h2⟩

theorem scaled {q : ℚ} (e : Int) (d : Nat) : q / 10 ^ e * 10 ^ d = q * (10 : ℚ) ^ ((d : Int) - e) := by
  rw [zpow_sub₀ (by norm_num), zpow_natCast]
  ring

/-- Mantissa and exponent of scientific notation: the mantissa has `d + 1` digits and is the rounded one. -/
theorem sciParts_spec {q : ℚ} (hq : 0 < q) (d : Nat) :
    10 ^ d ≤ (sciParts q d).1 ∧ (sciParts q d).1 < 10 ^ (d + 1) ∧
    (sciParts q d).1 = roundHalfEven (q / 10 ^ (sciParts q d).2 * 10 ^ d) := by
  obtain ⟨hl1, hl2⟩ := log_bounds hq
  have hp : (0 : ℚ) < 10 ^ Int.log 10 q := by positivity
  set e := Int.log 10 q with he
  set y : ℚ := q / 10 ^ e * 10 ^ d with hy
  have hy1 : (10 : ℚ) ^ d ≤ y := by
    have : 1 ≤ q / 10 ^ e := by rw [le_div_iff₀ hp]; linarith
    rw [hy]
    nlinarith [show (0 : ℚ) < 10 ^ d by positivity]
  have hy2 : y < (10 : ℚ) ^ (d + 1) := by
    have : q / 10 ^ e < 10 := by
      rw [div_lt_iff₀ hp]
      rw [zpow_add₀ (by norm_num), zpow_one] at hl2
      linarith
    rw [hy, pow_succ]
    nlinarith [show (0 : ℚ) < 10 ^ d by positivity]
  have hy0 : 0 ≤ y := le_trans (by positivity) hy1
  unfold sciParts
  rw [if_neg hq.ne']
  dsimp only
  rw [← he, ← hy]
  by_cases hc : roundHalfEven y < 10 ^ (d + 1)
  · rw [if_pos hc]
    exact ⟨le_rhe (by exact_mod_cast hy1), hc, rfl⟩
  · rw [if_neg hc]
    refine ⟨le_refl _, Nat.pow_lt_pow_right (by norm_num) (by omega), ?_⟩
    dsimp only
    have h3 : ((10 ^ (d + 1) : Nat) : ℚ) ≤ roundHalfEven y := by exact_mod_cast not_lt.1 hc
    have h4 := rhe_err hy0
    rw [abs_le] at h4
    push_cast at h3
    have h5 : q / 10 ^ (e + 1) * 10 ^ d = y / 10 := by
      rw [hy, zpow_add₀ (by norm_num), zpow_one]
      field_simp
    rw [h5]
    symm
    rw [pow_succ] at h3 hy2
    apply rhe_eq_of_near (by linarith)
    · push_cast; linarith
    · push_cast; linarith

/-- The printed number is within half a unit of its last place. -/
theorem sciParts_err {q : ℚ} (hq : 0 < q) (d : Nat) :
    |((sciParts q d).1 : ℚ) * 10 ^ ((sciParts q d).2 - d) - q| ≤ 10 ^ ((sciParts q d).2 - d) / 2 := by
  obtain ⟨_, _, h⟩ := sciParts_spec hq d
  set e := (sciParts q d).2
  set n := (sciParts q d).1
  have hu : (0 : ℚ) < 10 ^ (e - d) := by positivity
  have he := rhe_err (q := q / 10 ^ e * 10 ^ d) (by positivity)
  rw [← h, scaled] at he
  have e1 : (n : ℚ) * 10 ^ (e - d) - q = ((n : ℚ) - q * 10 ^ ((d : Int) - e)) * 10 ^ (e - d) := by
    rw [sub_mul, mul_assoc, ← zpow_add₀ (by norm_num), show (d : Int) - e + (e - d) = 0 by ring, zpow_zero, mul_one]
  rw [e1, abs_mul, abs_of_pos hu]
  have := mul_le_mul_of_nonneg_right he hu.le
  linarith

/-- The printed number is within half a unit of the last of `d + 1` digits of the value itself. -/
theorem sciParts_own {q : ℚ} (hq : 0 < q) (d : Nat) {k : Int} (hk : q < 10 ^ (k + 1)) :
    |((sciParts q d).1 : ℚ) * 10 ^ ((sciParts q d).2 - d) - q| ≤ 10 ^ (k - d) / 2 := by
  have hmono : (10 : ℚ) ^ (Int.log 10 q - d) ≤ 10 ^ (k - d) := by
    refine zpow_le_zpow_right₀ (by norm_num) ?_
    have h1 := (log_bounds hq).1
    have := (zpow_lt_zpow_iff_right₀ (by norm_num : (1 : ℚ) < 10)).mp (lt_of_le_of_lt h1 hk)
    omega
  refine le_trans ?_ (div_le_div_of_nonneg_right hmono (by norm_num))
  clear hmono hk
  obtain ⟨hl1, hl2⟩ := log_bounds hq
  have hy0 : 0 ≤ q / 10 ^ Int.log 10 q * 10 ^ d := by positivity
  have he := rhe_err hy0
  unfold sciParts
  rw [if_neg hq.ne']
  dsimp only
  generalize Int.log 10 q = e at *
  have hu : (0 : ℚ) < 10 ^ (e - d) := by positivity
  have hy : q = q / 10 ^ e * 10 ^ d * 10 ^ (e - d) := by
    rw [scaled, mul_assoc, ← zpow_add₀ (by norm_num), show (d : Int) - e + (e - d) = 0 by ring, zpow_zero, mul_one]
  have hy2 : q / 10 ^ e * 10 ^ d < (10 : ℚ) ^ (d + 1) := by
    have hp : (0 : ℚ) < 10 ^ e := by positivity
    have : q / 10 ^ e < 10 := by
      rw [div_lt_iff₀ hp]
      rw [zpow_add₀ (by norm_num), zpow_one] at hl2
      linarith
    rw [pow_succ]
    nlinarith [show (0 : ℚ) < 10 ^ d by positivity]
  generalize q / 10 ^ e * 10 ^ d = y at *
  rw [abs_le] at he ⊢
  by_cases hc : roundHalfEven y < 10 ^ (d + 1)
  · rw [if_pos hc]
    dsimp only
    rw [hy]
    constructor <;> nlinarith
  · rw [if_neg hc]
    dsimp only
    have h3 : ((10 ^ (d + 1) : Nat) : ℚ) ≤ roundHalfEven y := by exact_mod_cast not_lt.1 hc
    push_cast at h3 ⊢
    have h4 : (10 : ℚ) ^ d * 10 ^ (e + 1 - d) = 10 ^ (d + 1) * 10 ^ (e - d) := by
      rw [← zpow_natCast, ← zpow_natCast, ← zpow_add₀ (by norm_num), ← zpow_add₀ (by norm_num)]
      congr 1; push_cast; ring
    rw [h4, hy]
    have h5 : (10 : ℚ) ^ (d + 1) - y ≤ 1 / 2 := by linarith
    constructor <;> nlinarith

/-! ### Numerals -/

theorem numeral_zero_end (s : Str) (hs : s ≠ []) (k : Nat) :
    numeral 10 (s ++ List.replicate k '0') = (numeral 10 s).map (· * 10 ^ k) := by
  induction k with
  | zero => simp
  | succ k ih =>
    rw [List.replicate_succ', ← List.append_assoc]
    unfold numeral at ih ⊢
    rw [if_neg (by simp [hs])] at ih ⊢
    rw [if_neg hs] at ih ⊢
    rw [valueFrom_append, ih]
    have h0 : digitValue 10 '0' = some 0 := by decide
    cases valueFrom 10 0 s with
    | none => rfl
    | some v => simp [valueFrom, h0, pow_succ, mul_assoc]

/-- The digits without trailing zeros. -/
def rstrip (s : Str) : Str := (s.reverse.dropWhile (· == '0')).reverse

theorem rstrip_eq (s : Str) : ∃ k, s = rstrip s ++ List.replicate k '0' := by
  refine ⟨(s.reverse.takeWhile (· == '0')).length, ?_⟩
  have h := congrArg List.reverse (List.takeWhile_append_dropWhile (p := (· == '0')) (l := s.reverse))
  rw [List.reverse_append, List.reverse_reverse] at h
  conv_lhs => rw [← h]
  unfold rstrip
  congr 1
  rw [List.eq_replicate_iff]
  refine ⟨by simp, ?_⟩
  intro c hc
  have := List.all_eq_true.1 (List.all_takeWhile (p := (· == '0')) (l := s.reverse)) c (List.mem_reverse.1 hc)
  simpa using this

theorem rstrip_last (s : Str) : (rstrip s).getLast? ≠ some '0' := by
  unfold rstrip
  rw [List.getLast?_reverse]
  intro h
  have hne : s.reverse.dropWhile (· == '0') ≠ [] := by intro h'; rw [h'] at h; simp at h
  have h2 := List.head_dropWhile_not (p := (· == '0')) (l := s.reverse) hne
  rw [List.head?_eq_some_head hne] at h
  rw [Option.some.inj h] at h2
  simp at h2

theorem dropWhile_reverse_append (ip F : Str) :
    ((ip ++ '.' :: F).reverse.dropWhile (· == '0')).reverse = ip ++ '.' :: rstrip F := by
  have h : (ip ++ '.' :: F).reverse = F.reverse ++ ('.' :: ip.reverse) := by simp
  rw [h, List.dropWhile_append]
  unfold rstrip
  split
  · rename_i h0
    have h0' : F.reverse.dropWhile (· == '0') = [] := by simpa using h0
    rw [h0']
    simp [List.dropWhile]
  · simp

theorem rstrip_subset (s : Str) {c : Char} (h : c ∈ rstrip s) : c ∈ s := by
  obtain ⟨k, hk⟩ := rstrip_eq s
  rw [hk]
  exact List.mem_append_left _ h

theorem stripZeros_point (ip F : Str) (hF : '.' ∉ F) :
    stripZeros (ip ++ '.' :: F) = ip ++ (if rstrip F = [] then [] else '.' :: rstrip F) := by
  unfold stripZeros
  rw [if_pos (by simp)]
  dsimp only
  rw [dropWhile_reverse_append]
  by_cases h : rstrip F = []
  · rw [h]
    simp
  · rw [if_neg h]
    have : (ip ++ '.' :: rstrip F).getLast? ≠ some '.' := by
      intro hl
      have hm : '.' ∈ rstrip F := by
        rw [List.getLast?_append_of_ne_nil _ (by simp), List.getLast?_cons, Option.some.injEq,
          List.getLast?_eq_some_getLast h, Option.getD_some] at hl
        rw [← hl]
        exact List.getLast_mem h
      exact hF (rstrip_subset F hm)
    rw [if_neg this]

theorem point_notin_digits (n : Nat) : '.' ∉ Nat.toDigits 10 n := by
  intro h
  have := toDigits_isDigit n _ h
  simp at this

theorem point_notin_pad (w n : Nat) : '.' ∉ padLeft '0' w (Nat.toDigits 10 n) := by
  intro h
  rw [padLeft, List.mem_append] at h
  rcases h with h | h
  · have := List.eq_of_mem_replicate h
    revert this; decide
  · exact point_notin_digits _ h

theorem numeral_scaled (n d : Nat) (hd : d ≠ 0) :
    numeral 10 (Nat.toDigits 10 (n / 10 ^ d) ++ padLeft '0' d (Nat.toDigits 10 (n % 10 ^ d))) = some n := by
  have hlt : n % 10 ^ d < 10 ^ d := Nat.mod_lt _ (by positivity)
  have h2 : numeral 10 (padLeft '0' d (Nat.toDigits 10 (n % 10 ^ d))) = some (n % 10 ^ d) := by
    rw [padLeft, numeral_zeros _ (by omega) _ _ Nat.toDigits_ne_nil, numeral_toDigits _ (by omega) (by omega)]
  rw [numeral_append (numeral_toDigits 10 (by omega) (by omega) _) h2, length_padLeft_digits hlt (by omega)]
  rw [Nat.div_add_mod' n (10 ^ d)]

/-- A scaled number without its trailing fraction zeros. -/
theorem stripZeros_scaled (n d : Nat) :
    ∃ fp m, stripZeros (showScaled n d) = Nat.toDigits 10 (n / 10 ^ d) ++ (if fp = [] then [] else '.' :: fp) ∧
      fp.getLast? ≠ some '0' ∧ fp.length ≤ d ∧ numeral 10 (Nat.toDigits 10 (n / 10 ^ d) ++ fp) = some m ∧
      m * 10 ^ (d - fp.length) = n ∧ (n = 0 → fp = []) := by
  by_cases hd : d = 0
  · subst hd
    refine ⟨[], n, ?_, by simp, by simp, ?_, by simp, fun _ => rfl⟩
    · simp only [showScaled, stripZeros, if_true, pow_zero, Nat.div_one]
      rw [if_neg]
      · simp
      · rw [List.contains_iff_mem]
        exact point_notin_digits n
    · simpa using numeral_toDigits 10 (by omega) (by omega) n
  · have hlt : n % 10 ^ d < 10 ^ d := Nat.mod_lt _ (by positivity)
    set F := padLeft '0' d (Nat.toDigits 10 (n % 10 ^ d)) with hF
    have hlen : F.length = d := length_padLeft_digits hlt (by omega)
    obtain ⟨k, hk⟩ := rstrip_eq F
    have hnum := numeral_scaled n d hd
    rw [← hF, hk, ← List.append_assoc, numeral_zero_end _ (by simp [Nat.toDigits_ne_nil])] at hnum
    obtain ⟨m, hm, hmn⟩ := Option.map_eq_some_iff.1 hnum
    have hl2 : (rstrip F).length + k = d := by
      have := congrArg List.length hk
      rw [List.length_append, List.length_replicate] at this
      omega
    refine ⟨rstrip F, m, ?_, rstrip_last F, by omega, hm, ?_, ?_⟩
    · simp only [showScaled, if_neg hd]
      rw [← hF]
      exact stripZeros_point _ _ (point_notin_pad _ _)
    · rw [show d - (rstrip F).length = k by omega]
      exact hmn
    · intro h0
      unfold rstrip
      rw [List.reverse_eq_nil_iff, List.dropWhile_eq_nil_iff]
      intro c hc
      rw [List.mem_reverse, hF, h0, padLeft] at hc
      simp at hc
      rcases hc with hc | hc
      · simp [hc.2]
      · simp [hc]

theorem showExp_text (e : Int) : ExpText e (showExp e) := by
  have hl : (padLeft '0' 2 (Nat.toDigits 10 e.natAbs)).length = max 2 (Nat.toDigits 10 e.natAbs).length := by
    simp [padLeft]; omega
  refine ⟨_, rfl, ?_, ?_, ?_⟩
  · rw [padLeft, numeral_zeros _ (by omega) _ _ Nat.toDigits_ne_nil, numeral_toDigits _ (by omega) (by omega)]
  · rw [hl]; omega
  · by_cases h : (Nat.toDigits 10 e.natAbs).length ≤ 2
    · left; rw [hl]; omega
    · right
      have : padLeft '0' 2 (Nat.toDigits 10 e.natAbs) = Nat.toDigits 10 e.natAbs := by
        simp [padLeft]; omega
      rw [this]
      rcases toDigits_noLeadingZero e.natAbs with h' | h'
      · rw [h'] at h; simp at h
      · exact h'.2

theorem toDigits_single {n d : Nat} (h1 : 10 ^ d ≤ n) (h2 : n < 10 ^ (d + 1)) :
    ∃ c, Nat.toDigits 10 (n / 10 ^ d) = [c] ∧ c ≠ '0' ∧ c.isDigit := by
  have h3 : n / 10 ^ d < 10 := by
    rw [Nat.div_lt_iff_lt_mul (by positivity)]
    rw [pow_succ] at h2
    linarith
  have h4 : 0 < n / 10 ^ d := Nat.div_pos h1 (by positivity)
  generalize n / 10 ^ d = k at *
  interval_cases k <;> exact ⟨_, rfl, by decide, by decide⟩

end SoDa
