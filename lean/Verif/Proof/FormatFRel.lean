import Verif.Proof.FormatFAcc
import Verif.Proof.FormatFSci
import Verif.Proof.OptionsNum
/-!
Relative accuracy of the number formats, and how the texts are read by `>>`.
-/
namespace SoDa
open Spec

/-! ### A bit better than half a unit -/

/-- Half a unit of the last of `p` digits, relative to the number: just above a power of ten the number printed is that
power, so the relative error stays away from its bound. -/
theorem rel_of_half_unit {P Q ε : ℚ} {κ : Int} {p : Nat} (hp : 1 ≤ p) (he : ε ≤ 1 / (4 * 10 ^ (2 * p)))
    (hκ : 10 ^ κ ≤ Q) (herr : |P - Q| ≤ 5 * 10 ^ κ / 10 ^ p + 10 * ε * Q)
    (hm : Q < 10 ^ κ * (1 + 2 / 10 ^ p) → ∃ m : Int, P = m * (10 : ℚ) ^ (κ + 1 - p)) :
    |P - Q| ≤ 5 / 10 ^ p * (1 - 1 / 10 ^ p) * Q := by
  set T : ℚ := 10 ^ κ with hT
  have hT0 : 0 < T := by positivity
  have hpe : (1 : ℚ) / (4 * 10 ^ (2 * p)) = (1 / 10 ^ p) * (1 / 10 ^ p) / 4 := by
    rw [two_mul, pow_add]; field_simp
  have hunit : (10 : ℚ) ^ (κ + 1 - p) = 10 * T * (1 / 10 ^ p) := by
    rw [zpow_sub₀ (by norm_num), zpow_add₀ (by norm_num), zpow_natCast, hT]; ring
  have hgrid : ∃ m0 : Int, T = m0 * (10 : ℚ) ^ (κ + 1 - p) := by
    refine ⟨10 ^ (p - 1), ?_⟩
    push_cast
    rw [hT, ← zpow_natCast, ← zpow_add₀ (by norm_num)]
    congr 1; omega
  have hE1 : (1 : ℚ) / 10 ^ p ≤ 1 / 10 := by
    refine one_div_le_one_div_of_le (by norm_num) ?_
    calc (10 : ℚ) = 10 ^ 1 := by norm_num
      _ ≤ 10 ^ p := pow_le_pow_right₀ (by norm_num) hp
  have hE0 : (0 : ℚ) < 1 / 10 ^ p := by positivity
  rw [hpe] at he
  rw [show (5 : ℚ) / 10 ^ p = 5 * (1 / 10 ^ p) by ring]
  rw [show 5 * T / 10 ^ p = 5 * T * (1 / 10 ^ p) by ring] at herr
  rw [show (2 : ℚ) / 10 ^ p = 2 * (1 / 10 ^ p) by ring] at hm
  rw [hunit] at hm hgrid
  generalize (1 : ℚ) / 10 ^ p = E at *
  have hTE : 0 < T * E := mul_pos hT0 hE0
  by_cases hc : Q < T * (1 + 2 * E)
  · obtain ⟨m, hm⟩ := hm hc
    obtain ⟨m0, hm0⟩ := hgrid
    rw [abs_le] at herr
    have hεQ : 10 * ε * Q ≤ T * E := by
      have h1 : ε * Q ≤ E * E / 4 * (T * (1 + 2 * E)) := mul_le_mul he hc.le (by linarith) (by positivity)
      have h2 : E * E / 4 * (T * (1 + 2 * E)) ≤ T * E * (1 / 30) := by
        have : E / 4 * (1 + 2 * E) ≤ 1 / 30 := by nlinarith
        have := mul_le_mul_of_nonneg_left this hTE.le
        linarith
      linarith
    have hg : 0 < 10 * T * E := by positivity
    have hmm : m = m0 := by
      have h1 : (m : ℚ) - m0 < 1 := by
        by_contra hcon
        have : (10 * T * E) * 1 ≤ (10 * T * E) * ((m : ℚ) - m0) := mul_le_mul_of_nonneg_left (by linarith) hg.le
        linarith
      have h2 : (-1 : ℚ) < (m : ℚ) - m0 := by
        by_contra hcon
        have : (10 * T * E) * ((m : ℚ) - m0) ≤ (10 * T * E) * (-1) := mul_le_mul_of_nonneg_left (by linarith) hg.le
        linarith
      have h3 : m - m0 < 1 := by exact_mod_cast h1
      have h4 : -1 < m - m0 := by exact_mod_cast h2
      omega
    have hP : P = T := by rw [hm, hmm, ← hm0]
    rw [hP, abs_sub_comm, abs_of_nonneg (by linarith)]
    have h5 : Q - T ≤ 2 * (T * E) := by linarith
    refine h5.trans ?_
    have h6 : 5 * E * (1 - E) * T ≤ 5 * E * (1 - E) * Q :=
      mul_le_mul_of_nonneg_left hκ (mul_nonneg (by positivity) (by linarith))
    refine le_trans ?_ h6
    nlinarith
  · have hc := not_lt.1 hc
    refine herr.trans ?_
    have hQ0 : 0 < Q := lt_of_lt_of_le hT0 hκ
    -- coefficient of Q
    have h1 : T * (1 + 2 * E) * (5 * E * (1 - E) - 10 * (E * E / 4)) ≤ Q * (5 * E * (1 - E) - 10 * (E * E / 4)) :=
      mul_le_mul_of_nonneg_right hc (by nlinarith)
    have h2 : ε * Q ≤ E * E / 4 * Q := mul_le_mul_of_nonneg_right he hQ0.le
    have h3 : 5 * T * E ≤ T * (1 + 2 * E) * (5 * E * (1 - E) - 10 * (E * E / 4)) := by
      have : (1 : ℚ) ≤ (1 + 2 * E) * (1 - E - E / 2) := by nlinarith
      have := mul_le_mul_of_nonneg_left this hTE.le
      nlinarith
    linarith

theorem decade_rel {Q x P ε u : ℚ} {K : Int} {w d : Nat} (Dc : Decade Q x P ε u K w d)
    (he : ε ≤ 1 / (4 * 10 ^ (2 * d))) (hQ : 0 < Q) :
    |P - Q| ≤ 5 / 10 ^ d * (1 - 1 / 10 ^ d) * Q := by
  obtain ⟨h1, h2⟩ := log_bounds hQ
  refine rel_of_half_unit Dc.hd he h1 (decade_core Dc h2) ?_
  generalize Int.log 10 Q = κ at *
  intro hlt
  obtain ⟨m, hm⟩ := Dc.hm
  have hE1 : (1 : ℚ) / 10 ^ d ≤ 1 / 10 := by
    refine one_div_le_one_div_of_le (by norm_num) ?_
    calc (10 : ℚ) = 10 ^ 1 := by norm_num
      _ ≤ 10 ^ d := pow_le_pow_right₀ (by norm_num) Dc.hd
  have hE0 : (0 : ℚ) < 1 / 10 ^ d := by positivity
  have hed := Dc.hed
  have hpe : (1 : ℚ) / 10 ^ (d + 3) = 1 / 10 ^ d / 1000 := by rw [pow_add]; field_simp; norm_num
  rw [hpe] at hed
  have he0 := Dc.he0
  have hκ0 : (0 : ℚ) < 10 ^ κ := by positivity
  -- `K` is `κ` or one less
  have hK : (10 : ℚ) ^ κ / 10 ≤ 10 ^ K * (1 + ε * 2) := by
    have := Dc.hQ2
    have h3 : (10 : ℚ) ^ κ * (1 - ε) ≤ Q * (1 - ε) := mul_le_mul_of_nonneg_right h1 (by linarith)
    have h4 : (10 : ℚ) ^ κ * (1 - ε) * (1 + ε * 2) ≤ 10 * 10 ^ K * (1 + ε * 2) :=
      mul_le_mul_of_nonneg_right (h3.trans this) (by linarith)
    have h5 : (1 : ℚ) ≤ (1 - ε) * (1 + ε * 2) := by nlinarith
    have h6 := mul_le_mul_of_nonneg_left h5 hκ0.le
    linarith
  have hxl := Dc.hx
  rw [show 5 * (10 : ℚ) ^ K / 10 ^ d = 5 * 10 ^ K * (1 / 10 ^ d) by ring] at hxl
  have hx : (10 : ℚ) ^ κ < 10 ^ w := by
    refine lt_of_lt_of_le ?_ Dc.hw
    have h3 : (Q + 5 * 10 ^ K * (1 / 10 ^ d)) * (1 - ε) * (1 - ε) ≤ x * (1 - ε) :=
      mul_le_mul_of_nonneg_right hxl (by linarith)
    refine lt_of_lt_of_le ?_ h3
    generalize (1 : ℚ) / 10 ^ d = E at *
    have h4 : (10 : ℚ) ^ κ * (9 / 100) ≤ 10 ^ K := by
      have : (10 : ℚ) ^ K * (1 + ε * 2) ≤ 10 ^ K * (100 / 99) :=
        mul_le_mul_of_nonneg_left (by linarith) (by positivity)
      linarith
    have h5 : (10 : ℚ) ^ κ * (1 + 45 / 100 * E) ≤ Q + 5 * 10 ^ K * E := by
      have := mul_le_mul_of_nonneg_right h4 hE0.le
      linarith
    have h6 : (1 : ℚ) < (1 + 45 / 100 * E) * (1 - ε) * (1 - ε) := by
      have h8 : 1 - E * (2 / 1000) ≤ (1 - ε) * (1 - ε) := by nlinarith
      have h9 : (1 + 45 / 100 * E) * (1 - E * (2 / 1000)) ≤ (1 + 45 / 100 * E) * ((1 - ε) * (1 - ε)) :=
        mul_le_mul_of_nonneg_left h8 (by linarith)
      nlinarith
    have h7 : (10 : ℚ) ^ κ * (1 + 45 / 100 * E) * ((1 - ε) * (1 - ε)) ≤
        (Q + 5 * 10 ^ K * E) * ((1 - ε) * (1 - ε)) :=
      mul_le_mul_of_nonneg_right h5 (mul_nonneg (by linarith) (by linarith))
    have := mul_lt_mul_of_pos_left h6 hκ0
    linarith
  have hw : κ < (w : Int) := by
    rw [← zpow_natCast] at hx
    exact (zpow_lt_zpow_iff_right₀ (by norm_num)).mp hx
  obtain ⟨j, hj⟩ : ∃ j : Nat, (w : Int) = κ + 1 + j := ⟨((w : Int) - κ - 1).toNat, by omega⟩
  refine ⟨m * 10 ^ j, ?_⟩
  rw [hm, hj]
  push_cast
  rw [mul_assoc, ← zpow_natCast (10 : ℚ) j, ← zpow_add₀ (by norm_num)]
  congr 2
  ring

/-! ### Reading -/

theorem head_dropWhile_not_digit (s : Str) (c : Char) (h : (s.dropWhile Char.isDigit).head? = some c) :
    ¬ ('0' ≤ c ∧ c ≤ '9') := Opts.head_dropWhile_digit s c h

/-- What the engineering reader accepts, `>>` reads as the same number. -/
theorem begins_of_readEng {t : Str} {n : Eng} {v : ℚ} (h : readEng t = some n) (hv : n.value = some v) :
    BeginsWithReal t n.neg v := by
  have hexp : ∀ (r : Str) (e : Int), readExp r = some e →
      ∃ ex rest, r = ex ++ rest ∧ Exponent ex e ∧ ∀ c, rest.head? = some c → ¬ ('0' ≤ c ∧ c ≤ '9') := by
    intro r e he
    unfold readExp at he
    split at he
    · rename_i sg rest
      dsimp only at he
      split at he
      · rename_i hc
        simp only [Option.map_eq_some_iff] at he
        obtain ⟨k', hk, rfl⟩ := he
        obtain ⟨k, hk', rfl⟩ : ∃ k : Nat, numeral 10 (rest.takeWhile Char.isDigit) = some k ∧ k' = k := by
          cases hn : numeral 10 (rest.takeWhile Char.isDigit) with
          | none => rw [hn] at hk; simp at hk
          | some k => rw [hn] at hk; exact ⟨k, rfl, (Option.some.inj hk).symm⟩
        refine ⟨'e' :: sg :: rest.takeWhile Char.isDigit, rest.dropWhile Char.isDigit, ?_, ?_,
          head_dropWhile_not_digit rest⟩
        · simp [List.takeWhile_append_dropWhile]
        · refine ⟨'e', [sg], _, k, rfl, .inl rfl, ?_, hk', ?_⟩
          · rcases hc.1 with h | h <;> simp [h]
          · simp
      · simp at he
    · simp at he
  unfold readEng at h
  split at h
  · rename_i sg rest
    dsimp only at h
    split at h
    · rename_i hc
      have hsplit : rest = rest.takeWhile Char.isDigit ++ rest.dropWhile Char.isDigit :=
        List.takeWhile_append_dropWhile.symm
      have hsg : ∃ ws sg', [sg] = ws ++ sg' ∧ (∀ c ∈ ws, White c) ∧ (sg' = [] ∨ sg' = ['+'] ∨ sg' = ['-']) ∧
          decide (sg = '-') = decide (sg' = ['-']) := by
        rcases hc.1 with rfl | rfl
        · exact ⟨[' '], [], rfl, by simp [White], .inl rfl, by decide⟩
        · exact ⟨[], ['-'], rfl, by simp, .inr (.inr rfl), by decide⟩
      obtain ⟨ws, sg', e1, e2, e3, e4⟩ := hsg
      split at h
      · rename_i r2 hr1
        split at h
        · simp at h
        · rename_i hfp
          simp only [Option.map_eq_some_iff] at h
          obtain ⟨e, he, rfl⟩ := h
          obtain ⟨ex, tl, g1, g2, g3⟩ := hexp _ _ he
          simp only [Eng.value, Option.map_eq_some_iff] at hv
          obtain ⟨m, hm, rfl⟩ := hv
          refine ⟨ws, sg', rest.takeWhile Char.isDigit, '.' :: r2.takeWhile Char.isDigit, ex, tl,
            r2.takeWhile Char.isDigit, m, e, ?_, e2, e3, e4, .inr rfl, hm, .inl g2, g3, rfl⟩
          rw [← e1]
          conv_lhs => rw [hsplit, hr1, ← List.takeWhile_append_dropWhile (p := Char.isDigit) (l := r2), g1]
          simp
      · simp only [Option.map_eq_some_iff] at h
        obtain ⟨e, he, rfl⟩ := h
        obtain ⟨ex, tl, g1, g2, g3⟩ := hexp _ _ he
        simp only [Eng.value, Option.map_eq_some_iff] at hv
        obtain ⟨m, hm, rfl⟩ := hv
        refine ⟨ws, sg', rest.takeWhile Char.isDigit, [], ex, tl, [], m, e, ?_, e2, e3, e4, .inl ⟨rfl, rfl⟩, hm,
          .inl g2, g3, rfl⟩
        rw [← e1]
        conv_lhs => rw [hsplit, g1]
        simp
    · simp at h
  · simp at h

/-! ### No digits asked for -/

theorem natAbs_sign (e : Int) : ∃ n : Nat, e = (if e < 0 then -(n : Int) else n) ∧
    (if e < 0 then '-' :: padRight ' ' 2 (showInt (-e)) else '+' :: padRight ' ' 2 (showInt e)) =
      (if e < 0 then '-' else '+') :: padRight ' ' 2 (Nat.toDigits 10 n) := by
  by_cases hneg : e < 0
  · obtain ⟨n, hn⟩ := Int.eq_ofNat_of_zero_le (show 0 ≤ -e by omega)
    refine ⟨n, by rw [if_pos hneg]; omega, ?_⟩
    rw [if_pos hneg, if_pos hneg, hn, showInt_ofNat]
  · obtain ⟨n, hn⟩ := Int.eq_ofNat_of_zero_le (show 0 ≤ e by omega)
    refine ⟨n, by rw [if_neg hneg]; omega, ?_⟩
    rw [if_neg hneg, if_neg hneg, hn, showInt_ofNat]

section
variable {A : Arith} {u lo hi ε : ℚ} {L N d : Nat} (S : Setting A u lo hi ε L N d)
include S

/-- Engineering notation with no digits prints a zero, or, for numbers that are 5 times a power of ten up to rounding,
twice the number. -/
theorem eng_no_digits {q : ℚ} (hq1 : 1 / 10 ^ L ≤ q) (hq2 : q ≤ 10 ^ L) {fuel : Nat} {radix : Char}
    {neg : Bool} {width : Nat} {t : Str} (h : textF A fuel radix (.fin neg q) 'e' width 0 = some (.ok t)) :
    ∃ (m w n j : Nat) (e : Int), (3 : Int) ∣ e ∧ e = (if e < 0 then -(n : Int) else n) ∧
      t = (if neg then '-' else ' ') :: (padRight ' ' w (Nat.toDigits 10 m) ++
        'e' :: (if e < 0 then '-' else '+') :: (Nat.toDigits 10 n ++ List.replicate j ' ')) ∧ w ≤ 3 ∧
      (m = 0 ∧ 1 ≤ w ∨ m = 10 ^ w ∧ |(10 : ℚ) ^ w * 10 ^ e - 2 * q| ≤ 30 * ε * q) := by
  have hq0 : 0 < q := lt_of_lt_of_le (by positivity) hq1
  have h := textF_mono (L + 4) h
  simp only [textF, show ('e' : Char) ≠ 'f' by decide, show ('e' : Char) ≠ 's' by decide,
    show ('e' : Char) ≠ 'g' by decide, if_false, if_true, hq0.ne', Option.bind_eq_some_iff,
    Option.map_eq_some_iff] at h
  obtain ⟨⟨mg, e⟩, hl, rr, hf, h⟩ := h
  obtain ⟨x, rfl, hx1, hx2⟩ := log1k_range S.sane hl
  obtain ⟨x', e', k, a, hl', na, ha1, ha2, nx⟩ := log1k_spec S hq1 hq2 (fuel + (L + 4)) (by omega) (Nat.zero_le d)
  rw [hl] at hl'
  obtain ⟨rfl, rfl⟩ : x = x' ∧ e = e' := by simpa using hl'
  obtain ⟨w, hw, hxw⟩ := getIntPartWidth_run S hx1 hx2 (fuel + (L + 4)) (by omega)
  obtain ⟨g1, g2, g3⟩ := getIntPartWidth_spec S.sane hx2 hw
  have hf1 : 1 ≤ ⌊x⌋ := Int.le_floor.mpr (by exact_mod_cast hx1)
  have hf2 : ⌊x⌋ ≤ 1000 := by
    have : ((⌊x⌋ : Int) : ℚ) ≤ 1000 := (Int.floor_le x).trans hx2
    exact_mod_cast this
  dsimp only at hf
  rw [fractionate, hw] at hf
  simp only [Option.map_some, Option.some.injEq] at hf
  rw [if_pos (by unfold intMax; omega), modvalLoop_eq _ (by omega), Nat.zero_sub, Nat.sub_zero,
    loopCount_small S (by norm_num)] at hf
  simp only [Res.bind_ok, fracLoop] at hf
  subst hf
  simp only [Res.bind_ok, Res.ok.injEq] at h
  have heps := S.eps_small
  have heps0 := S.eps0
  have hw10 : (10 : Int) ^ w ≤ 1000 := by
    have : (10 : Int) ^ w ≤ 10 ^ 3 := pow_le_pow_right₀ (by norm_num) g1
    linarith
  -- the width is enough
  have hfw : ⌊x⌋ ≤ 10 ^ w := by
    have h1 : x < 10 ^ w + 1 := by
      have h2 : (10 : ℚ) ^ w ≤ 1000 := by exact_mod_cast hw10
      nlinarith
    have h3 : ((⌊x⌋ : Int) : ℚ) < ((10 ^ w + 1 : Int) : ℚ) := by
      push_cast
      exact lt_of_le_of_lt (Int.floor_le x) h1
    have : ⌊x⌋ < 10 ^ w + 1 := by exact_mod_cast h3
    omega
  obtain ⟨n, hn, hs⟩ := natAbs_sign e
  have hcase : ∃ m : Nat, ⌊x⌋ - ⌊x⌋ % 10 ^ w = (m : Int) ∧
      (m = 0 ∧ 1 ≤ w ∨ m = 10 ^ w ∧ |(10 : ℚ) ^ w * 10 ^ e - 2 * q| ≤ 30 * ε * q) := by
    by_cases hlt : ⌊x⌋ < 10 ^ w
    · refine ⟨0, by rw [Int.emod_eq_of_lt (by omega) hlt]; simp, .inl ⟨rfl, ?_⟩⟩
      by_contra hc
      have : w = 0 := by omega
      subst this
      simp at hlt
      omega
    · have hfe : ⌊x⌋ = 10 ^ w := by omega
      refine ⟨10 ^ w, by rw [hfe]; simp, .inr ⟨rfl, ?_⟩⟩
      have hxl : (10 : ℚ) ^ w ≤ x := by
        have := Int.floor_le x
        rw [hfe] at this
        exact_mod_cast this
      have hN := S.hN
      have he0 : (0 : ℚ) < 10 ^ e := by positivity
      have hkp : (0 : ℚ) < 10 ^ k := by positivity
      have ba := S.near (by omega) (by positivity) na
      have bx := S.near (le_refl N) (by positivity) nx
      rw [pow_zero, div_one] at bx
      -- multiply by the powers of ten
      have a1 : 10 ^ k ≤ q * (1 + ε) := by
        have h2 := mul_le_mul_of_nonneg_right (ha1.trans ba.2) hkp.le
        have e1 : q / 10 ^ k * (1 + ε) * 10 ^ k = q * (1 + ε) := by field_simp
        linarith
      have a2 : q * (1 - ε) ≤ 10 * 10 ^ k := by
        have h2 := mul_le_mul_of_nonneg_right (ba.1.trans ha2) hkp.le
        have e1 : q / 10 ^ k * (1 - ε) * 10 ^ k = q * (1 - ε) := by field_simp
        linarith
      have b1 : (q + 5 * 10 ^ k) * (1 - ε) ≤ x * 10 ^ e := by
        have h2 := mul_le_mul_of_nonneg_right bx.1 he0.le
        have e1 : (q + 5 * 10 ^ k) / 10 ^ e * (1 - ε) * 10 ^ e = (q + 5 * 10 ^ k) * (1 - ε) := by field_simp
        linarith
      have b2 : x * 10 ^ e ≤ (q + 5 * 10 ^ k) * (1 + ε) := by
        have h2 := mul_le_mul_of_nonneg_right bx.2 he0.le
        have e1 : (q + 5 * 10 ^ k) / 10 ^ e * (1 + ε) * 10 ^ e = (q + 5 * 10 ^ k) * (1 + ε) := by field_simp
        linarith
      have c1 : (10 : ℚ) ^ w * 10 ^ e ≤ x * 10 ^ e := mul_le_mul_of_nonneg_right hxl he0.le
      have c2 : x * 10 ^ e * (1 - ε) ≤ 10 ^ w * 10 ^ e := by
        have := mul_le_mul_of_nonneg_right hxw he0.le
        linarith
      have hpw : (10 : ℚ) ^ w * 10 ^ e = 10 ^ ((w : Int) + e) := by
        rw [zpow_add₀ (by norm_num), zpow_natCast]
      -- it is the next power of ten
      have hB : 10 ^ k * (9999 / 10000) ≤ q := by nlinarith
      have hB' : q ≤ 11 * 10 ^ k := by nlinarith
      have hX : x * 10 ^ e ≤ 17 * 10 ^ k := by nlinarith
      have hX' : 5 * 10 ^ k ≤ x * 10 ^ e := by nlinarith
      have hpow : (w : Int) + e = k + 1 := by
        have l1 : (10 : ℚ) ^ k < 10 ^ ((w : Int) + e) := by
          rw [← hpw]; nlinarith
        have l2 : (10 : ℚ) ^ ((w : Int) + e) < 10 ^ (k + 2) := by
          rw [← hpw, zpow_add₀ (by norm_num), show (10 : ℚ) ^ (2 : Int) = 100 by norm_num]; nlinarith
        have l1 := (zpow_lt_zpow_iff_right₀ (by norm_num : (1 : ℚ) < 10)).mp l1
        have l2 := (zpow_lt_zpow_iff_right₀ (by norm_num : (1 : ℚ) < 10)).mp l2
        omega
      have hval : (10 : ℚ) ^ w * 10 ^ e = 10 * 10 ^ k := by
        rw [hpw, hpow, zpow_add₀ (by norm_num)]; ring
      rw [hval] at c1 c2 ⊢
      generalize (10 : ℚ) ^ k = T at *
      have d1 : 10 * T ≤ (q + 5 * T) * (1 + ε) := c1.trans b2
      have d2 : (q + 5 * T) * (1 - ε) * (1 - ε) ≤ 10 * T :=
        le_trans (mul_le_mul_of_nonneg_right b1 (by linarith)) c2
      have hεT : ε * T ≤ ε * q * (10001 / 10000) := by
        have : T ≤ q * (10001 / 10000) := by nlinarith
        have := mul_le_mul_of_nonneg_left this heps0
        linarith
      have hεq : 0 ≤ ε * q := mul_nonneg heps0 hq0.le
      rw [abs_le]
      constructor
      · have : (q + 5 * T) * (1 - 2 * ε) ≤ (q + 5 * T) * (1 - ε) * (1 - ε) := by
          have : 0 ≤ (q + 5 * T) * (ε * ε) := by positivity
          linarith
        linarith
      · linarith
  obtain ⟨m, hm, hc⟩ := hcase
  refine ⟨m, w, n, (2 - (Nat.toDigits 10 n).length) +
    (toI32 (((if width = 0 then (0 + 4) % u32 else width : Nat) : Int) - (w + (0 : Nat) + 4))).toNat, e, log1k_three hl, hn,
    ?_, g1, hc⟩
  rw [← h]
  unfold engText
  dsimp only
  rw [hm, hs, showInt_ofNat]
  simp [padRight]

/-- What `>>` reads from it. -/
theorem eng_no_digits_begins {q : ℚ} (hq1 : 1 / 10 ^ L ≤ q) (hq2 : q ≤ 10 ^ L) {fuel : Nat} {radix : Char}
    {neg : Bool} {width : Nat} {t : Str} (h : textF A fuel radix (.fin neg q) 'e' width 0 = some (.ok t)) :
    ∃ v, BeginsWithReal t neg v ∧ (v = 0 ∨ |v - 2 * q| ≤ 30 * ε * q) := by
  obtain ⟨m, w, n, j, e, _, he, rfl, hw3, hc⟩ := eng_no_digits S hq1 hq2 h
  have hsg : ∃ ws sg' : Str, [if neg then '-' else ' '] = ws ++ sg' ∧ (∀ c ∈ ws, White c) ∧
      (sg' = [] ∨ sg' = ['+'] ∨ sg' = ['-']) ∧ neg = decide (sg' = ['-']) := by
    cases neg
    · exact ⟨[' '], [], rfl, by simp [White], .inl rfl, by decide⟩
    · exact ⟨[], ['-'], rfl, by simp, .inr (.inr rfl), by decide⟩
  obtain ⟨ws, sg', e1, e2, e3, e4⟩ := hsg
  have hex : Exponent ('e' :: (if e < 0 then '-' else '+') :: Nat.toDigits 10 n) e := by
    refine ⟨'e', [if e < 0 then '-' else '+'], Nat.toDigits 10 n, n, rfl, .inl rfl, ?_,
      numeral_toDigits 10 (by omega) (by omega) n, ?_⟩
    · split <;> simp
    · by_cases h0 : e < 0
      · rw [if_pos h0] at he ⊢; rw [if_pos rfl]; exact he
      · rw [if_neg h0] at he ⊢; rw [if_neg (by decide)]; exact he
  have hj : ∀ c, (List.replicate j ' ').head? = some c → ¬ ('0' ≤ c ∧ c ≤ '9') := by
    intro c hc
    cases j <;> simp [List.replicate_succ] at hc
    subst hc; decide
  have hlong : ∀ m : Nat, padRight ' ' w (Nat.toDigits 10 m) = Nat.toDigits 10 m →
      BeginsWithReal ((if neg then '-' else ' ') :: (padRight ' ' w (Nat.toDigits 10 m) ++
        'e' :: (if e < 0 then '-' else '+') :: (Nat.toDigits 10 n ++ List.replicate j ' '))) neg (m * 10 ^ e) := by
    intro m hm
    refine ⟨ws, sg', Nat.toDigits 10 m, [], 'e' :: (if e < 0 then '-' else '+') :: Nat.toDigits 10 n,
      List.replicate j ' ', [], m, e, ?_, e2, e3, e4, .inl ⟨rfl, rfl⟩, ?_, .inl hex, hj, by simp⟩
    · rw [← e1, hm]; simp
    · simpa using numeral_toDigits 10 (by omega) (by omega) m
  rcases hc with ⟨rfl, hw1⟩ | ⟨rfl, hb⟩
  · refine ⟨0, ?_, .inl rfl⟩
    by_cases hw : w ≤ 1
    · have := hlong 0 (padRight_enough (by simpa using hw))
      simpa using this
    · obtain ⟨k, rfl⟩ : ∃ k, w = k + 2 := ⟨w - 2, by omega⟩
      refine ⟨ws, sg', ['0'], [], [], List.replicate (k + 1) ' ' ++
        'e' :: (if e < 0 then '-' else '+') :: (Nat.toDigits 10 n ++ List.replicate j ' '), [], 0, 0, ?_, e2, e3, e4,
        .inl ⟨rfl, rfl⟩, by decide, .inr ⟨rfl, rfl, ?_⟩, ?_, by simp⟩
      · rw [← e1]; simp [padRight]
      · simp [List.replicate_succ]
      · intro c hc; simp [List.replicate_succ] at hc; subst hc; decide
  · refine ⟨((10 ^ w : Nat) : ℚ) * 10 ^ e, hlong (10 ^ w) (padRight_enough ?_), .inr ?_⟩
    · by_contra hcon
      have h1 : (Nat.toDigits 10 (10 ^ w)).length ≤ w := by omega
      have h0 : 0 < w := by omega
      rw [Nat.length_toDigits_le_iff (by omega) h0] at h1
      omega
    · push_cast; exact hb

end

end SoDa
