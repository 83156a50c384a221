import Verif.Props.FormatFWidth
/-!
C101 for any number of digits, one and two included: exactly when the claim holds with exact arithmetic.
-/
namespace SoDa
open Spec

/-- The width found by `fractionate`, with exact arithmetic. -/
theorem fractionate_width {L N d : Nat} {u lo hi ε : ℚ} (S : Setting exactArith u lo hi ε L N d) {x : ℚ} (hx1 : 1 ≤ x)
    (hx2 : x ≤ 1000) {fuel : Nat} (hfuel : 4 ≤ fuel) {r : Fractioned}
    (hf : fractionate exactArith fuel (some x) d = some (.ok r)) (hε : ε = 0) : x ≤ 10 ^ r.intWid := by
  obtain ⟨wd, hwd, hxw⟩ := getIntPartWidth_run S hx1 hx2 fuel hfuel
  have hwr : wd = r.intWid := by
    simp only [fractionate, hwd, Option.map_some, Option.some.injEq] at hf
    split at hf
    · generalize modvalLoop (wd - d) 1 = mv at hf
      cases mv with
      | ub => simp at hf
      | throw e => exact e.elim
      | ok mv =>
        simp only [Res.bind_ok] at hf
        generalize fracLoop exactArith (loopCount (d - wd)) (Int.fract x) 0 = fl at hf
        cases fl with
        | ub => simp at hf
        | throw e => exact e.elim
        | ok fl => simp only [Res.bind_ok, Res.ok.injEq] at hf; rw [← hf]
    · simp at hf
  subst hwr
  subst hε
  simpa using hxw

/-- Exactly when the claim holds with exact arithmetic: unless the value lies just in the middle between two texts of `d`
digits, the larger of them a power of ten; and the digits must suffice for the integer part of the rounded number. -/
theorem C101_all_exact (q : ℚ) (w d : Nat) (hd : 1 ≤ d) (hd10 : d ≤ 10) (k : Int) (hk : (10 : ℚ) ^ k ≤ q)
    (hk' : q < 10 ^ (k + 1)) :
    C101_claim exactArith q w d ↔ q + 10 ^ (k + 1 - d) / 2 ≠ (10 : ℚ) ^ (k + 1) ∧
      (if q + 10 ^ (k + 1 - d) / 2 < (10 : ℚ) ^ (k + 1) then k else k + 1) % 3 + 1 ≤ d := by
  have hq : 0 < q := lt_of_lt_of_le (by positivity) hk
  have hkp : (0 : ℚ) < 10 ^ k := by positivity
  have hk1 : (10 : ℚ) ^ (k + 1) = 10 * 10 ^ k := by rw [zpow_add_one₀ (by norm_num), mul_comm]
  have hk2 : (10 : ℚ) ^ (k + 1 + 1) = 10 * 10 ^ (k + 1) := by rw [zpow_add_one₀ (by norm_num) (k + 1), mul_comm]
  have hunit : ∀ m : Int, m ≤ k → (0 : ℚ) < 10 ^ m / 2 ∧ (10 : ℚ) ^ m / 2 < 9 * 10 ^ k := by
    intro m hm
    have h1 : (10 : ℚ) ^ m ≤ 10 ^ k := zpow_le_zpow_right₀ (by norm_num) hm
    have h2 : (0 : ℚ) < 10 ^ m := by positivity
    exact ⟨by linarith, by linarith⟩
  obtain ⟨u1, u2⟩ := hunit (k + 1 - d) (by omega)
  obtain ⟨u3, u4⟩ := hunit (k - d) (by omega)
  have hu : (10 : ℚ) ^ (k + 1 - d) ≤ 10 ^ k := zpow_le_zpow_right₀ (by norm_num) (by omega)
  generalize hs : q + 10 ^ (k + 1 - d) / 2 = s at *
  generalize hK : (if s < (10 : ℚ) ^ (k + 1) then k else k + 1) = K
  -- what is printed
  have print : ∀ fuel radix neg t, textF exactArith fuel radix (.fin neg q) 'e' w d = some (.ok t) →
      ∃ n, readEng t = some n ∧ (n.ip.length + n.fp.length = d ↔ s ≠ (10 : ℚ) ^ (k + 1) ∧ K % 3 + 1 ≤ d) := by
    intro fuel radix neg t ht
    obtain ⟨L, _, _, S⟩ := exact_setting q hq d (by omega) (by omega)
    obtain ⟨x, e, r, hl, hf, hx1, hx2, _, hr⟩ := textF_eng exactArith_sane hq.ne' (by omega) (textF_mono 4 ht)
    obtain ⟨d1, d2, d3⟩ := eng_digits S exactArith_digits hl hf hx1 hx2 (by omega)
    obtain ⟨p1, p2, p3, p4, p5, p6, p7, p8, p9⟩ := fractionate_spec exactArith_sane hx1 hx2 (by omega) hf
    have hxw := fractionate_width S hx1 hx2 (by omega) hf rfl
    have hep : (0 : ℚ) < 10 ^ e := by positivity
    have hsum := log1k_exact_sum (by omega) (by omega) hk hk' hl
    obtain ⟨e3, rfl⟩ := log1k_three hl
    have hfp : (if 0 < r.fracWid then padLeft '0' r.fracWid (Nat.toDigits 10 r.fracPart.toNat) else []).length =
        d - r.intWid := by
      split_ifs
      · rw [d2]; omega
      · simp; omega
    have hip0 : 0 ≤ r.intPart := le_trans (by positivity) p1
    refine ⟨_, hr, ?_⟩
    dsimp only
    rw [hfp]
    by_cases htie : s = (10 : ℚ) ^ (k + 1)
    · -- a power of ten
      refine iff_of_false ?_ (fun h => h.1 htie)
      have hse : x * 10 ^ (3 * e3) = 10 ^ (k + 1) := by
        rcases hsum with h | ⟨hqk, -⟩
        · rw [h, ← htie, ← hs]
        · exfalso; rw [htie, hk1, hqk] at hs; linarith
      have hx : x = 10 ^ (k + 1 - 3 * e3) := by
        rw [zpow_sub₀ (by norm_num)]; field_simp; linarith
      have h0 : 0 ≤ k + 1 - 3 * e3 := by
        have : (10 : ℚ) ^ (0 : Int) ≤ 10 ^ (k + 1 - 3 * e3) := by rw [← hx]; simpa using hx1
        rwa [zpow_le_zpow_iff_right₀ (by norm_num)] at this
      obtain ⟨j, hj⟩ : ∃ j : Nat, k + 1 - 3 * e3 = j := ⟨_, (Int.toNat_of_nonneg h0).symm⟩
      rw [hj, zpow_natCast] at hx
      have hjw : j = r.intWid := by
        have a1 : j ≤ r.intWid := by
          by_contra hc
          rw [hx] at hxw
          exact absurd hxw (not_le.2 (pow_lt_pow_right₀ (by norm_num) (by omega)))
        rcases Nat.eq_zero_or_pos r.intWid with h0 | h0
        · omega
        · have a2 := p9 h0
          by_contra hc
          rw [hx] at a2
          exact absurd a2 (not_lt.2 (pow_le_pow_right₀ (by norm_num) (by omega)))
      have hfl : ⌊x⌋ = ((10 ^ r.intWid : Nat) : Int) := by
        rw [hx, hjw, show (10 : ℚ) ^ r.intWid = ((10 ^ r.intWid : Nat) : ℚ) by push_cast; rfl, Int.floor_natCast]
      have hip : r.intPart.toNat = 10 ^ r.intWid := by
        have hm : ⌊x⌋ % 10 ^ (r.intWid - d) = 0 := by
          apply Int.emod_eq_zero_of_dvd
          rw [hfl]
          push_cast
          exact pow_dvd_pow _ (by omega)
        rw [p5, hm, hfl, sub_zero, Int.toNat_natCast]
      have hlen : r.intWid < (Nat.toDigits 10 r.intPart.toNat).length := by
        rw [hip]
        rcases Nat.eq_zero_or_pos r.intWid with h0 | h0
        · rw [h0]; decide
        · by_contra hc
          have := (Nat.length_toDigits_le_iff (b := 10) (n := 10 ^ r.intWid) (k := r.intWid) (by omega) (by omega)).1
            (by omega)
          omega
      omega
    · -- between two powers of ten
      have hb : (10 : ℚ) ^ K < x * 10 ^ (3 * e3) ∧ x * 10 ^ (3 * e3) < 10 ^ (K + 1) := by
        rcases hsum with h | ⟨hqk, h⟩
        · rw [h, hs, ← hK]
          split_ifs with hlt
          · exact ⟨by linarith, hlt⟩
          · refine ⟨lt_of_le_of_ne (not_lt.1 hlt) (Ne.symm htie), ?_⟩
            rw [hk2]; linarith
        · have hlt : s < (10 : ℚ) ^ (k + 1) := by rw [hk1]; linarith
          rw [if_pos hlt] at hK
          rw [h, ← hK]
          exact ⟨by linarith, by rw [hk1]; linarith⟩
      have hb' : (10 : ℚ) ^ (K - 3 * e3) < x ∧ x < 10 ^ (K - 3 * e3 + 1) := by
        rw [show K - 3 * e3 + 1 = K + 1 - 3 * e3 by ring, zpow_sub₀ (by norm_num), zpow_sub₀ (by norm_num), div_lt_iff₀ hep,
          lt_div_iff₀ hep]
        exact hb
      have g1 : 0 ≤ K - 3 * e3 := by
        have : (10 : ℚ) ^ (0 : Int) < 10 ^ (K - 3 * e3 + 1) := by simpa using lt_of_le_of_lt hx1 hb'.2
        rw [zpow_lt_zpow_iff_right₀ (by norm_num)] at this
        omega
      have g2 : K - 3 * e3 < 3 := by
        have : (10 : ℚ) ^ (K - 3 * e3) < 10 ^ (3 : Int) := lt_of_lt_of_le hb'.1 (hx2.trans (by norm_num))
        rwa [zpow_lt_zpow_iff_right₀ (by norm_num)] at this
      obtain ⟨j, hj⟩ : ∃ j : Nat, K - 3 * e3 = j := ⟨_, (Int.toNat_of_nonneg g1).symm⟩
      rw [hj] at hb'
      rw [show ((j : Int) + 1) = ((j + 1 : Nat) : Int) by push_cast; ring, zpow_natCast, zpow_natCast] at hb'
      have hwj : r.intWid = j + 1 := by
        have a1 : j < r.intWid := by
          by_contra hc
          exact absurd (lt_of_lt_of_le hb'.1 hxw) (not_lt.2 (pow_le_pow_right₀ (by norm_num) (by omega)))
        have a2 := p9 (by omega)
        by_contra hc
        exact absurd (a2.trans hb'.2) (not_lt.2 (pow_le_pow_right₀ (by norm_num) (by omega)))
      have hlen : (Nat.toDigits 10 r.intPart.toNat).length = r.intWid := by
        rcases d3 with h1 | ⟨h1, -⟩
        · exact h1
        · exfalso
          have h2 : r.intPart ≤ ⌊x⌋ := by
            rw [p5]
            have := Int.emod_nonneg ⌊x⌋ (show (10 : Int) ^ (r.intWid - d) ≠ 0 by positivity)
            omega
          have h3 : ((r.intPart : Int) : ℚ) ≤ x := le_trans (by exact_mod_cast h2) (Int.floor_le x)
          rw [h1, hwj] at h3
          push_cast at h3
          linarith [hb'.2]
      rw [hlen, hwj]
      constructor
      · intro h
        exact ⟨htie, by omega⟩
      · rintro ⟨-, h⟩
        omega
  constructor
  · intro hc
    obtain ⟨fuel, f', hrun⟩ := C23_eng_exact q hq w d hd10 '.' false (Fmt.mk' "%0".toList)
    obtain ⟨t, ht, hi⟩ := addF_some hrun
    obtain ⟨t', n, hi', hr', hsum⟩ := hc _ _ _ _ _ hrun
    obtain rfl := inserted_unique hi hi'
    obtain ⟨n', hr, hiff⟩ := print _ _ _ _ ht
    rw [hr] at hr'
    rw [Option.some.inj hr'] at hiff
    exact hiff.1 hsum
  · intro hnt fuel radix neg f f' h
    obtain ⟨t, ht, hi⟩ := addF_some h
    obtain ⟨n, hr, hiff⟩ := print _ _ _ _ ht
    exact ⟨t, n, hi, hr, hiff.2 hnt⟩

/-- Two digits: 12 and 3.4 are fine, 123 is not; 99.6 is rounded to 100. -/
example : C101_claim exactArith 12 0 2 ∧ C101_claim exactArith (34 / 10) 0 2 ∧ ¬ C101_claim exactArith 123 0 2 ∧
    ¬ C101_claim exactArith (996 / 10) 0 2 := by
  refine ⟨?_, ?_, ?_, ?_⟩
  · rw [C101_all_exact _ 0 2 (by norm_num) (by norm_num) 1 (by norm_num) (by norm_num)]; norm_num
  · rw [C101_all_exact _ 0 2 (by norm_num) (by norm_num) 0 (by norm_num) (by norm_num)]; norm_num
  · rw [C101_all_exact _ 0 2 (by norm_num) (by norm_num) 2 (by norm_num) (by norm_num)]; norm_num
  · rw [C101_all_exact _ 0 2 (by norm_num) (by norm_num) 1 (by norm_num) (by norm_num)]; norm_num

end SoDa
