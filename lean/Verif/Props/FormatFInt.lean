import Verif.Props.FormatF
import Verif.Proof.FormatFInt
/-!
Property C117: engineering notation with many digits.  `fractionate` collects the digits after the point in an `int`
(src/Format.cxx:366-380), where `10 * frac_part` and the conversion of the sum are undefined behaviour when they are too
large.
-/
namespace SoDa
open Spec

/-- The claim: for every number of digits and every double of a usual magnitude the call does nothing undefined. -/
def C117_claim : Prop :=
  ∀ (q : ℚ) (w d : Nat) (radix : Char) (neg : Bool) (f : Fmt) (fuel : Nat), 1 / 10 ^ 304 ≤ q → q ≤ 10 ^ 304 →
    1 ≤ d → d < 2 ^ 31 → f.addF binary64 fuel radix (.fin neg q) 'e' w d ≠ some .ub

theorem addF_mono {A : Arith} {fuel : Nat} (k : Nat) {radix : Char} {f : Fmt} {v : Dbl} {fmt : Char} {w d : Nat}
    {r : Res Empty Fmt} (h : f.addF A fuel radix v fmt w d = some r) : f.addF A (fuel + k) radix v fmt w d = some r := by
  simp only [Fmt.addF, Option.map_eq_some_iff] at h ⊢
  obtain ⟨t, ht, h⟩ := h
  exact ⟨t, textF_mono k ht, h⟩

/-- What holds: up to ten digits.  Missing: from eleven digits on the claim is false, see `C117_undefined`. -/
theorem C117_ten_partial (q : ℚ) (w d : Nat) (radix : Char) (neg : Bool) (f : Fmt) (fuel : Nat)
    (hq1 : 1 / 10 ^ 304 ≤ q) (hq2 : q ≤ 10 ^ 304) (hd : d ≤ 10) :
    f.addF binary64 fuel radix (.fin neg q) 'e' w d ≠ some .ub := by
  intro h
  obtain ⟨f', hf'⟩ := C23_eng_returns_partial q hq1 hq2 w d hd radix neg f
  have h1 := addF_mono 308 h
  have h2 := addF_mono fuel hf'
  rw [Nat.add_comm] at h2
  rw [h1] at h2
  simp at h2

/-- Exactly when the call is undefined, with exact arithmetic: the value with half a unit of the last digit added is
`m * 1000^j`, `p` digits of `m` are before the point, and the `d - p` digits after the point are a number from `2^31` on. -/
theorem C117_exact (q m : ℚ) (w d p : Nat) (k j : Int) (hd : 1 ≤ d) (hd' : d < 2 ^ 31) (hk : (10 : ℚ) ^ k ≤ q)
    (hk' : q < 10 ^ (k + 1)) (hm : q + 10 ^ (k + 1 - d) / 2 = m * 1000 ^ j) (hm1 : 1 ≤ m) (hm2 : m < 1000)
    (hp : 1 ≤ p) (hp1 : (10 : ℚ) ^ (p - 1) ≤ m) (hp2 : m < 10 ^ p) (radix : Char) (neg : Bool) (f : Fmt) :
    if 2 ^ 31 ≤ ⌊Int.fract m * 10 ^ (d - p)⌋ then
      ∃ fuel, f.addF exactArith fuel radix (.fin neg q) 'e' w d = some .ub
    else ∃ fuel f', f.addF exactArith fuel radix (.fin neg q) 'e' w d = some (.ok f') := by
  have hq0 : 0 < q := lt_of_lt_of_le (by positivity) hk
  obtain ⟨L, h1, h2, S⟩ := exact_setting q hq0 d hd hd'
  obtain ⟨x, e, hl⟩ := log1k_stops S h1 h2 (L + 4) (le_refl _) d
  obtain ⟨x', hx', hx1, hx2⟩ := log1k_range exactArith_sane hl
  obtain rfl : x = x' := by simpa using hx'
  obtain ⟨i, rfl⟩ := log1k_three hl
  have hval := log1k_exact_value hd' hk hk' hl
  rw [half_unit, hm, zpow_mul] at hval
  norm_num at hval
  have hjp : (0 : ℚ) < 1000 ^ j := by positivity
  have hip : (0 : ℚ) < 1000 ^ i := by positivity
  -- the scaled value is `m`, or 1000 where `m` is 1
  have hxm : x = m ∨ (x = 1000 ∧ m = 1) := by
    have l1 : i < j + 1 := by
      refine (zpow_lt_zpow_iff_right₀ (by norm_num : (1 : ℚ) < 1000)).1 ?_
      rw [zpow_add_one₀ (by norm_num)]
      nlinarith
    have l2 : j ≤ i + 1 := by
      refine (zpow_le_zpow_iff_right₀ (by norm_num : (1 : ℚ) < 1000)).1 ?_
      rw [zpow_add_one₀ (by norm_num)]
      nlinarith
    rcases (show i = j ∨ j = i + 1 by omega) with rfl | rfl
    · exact .inl (mul_right_cancel₀ hip.ne' hval)
    · right
      rw [zpow_add_one₀ (by norm_num)] at hval
      have : x = m * 1000 := by
        refine mul_right_cancel₀ hip.ne' ?_
        rw [hval]; ring
      constructor <;> linarith
  have hfr : Int.fract x = Int.fract m := by
    rcases hxm with rfl | ⟨rfl, rfl⟩
    · rfl
    · rw [show (1000 : ℚ) = ((1000 : Int) : ℚ) by norm_num, Int.fract_intCast]; simp
  obtain ⟨iw, hw, hxw⟩ := getIntPartWidth_run S hx1 hx2 (L + 4) (by omega)
  obtain ⟨g1, g2, g3⟩ := getIntPartWidth_spec exactArith_sane hx2 hw
  have hf2 : ⌊x⌋ ≤ 1000 := by
    have : ((⌊x⌋ : Int) : ℚ) ≤ 1000 := (Int.floor_le x).trans hx2
    exact_mod_cast this
  have hloop : fracLoop exactArith (d - iw) (Int.fract x) 0 =
      if 2 ^ 31 ≤ ⌊Int.fract m * 10 ^ (d - p)⌋ then .ub else .ok ⌊Int.fract m * 10 ^ (d - iw)⌋ := by
    rw [fracLoop_exact _ _ _ (Int.fract_nonneg _) (Int.fract_lt_one _) (le_refl _) (by decide), hfr]
    simp only [Int.cast_zero, zero_add]
    by_cases h0 : Int.fract m = 0
    · rw [h0, zero_mul, zero_mul, Int.floor_zero, if_pos (by decide), if_neg (by norm_num)]
    · have hw1 : iw = p := by
        rcases hxm with rfl | ⟨rfl, rfl⟩
        · have hne : x ≠ 10 ^ (p - 1) := by
            intro h
            apply h0
            rw [h, show (10 : ℚ) ^ (p - 1) = ((10 ^ (p - 1) : Int) : ℚ) by push_cast; rfl, Int.fract_intCast]
          have e1 : p - 1 < iw := by
            rw [sub_zero, mul_one] at hxw
            exact (pow_lt_pow_iff_right₀ (by norm_num : (1 : ℚ) < 10)).1 (lt_of_lt_of_le (lt_of_le_of_ne hp1 hne.symm) hxw)
          have e2 : iw - 1 < p :=
            (pow_lt_pow_iff_right₀ (by norm_num : (1 : ℚ) < 10)).1 ((g3 (by omega)).trans hp2)
          omega
        · exact absurd (by simp) h0
      rw [hw1]
      by_cases hbig : 2 ^ 31 ≤ ⌊Int.fract m * 10 ^ (d - p)⌋
      · rw [if_neg (by unfold intMax; omega), if_pos hbig]
      · rw [if_pos (by unfold intMax; omega), if_neg hbig]
  have hres : fractionate exactArith (L + 4) (some x) d =
      some (if 2 ^ 31 ≤ ⌊Int.fract m * 10 ^ (d - p)⌋ then .ub else
        .ok ⟨⌊x⌋ - ⌊x⌋ % 10 ^ (iw - d), ⌊Int.fract m * 10 ^ (d - iw)⌋, iw, d - iw⟩) := by
    rw [fractionate, hw]
    simp only [Option.map_some]
    rw [if_pos (by unfold intMax; omega), modvalLoop_eq _ (by omega), loopCount_small S (by omega)]
    simp only [Res.bind_ok, hloop]
    split_ifs <;> rfl
  split_ifs at hres ⊢ with hbig
  · exact ⟨L + 4, by simp [Fmt.addF, textF, hq0.ne', hl, hres]⟩
  · have : ∃ t, textF exactArith (L + 4) radix (.fin neg q) 'e' w d = some (.ok t) := by
      simp [textF, hq0.ne', hl, hres]
    obtain ⟨t, ht⟩ := this
    obtain ⟨f', hf', _⟩ := addF_of_text f ht
    exact ⟨_, f', hf'⟩

/-- For doubles: let `q` be `m * 1000^j` with at most `p` digits of `m` before the point.  If the part of `m` after the
point is at least 0.2148 (and not within 0.0001 of the next integer), every number of digits from `p + 10` on makes the
call undefined. -/
theorem C117_undefined (q m : ℚ) (w d p : Nat) (j : Int) (hq1 : 1 / 10 ^ 304 ≤ q) (hq2 : q ≤ 10 ^ 304)
    (hm : q = m * 1000 ^ j) (hm1 : 1 ≤ m) (hm2 : m < 1000) (hp : m < 10 ^ p) (hf1 : 2148 / 10000 ≤ Int.fract m)
    (hf2 : Int.fract m ≤ 9999 / 10000) (hd : p + 10 ≤ d) (hd' : d < 2 ^ 31) (radix : Char) (neg : Bool) (f : Fmt) :
    f.addF binary64 308 radix (.fin neg q) 'e' w d = some .ub := by
  have hq0 : 0 < q := lt_of_lt_of_le (by positivity) hq1
  have S := binary64_setting 9 (by omega) (by omega)
  obtain ⟨ri, hri, hri0, hri1⟩ := roundIncr_small S (d - 9)
  rw [show 9 + (d - 9) = loopCount d by rw [loopCount_small S hd']; omega] at hri
  obtain ⟨x, e, hl, hlow, hup⟩ := log1k_about S hq1 hq2 308 (by omega) d hri hri0 hri1 (by norm_num)
  obtain ⟨x', hx', hx1, hx2⟩ := log1k_range binary64_sane hl
  obtain rfl : x = x' := by simpa using hx'
  obtain ⟨i, rfl⟩ := log1k_three hl
  have hlow' : q * (1 - 1 / 10 ^ 8) ≤ x * 10 ^ (3 * i) := le_trans (by gcongr; norm_num) hlow
  have hup' : x * 10 ^ (3 * i) ≤ q * (1 + 1 / 10 ^ 8) := hup.trans (by rw [mul_assoc]; gcongr; norm_num)
  rw [hm, zpow_mul] at hlow' hup'
  norm_num at hlow' hup'
  have hjp : (0 : ℚ) < 1000 ^ j := by positivity
  have hip : (0 : ℚ) < 1000 ^ i := by positivity
  have hsum := Int.floor_add_fract m
  have hfl1 : 1 ≤ ⌊m⌋ := Int.le_floor.2 (by exact_mod_cast hm1)
  have hfl2 : ⌊m⌋ ≤ 999 := by
    have : ⌊m⌋ < 1000 := Int.floor_lt.2 (by exact_mod_cast hm2)
    omega
  have hfl1q : (1 : ℚ) ≤ ⌊m⌋ := by exact_mod_cast hfl1
  have hfl2q : ((⌊m⌋ : Int) : ℚ) ≤ 999 := by exact_mod_cast hfl2
  have hij : i = j := by
    have l1 : i < j + 1 := by
      refine (zpow_lt_zpow_iff_right₀ (by norm_num : (1 : ℚ) < 1000)).1 ?_
      rw [zpow_add_one₀ (by norm_num)]
      nlinarith
    have l2 : j < i + 1 := by
      refine (zpow_lt_zpow_iff_right₀ (by norm_num : (1 : ℚ) < 1000)).1 ?_
      rw [zpow_add_one₀ (by norm_num)]
      nlinarith
    omega
  subst hij
  have hxl : m * (99999999 / 100000000) ≤ x := by
    refine le_of_mul_le_mul_right ?_ hip
    linarith
  have hxu : x ≤ m * (100000001 / 100000000) := by
    refine le_of_mul_le_mul_right ?_ hip
    linarith
  have hfl : ⌊x⌋ = ⌊m⌋ := by
    rw [Int.floor_eq_iff]
    constructor <;> linarith
  have hfx : 21479 / 100000 ≤ Int.fract x := by
    rw [← Int.self_sub_floor, hfl]; linarith
  obtain ⟨iw, hw, _⟩ := getIntPartWidth_run S hx1 hx2 308 (by omega)
  obtain ⟨g1, g2, g3⟩ := getIntPartWidth_spec binary64_sane hx2 hw
  have hiw : iw ≤ p := by
    by_cases h0 : iw = 0
    · omega
    · have hxp : x < 10 ^ p := by
        have h1 : ⌊x⌋ < 10 ^ p := by
          rw [hfl]; exact Int.floor_lt.2 (by exact_mod_cast hp)
        exact_mod_cast Int.floor_lt.1 h1
      have : iw - 1 < p := (pow_lt_pow_iff_right₀ (by norm_num : (1 : ℚ) < 10)).1 ((g3 (by omega)).trans hxp)
      omega
  have hres : fractionate binary64 308 (some x) d = some .ub := by
    rw [fractionate, hw]
    simp only [Option.map_some]
    rw [if_pos (by unfold intMax; omega), modvalLoop_eq _ (by omega), loopCount_small S (by omega),
      fracLoop_ub S.sane S.close binary64_digits (S.lo_small.trans (by norm_num)) (le_trans (by norm_num) S.hi_big) (by norm_num)
        (by omega) hfx (Int.fract_lt_one _) (binary64_digits.fract x (by linarith) (log1k_repr binary64_digits hl))]
    rfl
  simp [Fmt.addF, textF, hq0.ne', hl, hres]

set_option exponentiation.threshold 2000 in
/-- `addF(1.5, 'e', 0, 11)`. -/
theorem C117_refuted : ¬ C117_claim := by
  intro h
  refine h (3 / 2) 0 11 '.' false (Fmt.mk' "%0".toList) 308 (by norm_num) (by norm_num) (by omega) (by omega) ?_
  exact C117_undefined (3 / 2) (3 / 2) 0 11 1 0 (by norm_num) (by norm_num) (by norm_num) (by norm_num) (by norm_num)
    (by norm_num) (by norm_num [Int.fract]) (by norm_num [Int.fract]) (by omega) (by omega) _ _ _

set_option exponentiation.threshold 2000 in
/-- Twelve digits of 31415.9: `31.41590000000e+3` would have ten digits after the point, the number 4159000000. -/
example (f : Fmt) : f.addF binary64 308 '.' (.fin false (314159 / 10)) 'e' 0 12 = some .ub :=
  C117_undefined (314159 / 10) (314159 / 10000) 0 12 2 1 (by norm_num) (by norm_num) (by norm_num) (by norm_num)
    (by norm_num) (by norm_num) (by norm_num [Int.fract]) (by norm_num [Int.fract]) (by omega) (by omega) _ _ _

/-- The same with exact arithmetic, and eleven digits, which fit. -/
example (f : Fmt) : (∃ fuel, f.addF exactArith fuel '.' (.fin false (314159 / 10)) 'e' 0 12 = some .ub) ∧
    ∃ fuel f', f.addF exactArith fuel '.' (.fin false (314159 / 10)) 'e' 0 11 = some (.ok f') := by
  constructor
  · have := C117_exact (314159 / 10) (314159 / 10000 + 5 / 10 ^ 11) 0 12 2 4 1 (by omega) (by omega) (by norm_num)
      (by norm_num) (by norm_num) (by norm_num) (by norm_num) (by omega) (by norm_num) (by norm_num) '.' false f
    rwa [if_pos (by norm_num [Int.fract])] at this
  · have := C117_exact (314159 / 10) (314159 / 10000 + 5 / 10 ^ 10) 0 11 2 4 1 (by omega) (by omega) (by norm_num)
      (by norm_num) (by norm_num) (by norm_num) (by norm_num) (by omega) (by norm_num) (by norm_num) '.' false f
    rwa [if_neg (by norm_num [Int.fract])] at this

end SoDa
