import Verif.Model.Binary32
import Verif.Proof.Nearest
/-!
Rounding to binary32 finds a nearest float, and a decimal number close enough to a float is rounded to it: the proofs for
binary64 with mantissas of 24 bits.
-/
namespace SoDa.F32

/-- The exponent used for `y`. -/
def expo (y : ℚ) : Nat := Nat.log2 ⌊y⌋.toNat - 23

theorem units32_eq (y : ℚ) : units32 y = roundHalfEven (y / 2 ^ expo y) * 2 ^ expo y := rfl

theorem expo_lt (y : ℚ) : y < 2 ^ (24 + expo y) := by
  by_cases hy : y < 0
  · exact lt_of_lt_of_le hy (by positivity)
  · have hy : 0 ≤ y := by linarith
    have h1 := (rhe_floor hy).2
    have h2 : ⌊y⌋.toNat < 2 ^ (Nat.log2 ⌊y⌋.toNat + 1) := Nat.lt_log2_self
    have h3 : 2 ^ (Nat.log2 ⌊y⌋.toNat + 1) ≤ 2 ^ (24 + expo y) :=
      Nat.pow_le_pow_right (by omega) (by unfold expo; omega)
    have h4 : ((⌊y⌋.toNat + 1 : Nat) : ℚ) ≤ ((2 ^ (24 + expo y) : Nat) : ℚ) := by exact_mod_cast (by omega)
    push_cast at h4
    linarith

theorem expo_ge (y : ℚ) (h : expo y ≠ 0) : 2 ^ (23 + expo y) ≤ y := by
  have hl : 23 + expo y = Nat.log2 ⌊y⌋.toNat := by unfold expo at h ⊢; omega
  have hne : ⌊y⌋.toNat ≠ 0 := by
    intro h0
    unfold expo at h
    rw [h0] at h
    simp at h
  have h2 : 2 ^ (Nat.log2 ⌊y⌋.toNat) ≤ ⌊y⌋.toNat := Nat.log2_self_le hne
  have hy : 0 ≤ y := by
    by_contra hc
    have : ⌊y⌋ < 0 := Int.floor_lt.mpr (by push_cast; linarith)
    omega
  have h1 := (rhe_floor hy).1
  rw [hl]
  have : ((2 ^ (Nat.log2 ⌊y⌋.toNat) : Nat) : ℚ) ≤ (⌊y⌋.toNat : Nat) := by exact_mod_cast h2
  push_cast at this
  linarith

theorem expo_mono {p q : ℚ} (h : p ≤ q) : expo p ≤ expo q := by
  by_contra hc
  have h1 := expo_ge p (by omega)
  have h2 := expo_lt q
  have : (2 : ℚ) ^ (24 + expo q) ≤ 2 ^ (23 + expo p) := pow_le_pow_right₀ (by norm_num) (by omega)
  linarith

theorem units32_mant_le (y : ℚ) : roundHalfEven (y / 2 ^ expo y) ≤ 2 ^ 24 := by
  apply rhe_le
  have := (expo_lt y).le
  rw [pow_add] at this
  rw [div_le_iff₀ (by positivity)]
  exact_mod_cast this

theorem units32_mant_ge (y : ℚ) (h : expo y ≠ 0) : 2 ^ 23 ≤ roundHalfEven (y / 2 ^ expo y) := by
  apply le_rhe
  have := expo_ge y h
  rw [pow_add] at this
  rw [le_div_iff₀ (by positivity)]
  exact_mod_cast this

theorem units32_mono {p q : ℚ} (h : p ≤ q) : units32 p ≤ units32 q := by
  rw [units32_eq, units32_eq]
  rcases Nat.lt_or_ge (expo p) (expo q) with hlt | hge
  · have h1 := units32_mant_le p
    have h2 := units32_mant_ge q (by omega)
    calc _ ≤ 2 ^ 24 * 2 ^ expo p := Nat.mul_le_mul_right _ h1
      _ = 2 ^ 23 * 2 ^ (expo p + 1) := by rw [pow_succ 2 (expo p)]; ring
      _ ≤ 2 ^ 23 * 2 ^ expo q := Nat.mul_le_mul_left _ (Nat.pow_le_pow_right (by omega) hlt)
      _ ≤ _ := Nat.mul_le_mul_right _ h2
  · have e : expo p = expo q := le_antisymm (expo_mono h) hge
    rw [e]
    refine Nat.mul_le_mul_right _ (rhe_mono ?_)
    gcongr

/-- Numbers with a mantissa of at most 24 bits are fixed. -/
theorem units32_fix {m j : Nat} (hm : m ≤ 2 ^ 24) : units32 ((m * 2 ^ j : Nat) : ℚ) = m * 2 ^ j := by
  rw [units32_eq]
  set y : ℚ := ((m * 2 ^ j : Nat) : ℚ) with hy
  set k := expo y with hk
  -- `2^k` divides `m * 2^j`
  have hdvd : 2 ^ k ∣ m * 2 ^ j := by
    by_cases hkj : k ≤ j
    · exact Dvd.dvd.mul_left (Nat.pow_dvd_pow 2 hkj) m
    · have h1 := expo_ge y (by omega)
      rw [← hk, hy] at h1
      have h2 : 2 ^ (23 + k) ≤ m * 2 ^ j := by exact_mod_cast h1
      have h3 : m * 2 ^ j ≤ 2 ^ 24 * 2 ^ j := Nat.mul_le_mul_right _ hm
      rw [← pow_add] at h3
      have h4 : 23 + k ≤ 24 + j := (Nat.pow_le_pow_iff_right (by omega)).mp (h2.trans h3)
      have h5 : k = j + 1 := by omega
      have h6 : m = 2 ^ 24 := by
        rw [h5, show 23 + (j + 1) = 24 + j by omega, pow_add] at h2
        have := Nat.le_of_mul_le_mul_right h2 (by positivity)
        omega
      rw [h6, h5, ← pow_add]
      exact Nat.pow_dvd_pow 2 (by omega)
  obtain ⟨c, hc⟩ := hdvd
  have : y / 2 ^ k = (c : ℚ) := by
    rw [hy, hc]
    push_cast
    field_simp
  rw [this, rhe_nat, hc, Nat.mul_comm]

theorem units32_form (y : ℚ) : ∃ m j, m ≤ 2 ^ 24 ∧ units32 y = m * 2 ^ j :=
  ⟨_, _, units32_mant_le y, units32_eq y⟩

theorem units32_idem (y : ℚ) : units32 (units32 y : ℚ) = units32 y := by
  obtain ⟨m, j, hm, h⟩ := units32_form y
  rw [h]; exact units32_fix hm

theorem units32_err {y : ℚ} (hy : 0 ≤ y) : |(units32 y : ℚ) - y| ≤ 2 ^ expo y / 2 := by
  have h := rhe_err (q := y / 2 ^ expo y) (by positivity)
  have hp : (0 : ℚ) < 2 ^ expo y := by positivity
  rw [units32_eq]
  push_cast
  have e : (roundHalfEven (y / 2 ^ expo y) : ℚ) * 2 ^ expo y - y =
      ((roundHalfEven (y / 2 ^ expo y) : ℚ) - y / 2 ^ expo y) * 2 ^ expo y := by field_simp
  rw [e, abs_mul, abs_of_pos hp]
  have := mul_le_mul_of_nonneg_right h hp.le
  linarith

section
variable {e M : Nat}

theorem rnd_some {q : ℚ} {r : ℚ} (h : rnd e M q = some r) :
    r = (units32 (q * 2 ^ e) : ℚ) / 2 ^ e ∧ units32 (q * 2 ^ e) < 2 ^ M := by
  unfold rnd at h
  dsimp only at h
  split at h
  · rename_i hlt; exact ⟨(Option.some.inj h).symm, hlt⟩
  · simp at h

theorem rnd_of_lt {q : ℚ} (h : units32 (q * 2 ^ e) < 2 ^ M) :
    rnd e M q = some ((units32 (q * 2 ^ e) : ℚ) / 2 ^ e) := by
  unfold rnd
  dsimp only
  rw [if_pos h]

theorem rnd_repr {m j : Nat} (hm : m ≤ 2 ^ 24) (hlt : m * 2 ^ j < 2 ^ M) {q : ℚ}
    (hq : q * 2 ^ e = ((m * 2 ^ j : Nat) : ℚ)) : rnd e M q = some q := by
  have h : units32 (q * 2 ^ e) = m * 2 ^ j := by rw [hq]; exact units32_fix hm
  rw [rnd_of_lt (by rw [h]; exact hlt), h, ← hq]
  congr 1
  field_simp

theorem rnd_repr_form {q : ℚ} (h : rnd e M q = some q) :
    ∃ m j, m ≤ 2 ^ 24 ∧ m * 2 ^ j < 2 ^ M ∧ q * 2 ^ e = ((m * 2 ^ j : Nat) : ℚ) := by
  obtain ⟨h1, h2⟩ := rnd_some h
  obtain ⟨m, j, hm, hu⟩ := units32_form (q * 2 ^ e)
  refine ⟨m, j, hm, by omega, ?_⟩
  rw [← hu]
  rw [eq_div_iff (by positivity)] at h1
  exact h1

end

theorem expo_unique {y : ℚ} {k : Nat} (h1 : (2 : ℚ) ^ (23 + k) ≤ y) (h2 : y < 2 ^ (24 + k)) : expo y = k := by
  have h3 := expo_lt y
  have a : 23 + k < 24 + expo y := (pow_lt_pow_iff_right₀ (by norm_num : (1 : ℚ) < 2)).mp (lt_of_le_of_lt h1 h3)
  by_contra hc
  have h4 := expo_ge y (by omega)
  have b : 23 + expo y < 24 + k := (pow_lt_pow_iff_right₀ (by norm_num : (1 : ℚ) < 2)).mp (lt_of_le_of_lt h4 h2)
  omega

/-- Numbers with 24-bit mantissas that are not below the binade of `y` are multiples of its unit. -/
theorem dvd_of_ge {y : ℚ} {m j : Nat} (hm : m ≤ 2 ^ 24) (h : (2 : ℚ) ^ (23 + expo y) ≤ ((m * 2 ^ j : Nat) : ℚ)) :
    2 ^ expo y ∣ m * 2 ^ j := by
  have h2 : 2 ^ (23 + expo y) ≤ m * 2 ^ j := by exact_mod_cast h
  by_cases hkj : expo y ≤ j
  · exact Dvd.dvd.mul_left (Nat.pow_dvd_pow 2 hkj) m
  · have h3 : m * 2 ^ j ≤ 2 ^ 24 * 2 ^ j := Nat.mul_le_mul_right _ hm
    rw [← pow_add] at h3
    have h4 : 23 + expo y ≤ 24 + j := (Nat.pow_le_pow_iff_right (by omega)).mp (h2.trans h3)
    have h5 : expo y = j + 1 := by omega
    have h6 : m = 2 ^ 24 := by
      rw [h5, show 23 + (j + 1) = 24 + j by omega, pow_add] at h2
      have := Nat.le_of_mul_le_mul_right h2 (by positivity)
      omega
    rw [h6, h5, ← pow_add]
    exact Nat.pow_dvd_pow 2 (by omega)

/-- No number with a 24-bit mantissa is closer to `y` than `units32 y`. -/
theorem units32_nearest {y : ℚ} (hy : 0 ≤ y) {m j : Nat} (hm : m ≤ 2 ^ 24) :
    |(units32 y : ℚ) - y| ≤ |((m * 2 ^ j : Nat) : ℚ) - y| := by
  have herr := units32_err hy
  set z := m * 2 ^ j with hz
  set u := units32 y with hu
  have hud : 2 ^ expo y ∣ u := ⟨_, by rw [hu, units32_eq, Nat.mul_comm]⟩
  have hfix : units32 (z : ℚ) = z := units32_fix hm
  have hpow : ((2 ^ expo y : Nat) : ℚ) = 2 ^ expo y := by push_cast; rfl
  rcases le_total (z : ℚ) y with h1 | h1
  · have hzu : z ≤ u := by rw [← hfix]; exact units32_mono h1
    have hzu' : (z : ℚ) ≤ u := by exact_mod_cast hzu
    rw [abs_of_nonpos (by linarith : (z : ℚ) - y ≤ 0)]
    rcases le_total (u : ℚ) y with h2 | h2
    · rw [abs_of_nonpos (by linarith)]; linarith
    · rw [abs_of_nonneg (by linarith)] at herr ⊢
      rcases eq_or_lt_of_le hzu with he | hlt
      · rw [he] at h1
        have : (u : ℚ) = y := le_antisymm h1 h2
        rw [he]; linarith
      · by_cases hd : 2 ^ expo y ∣ z
        · have h3 : ((z + 2 ^ expo y : Nat) : ℚ) ≤ u := by exact_mod_cast dvd_gap hd hud hlt
          push_cast at h3
          linarith
        · -- `z` is below the binade of `y`
          have h3 : (z : ℚ) < 2 ^ (23 + expo y) := by
            by_contra hc
            exact hd (dvd_of_ge hm (not_lt.1 hc))
          have hk : expo y ≠ 0 := by intro h0; rw [h0] at hd; simp at hd
          have h4 := expo_ge y hk
          have hb : 2 ^ expo y ∣ 2 ^ (23 + expo y) := Nat.pow_dvd_pow 2 (by omega)
          have h5 : 2 ^ (23 + expo y) ≤ u := by
            have : ((2 ^ (23 + expo y) : Nat) : ℚ) ≤ u := by push_cast; linarith
            exact_mod_cast this
          rcases eq_or_lt_of_le h5 with he | hlt'
          · have : (u : ℚ) = 2 ^ (23 + expo y) := by rw [← he]; push_cast; rfl
            linarith
          · have h6 : ((2 ^ (23 + expo y) + 2 ^ expo y : Nat) : ℚ) ≤ u := by exact_mod_cast dvd_gap hb hud hlt'
            push_cast at h6
            linarith
  · have hzu : u ≤ z := by rw [← hfix]; exact units32_mono h1
    have hzu' : (u : ℚ) ≤ z := by exact_mod_cast hzu
    rw [abs_of_nonneg (by linarith : 0 ≤ (z : ℚ) - y)]
    rcases le_total y (u : ℚ) with h2 | h2
    · rw [abs_of_nonneg (by linarith)]; linarith
    · rw [abs_of_nonpos (by linarith)] at herr ⊢
      rcases eq_or_lt_of_le hzu with he | hlt
      · rw [← he] at h1
        have : (u : ℚ) = y := le_antisymm h2 h1
        rw [← he]; linarith
      · have hd : 2 ^ expo y ∣ z := by
          by_cases hk : expo y = 0
          · rw [hk]; simp
          · exact dvd_of_ge hm ((expo_ge y hk).trans h1)
        have h3 : ((u + 2 ^ expo y : Nat) : ℚ) ≤ z := by exact_mod_cast dvd_gap hud hd hlt
        push_cast at h3
        linarith

theorem expo_of_lt {y : ℚ} (h : y < 2 ^ 24) : expo y = 0 := by
  by_contra hc
  have h1 := expo_ge y hc
  have : (2 : ℚ) ^ 24 ≤ 2 ^ (23 + expo y) := pow_le_pow_right₀ (by norm_num) (by omega)
  linarith

/-- A number within a part in `2 · 10 ^ 8` of a number with a 24-bit mantissa is rounded to it. -/
theorem units32_of_near {v : ℚ} {Y : Nat} (hfix : units32 (Y : ℚ) = Y)
    (hnear : |v - Y| ≤ v / (2 * 10 ^ 8)) : units32 v = Y := by
  have hv0 : 0 ≤ v := by
    have := (abs_nonneg (v - Y)).trans hnear
    by_contra hc
    have : v / (2 * 10 ^ 8) < 0 := div_neg_of_neg_of_pos (not_le.1 hc) (by norm_num)
    linarith
  rw [abs_le] at hnear
  obtain ⟨hn1, hn2⟩ := hnear
  have h10 : v / (2 * 10 ^ 8) = v * (1 / (2 * 10 ^ 8)) := by ring
  rw [h10] at hn1 hn2
  have hlo : (Y : ℚ) ≤ v * (1 + 1 / (2 * 10 ^ 8)) := by linarith
  have hhi : v * (1 - 1 / (2 * 10 ^ 8)) ≤ Y := by linarith
  set k := expo (Y : ℚ) with hk
  have hp : (0 : ℚ) < 2 ^ k := by positivity
  obtain ⟨m, hmY⟩ : ∃ m, Y = m * 2 ^ k := ⟨_, by conv_lhs => rw [← hfix, units32_eq]⟩
  have hYq : (Y : ℚ) = m * 2 ^ k := by rw [hmY]; push_cast; rfl
  have hYlt := expo_lt (Y : ℚ)
  rw [← hk, hYq, pow_add] at hYlt
  have hm24 : m < 2 ^ 24 := by
    have := lt_of_mul_lt_mul_right hYlt hp.le
    exact_mod_cast this
  have hm24' : (m : ℚ) + 1 ≤ 2 ^ 24 := by exact_mod_cast hm24
  set t : ℚ := v / 2 ^ k with ht
  have hvt : v = t * 2 ^ k := by rw [ht]; field_simp
  have ht0 : 0 ≤ t := by positivity
  have hlo' : (m : ℚ) ≤ t * (1 + 1 / (2 * 10 ^ 8)) := by
    rw [hYq, hvt, show t * 2 ^ k * (1 + 1 / (2 * 10 ^ 8)) = t * (1 + 1 / (2 * 10 ^ 8)) * 2 ^ k by ring] at hlo
    exact le_of_mul_le_mul_right hlo hp
  have hhi' : t * (1 - 1 / (2 * 10 ^ 8)) ≤ m := by
    rw [hYq, hvt, show t * 2 ^ k * (1 - 1 / (2 * 10 ^ 8)) = t * (1 - 1 / (2 * 10 ^ 8)) * 2 ^ k by ring] at hhi
    exact le_of_mul_le_mul_right hhi hp
  have htu : t < m + 1 / 2 := by norm_num at hhi' hm24' ⊢; linarith
  have htl : (m : ℚ) - 1 / 2 < t := by norm_num at hlo' hm24' ⊢; linarith
  have hvlt : v < 2 ^ (24 + k) := by
    rw [hvt, pow_add]
    exact mul_lt_mul_of_pos_right (by linarith) hp
  have same : expo v = k → units32 v = Y := by
    intro he
    rw [units32_eq, he, ← ht, rhe_eq_of_near ht0 htl htu, hmY]
  by_cases hk0 : k = 0
  · apply same
    rw [hk0] at hvlt ⊢
    exact expo_of_lt hvlt
  · by_cases hv : (2 : ℚ) ^ (23 + k) ≤ v
    · exact same (expo_unique hv hvlt)
    · -- just below a power of two
      have hYge := expo_ge (Y : ℚ) (by rw [← hk]; exact hk0)
      rw [← hk, hYq, pow_add] at hYge
      have hm23 : (2 : ℚ) ^ 23 ≤ m := le_of_mul_le_mul_right hYge hp
      have ht23 : t < 2 ^ 23 := by
        rw [hvt, pow_add] at hv
        exact lt_of_mul_lt_mul_right (not_le.1 hv) hp.le
      have hm23' : m = 2 ^ 23 := by
        have h1 : 2 ^ 23 ≤ m := by exact_mod_cast hm23
        have h2 : (m : ℚ) < ((2 ^ 23 + 1 : Nat) : ℚ) := by push_cast; linarith
        have h3 : m < 2 ^ 23 + 1 := by exact_mod_cast h2
        omega
      obtain ⟨i, hi⟩ : ∃ i, k = i + 1 := ⟨k - 1, by omega⟩
      have hpi : (0 : ℚ) < 2 ^ i := by positivity
      have hvi : v = t * 2 * 2 ^ i := by rw [hvt, hi, pow_succ]; ring
      have htl2 : (2 : ℚ) ^ 24 - 1 / 2 < t * 2 := by
        rw [hm23'] at hlo'
        push_cast at hlo'
        norm_num at hlo' ht23 ⊢
        linarith
      have he : expo v = i := by
        apply expo_unique
        · rw [hvi, pow_add]
          exact mul_le_mul_of_nonneg_right (by norm_num at htl2 ⊢; linarith) hpi.le
        · rw [hvi, pow_add]
          exact mul_lt_mul_of_pos_right (by norm_num at ht23 ⊢; linarith) hpi
      have hdiv : v / 2 ^ i = t * 2 := by rw [hvi]; field_simp
      rw [units32_eq, he, hdiv, rhe_eq_of_near (n := 2 ^ 24) (by linarith) (by push_cast; linarith)
        (by push_cast; norm_num at ht23 ⊢; linarith), hmY, hm23', hi, ← pow_add, ← pow_add,
        show 24 + i = 23 + (i + 1) by omega]

theorem rnd_of_near {e M : Nat} {q v : ℚ} (hq : rnd e M q = some q)
    (hnear : |v - q| ≤ v / (2 * 10 ^ 8)) : rnd e M v = some q := by
  obtain ⟨m, j, hm, hlt, hY⟩ := rnd_repr_form hq
  have hfix : units32 ((m * 2 ^ j : Nat) : ℚ) = m * 2 ^ j := units32_fix hm
  generalize m * 2 ^ j = Y at hlt hY hfix
  have hp : (0 : ℚ) < 2 ^ e := by positivity
  have h1 : units32 (v * 2 ^ e) = Y := by
    apply units32_of_near hfix
    rw [← hY, ← sub_mul, abs_mul, abs_of_pos hp, show v * 2 ^ e / (2 * 10 ^ 8) = v / (2 * 10 ^ 8) * 2 ^ e by ring]
    exact mul_le_mul_of_nonneg_right hnear hp.le
  rw [rnd_of_lt (by rw [h1]; exact hlt), h1, ← hY]
  congr 1
  field_simp

theorem rnd_nearest {e M : Nat} {q r : ℚ} (hq : 0 ≤ q) (hr : rnd e M q = some r) {x : ℚ}
    (hx : rnd e M x = some x) : |r - q| ≤ |x - q| := by
  obtain ⟨m, j, hm, _, hY⟩ := rnd_repr_form hx
  obtain ⟨h1, _⟩ := rnd_some hr
  have hp : (0 : ℚ) < 2 ^ e := by positivity
  have := units32_nearest (y := q * 2 ^ e) (by positivity) (m := m) (j := j) hm
  rw [← hY, ← sub_mul, abs_mul, abs_of_pos hp] at this
  have h2 : (units32 (q * 2 ^ e) : ℚ) = r * 2 ^ e := by rw [h1]; field_simp
  rw [h2, ← sub_mul, abs_mul, abs_of_pos hp] at this
  exact le_of_mul_le_mul_right this hp

theorem rnd32_eq : rnd32 = rnd 149 277 := by
  funext q
  rfl

end SoDa.F32
