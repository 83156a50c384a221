import Verif.Proof.FormatFSci
/-!
Rounding to binary64 finds a nearest double, and a decimal number close enough to a double is rounded to it.
-/
namespace SoDa

/-- Numbers with 53-bit mantissas that are not below the binade of `y` are multiples of its unit. -/
theorem dvd_of_ge {y : ℚ} {m j : Nat} (hm : m ≤ 2 ^ 53) (h : (2 : ℚ) ^ (52 + expo y) ≤ ((m * 2 ^ j : Nat) : ℚ)) :
    2 ^ expo y ∣ m * 2 ^ j := by
  have h2 : 2 ^ (52 + expo y) ≤ m * 2 ^ j := by exact_mod_cast h
  by_cases hkj : expo y ≤ j
  · exact Dvd.dvd.mul_left (Nat.pow_dvd_pow 2 hkj) m
  · have h3 : m * 2 ^ j ≤ 2 ^ 53 * 2 ^ j := Nat.mul_le_mul_right _ hm
    rw [← pow_add] at h3
    have h4 : 52 + expo y ≤ 53 + j := (Nat.pow_le_pow_iff_right (by omega)).mp (h2.trans h3)
    have h5 : expo y = j + 1 := by omega
    have h6 : m = 2 ^ 53 := by
      rw [h5, show 52 + (j + 1) = 53 + j by omega, pow_add] at h2
      have := Nat.le_of_mul_le_mul_right h2 (by positivity)
      omega
    rw [h6, h5, ← pow_add]
    exact Nat.pow_dvd_pow 2 (by omega)

/-- Different multiples of `u` are at least `u` apart. -/
theorem dvd_gap {u a b : Nat} (ha : u ∣ a) (hb : u ∣ b) (h : a < b) : a + u ≤ b := by
  obtain ⟨c, rfl⟩ := ha
  obtain ⟨d, rfl⟩ := hb
  have : c < d := Nat.lt_of_mul_lt_mul_left h
  calc u * c + u = u * (c + 1) := by ring
    _ ≤ u * d := Nat.mul_le_mul_left _ this

/-- No number with a 53-bit mantissa is closer to `y` than `units64 y`. -/
theorem units64_nearest {y : ℚ} (hy : 0 ≤ y) {m j : Nat} (hm : m ≤ 2 ^ 53) :
    |(units64 y : ℚ) - y| ≤ |((m * 2 ^ j : Nat) : ℚ) - y| := by
  have herr := units64_err hy
  set z := m * 2 ^ j with hz
  set u := units64 y with hu
  have hud : 2 ^ expo y ∣ u := ⟨_, by rw [hu, units64_eq, Nat.mul_comm]⟩
  have hfix : units64 (z : ℚ) = z := units64_fix hm
  have hpow : ((2 ^ expo y : Nat) : ℚ) = 2 ^ expo y := by push_cast; rfl
  rcases le_total (z : ℚ) y with h1 | h1
  · have hzu : z ≤ u := by rw [← hfix]; exact units64_mono h1
    have hzu' : (z : ℚ) ≤ u := by exact_mod_cast hzu
    rw [abs_of_nonpos (by linarith : (z : ℚ) - y ≤ 0)]
    rcases le_total (u : ℚ) y with h2 | h2
    · rw [abs_of_nonpos (by linarith)]; linarith
    · rw [abs_of_nonneg (by linarith)] at herr ⊢
      rcases eq_or_lt_of_le hzu with he | hlt
      · rw [he] at h1
        have : (u : ℚ) = y := le_antisymm h1 h2
        rw [he]; linarith
      · by_cases hd : 2 ^ expo y ∣ z
        · have h3 : ((z + 2 ^ expo y : Nat) : ℚ) ≤ u := by exact_mod_cast dvd_gap hd hud hlt
          push_cast at h3
          linarith
        · -- `z` is below the binade of `y`
          have h3 : (z : ℚ) < 2 ^ (52 + expo y) := by
            by_contra hc
            exact hd (dvd_of_ge hm (not_lt.1 hc))
          have hk : expo y ≠ 0 := by intro h0; rw [h0] at hd; simp at hd
          have h4 := expo_ge y hk
          have hb : 2 ^ expo y ∣ 2 ^ (52 + expo y) := Nat.pow_dvd_pow 2 (by omega)
          have h5 : 2 ^ (52 + expo y) ≤ u := by
            have : ((2 ^ (52 + expo y) : Nat) : ℚ) ≤ u := by push_cast; linarith
            exact_mod_cast this
          rcases eq_or_lt_of_le h5 with he | hlt'
          · have : (u : ℚ) = 2 ^ (52 + expo y) := by rw [← he]; push_cast; rfl
            linarith
          · have h6 : ((2 ^ (52 + expo y) + 2 ^ expo y : Nat) : ℚ) ≤ u := by exact_mod_cast dvd_gap hb hud hlt'
            push_cast at h6
            linarith
  · have hzu : u ≤ z := by rw [← hfix]; exact units64_mono h1
    have hzu' : (u : ℚ) ≤ z := by exact_mod_cast hzu
    rw [abs_of_nonneg (by linarith : 0 ≤ (z : ℚ) - y)]
    rcases le_total y (u : ℚ) with h2 | h2
    · rw [abs_of_nonneg (by linarith)]; linarith
    · rw [abs_of_nonpos (by linarith)] at herr ⊢
      rcases eq_or_lt_of_le hzu with he | hlt
      · rw [← he] at h1
        have : (u : ℚ) = y := le_antisymm h2 h1
        rw [← he]; linarith
      · have hd : 2 ^ expo y ∣ z := by
          by_cases hk : expo y = 0
          · rw [hk]; simp
          · exact dvd_of_ge hm ((expo_ge y hk).trans h1)
        have h3 : ((u + 2 ^ expo y : Nat) : ℚ) ≤ z := by exact_mod_cast dvd_gap hud hd hlt
        push_cast at h3
        linarith

theorem expo_of_lt {y : ℚ} (h : y < 2 ^ 53) : expo y = 0 := by
  by_contra hc
  have h1 := expo_ge y hc
  have : (2 : ℚ) ^ 53 ≤ 2 ^ (52 + expo y) := pow_le_pow_right₀ (by norm_num) (by omega)
  linarith

/-- A number within a part in `2 · 10 ^ 16` of a number with a 53-bit mantissa is rounded to it. -/
theorem units64_of_near {v : ℚ} {Y : Nat} (hfix : units64 (Y : ℚ) = Y)
    (hnear : |v - Y| ≤ v / (2 * 10 ^ 16)) : units64 v = Y := by
  have hv0 : 0 ≤ v := by
    have := (abs_nonneg (v - Y)).trans hnear
    by_contra hc
    have : v / (2 * 10 ^ 16) < 0 := div_neg_of_neg_of_pos (not_le.1 hc) (by norm_num)
    linarith
  rw [abs_le] at hnear
  obtain ⟨hn1, hn2⟩ := hnear
  have h10 : v / (2 * 10 ^ 16) = v * (1 / (2 * 10 ^ 16)) := by ring
  rw [h10] at hn1 hn2
  have hlo : (Y : ℚ) ≤ v * (1 + 1 / (2 * 10 ^ 16)) := by linarith
  have hhi : v * (1 - 1 / (2 * 10 ^ 16)) ≤ Y := by linarith
  set k := expo (Y : ℚ) with hk
  have hp : (0 : ℚ) < 2 ^ k := by positivity
  obtain ⟨m, hmY⟩ : ∃ m, Y = m * 2 ^ k := ⟨_, by conv_lhs => rw [← hfix, units64_eq]⟩
  have hYq : (Y : ℚ) = m * 2 ^ k := by rw [hmY]; push_cast; rfl
  have hYlt := expo_lt (Y : ℚ)
  rw [← hk, hYq, pow_add] at hYlt
  have hm53 : m < 2 ^ 53 := by
    have := lt_of_mul_lt_mul_right hYlt hp.le
    exact_mod_cast this
  have hm53' : (m : ℚ) + 1 ≤ 2 ^ 53 := by exact_mod_cast hm53
  set t : ℚ := v / 2 ^ k with ht
  have hvt : v = t * 2 ^ k := by rw [ht]; field_simp
  have ht0 : 0 ≤ t := by positivity
  have hlo' : (m : ℚ) ≤ t * (1 + 1 / (2 * 10 ^ 16)) := by
    rw [hYq, hvt, show t * 2 ^ k * (1 + 1 / (2 * 10 ^ 16)) = t * (1 + 1 / (2 * 10 ^ 16)) * 2 ^ k by ring] at hlo
    exact le_of_mul_le_mul_right hlo hp
  have hhi' : t * (1 - 1 / (2 * 10 ^ 16)) ≤ m := by
    rw [hYq, hvt, show t * 2 ^ k * (1 - 1 / (2 * 10 ^ 16)) = t * (1 - 1 / (2 * 10 ^ 16)) * 2 ^ k by ring] at hhi
    exact le_of_mul_le_mul_right hhi hp
  have htu : t < m + 1 / 2 := by norm_num at hhi' hm53' ⊢; linarith
  have htl : (m : ℚ) - 1 / 2 < t := by norm_num at hlo' hm53' ⊢; linarith
  have hvlt : v < 2 ^ (53 + k) := by
    rw [hvt, pow_add]
    exact mul_lt_mul_of_pos_right (by linarith) hp
  have same : expo v = k → units64 v = Y := by
    intro he
    rw [units64_eq, he, ← ht, rhe_eq_of_near ht0 htl htu, hmY]
  by_cases hk0 : k = 0
  · apply same
    rw [hk0] at hvlt ⊢
    exact expo_of_lt hvlt
  · by_cases hv : (2 : ℚ) ^ (52 + k) ≤ v
    · exact same (expo_unique hv hvlt)
    · -- just below a power of two
      have hYge := expo_ge (Y : ℚ) (by rw [← hk]; exact hk0)
      rw [← hk, hYq, pow_add] at hYge
      have hm52 : (2 : ℚ) ^ 52 ≤ m := le_of_mul_le_mul_right hYge hp
      have ht52 : t < 2 ^ 52 := by
        rw [hvt, pow_add] at hv
        exact lt_of_mul_lt_mul_right (not_le.1 hv) hp.le
      have hm52' : m = 2 ^ 52 := by
        have h1 : 2 ^ 52 ≤ m := by exact_mod_cast hm52
        have h2 : (m : ℚ) < ((2 ^ 52 + 1 : Nat) : ℚ) := by push_cast; linarith
        have h3 : m < 2 ^ 52 + 1 := by exact_mod_cast h2
        omega
      obtain ⟨i, hi⟩ : ∃ i, k = i + 1 := ⟨k - 1, by omega⟩
      have hpi : (0 : ℚ) < 2 ^ i := by positivity
      have hvi : v = t * 2 * 2 ^ i := by rw [hvt, hi, pow_succ]; ring
      have htl2 : (2 : ℚ) ^ 53 - 1 / 2 < t * 2 := by
        rw [hm52'] at hlo'
        push_cast at hlo'
        norm_num at hlo' ht52 ⊢
        linarith
      have he : expo v = i := by
        apply expo_unique
        · rw [hvi, pow_add]
          exact mul_le_mul_of_nonneg_right (by norm_num at htl2 ⊢; linarith) hpi.le
        · rw [hvi, pow_add]
          exact mul_lt_mul_of_pos_right (by norm_num at ht52 ⊢; linarith) hpi
      have hdiv : v / 2 ^ i = t * 2 := by rw [hvi]; field_simp
      rw [units64_eq, he, hdiv, rhe_eq_of_near (n := 2 ^ 53) (by linarith) (by push_cast; linarith)
        (by push_cast; norm_num at ht52 ⊢; linarith), hmY, hm52', hi, ← pow_add, ← pow_add,
        show 53 + i = 52 + (i + 1) by omega]

theorem rndTo_of_near {e M : Nat} {q v : ℚ} (hq : rndTo e M q = some q)
    (hnear : |v - q| ≤ v / (2 * 10 ^ 16)) : rndTo e M v = some q := by
  obtain ⟨m, j, hm, hlt, hY⟩ := rndTo_repr_form hq
  have hfix : units64 ((m * 2 ^ j : Nat) : ℚ) = m * 2 ^ j := units64_fix hm
  generalize m * 2 ^ j = Y at hlt hY hfix
  have hp : (0 : ℚ) < 2 ^ e := by positivity
  have h1 : units64 (v * 2 ^ e) = Y := by
    apply units64_of_near hfix
    rw [← hY, ← sub_mul, abs_mul, abs_of_pos hp, show v * 2 ^ e / (2 * 10 ^ 16) = v / (2 * 10 ^ 16) * 2 ^ e by ring]
    exact mul_le_mul_of_nonneg_right hnear hp.le
  rw [rndTo_of_lt (by rw [h1]; exact hlt), h1, ← hY]
  congr 1
  field_simp

theorem rndTo_nearest {e M : Nat} {q r : ℚ} (hq : 0 ≤ q) (hr : rndTo e M q = some r) {x : ℚ}
    (hx : rndTo e M x = some x) : |r - q| ≤ |x - q| := by
  obtain ⟨m, j, hm, _, hY⟩ := rndTo_repr_form hx
  obtain ⟨h1, _⟩ := rndTo_some hr
  have hp : (0 : ℚ) < 2 ^ e := by positivity
  have := units64_nearest (y := q * 2 ^ e) (by positivity) (m := m) (j := j) hm
  rw [← hY, ← sub_mul, abs_mul, abs_of_pos hp] at this
  have h2 : (units64 (q * 2 ^ e) : ℚ) = r * 2 ^ e := by rw [h1]; field_simp
  rw [h2, ← sub_mul, abs_mul, abs_of_pos hp] at this
  exact le_of_mul_le_mul_right this hp

theorem binary64_rnd : binary64.rnd = rndTo 1074 2098 := by
  funext q
  simp only [binary64, rnd64]

/-- A number within a part in `2 · 10 ^ 16` of a double is rounded to it. -/
theorem rnd64_of_near {q v : ℚ} (hq : binary64.rnd q = some q)
    (hnear : |v - q| ≤ v / (2 * 10 ^ 16)) : binary64.rnd v = some q := by
  rw [binary64_rnd] at hq ⊢
  exact rndTo_of_near hq hnear

/-- Rounding finds a nearest double. -/
theorem rnd64_nearest {q r : ℚ} (hq : 0 ≤ q) (hr : binary64.rnd q = some r) {x : ℚ} (hx : binary64.rnd x = some x) :
    |r - q| ≤ |x - q| := by
  rw [binary64_rnd] at hr hx
  exact rndTo_nearest hq hr hx

end SoDa
