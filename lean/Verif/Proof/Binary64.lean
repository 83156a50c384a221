import Verif.Model.Binary64
import Verif.Proof.FormatFAcc
/-!
binary64 rounding satisfies the laws used by the error analysis.
-/
namespace SoDa

/-! ### `roundHalfEven` -/

theorem rhe_floor {q : ℚ} (h : 0 ≤ q) : ((⌊q⌋.toNat : Nat) : ℚ) ≤ q ∧ q < ⌊q⌋.toNat + 1 := by
  have h0 := Int.floor_nonneg.mpr h
  have e : ((⌊q⌋.toNat : Nat) : ℚ) = (⌊q⌋ : ℚ) := by
    have : ((⌊q⌋.toNat : Nat) : Int) = ⌊q⌋ := Int.toNat_of_nonneg h0
    exact_mod_cast this
  rw [e]
  exact ⟨Int.floor_le q, Int.lt_floor_add_one q⟩

theorem rhe_err {q : ℚ} (h : 0 ≤ q) : |(roundHalfEven q : ℚ) - q| ≤ 1 / 2 := by
  obtain ⟨h1, h2⟩ := rhe_floor h
  unfold roundHalfEven
  dsimp only
  split_ifs <;> (try push_cast) <;> rw [abs_le] <;> constructor <;> linarith

theorem rhe_mono {p q : ℚ} (h : p ≤ q) : roundHalfEven p ≤ roundHalfEven q := by
  by_cases hp : p < 0
  · have : ⌊p⌋.toNat = 0 := by
      have : ⌊p⌋ < 0 := Int.floor_lt.mpr (by exact_mod_cast hp)
      omega
    unfold roundHalfEven
    rw [this]
    simp only [Nat.cast_zero, sub_zero]
    rw [if_pos (by linarith)]
    omega
  · have hp : 0 ≤ p := by linarith
    have hfl : ⌊p⌋.toNat ≤ ⌊q⌋.toNat := Int.toNat_le_toNat (Int.floor_le_floor h)
    rcases Nat.lt_or_ge ⌊p⌋.toNat ⌊q⌋.toNat with hlt | hge
    · have a : roundHalfEven p ≤ ⌊p⌋.toNat + 1 := by
        unfold roundHalfEven; dsimp only; split_ifs <;> omega
      have b : ⌊q⌋.toNat ≤ roundHalfEven q := by
        unfold roundHalfEven; dsimp only; split_ifs <;> omega
      omega
    · have e : ⌊p⌋.toNat = ⌊q⌋.toNat := by omega
      unfold roundHalfEven
      rw [e]
      dsimp only
      split_ifs <;> first | omega | (exfalso; linarith)

theorem rhe_nat (n : Nat) : roundHalfEven (n : ℚ) = n := by
  unfold roundHalfEven
  simp

theorem rhe_le {q : ℚ} {n : Nat} (h : q ≤ n) : roundHalfEven q ≤ n := by
  rw [← rhe_nat n]; exact rhe_mono h

theorem le_rhe {q : ℚ} {n : Nat} (h : (n : ℚ) ≤ q) : n ≤ roundHalfEven q := by
  rw [← rhe_nat n]; exact rhe_mono h

/-! ### `units64` -/

/-- The exponent used for `y`. -/
def expo (y : ℚ) : Nat := Nat.log2 ⌊y⌋.toNat - 52

theorem units64_eq (y : ℚ) : units64 y = roundHalfEven (y / 2 ^ expo y) * 2 ^ expo y := rfl

theorem expo_lt (y : ℚ) : y < 2 ^ (53 + expo y) := by
  by_cases hy : y < 0
  · exact lt_of_lt_of_le hy (by positivity)
  · have hy : 0 ≤ y := by linarith
    have h1 := (rhe_floor hy).2
    have h2 : ⌊y⌋.toNat < 2 ^ (Nat.log2 ⌊y⌋.toNat + 1) := Nat.lt_log2_self
    have h3 : 2 ^ (Nat.log2 ⌊y⌋.toNat + 1) ≤ 2 ^ (53 + expo y) :=
      Nat.pow_le_pow_right (by omega) (by unfold expo; omega)
    have h4 : ((⌊y⌋.toNat + 1 : Nat) : ℚ) ≤ ((2 ^ (53 + expo y) : Nat) : ℚ) := by exact_mod_cast (by omega)
    push_cast at h4
    linarith

theorem expo_ge (y : ℚ) (h : expo y ≠ 0) : 2 ^ (52 + expo y) ≤ y := by
  have hl : 52 + expo y = Nat.log2 ⌊y⌋.toNat := by unfold expo at h ⊢; omega
  have hne : ⌊y⌋.toNat ≠ 0 := by
    intro h0
    unfold expo at h
    rw [h0] at h
    simp at h
  have h2 : 2 ^ (Nat.log2 ⌊y⌋.toNat) ≤ ⌊y⌋.toNat := Nat.log2_self_le hne
  have hy : 0 ≤ y := by
    by_contra hc
    have : ⌊y⌋ < 0 := Int.floor_lt.mpr (by push_cast; linarith)
    omega
  have h1 := (rhe_floor hy).1
  rw [hl]
  have : ((2 ^ (Nat.log2 ⌊y⌋.toNat) : Nat) : ℚ) ≤ (⌊y⌋.toNat : Nat) := by exact_mod_cast h2
  push_cast at this
  linarith

theorem expo_mono {p q : ℚ} (h : p ≤ q) : expo p ≤ expo q := by
  by_contra hc
  have h1 := expo_ge p (by omega)
  have h2 := expo_lt q
  have : (2 : ℚ) ^ (53 + expo q) ≤ 2 ^ (52 + expo p) := pow_le_pow_right₀ (by norm_num) (by omega)
  linarith

theorem units64_mant_le (y : ℚ) : roundHalfEven (y / 2 ^ expo y) ≤ 2 ^ 53 := by
  apply rhe_le
  have := (expo_lt y).le
  rw [pow_add] at this
  rw [div_le_iff₀ (by positivity)]
  exact_mod_cast this

theorem units64_mant_ge (y : ℚ) (h : expo y ≠ 0) : 2 ^ 52 ≤ roundHalfEven (y / 2 ^ expo y) := by
  apply le_rhe
  have := expo_ge y h
  rw [pow_add] at this
  rw [le_div_iff₀ (by positivity)]
  exact_mod_cast this

theorem units64_mono {p q : ℚ} (h : p ≤ q) : units64 p ≤ units64 q := by
  rw [units64_eq, units64_eq]
  rcases Nat.lt_or_ge (expo p) (expo q) with hlt | hge
  · have h1 := units64_mant_le p
    have h2 := units64_mant_ge q (by omega)
    calc _ ≤ 2 ^ 53 * 2 ^ expo p := Nat.mul_le_mul_right _ h1
      _ = 2 ^ 52 * 2 ^ (expo p + 1) := by rw [pow_succ 2 (expo p)]; ring
      _ ≤ 2 ^ 52 * 2 ^ expo q := Nat.mul_le_mul_left _ (Nat.pow_le_pow_right (by omega) hlt)
      _ ≤ _ := Nat.mul_le_mul_right _ h2
  · have e : expo p = expo q := le_antisymm (expo_mono h) hge
    rw [e]
    refine Nat.mul_le_mul_right _ (rhe_mono ?_)
    gcongr

/-- Numbers with a mantissa of at most 53 bits are fixed. -/
theorem units64_fix {m j : Nat} (hm : m ≤ 2 ^ 53) : units64 ((m * 2 ^ j : Nat) : ℚ) = m * 2 ^ j := by
  rw [units64_eq]
  set y : ℚ := ((m * 2 ^ j : Nat) : ℚ) with hy
  set k := expo y with hk
  -- `2^k` divides `m * 2^j`
  have hdvd : 2 ^ k ∣ m * 2 ^ j := by
    by_cases hkj : k ≤ j
    · exact Dvd.dvd.mul_left (Nat.pow_dvd_pow 2 hkj) m
    · have h1 := expo_ge y (by omega)
      rw [← hk, hy] at h1
      have h2 : 2 ^ (52 + k) ≤ m * 2 ^ j := by exact_mod_cast h1
      have h3 : m * 2 ^ j ≤ 2 ^ 53 * 2 ^ j := Nat.mul_le_mul_right _ hm
      rw [← pow_add] at h3
      have h4 : 52 + k ≤ 53 + j := (Nat.pow_le_pow_iff_right (by omega)).mp (h2.trans h3)
      have h5 : k = j + 1 := by omega
      have h6 : m = 2 ^ 53 := by
        rw [h5, show 52 + (j + 1) = 53 + j by omega, pow_add] at h2
        have := Nat.le_of_mul_le_mul_right h2 (by positivity)
        omega
      rw [h6, h5, ← pow_add]
      exact Nat.pow_dvd_pow 2 (by omega)
  obtain ⟨c, hc⟩ := hdvd
  have : y / 2 ^ k = (c : ℚ) := by
    rw [hy, hc]
    push_cast
    field_simp
  rw [this, rhe_nat, hc, Nat.mul_comm]

theorem units64_form (y : ℚ) : ∃ m j, m ≤ 2 ^ 53 ∧ units64 y = m * 2 ^ j :=
  ⟨_, _, units64_mant_le y, units64_eq y⟩

theorem units64_idem (y : ℚ) : units64 (units64 y : ℚ) = units64 y := by
  obtain ⟨m, j, hm, h⟩ := units64_form y
  rw [h]; exact units64_fix hm

theorem units64_err {y : ℚ} (hy : 0 ≤ y) : |(units64 y : ℚ) - y| ≤ 2 ^ expo y / 2 := by
  have h := rhe_err (q := y / 2 ^ expo y) (by positivity)
  have hp : (0 : ℚ) < 2 ^ expo y := by positivity
  rw [units64_eq]
  push_cast
  have e : (roundHalfEven (y / 2 ^ expo y) : ℚ) * 2 ^ expo y - y =
      ((roundHalfEven (y / 2 ^ expo y) : ℚ) - y / 2 ^ expo y) * 2 ^ expo y := by field_simp
  rw [e, abs_mul, abs_of_pos hp]
  have := mul_le_mul_of_nonneg_right h hp.le
  linarith

theorem units64_relerr {y : ℚ} (hy : 0 ≤ y) : |(units64 y : ℚ) - y| ≤ max y (2 ^ 52) / 2 ^ 53 := by
  refine (units64_err hy).trans ?_
  rw [le_div_iff₀ (by positivity)]
  by_cases h : expo y = 0
  · rw [h]
    refine le_trans (le_of_eq ?_) (le_max_right y (2 ^ 52))
    norm_num
  · have h1 := expo_ge y h
    rw [pow_add] at h1
    refine le_trans ?_ (le_max_left y (2 ^ 52))
    refine le_trans (le_of_eq ?_) h1
    ring

/-! ### The laws, for any exponent range -/

section
variable {e M : Nat}

theorem rndTo_some {q : ℚ} {r : ℚ} (h : rndTo e M q = some r) :
    r = (units64 (q * 2 ^ e) : ℚ) / 2 ^ e ∧ units64 (q * 2 ^ e) < 2 ^ M := by
  unfold rndTo at h
  dsimp only at h
  split at h
  · rename_i hlt; exact ⟨(Option.some.inj h).symm, hlt⟩
  · simp at h

theorem rndTo_of_lt {q : ℚ} (h : units64 (q * 2 ^ e) < 2 ^ M) :
    rndTo e M q = some ((units64 (q * 2 ^ e) : ℚ) / 2 ^ e) := by
  unfold rndTo
  dsimp only
  rw [if_pos h]

theorem rndTo_repr {m j : Nat} (hm : m ≤ 2 ^ 53) (hlt : m * 2 ^ j < 2 ^ M) {q : ℚ}
    (hq : q * 2 ^ e = ((m * 2 ^ j : Nat) : ℚ)) : rndTo e M q = some q := by
  have h : units64 (q * 2 ^ e) = m * 2 ^ j := by rw [hq]; exact units64_fix hm
  rw [rndTo_of_lt (by rw [h]; exact hlt), h, ← hq]
  congr 1
  field_simp

theorem rndTo_repr_form {q : ℚ} (h : rndTo e M q = some q) :
    ∃ m j, m ≤ 2 ^ 53 ∧ m * 2 ^ j < 2 ^ M ∧ q * 2 ^ e = ((m * 2 ^ j : Nat) : ℚ) := by
  obtain ⟨h1, h2⟩ := rndTo_some h
  obtain ⟨m, j, hm, hu⟩ := units64_form (q * 2 ^ e)
  refine ⟨m, j, hm, by omega, ?_⟩
  rw [← hu]
  rw [eq_div_iff (by positivity)] at h1
  exact h1

theorem rndTo_sane (hM : e + 54 ≤ M) : (Arith.mk (rndTo e M)).Sane where
  mono := by
    intro p q b hpq hq
    obtain ⟨h1, h2⟩ := rndTo_some hq
    have hm : units64 (p * 2 ^ e) ≤ units64 (q * 2 ^ e) := units64_mono (by gcongr)
    refine ⟨_, rndTo_of_lt (by omega), ?_⟩
    rw [h1]
    gcongr
  fix := by
    intro n hn
    refine rndTo_repr (m := n) (j := e) hn ?_ (by push_cast; ring)
    calc n * 2 ^ e ≤ 2 ^ 53 * 2 ^ e := Nat.mul_le_mul_right _ hn
      _ = 2 ^ (53 + e) := by rw [pow_add]
      _ < 2 ^ M := Nat.pow_lt_pow_right (by omega) (by omega)

theorem rndTo_close {h l : Nat} (hh : e + h < M) (hl : l + 52 = e) :
    (Arith.mk (rndTo e M)).Close (1 / 2 ^ 53) (1 / 2 ^ l) (2 ^ h) where
  u0 := by positivity
  u1 := by norm_num
  lo0 := by positivity
  err := by
    intro q hq hle
    have hy : 0 ≤ q * 2 ^ e := by positivity
    have hlt : units64 (q * 2 ^ e) < 2 ^ M := by
      have h1 : units64 (q * 2 ^ e) ≤ units64 ((1 * 2 ^ (h + e) : Nat) : ℚ) := by
        apply units64_mono
        push_cast
        rw [one_mul, pow_add]
        gcongr
      rw [units64_fix (Nat.one_le_two_pow)] at h1
      have : (2 : Nat) ^ (h + e) < 2 ^ M := Nat.pow_lt_pow_right (by omega) (by omega)
      omega
    refine ⟨_, rndTo_of_lt hlt, ?_⟩
    have h := units64_relerr hy
    have hp : (0 : ℚ) < 2 ^ e := by positivity
    have e1 : (units64 (q * 2 ^ e) : ℚ) / 2 ^ e - q =
        ((units64 (q * 2 ^ e) : ℚ) - q * 2 ^ e) / 2 ^ e := by field_simp
    rw [e1, abs_div, abs_of_pos hp, div_le_iff₀ hp]
    refine h.trans (le_of_eq ?_)
    have e2 : max (q * 2 ^ e) ((2 : ℚ) ^ 52) = max q (1 / 2 ^ l) * 2 ^ e := by
      rw [max_mul_of_nonneg _ _ hp.le]
      congr 1
      rw [← hl, pow_add]
      field_simp
    rw [e2]
    ring

theorem below_one {m j i : Nat} (hm : m ≤ 2 ^ 53) (h : m * 2 ^ j < 2 ^ (53 + i)) :
    m * 2 ^ j ≤ (2 ^ 53 - 1) * 2 ^ i := by
  rcases Nat.lt_or_ge j i with hj | hj
  · obtain ⟨c, rfl⟩ : ∃ c, i = j + 1 + c := ⟨i - (j + 1), by omega⟩
    have h1 : m * 2 ^ j ≤ 2 ^ 53 * 2 ^ j := Nat.mul_le_mul_right _ hm
    have h2 : (1 : Nat) ≤ 2 ^ c := Nat.one_le_two_pow
    have h3 : (2 ^ 53 - 1) * 2 ^ (j + 1) ≤ (2 ^ 53 - 1) * 2 ^ (j + 1 + c) :=
      Nat.mul_le_mul_left _ (Nat.pow_le_pow_right (by omega) (by omega))
    have h4 : 2 ^ 53 * 2 ^ j ≤ (2 ^ 53 - 1) * 2 ^ (j + 1) := by
      rw [pow_succ 2 j]
      have : 0 < 2 ^ j := by positivity
      omega
    omega
  · obtain ⟨c, rfl⟩ : ∃ c, j = i + c := ⟨j - i, by omega⟩
    rw [show m * 2 ^ (i + c) = m * 2 ^ c * 2 ^ i by rw [pow_add]; ring] at h ⊢
    rw [pow_add] at h
    have h1 := Nat.lt_of_mul_lt_mul_right h
    exact Nat.mul_le_mul_right _ (by omega)

theorem expo_unique {y : ℚ} {k : Nat} (h1 : (2 : ℚ) ^ (52 + k) ≤ y) (h2 : y < 2 ^ (53 + k)) : expo y = k := by
  have h3 := expo_lt y
  have a : 52 + k < 53 + expo y := (pow_lt_pow_iff_right₀ (by norm_num : (1 : ℚ) < 2)).mp (lt_of_le_of_lt h1 h3)
  by_contra hc
  have h4 := expo_ge y (by omega)
  have b : 52 + expo y < 53 + k := (pow_lt_pow_iff_right₀ (by norm_num : (1 : ℚ) < 2)).mp (lt_of_le_of_lt h4 h2)
  omega

/-- Ten times the largest number below one rounds to less than ten. -/
theorem ten_below (i : Nat) : units64 (((2 ^ 53 - 1) * 2 ^ i * 10 : Nat) : ℚ) < 10 * 2 ^ (53 + i) := by
  have hp : (0 : ℚ) < 2 ^ i := by positivity
  have hx : expo (((2 ^ 53 - 1) * 2 ^ i * 10 : Nat) : ℚ) = i + 4 := by
    apply expo_unique
    · push_cast
      rw [show 52 + (i + 4) = i + 56 by omega, pow_add]
      norm_num
      linarith
    · push_cast
      rw [show 53 + (i + 4) = i + 57 by omega, pow_add]
      norm_num
      linarith
  rw [units64_eq, hx]
  have : (((2 ^ 53 - 1) * 2 ^ i * 10 : Nat) : ℚ) / 2 ^ (i + 4) = (2 ^ 53 - 1) * 10 / 16 := by
    push_cast
    rw [pow_add]
    field_simp
    norm_num
  rw [this]
  have : roundHalfEven ((2 ^ 53 - 1) * 10 / 16) = 5629499534213119 := by decide +kernel
  rw [this, pow_add, pow_add]
  have : 0 < 2 ^ i := by positivity
  omega

theorem rndTo_digits (he : 53 ≤ e) (hM : e + 54 ≤ M) : (Arith.mk (rndTo e M)).Digits where
  idem := by
    intro q r h
    obtain ⟨h1, h2⟩ := rndTo_some h
    obtain ⟨m, j, hm, hu⟩ := units64_form (q * 2 ^ e)
    refine rndTo_repr (m := m) (j := j) hm (by omega) ?_
    rw [← hu, h1]
    field_simp
  fract := by
    intro x hx h
    obtain ⟨m, j, hm, hlt, he⟩ := rndTo_repr_form h
    -- in units: remainder modulo 2^e
    have hfr : Int.fract x * 2 ^ e = ((m * 2 ^ j % 2 ^ e : Nat) : ℚ) := by
      have hxe : x = ((m * 2 ^ j : Nat) : ℚ) / ((2 ^ e : Nat) : ℚ) := by
        rw [← he]; push_cast; field_simp
      have hfl : ⌊x⌋ = ((m * 2 ^ j / 2 ^ e : Nat) : Int) := by
        rw [hxe]; exact Rat.floor_natCast_div_natCast _ _
      have hdm := Nat.div_add_mod (m * 2 ^ j) (2 ^ e)
      have hdq : (2 : ℚ) ^ e * ((m * 2 ^ j / 2 ^ e : Nat) : ℚ) + ((m * 2 ^ j % 2 ^ e : Nat) : ℚ) =
          ((m * 2 ^ j : Nat) : ℚ) := by
        exact_mod_cast hdm
      rw [Int.fract, hfl, sub_mul, he, Int.cast_natCast]
      linarith
    rcases Nat.lt_or_ge j e with hj | hj
    · obtain ⟨i, hi⟩ : ∃ i, e = j + i := ⟨e - j, by omega⟩
      have e1 : m * 2 ^ j % 2 ^ e = (m % 2 ^ i) * 2 ^ j := by
        rw [hi, pow_add, mul_comm m, Nat.mul_mod_mul_left, mul_comm]
      rw [e1] at hfr
      have hle : m % 2 ^ i ≤ m := Nat.mod_le _ _
      exact rndTo_repr (hle.trans hm) (lt_of_le_of_lt (Nat.mul_le_mul_right _ hle) hlt) hfr
    · have e1 : m * 2 ^ j % 2 ^ e = 0 := by
        apply Nat.mod_eq_zero_of_dvd
        exact Dvd.dvd.mul_left (Nat.pow_dvd_pow 2 hj) m
      rw [e1] at hfr
      exact rndTo_repr (m := 0) (j := 0) (by omega) (by positivity) (by rw [hfr]; simp)
  lt_ten := by
    intro x hx hx1 h
    obtain ⟨m, j, hm, _, hxe⟩ := rndTo_repr_form h
    obtain ⟨i, rfl⟩ : ∃ i, e = 53 + i := ⟨e - 53, by omega⟩
    have hp : (0 : ℚ) < 2 ^ (53 + i) := by positivity
    have h1 : m * 2 ^ j < 2 ^ (53 + i) := by
      have : x * 2 ^ (53 + i) < 1 * 2 ^ (53 + i) := mul_lt_mul_of_pos_right hx1 hp
      rw [hxe, one_mul] at this
      exact_mod_cast this
    have h2 := below_one hm h1
    have h3 : units64 (x * 10 * 2 ^ (53 + i)) ≤ units64 (((2 ^ 53 - 1) * 2 ^ i * 10 : Nat) : ℚ) := by
      apply units64_mono
      rw [show x * 10 * 2 ^ (53 + i) = x * 2 ^ (53 + i) * 10 by ring, hxe]
      exact_mod_cast Nat.mul_le_mul_right 10 h2
    have h4 := lt_of_le_of_lt h3 (ten_below i)
    refine ⟨_, rndTo_of_lt ?_, ?_⟩
    · refine h4.trans ?_
      calc 10 * 2 ^ (53 + i) < 2 ^ 4 * 2 ^ (53 + i) :=
            Nat.mul_lt_mul_of_pos_right (by norm_num) (by positivity)
        _ = 2 ^ (4 + (53 + i)) := by rw [pow_add 2 4]
        _ ≤ 2 ^ M := Nat.pow_le_pow_right (by omega) (by omega)
    · rw [div_lt_iff₀ hp]
      exact_mod_cast h4

end

/-! ### binary64 -/

theorem binary64_sane : binary64.Sane := rndTo_sane (e := 1074) (M := 2098) (by norm_num)

theorem binary64_close : binary64.Close (1 / 2 ^ 53) (1 / 2 ^ 1022) (2 ^ 1023) :=
  rndTo_close (e := 1074) (M := 2098) (by norm_num) (by norm_num)

theorem binary64_digits : binary64.Digits := rndTo_digits (e := 1074) (M := 2098) (by norm_num) (by norm_num)

end SoDa
