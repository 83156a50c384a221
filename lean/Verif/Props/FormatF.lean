import Verif.Props.Format
import Verif.Proof.Binary64
import Verif.Proof.FormatFRange
import Mathlib.Algebra.Order.Archimedean.Basic
/-!
C19-C24: floating point fields.

`f.addF A fuel radix v fmt w d = some (.ok f')` says that `addF(v, fmt, w, d)` returns normally (each
loop within `fuel` iterations), `= some .ub` that it runs into undefined behaviour; `radix` is the
value of the static variable `Format::separator`.  The claims quantify over the arithmetic `A` where it does not
matter, and are made for `exactArith` and for `binary64` where it does.
-/
namespace SoDa
open Spec

theorem addF_some {A : Arith} {fuel : Nat} {radix : Char} {f f' : Fmt} {v : Dbl} {fmt : Char} {w d : Nat}
    (h : f.addF A fuel radix v fmt w d = some (.ok f')) :
    ∃ t, textF A fuel radix v fmt w d = some (.ok t) ∧ Inserts f f' t := by
  simp only [Fmt.addF, Option.map_eq_some_iff] at h
  obtain ⟨r, hr, h⟩ := h
  cases r with
  | ub => simp at h
  | throw e => exact e.elim
  | ok t =>
    simp only [Res.map_ok, Res.ok.injEq] at h
    exact ⟨t, hr, by rw [← h]; exact inserts_insertField _ _⟩

theorem addF_of_text {A : Arith} {fuel : Nat} {radix : Char} (f : Fmt) {v : Dbl} {fmt : Char} {w d : Nat} {t : Str}
    (h : textF A fuel radix v fmt w d = some (.ok t)) :
    ∃ f', f.addF A fuel radix v fmt w d = some (.ok f') ∧ Inserts f f' t :=
  ⟨f.insertField t, by simp [Fmt.addF, h], inserts_insertField _ _⟩

/-- The inserted text can be read off the format "%0". -/
theorem inserted_text {s t : Str} (h : Inserts (Fmt.mk' "%0".toList) ((Fmt.mk' "%0".toList).insertField s) t) :
    t = s := by
  simp only [Inserts, addS_zero, Res.ok.injEq] at h
  have h6 := congrArg (fun f => f.str false) h
  have h7 : ∀ s : Str, (Fmt.insertField (Fmt.mk' "%0".toList) s).str false = .ok s := by
    have : Fmt.mk' "%0".toList = ⟨"%0".toList, [.fld 0], 0⟩ := by decide
    intro s
    rw [this]
    simp [Fmt.insertField, Fmt.str, Fmt.assemble]
  rw [h7, h7] at h6
  exact Res.ok.inj h6

/-- The field width in effect: `significant_digits + 4` (as `unsigned int`) when the width is 0. -/
def fieldWidth (w d : Nat) : Nat := if w = 0 then (d + 4) % 2 ^ 32 else w

/-! ### C19: NaN and infinities -/

/-- C19. -/
theorem C19_addF_nan_inf (A : Arith) (fuel : Nat) (radix fmt : Char) (w d : Nat) (f : Fmt) (v : Dbl) (name : Str)
    (hv : (v = .nan ∧ name = "nan".toList) ∨ (∃ neg, v = .inf neg ∧ name = "inf".toList)) :
    ∃ f', f.addF A fuel radix v fmt w d = some (.ok f') ∧
      Inserts f f' (name ++ List.replicate (fieldWidth w d - 3) ' ') := by
  rcases hv with ⟨rfl, rfl⟩ | ⟨neg, rfl, rfl⟩
  · exact addF_of_text f (by simp [textF, padTo, padRight, fieldWidth, u32])
  · exact addF_of_text f (by simp [textF, padTo, padRight, fieldWidth, u32])

example : textF binary64 0 '.' (.inf true) 'e' 6 2 = some (.ok "inf   ".toList) := by decide

/-! ### C20: shape and exponent of engineering notation -/

/-- What C20 claims about `addF(v,'e',w,d)` for a value `v ≠ 0` of sign `neg` and magnitude `q`. -/
def C20_claim (A : Arith) (q : ℚ) (w d : Nat) : Prop :=
  ∀ (fuel : Nat) (radix : Char) (neg : Bool) (f f' : Fmt),
    f.addF A fuel radix (.fin neg q) 'e' w d = some (.ok f') →
    ∃ t n, Inserts f f' t ∧ readEng t = some n ∧ n.neg = neg ∧ (3 : Int) ∣ n.exp

/-- C20 for at least one significant digit, whatever the arithmetic (monotone rounding that leaves the
integers alone).  Missing: `d = 0`, where the claim is false (`C20_refuted`). -/
theorem C20_eng_shape_partial (A : Arith) (hA : A.Sane) (q : ℚ) (hq : q ≠ 0) (w d : Nat) (hd : 1 ≤ d) :
    C20_claim A q w d := by
  intro fuel radix neg f f' h
  obtain ⟨t, ht, hi⟩ := addF_some h
  obtain ⟨x, e, r, _, _, _, _, h3, hr⟩ := textF_eng hA hq hd ht
  exact ⟨t, _, hi, hr, rfl, h3⟩

/-- `v = 0`: "0", the separator, `d - 1` zeros (at least one), and exponent 0; the width is ignored. -/
theorem C20_eng_zero (A : Arith) (fuel : Nat) (radix : Char) (neg : Bool) (w d : Nat) (hd : 1 ≤ d) (hd' : d ≤ 2 ^ 31)
    (f : Fmt) :
    ∃ f', f.addF A fuel radix (.fin neg 0) 'e' w d = some (.ok f') ∧
      Inserts f f' (['0', radix] ++ List.replicate (max 1 (d - 1)) '0' ++ "e0".toList) := by
  apply addF_of_text f
  have hm : (d + (u32 - 1)) % u32 = d - 1 := by
    rw [show d + (u32 - 1) = (d - 1) + u32 by simp only [u32]; omega, Nat.add_mod_right]
    exact Nat.mod_eq_of_lt (by simp only [u32]; omega)
  have hs : setwWidth (d - 1) = d - 1 := setwWidth_small (by omega)
  have hp : padRight '0' (d - 1) "0".toList = List.replicate (max 1 (d - 1)) '0' := by
    have : max 1 (d - 1) = 1 + (d - 1 - 1) := by omega
    rw [this]
    simp [padRight, List.replicate_add]
  simp only [textF, show ('e' : Char) ≠ 'f' by decide, show ('e' : Char) ≠ 's' by decide,
    show ('e' : Char) ≠ 'g' by decide, if_false, if_true, hm, hs, hp]
  simp

/-- C20 fails for `d = 0`: `addF(20.0, 'e', 0, 0)` inserts " 0 e+0 ". -/
theorem C20_refuted : ¬ C20_claim binary64 20 0 0 := by
  intro h
  have hrun : (Fmt.mk' "%0".toList).addF binary64 10 '.' (.fin false 20) 'e' 0 0 =
      some (.ok ((Fmt.mk' "%0".toList).insertField " 0 e+0 ".toList)) := by decide +kernel
  obtain ⟨t, n, hi, hr, _⟩ := h _ _ _ _ _ hrun
  have ht : t = " 0 e+0 ".toList := inserted_text hi
  rw [ht] at hr
  have : readEng " 0 e+0 ".toList = none := by decide
  rw [this] at hr
  simp at hr

/-- The hypotheses of C20 are met: 12345.678 with five digits in binary64. -/
example : textF binary64 20 '.' (.fin true (12345678 / 1000)) 'e' 12 5 =
    some (.ok "-12.346e+3    ".toList) := by decide +kernel

/-! ### C21: range of the integer part -/

/-- What C21 claims. -/
def C21_claim (A : Arith) (q : ℚ) (w d : Nat) : Prop :=
  ∀ (fuel : Nat) (radix : Char) (neg : Bool) (f f' : Fmt),
    f.addF A fuel radix (.fin neg q) 'e' w d = some (.ok f') →
    ∃ t n i, Inserts f f' t ∧ readEng t = some n ∧ n.intPart = some i ∧ 1 ≤ i ∧ i ≤ 999

/-- C21 up to one exception: the integer part is 1 to 999, or it is 1000 and all the fraction digits are zero.
The exception happens: `C21_refuted`. -/
theorem C21_eng_int_partial (A : Arith) (hA : A.Sane) (q : ℚ) (hq : q ≠ 0) (w d : Nat) (hd : 1 ≤ d)
    (fuel : Nat) (radix : Char) (neg : Bool) (f f' : Fmt)
    (h : f.addF A fuel radix (.fin neg q) 'e' w d = some (.ok f')) :
    ∃ t n i, Inserts f f' t ∧ readEng t = some n ∧ n.intPart = some i ∧
      1 ≤ i ∧ (i ≤ 999 ∨ (i = 1000 ∧ ∀ c ∈ n.fp, c = '0')) := by
  obtain ⟨t, ht, hi⟩ := addF_some h
  obtain ⟨x, e, r, _, hf, hx1, hx2, h3, hr⟩ := textF_eng hA hq hd ht
  obtain ⟨p1, p2, p3, p4, p5, p6, p7, _⟩ := fractionate_spec hA hx1 hx2 hd hf
  have h1 : 1 ≤ r.intPart := le_trans (one_le_pow₀ (by norm_num)) p1
  refine ⟨t, _, r.intPart.toNat, hi, hr, numeral_toDigits 10 (by omega) (by omega) _, by omega, ?_⟩
  by_cases h9 : r.intPart ≤ 999
  · left; omega
  · right
    refine ⟨by omega, ?_⟩
    have hfl : 1000 ≤ ⌊x⌋ := by
      have := Int.emod_nonneg ⌊x⌋ (show (10 : Int) ^ (r.intWid - d) ≠ 0 by positivity)
      omega
    have hx : x = 1000 := by
      have : (1000 : ℚ) ≤ x := by exact_mod_cast Int.le_floor.mp hfl
      linarith
    have hfr : Int.fract x = 0 := by
      rw [hx]; exact_mod_cast Int.fract_intCast 1000
    rw [hfr, fracLoop_zero hA] at p7
    have hf0 : r.fracPart = 0 := by simpa using p7.symm
    rw [hf0]
    dsimp only
    intro c hc
    split at hc
    · rcases List.mem_append.mp hc with hc | hc
      · exact List.eq_of_mem_replicate hc
      · simpa using hc
    · simp at hc

/-- C21 fails: `addF(995.0, 'e', 0, 2)` inserts " 1000e+0 ". -/
theorem C21_refuted : ¬ C21_claim binary64 995 0 2 := by
  intro h
  have hrun : (Fmt.mk' "%0".toList).addF binary64 10 '.' (.fin false 995) 'e' 0 2 =
      some (.ok ((Fmt.mk' "%0".toList).insertField " 1000e+0 ".toList)) := by decide +kernel
  obtain ⟨t, n, i, hi, hr, hn, _, h9⟩ := h _ _ _ _ _ hrun
  have ht : t = " 1000e+0 ".toList := inserted_text hi
  rw [ht] at hr
  have h8 : readEng " 1000e+0 ".toList = some ⟨false, "1000".toList, [], 0⟩ := by decide
  rw [h8] at hr
  rw [← Option.some.inj hr] at hn
  have h10 : Eng.intPart ⟨false, "1000".toList, [], 0⟩ = some 1000 := by decide
  rw [h10] at hn
  have := Option.some.inj hn
  omega

/-! ### C22: accuracy of engineering notation -/

/-- What C22 claims about a magnitude `q` whose leading digit stands for `10^k`: the printed number is
within half a unit of the `d`-th significant digit, that is `10^(k+1-d) / 2`. -/
def C22_claim (A : Arith) (q : ℚ) (w d : Nat) : Prop :=
  ∀ (fuel : Nat) (radix : Char) (neg : Bool) (f f' : Fmt) (k : Int), (10 : ℚ) ^ k ≤ q → q < 10 ^ (k + 1) →
    f.addF A fuel radix (.fin neg q) 'e' w d = some (.ok f') →
    ∃ t n v, Inserts f f' t ∧ readEng t = some n ∧ n.neg = neg ∧ n.value = some v ∧
      |v - q| ≤ (10 : ℚ) ^ (k + 1 - d) / 2

theorem half_unit (k : Int) (d : Nat) : 5 * (10 : ℚ) ^ k / 10 ^ d = (10 : ℚ) ^ (k + 1 - d) / 2 := by
  rw [zpow_sub₀ (by norm_num), zpow_add₀ (by norm_num), zpow_natCast]
  ring

theorem exact_setting (q : ℚ) (hq : 0 < q) (d : Nat) (hd : 1 ≤ d) (hd' : d < 2 ^ 31) :
    ∃ L, 1 / 10 ^ L ≤ q ∧ q ≤ 10 ^ L ∧ Setting exactArith 0 0 (10 ^ (L + 3)) 0 L (3 * L + d + 10) d := by
  obtain ⟨a, ha⟩ := pow_unbounded_of_one_lt q (show (1 : ℚ) < 10 by norm_num)
  obtain ⟨b, hb⟩ := pow_unbounded_of_one_lt (1 / q) (show (1 : ℚ) < 10 by norm_num)
  refine ⟨a + b, ?_, ?_, ?_⟩
  · have h1 : 1 / q ≤ 10 ^ (a + b) := hb.le.trans (pow_le_pow_right₀ (by norm_num) (by omega))
    rw [div_le_iff₀ hq] at h1
    rw [div_le_iff₀ (by positivity)]
    linarith
  · exact ha.le.trans (pow_le_pow_right₀ (by norm_num) (by omega))
  · constructor
    · exact exactArith_sane
    · exact ⟨le_refl _, by norm_num, le_refl _, fun q _ _ => ⟨q, rfl, by simp⟩⟩
    · positivity
    · positivity
    · exact le_refl _
    · exact le_refl _
    · simp
    · simp
    · exact le_refl _
    · positivity
    · exact hd
    · exact hd'

/-- C22 holds of the algorithm: with exact arithmetic every positive value and every number of digits (that is
an `int`). -/
theorem C22_eng_exact (q : ℚ) (hq : 0 < q) (w d : Nat) (hd : 1 ≤ d) (hd' : d < 2 ^ 31) :
    C22_claim exactArith q w d := by
  intro fuel radix neg f f' k hk hk' h
  obtain ⟨t, ht, hi⟩ := addF_some h
  obtain ⟨L, h1, h2, S⟩ := exact_setting q hq d hd hd'
  obtain ⟨n, v, hr, hneg, hv, herr⟩ := eng_accurate S exactArith_digits h1 h2 ht hk'
  refine ⟨t, n, v, hi, hr, hneg, hv, ?_⟩
  rw [half_unit] at herr
  simpa using herr

set_option exponentiation.threshold 2000 in
theorem binary64_setting (d : Nat) (hd : 1 ≤ d) (hd9 : d ≤ 9) :
    Setting binary64 (1 / 2 ^ 53) (1 / 2 ^ 1022) (2 ^ 1023) (2 / 10 ^ 13) 304 931 d := by
  have hpow : ∀ m n : Nat, m ≤ n → (10 : ℚ) ^ m ≤ 10 ^ n := fun m n h => pow_le_pow_right₀ (by norm_num) h
  constructor
  · exact binary64_sane
  · exact binary64_close
  · norm_num
  · have := hpow (d + 3) 12 (by omega)
    calc (1 : ℚ) / 2 ^ 1022 ≤ 1 / 10 ^ 12 := by norm_num
      _ ≤ 1 / 10 ^ (d + 3) := one_div_le_one_div_of_le (by positivity) this
  · norm_num
  · omega
  · have := one_add_mul_le_pow (show (-2 : ℚ) ≤ -(1 / 2 ^ 53) by norm_num) 931
    rw [← sub_eq_add_neg] at this
    refine le_trans ?_ this
    norm_num
  · -- (1+u)^N (1-u)^N ≤ 1
    have h1 := one_add_mul_le_pow (show (-2 : ℚ) ≤ -(1 / 2 ^ 53) by norm_num) 931
    rw [← sub_eq_add_neg] at h1
    have h2 : ((1 : ℚ) + 1 / 2 ^ 53) ^ 931 * (1 - 1 / 2 ^ 53) ^ 931 ≤ 1 := by
      rw [← mul_pow]
      exact pow_le_one₀ (by norm_num) (by norm_num)
    have h3 : (0 : ℚ) ≤ (1 + 1 / 2 ^ 53) ^ 931 := by positivity
    generalize ((1 : ℚ) + 1 / 2 ^ 53) ^ 931 = X at h2 h3 ⊢
    generalize ((1 : ℚ) - 1 / 2 ^ 53) ^ 931 = Y at h1 h2
    have h4 : X * (1 + ((931 : Nat) : ℚ) * -(1 / 2 ^ 53)) ≤ 1 := le_trans (mul_le_mul_of_nonneg_left h1 h3) h2
    norm_num at h4 ⊢
    linarith
  · norm_num
  · have := hpow (d + 3) 12 (by omega)
    calc (2 : ℚ) / 10 ^ 13 ≤ 1 / 10 ^ 12 := by norm_num
      _ ≤ 1 / 10 ^ (d + 3) := one_div_le_one_div_of_le (by positivity) this
  · exact hd
  · omega

/-- C22 for `double`s: magnitudes from 1e-304 to 1e304, up to nine digits, within 0.502 units of the last
digit.  Missing: the last 0.002 units; larger and smaller magnitudes (`C22_refuted`: for the smallest ones the error
reaches 0.6 units); more digits (where `frac_part` may overflow). -/
theorem C22_eng_binary64_partial (q : ℚ) (hq1 : 1 / 10 ^ 304 ≤ q) (hq2 : q ≤ 10 ^ 304) (w d : Nat) (hd : 1 ≤ d)
    (hd9 : d ≤ 9) (fuel : Nat) (radix : Char) (neg : Bool) (f f' : Fmt) (k : Int)
    (hk' : q < 10 ^ (k + 1))
    (h : f.addF binary64 fuel radix (.fin neg q) 'e' w d = some (.ok f')) :
    ∃ t n v, Inserts f f' t ∧ readEng t = some n ∧ n.neg = neg ∧ n.value = some v ∧
      |v - q| ≤ 502 / 1000 * (10 : ℚ) ^ (k + 1 - d) := by
  obtain ⟨t, ht, hi⟩ := addF_some h
  obtain ⟨n, v, hr, hneg, hv, herr⟩ :=
    eng_accurate (binary64_setting d hd hd9) binary64_digits hq1 hq2 ht hk'
  refine ⟨t, n, v, hi, hr, hneg, hv, herr.trans ?_⟩
  rw [half_unit]
  have e1 : (10 : ℚ) ^ (k + 1 - d) * 10 ^ d = 10 ^ (k + 1) := by
    rw [← zpow_natCast, ← zpow_add₀ (by norm_num)]; congr 1; ring
  have e2 : (10 : ℚ) ^ d ≤ 10 ^ 9 := pow_le_pow_right₀ (by norm_num) hd9
  have e3 : (0 : ℚ) < 10 ^ (k + 1 - d) := by positivity
  have e4 : (10 : ℚ) ^ (k + 1) ≤ 10 ^ (k + 1 - d) * 10 ^ 9 := by rw [← e1]; gcongr
  have e5 : 10 * (2 / 10 ^ 13) * q ≤ 2 / 10 ^ 12 * (10 : ℚ) ^ (k + 1) := by
    have : 10 * (2 / 10 ^ 13) * q = 2 / 10 ^ 12 * q := by ring
    rw [this]; gcongr
  norm_num at e4 e5 ⊢
  linarith

/-- The hypotheses are met. -/
example : textF binary64 20 '.' (.fin false 31416) 'e' 0 3 = some (.ok " 31.4e+3 ".toList) := by decide +kernel

/-- C22 fails for the double `2^-1072` (1.976...e-323, four times the smallest positive one): with three digits the
text is " 19.7e-324". -/
theorem C22_refuted : ¬ C22_claim binary64 (dblMag 0 4) 0 3 := by
  intro h
  have hrun : (Fmt.mk' "%0".toList).addF binary64 400 '.' (.fin false (dblMag 0 4)) 'e' 0 3 =
      some (.ok ((Fmt.mk' "%0".toList).insertField " 19.7e-324".toList)) := by decide +kernel
  obtain ⟨t, n, v, hi, hr, _, hv, h9⟩ := h _ _ _ _ _ (-323) (by decide +kernel) (by decide +kernel) hrun
  have ht : t = " 19.7e-324".toList := inserted_text hi
  rw [ht] at hr
  have h8 : readEng " 19.7e-324".toList = some ⟨false, "19".toList, "7".toList, -324⟩ := by decide
  rw [h8] at hr
  rw [← Option.some.inj hr] at hv
  have h10 : Eng.value ⟨false, "19".toList, "7".toList, -324⟩ = some (197 / 10 * 10 ^ (-324 : Int)) := by
    decide +kernel
  rw [h10] at hv
  rw [← Option.some.inj hv] at h9
  have h11 : ¬ |(197 / 10 * 10 ^ (-324 : Int) - dblMag 0 4 : ℚ)| ≤ (10 : ℚ) ^ (-323 + 1 - ((3 : Nat) : Int)) / 2 := by
    decide +kernel
  exact h11 h9

/-! ### C23: termination of engineering notation -/

/-- What C23 claims: with enough iterations the call returns. -/
def C23_claim (A : Arith) (q : ℚ) (w d : Nat) : Prop :=
  ∀ (radix : Char) (neg : Bool) (f : Fmt), ∃ fuel f', f.addF A fuel radix (.fin neg q) 'e' w d = some (.ok f')

/-- With exact arithmetic the call stops for every positive value (more digits: C117). -/
theorem C23_eng_exact (q : ℚ) (hq : 0 < q) (w d : Nat) (hd10 : d ≤ 10) : C23_claim exactArith q w d := by
  intro radix neg f
  obtain ⟨L, h1, h2, S⟩ := exact_setting q hq 1 (by omega) (by omega)
  obtain ⟨t, ht⟩ := eng_runs S exactArith_digits h1 h2 (le_refl _) hd10 radix neg w
  obtain ⟨f', hf', _⟩ := addF_of_text f ht
  exact ⟨_, f', hf'⟩

/-! ### C21, exactly -/

/-- After scaling down the value is more than 1, after scaling up it is less than 1000. -/
theorem log1k_exact_ends {fuel : Nat} {q x : ℚ} {d : Nat} {e : Int}
    (h : log1k exactArith fuel q d = some (some x, e)) : (e < 0 → x < 1000) ∧ (0 < e → 1 < x) := by
  simp only [log1k, Option.bind_eq_some_iff] at h
  obtain ⟨s1, _, s2, _, h⟩ := h
  generalize exactArith.mul _ _ = v at h
  split at h
  · rename_i hlt
    have := whileFuel_inv _ _ (fun s : Mag × Int => s.2 ≤ 0 ∧ ∃ x, s.1 = some x ∧ x < 1000)
      (by
        rintro ⟨v, e⟩ ⟨he, x, hx, _⟩ hc
        dsimp only at he hx hc ⊢
        subst hx
        simp only [Mag.lt, decide_eq_true_eq] at hc
        exact ⟨by omega, x * 1000, rfl, by linarith⟩)
      _ _ _ (by
        cases v with
        | none => simp [Mag.lt] at hlt
        | some y =>
          simp only [Mag.lt, decide_eq_true_eq] at hlt
          exact ⟨le_refl _, y, rfl, by linarith⟩) h
    obtain ⟨⟨h1, y, h2, h3⟩, _⟩ := this
    simp only [Option.some.injEq] at h2
    subst h2
    exact ⟨fun _ => h3, fun h => absurd h (by simpa using h1)⟩
  · have := whileFuel_inv _ _ (fun s : Mag × Int => 0 ≤ s.2 ∧ (0 < s.2 → ∀ x, s.1 = some x → 1 < x))
      (by
        rintro ⟨v, e⟩ ⟨he, _⟩ hc
        dsimp only at he hc ⊢
        refine ⟨by omega, fun _ x hx => ?_⟩
        cases v with
        | none => simp [Arith.divc] at hx
        | some y =>
          simp only [Mag.gt, decide_eq_true_eq] at hc
          simp only [Arith.divc, exactArith, Option.some.injEq] at hx
          rw [← hx]
          linarith)
      _ _ _ ⟨le_refl _, fun h => absurd h (by simp)⟩ h
    obtain ⟨⟨h1, h2⟩, _⟩ := this
    exact ⟨fun h => absurd h (by simpa using h1), fun h => h2 h x rfl⟩

theorem no_power_between {κ m : Int} (h1 : (10 : ℚ) ^ κ < 10 ^ m) (h2 : (10 : ℚ) ^ m < 10 ^ (κ + 1)) : False := by
  rw [zpow_lt_zpow_iff_right₀ (by norm_num)] at h1 h2
  omega

/-- With exact arithmetic `log1k` returns the value plus half a unit of the last digit (for powers of ten the unit may be
ten times smaller). -/
theorem log1k_exact_sum {fuel : Nat} {q x : ℚ} {d : Nat} {e k : Int} (hd : 1 ≤ d) (hd' : d < 2 ^ 31)
    (hk : (10 : ℚ) ^ k ≤ q) (hk' : q < 10 ^ (k + 1)) (h : log1k exactArith fuel q d = some (some x, e)) :
    x * 10 ^ e = q + 10 ^ (k + 1 - d) / 2 ∨ (q = 10 ^ k ∧ x * 10 ^ e = q + 10 ^ (k - d) / 2) := by
  have hq : 0 < q := lt_of_lt_of_le (by positivity) hk
  obtain ⟨L, h1, h2, S⟩ := exact_setting q hq d hd hd'
  obtain ⟨x', e', k', a, hl', na, ha1, ha2, nx⟩ := log1k_spec S h1 h2 (fuel + (L + 4)) (by omega) (le_refl d)
  rw [log1k_mono (L + 4) h] at hl'
  obtain ⟨rfl, rfl⟩ : x = x' ∧ e = e' := by simpa using hl'
  have ea : a = q / 10 ^ k' := by
    have := na.1; have := na.2
    simp at *; linarith
  have ex : x = (q + 5 * 10 ^ k' / 10 ^ d) / 10 ^ e := by
    have := nx.1; have := nx.2
    simp at *; linarith
  have he : (10 : ℚ) ^ e ≠ 0 := by positivity
  have hsum : x * 10 ^ e = q + 10 ^ (k' + 1 - d) / 2 := by
    rw [ex, div_mul_cancel₀ _ he, half_unit]
  have hkp : (0 : ℚ) < 10 ^ k' := by positivity
  rw [ea, le_div_iff₀ hkp, one_mul] at ha1
  rw [ea, div_le_iff₀ hkp] at ha2
  have e1 : (10 : ℚ) ^ (k' + 1) = 10 * 10 ^ k' := by rw [zpow_add_one₀ (by norm_num), mul_comm]
  rw [← e1] at ha2
  have l1 : k' < k + 1 := (zpow_lt_zpow_iff_right₀ (by norm_num : (1 : ℚ) < 10)).1 (lt_of_le_of_lt ha1 hk')
  have l2 : k ≤ k' + 1 := (zpow_le_zpow_iff_right₀ (by norm_num : (1 : ℚ) < 10)).1 (hk.trans ha2)
  rcases (show k' = k ∨ k' = k - 1 by omega) with rfl | rfl
  · exact .inl hsum
  · right
    rw [sub_add_cancel] at ha2 hsum
    exact ⟨le_antisymm ha2 hk, hsum⟩

/-- Exactly when C21 holds of the algorithm (exact arithmetic): unless the value lies just in the middle between two
texts of `d` digits, the larger of them a power of 1000. -/
theorem C21_exact (q : ℚ) (w d : Nat) (hd : 1 ≤ d) (hd10 : d ≤ 10) (k : Int) (hk : (10 : ℚ) ^ k ≤ q)
    (hk' : q < 10 ^ (k + 1)) :
    C21_claim exactArith q w d ↔ ¬ ∃ j : Nat, q + 10 ^ (k + 1 - d) / 2 = (1000 : ℚ) ^ (j + 1) := by
  have hq : 0 < q := lt_of_lt_of_le (by positivity) hk
  have hkp : (0 : ℚ) < 10 ^ k := by positivity
  have hk1 : (10 : ℚ) ^ (k + 1) = 10 * 10 ^ k := by rw [zpow_add_one₀ (by norm_num), mul_comm]
  have hpow : ∀ j : Nat, (1000 : ℚ) ^ j = 10 ^ (3 * (j : Int)) := by
    intro j; rw [zpow_mul]; norm_num
  -- a power of ten is no tie
  have hunit : ∀ m : Int, m ≤ k → (0 : ℚ) < 10 ^ m / 2 ∧ (10 : ℚ) ^ m / 2 < 9 * 10 ^ k := by
    intro m hm
    have h1 : (10 : ℚ) ^ m ≤ 10 ^ k := zpow_le_zpow_right₀ (by norm_num) hm
    have h2 : (0 : ℚ) < 10 ^ m := by positivity
    exact ⟨by linarith, by linarith⟩
  have hnot : q = 10 ^ k → ∀ m n : Int, m ≤ k → q + 10 ^ m / 2 ≠ 10 ^ n := by
    intro hqk m n hm heq
    obtain ⟨u1, u2⟩ := hunit m hm
    refine no_power_between (κ := k) (m := n) ?_ ?_ <;> rw [← heq] <;> linarith
  -- the scaled value is 1000 exactly for the ties
  have key : ∀ fuel x e, log1k exactArith fuel q d = some (some x, e) → 1 ≤ x → x ≤ 1000 →
      (x = 1000 ↔ ∃ j : Nat, q + 10 ^ (k + 1 - d) / 2 = (1000 : ℚ) ^ (j + 1)) := by
    intro fuel x e hl hx1 hx2
    obtain ⟨en1, en2⟩ := log1k_exact_ends hl
    have h3 := log1k_three hl
    have hep : (0 : ℚ) < 10 ^ e := by positivity
    have hsum := log1k_exact_sum hd (by omega) hk hk' hl
    have h1000 : (1000 : ℚ) * 10 ^ e = 10 ^ (e + 3) := by rw [zpow_add₀ (by norm_num)]; norm_num; ring
    constructor
    · rintro rfl
      have he0 : 0 ≤ e := by by_contra hc; have := en1 (by omega); linarith
      rcases hsum with hs | ⟨hqk, hs⟩
      · obtain ⟨j, hj⟩ : ∃ j : Nat, e = 3 * (j : Int) := ⟨(e / 3).toNat, by omega⟩
        refine ⟨j, ?_⟩
        rw [← hs, h1000, hpow, hj]
        congr 1
      · exact absurd (hs.symm.trans h1000) (hnot hqk _ _ (by omega))
    · rintro ⟨j, hj⟩
      rcases hsum with hs | ⟨hqk, hs⟩
      · rw [hj, hpow] at hs
        have hle : (10 : ℚ) ^ e ≤ 10 ^ (3 * ((j + 1 : Nat) : Int)) := by rw [← hs]; nlinarith
        have hge : (10 : ℚ) ^ (3 * ((j + 1 : Nat) : Int)) ≤ 10 ^ (e + 3) := by rw [← hs, ← h1000]; nlinarith
        rw [zpow_le_zpow_iff_right₀ (by norm_num)] at hle hge
        rcases (show e = 3 * (j : Int) ∨ e = 3 * ((j : Int) + 1) by omega) with he | he
        · have : x * 10 ^ e = 1000 * 10 ^ e := by
            rw [hs, h1000, he]; congr 1
          exact mul_right_cancel₀ hep.ne' this
        · have : x * 10 ^ e = 1 * 10 ^ e := by rw [hs, he, one_mul]; congr 1
          have hx := mul_right_cancel₀ hep.ne' this
          have := en2 (by omega)
          linarith
      · rw [hpow] at hj
        exact absurd hj (hnot hqk _ _ (by omega))
  constructor
  · intro hc htie
    obtain ⟨fuel, f', hrun⟩ := C23_eng_exact q hq w d hd10 '.' false (Fmt.mk' "%0".toList)
    obtain ⟨t, ht, hi⟩ := addF_some hrun
    obtain ⟨t', n, i, hi', hr', hn, _, h9⟩ := hc _ _ _ _ _ hrun
    obtain rfl : t = t' := by
      simp only [Inserts, addS_zero, Res.ok.injEq] at hi hi'
      exact insert_hole_inj _ _ (hi.trans hi'.symm)
    obtain ⟨x, e, r, hl, hf, hx1, hx2, _, hr⟩ := textF_eng exactArith_sane hq.ne' hd ht
    have hx := (key fuel x e hl hx1 hx2).2 htie
    obtain ⟨p1, p2, p3, p4, p5, _⟩ := fractionate_spec exactArith_sane hx1 hx2 hd hf
    have hfl : ⌊x⌋ = 1000 := by rw [hx]; exact_mod_cast Int.floor_intCast 1000
    have hip : r.intPart = 1000 := by
      have h2 : r.intWid - d = 0 ∨ r.intWid - d = 1 ∨ r.intWid - d = 2 := by omega
      rw [p5, hfl]
      rcases h2 with h | h | h <;> rw [h] <;> norm_num
    rw [hr] at hr'
    rw [← Option.some.inj hr'] at hn
    simp only [Eng.intPart, hip] at hn
    have h10 : numeral 10 (Nat.toDigits 10 (1000 : Int).toNat) = some 1000 := by decide
    rw [h10] at hn
    have := Option.some.inj hn
    omega
  · intro hnt fuel radix neg f f' h
    obtain ⟨t, ht, hi⟩ := addF_some h
    obtain ⟨x, e, r, hl, hf, hx1, hx2, h3, hr⟩ := textF_eng exactArith_sane hq.ne' hd ht
    obtain ⟨p1, p2, p3, p4, p5, _⟩ := fractionate_spec exactArith_sane hx1 hx2 hd hf
    have h1 : 1 ≤ r.intPart := le_trans (one_le_pow₀ (by norm_num)) p1
    refine ⟨t, _, r.intPart.toNat, hi, hr, numeral_toDigits 10 (by omega) (by omega) _, by omega, ?_⟩
    by_contra h9
    have hfl : 1000 ≤ ⌊x⌋ := by
      have := Int.emod_nonneg ⌊x⌋ (show (10 : Int) ^ (r.intWid - d) ≠ 0 by positivity)
      omega
    have hx : x = 1000 := by
      have : (1000 : ℚ) ≤ x := by exact_mod_cast Int.le_floor.mp hfl
      linarith
    exact hnt ((key fuel x e hl hx1 hx2).1 hx)

example : ¬ C21_claim exactArith 999500 0 3 ∧ C21_claim exactArith 999499 0 3 := by
  constructor
  · rw [C21_exact 999500 0 3 (by norm_num) (by norm_num) 5 (by norm_num) (by norm_num)]
    exact not_not.2 ⟨1, by norm_num⟩
  · rw [C21_exact 999499 0 3 (by norm_num) (by norm_num) 5 (by norm_num) (by norm_num)]
    rintro ⟨j, hj⟩
    norm_num at hj
    rcases (show j = 0 ∨ j = 1 ∨ 2 ≤ j by omega) with rfl | rfl | h
    · norm_num at hj
    · norm_num at hj
    · have : (1000 : ℚ) ^ 3 ≤ 1000 ^ (j + 1) := pow_le_pow_right₀ (by norm_num) (by omega)
      norm_num at this
      linarith

/-- C23 for doubles of magnitude 1e-304 to 1e304 and at most ten digits: the call returns, with no loop running more
than 308 times.  Missing: magnitudes outside, where the claim is false for some (`C23_refuted_small`,
`C23_refuted_large`); and more than ten digits (`C23_eng_stops_partial`, C117). -/
theorem C23_eng_returns_partial (q : ℚ) (hq1 : 1 / 10 ^ 304 ≤ q) (hq2 : q ≤ 10 ^ 304) (w d : Nat) (hd10 : d ≤ 10)
    (radix : Char) (neg : Bool) (f : Fmt) :
    ∃ f', f.addF binary64 308 radix (.fin neg q) 'e' w d = some (.ok f') := by
  obtain ⟨t, ht⟩ := eng_runs (binary64_setting 1 (by omega) (by omega)) binary64_digits hq1 hq2
    (fuel := 308) (by omega) hd10 radix neg w
  obtain ⟨f', hf', _⟩ := addF_of_text f ht
  exact ⟨f', hf'⟩

/-- For any number of digits the call stops (for eleven digits and more it may do so with undefined behaviour). -/
theorem C23_eng_stops_partial (q : ℚ) (hq1 : 1 / 10 ^ 304 ≤ q) (hq2 : q ≤ 10 ^ 304) (w d : Nat)
    (radix : Char) (neg : Bool) (f : Fmt) :
    (f.addF binary64 308 radix (.fin neg q) 'e' w d).isSome := by
  obtain ⟨r, hr⟩ := eng_stops (binary64_setting 1 (by omega) (by omega)) hq1 hq2
    (fuel := 308) (by omega) radix neg w d
  simp [Fmt.addF, hr]

theorem addF_hangs (A : Arith) (q : ℚ) (hq : q ≠ 0) (d : Nat) (h : ∀ fuel, log1k A fuel q d = none)
    (w fuel : Nat) (radix : Char) (neg : Bool) (f : Fmt) :
    f.addF A fuel radix (.fin neg q) 'e' w d = none := by
  simp [Fmt.addF, textF, hq, h]

/-- C23, for all doubles and any number of digits: the exact range.  The call comes to an end if the magnitude is more
than two units of `2^-1074` and less than `hangFrom d` (a table of doubles, all between 9.99e307 and the largest double);
then no loop runs more than 400 times, and up to ten digits the call returns normally.  For every other finite nonzero
double it never ends.  Missing: the claim is false for the latter; undefined behaviour from eleven digits on (C117). -/
theorem C23_eng_range_partial (b m : Nat) (hb : b < 2047) (hm : m < 2 ^ 52) (h0 : 0 < dblMag b m) (w d : Nat)
    (hd : d < 2 ^ 31) (radix : Char) (neg : Bool) (f : Fmt) :
    (2 / 2 ^ 1074 < dblMag b m ∧ dblMag b m < hangFrom d →
      (f.addF binary64 400 radix (.fin neg (dblMag b m)) 'e' w d).isSome ∧
      (d ≤ 10 → ∃ f', f.addF binary64 400 radix (.fin neg (dblMag b m)) 'e' w d = some (.ok f'))) ∧
    (¬ (2 / 2 ^ 1074 < dblMag b m ∧ dblMag b m < hangFrom d) →
      ∀ fuel, f.addF binary64 fuel radix (.fin neg (dblMag b m)) 'e' w d = none) := by
  have key := log1k_range64 (d := d) hb hm h0
  rw [show loopCount d = d from setwWidth_small hd] at key
  generalize dblMag b m = q at *
  generalize hangFrom d = T at *
  constructor
  · intro h
    rw [if_pos h] at key
    obtain ⟨⟨x, e⟩, hl⟩ := Option.isSome_iff_exists.1 key
    obtain ⟨x', hx', hx1, hx2⟩ := log1k_range binary64_sane hl
    subst hx'
    have S := binary64_setting 1 (by omega) (by omega)
    obtain ⟨iw, hw, _⟩ := getIntPartWidth_run S hx1 hx2 400 (by omega)
    constructor
    · simp [Fmt.addF, textF, h0.ne', hl, fractionate, hw]
    · intro hd10
      obtain ⟨r, hr⟩ := fractionate_runs S binary64_digits hx1 hx2 (log1k_repr binary64_digits hl) (fuel := 400)
        (by omega) hd10
      have : ∃ t, textF binary64 400 radix (.fin neg q) 'e' w d = some (.ok t) := by
        simp [textF, h0.ne', hl, hr]
      obtain ⟨t, ht⟩ := this
      obtain ⟨f', hf', _⟩ := addF_of_text f ht
      exact ⟨f', hf'⟩
  · intro h
    rw [if_neg h] at key
    intro fuel
    exact addF_hangs _ _ h0.ne' d key w fuel radix neg f

/-- Both cases occur: `1.0` is in the range, the largest double is not. -/
example : 0 < dblMag 1023 0 ∧ 2 / 2 ^ 1074 < dblMag 1023 0 ∧ dblMag 1023 0 < hangFrom 6 ∧
    ¬ dblMag 2046 (2 ^ 52 - 1) < hangFrom 6 := by decide +kernel

/-- The limits for the default of six digits: 9.9e-324 and 1.7976881e308. -/
example : 2 / 2 ^ 1074 < (99 / 10 ^ 325 : ℚ) ∧ 1.7976881 * 10 ^ 308 < hangFrom 6 ∧ hangFrom 6 < 1.7976882 * 10 ^ 308 := by
  decide +kernel

/-- C23 fails for the smallest positive double `2^-1074`: the call never returns, for any width. -/
theorem C23_refuted_small (w fuel : Nat) (radix : Char) (neg : Bool) (f : Fmt) :
    f.addF binary64 fuel radix (.fin neg (dblMag 0 1)) 'e' w 3 = none :=
  (C23_eng_range_partial 0 1 (by norm_num) (by norm_num) (by decide +kernel) w 3 (by norm_num) radix neg f).2
    (by decide +kernel) fuel

/-- C23 fails for the largest double: the call never returns, for any width. -/
theorem C23_refuted_large (w fuel : Nat) (radix : Char) (neg : Bool) (f : Fmt) :
    f.addF binary64 fuel radix (.fin neg (dblMag 2046 (2 ^ 52 - 1))) 'e' w 3 = none :=
  (C23_eng_range_partial 2046 (2 ^ 52 - 1) (by norm_num) (by norm_num) (by decide +kernel) w 3 (by norm_num) radix neg
    f).2 (by decide +kernel) fuel

/-! ### C24: fixed notation -/

/-- C24.  The text is a sign, an integer part without superfluous zeros, and `d` fraction digits after a point (no
point when `d = 0`); read as a number it is within half a unit of the last place of the value. -/
theorem C24_addF_fixed (A : Arith) (fuel : Nat) (radix : Char) (neg : Bool) (q : ℚ) (hq : 0 ≤ q) (w d : Nat)
    (hw : w < 2 ^ 31) (hd : d + 4 < 2 ^ 31) (f : Fmt) :
    ∃ f' ip fp n, f.addF A fuel radix (.fin neg q) 'f' w d = some (.ok f') ∧
      (let body := (if neg then ['-'] else []) ++ ip ++ (if d = 0 then [] else '.' :: fp)
       Inserts f f' (body ++ List.replicate ((if w = 0 then d + 4 else w) - body.length) ' ')) ∧
      NoLeadingZero ip ∧ fp.length = d ∧ numeral 10 (ip ++ fp) = some n ∧
      |(n : ℚ) / 10 ^ d - q| ≤ 1 / 10 ^ d / 2 := by
  set n := roundHalfEven (q * 10 ^ d) with hn
  have hprec : precision d = d := by
    have : d % u32 = d := Nat.mod_eq_of_lt (by simp only [u32]; omega)
    simp only [precision, this]
    rw [if_pos (by omega)]
  set body : Str := (if neg then ['-'] else []) ++ Nat.toDigits 10 (n / 10 ^ d) ++
    (if d = 0 then [] else '.' :: padLeft '0' d (Nat.toDigits 10 (n % 10 ^ d))) with hbody
  have hshow : showFixed neg q d = body := by
    unfold showFixed showScaled
    rw [← hn, hbody]
    by_cases h0 : d = 0
    · subst h0; simp
    · simp [h0]
  have htext : textF A fuel radix (.fin neg q) 'f' w d =
      some (.ok (body ++ List.replicate ((if w = 0 then d + 4 else w) - body.length) ' ')) := by
    have hm : (d + 4) % u32 = d + 4 := Nat.mod_eq_of_lt (by simp only [u32]; omega)
    simp only [textF, if_true, hprec, hshow, hm, padRight]
    by_cases h0 : w = 0
    · simp [h0, setwWidth_small (show d + 4 < 2 ^ 31 by omega)]
    · simp [h0, setwWidth_small hw]
  obtain ⟨f', hf', hi⟩ := addF_of_text f htext
  have hlt : n % 10 ^ d < 10 ^ d := Nat.mod_lt _ (by positivity)
  have hval : (n : ℚ) / 10 ^ d - q = ((n : ℚ) - q * 10 ^ d) / 10 ^ d := by field_simp
  have herr : |(n : ℚ) / 10 ^ d - q| ≤ 1 / 10 ^ d / 2 := by
    rw [hval, abs_div, abs_of_pos (show (0 : ℚ) < 10 ^ d by positivity)]
    have := rhe_err (q := q * 10 ^ d) (by positivity)
    rw [← hn] at this
    rw [div_right_comm]
    gcongr
  by_cases h0 : d = 0
  · refine ⟨f', Nat.toDigits 10 n, [], n, hf', ?_, toDigits_noLeadingZero _, by simp [h0],
      by simpa using numeral_toDigits 10 (by omega) (by omega) n, herr⟩
    have : body = (if neg then ['-'] else []) ++ Nat.toDigits 10 n ++ (if d = 0 then [] else '.' :: []) := by
      rw [hbody]; simp [h0]
    rw [← this]; exact hi
  · refine ⟨f', Nat.toDigits 10 (n / 10 ^ d), padLeft '0' d (Nat.toDigits 10 (n % 10 ^ d)), n, hf', hi,
      toDigits_noLeadingZero _, length_padLeft_digits hlt (by omega), ?_, herr⟩
    have h2 : numeral 10 (padLeft '0' d (Nat.toDigits 10 (n % 10 ^ d))) = some (n % 10 ^ d) := by
      rw [padLeft, numeral_zeros _ (by omega) _ _ Nat.toDigits_ne_nil, numeral_toDigits _ (by omega) (by omega)]
    rw [numeral_append (numeral_toDigits 10 (by omega) (by omega) _) h2, length_padLeft_digits hlt (by omega)]
    rw [Nat.div_add_mod' n (10 ^ d)]

example : textF binary64 0 '.' (.fin true (355 / 113)) 'f' 10 3 = some (.ok "-3.142    ".toList) := by
  decide +kernel

end SoDa
