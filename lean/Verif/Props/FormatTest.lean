import Verif.Model.FormatTest
import Verif.Proof.FormatFRel
import Verif.Props.OptionsNum
/-!
C88: numbers printed and read back, and the test program `test/FormatTest.cxx` that checks this for random numbers.
-/
namespace SoDa
open Spec Opts

theorem begins_nonneg {s : Str} {neg : Bool} {q : ℚ} (h : BeginsWithReal s neg q) : 0 ≤ q := by
  obtain ⟨_, _, _, _, _, _, fp, n, x, _, _, _, _, _, _, _, _, rfl⟩ := h
  positivity

/-! ### Reading the three notations -/

theorem begins_replicate (k : Nat) :
    (List.replicate k ' ').head? ≠ some 'e' ∧ (List.replicate k ' ').head? ≠ some 'E' ∧
    (List.replicate k ' ').head? ≠ some '.' ∧
    ∀ c, (List.replicate k ' ').head? = some c → ¬ ('0' ≤ c ∧ c ≤ '9') := by
  cases k with
  | zero => simp
  | succ k =>
    refine ⟨by simp [List.replicate_succ], by simp [List.replicate_succ], by simp [List.replicate_succ], ?_⟩
    intro c hc
    simp [List.replicate_succ] at hc
    subst hc; decide

/-- Scientific notation. -/
theorem sci_read (A : Arith) (fuel : Nat) (radix : Char) (neg : Bool) (q : ℚ) (hq : 0 ≤ q) (w d : Nat)
    (hw : w < 2 ^ 31) (hd : d + 4 < 2 ^ 31) (f : Fmt) :
    ∃ f' t v, f.addF A fuel radix (.fin neg q) 's' w d = some (.ok f') ∧ Inserts f f' t ∧ BeginsWithReal t neg v ∧
      (q = 0 → v = 0) ∧ ∀ k : Int, q < 10 ^ (k + 1) → |v - q| ≤ 10 ^ (k - d) / 2 := by
  obtain ⟨f', c, fp, ex, n, e, hf, hi, hlen, hn, hex, hz, hc, _, hown⟩ :=
    C65_addF_scientific A fuel radix neg q hq w d hw hd f
  dsimp only at hi
  refine ⟨f', _, (n : ℚ) * 10 ^ (e - d), hf, hi, ?_, fun h => by simp [(hz h).1], hown⟩
  generalize hbody : (if neg then ['-'] else []) ++ [c] ++ (if d = 0 then [] else '.' :: fp) ++ ex = body
  obtain ⟨_, _, _, b4⟩ := begins_replicate ((if w = 0 then d + 4 else w) - body.length)
  refine ⟨[], if neg then ['-'] else [], [c], if d = 0 then [] else '.' :: fp, ex,
    List.replicate ((if w = 0 then d + 4 else w) - body.length) ' ',
    fp, n, e, ?_, by simp, ?_, ?_, ?_, hn, .inl (expText_exponent hex), b4, ?_⟩
  · rw [← hbody]; simp
  · cases neg <;> simp
  · cases neg <;> simp
  · by_cases h0 : d = 0
    · left; rw [if_pos h0]; exact ⟨rfl, List.eq_nil_of_length_eq_zero (by omega)⟩
    · right; rw [if_neg h0]
  · rw [hlen, zpow_sub₀ (by norm_num), zpow_natCast]
    ring

/-- Default notation. -/
theorem general_read (A : Arith) (fuel : Nat) (radix : Char) (neg : Bool) (q : ℚ) (hq : 0 ≤ q) (w d : Nat)
    (hw : w < 2 ^ 31) (hd : d + 4 < 2 ^ 31) (f : Fmt) :
    ∃ f' t v, f.addF A fuel radix (.fin neg q) 'g' w d = some (.ok f') ∧ Inserts f f' t ∧ BeginsWithReal t neg v ∧
      (q = 0 → v = 0) ∧ (∀ k : Int, q < 10 ^ (k + 1) → |v - q| ≤ 10 ^ (k + 1 - (max d 1 : Nat)) / 2) ∧
      ∀ k : Int, q ≠ 0 → 10 ^ k ≤ q → ∃ m : Int, v = m * (10 : ℚ) ^ (k + 1 - (max d 1 : Nat)) := by
  obtain ⟨f', ip, fp, ex, m, hf, hi, hlz, hfl, hm, hz, hnz⟩ :=
    C66_addF_general A fuel radix neg q hq w d hw hd f
  dsimp only at hi
  generalize hbody : (if neg then ['-'] else []) ++ ip ++ (if fp = [] then [] else '.' :: fp) ++ ex = body at hi
  obtain ⟨b1, b2, b3, b4⟩ := begins_replicate ((if w = 0 then d + 4 else w) - body.length)
  have key : ∃ x : Int, (Exponent ex x ∨ ex = [] ∧ x = 0) ∧
      (q = 0 → (m : ℚ) / 10 ^ fp.length * 10 ^ x = 0) ∧
      (∀ k : Int, q < 10 ^ (k + 1) →
        |(m : ℚ) / 10 ^ fp.length * 10 ^ x - q| ≤ 10 ^ (k + 1 - (max d 1 : Nat)) / 2) ∧
      ∀ k : Int, q ≠ 0 → 10 ^ k ≤ q →
        ∃ z : Int, (m : ℚ) / 10 ^ fp.length * 10 ^ x = z * (10 : ℚ) ^ (k + 1 - (max d 1 : Nat)) := by
    by_cases h0 : q = 0
    · obtain ⟨rfl, rfl, rfl⟩ := hz h0
      have hm0 : m = 0 := by
        have : numeral 10 (['0'] ++ []) = some 0 := by decide
        rw [this] at hm; simpa using hm.symm
      refine ⟨0, .inr ⟨rfl, rfl⟩, fun _ => by simp [hm0], fun k _ => ?_, fun k h => absurd h0 h⟩
      rw [hm0, h0]
      simp only [Nat.cast_zero, zero_div, zero_mul, sub_zero, abs_zero]
      positivity
    · obtain ⟨x, N, hN1, hN2, hval, herr, hown, hiff, hexp⟩ := hnz h0
      refine ⟨if ex = [] then 0 else x, ?_, fun h => absurd h h0, fun k hk => by rw [hval]; exact hown k hk, ?_⟩
      · by_cases he : ex = []
        · exact .inr ⟨he, by simp [he]⟩
        · rw [if_neg he]; exact .inl (expText_exponent (hexp he).1)
      · intro k _ hk
        rw [hval]
        -- the exponent is not below that of the value
        have hkx : k ≤ x := by
          by_contra hcon
          have h1 : (10 : ℚ) ^ (x + 1) ≤ 10 ^ k := zpow_le_zpow_right₀ (by norm_num) (by omega)
          have hu : (0 : ℚ) < 10 ^ (x + 1 - (max d 1 : Nat)) := by positivity
          have h2 : ((N : ℚ) + 1) * 10 ^ (x + 1 - (max d 1 : Nat)) ≤ 10 ^ (max d 1) * 10 ^ (x + 1 - (max d 1 : Nat)) :=
            mul_le_mul_of_nonneg_right (by exact_mod_cast hN2) hu.le
          have h3 : (10 : ℚ) ^ (max d 1) * 10 ^ (x + 1 - (max d 1 : Nat)) = 10 ^ (x + 1) := by
            rw [← zpow_natCast, ← zpow_add₀ (by norm_num)]; congr 1; ring
          rw [abs_le] at herr
          linarith
        obtain ⟨j, hj⟩ : ∃ j : Nat, x = k + j := ⟨(x - k).toNat, by omega⟩
        refine ⟨N * 10 ^ j, ?_⟩
        rw [hj]
        push_cast
        rw [mul_assoc, ← zpow_natCast (10 : ℚ) j, ← zpow_add₀ (by norm_num)]
        congr 2; ring
  obtain ⟨x, hexp, k1, k2, k3⟩ := key
  refine ⟨f', _, _, hf, hi, ?_, k1, k2, k3⟩
  refine ⟨[], if neg then ['-'] else [], ip, if fp = [] then [] else '.' :: fp, ex,
    List.replicate ((if w = 0 then d + 4 else w) - body.length) ' ',
    fp, m, x, ?_, by simp, ?_, ?_, ?_, hm, ?_, b4, rfl⟩
  · rw [← hbody]; simp
  · cases neg <;> simp
  · cases neg <;> simp
  · by_cases h : fp = [] <;> simp [h]
  · rcases hexp with h | ⟨rfl, rfl⟩
    · exact .inl h
    · exact .inr ⟨rfl, rfl, b1, b2, fun _ => b3⟩

/-- Engineering notation of zero. -/
theorem eng_zero_read (A : Arith) (fuel : Nat) (neg : Bool) (w d : Nat) (f : Fmt) :
    ∃ f' t, f.addF A fuel '.' (.fin neg 0) 'e' w d = some (.ok f') ∧ Inserts f f' t ∧ BeginsWithReal t false 0 := by
  have h : ∃ k, textF A fuel '.' (.fin neg 0) 'e' w d =
      some (.ok ("0".toList ++ ['.'] ++ padRight '0' k "0".toList ++ "e0".toList)) :=
    ⟨setwWidth ((d + (u32 - 1)) % u32), by
      unfold textF
      dsimp only
      rw [if_neg (by decide), if_neg (by decide), if_neg (by decide), if_pos rfl, if_pos rfl]⟩
  obtain ⟨k, h⟩ := h
  have hp : padRight '0' k "0".toList = '0' :: List.replicate (k - 1) '0' := by simp [padRight]
  rw [hp] at h
  generalize k - 1 = k at h
  obtain ⟨f', hf', hi⟩ := addF_of_text f h
  refine ⟨f', _, hf', hi, [], [], ['0'], '.' :: ('0' :: List.replicate k '0'), "e0".toList, [], '0' :: List.replicate k '0',
    0, 0, by simp, by simp, .inl rfl, by decide, .inr rfl, ?_, .inl ⟨'e', [], ['0'], 0, rfl, .inl rfl, .inl rfl, by decide,
      by decide⟩, by simp, by simp⟩
  have := numeral_zero_end ['0'] (by simp) (k + 1)
  rw [List.replicate_succ] at this
  rw [this]
  have h0 : numeral 10 ['0'] = some 0 := by decide
  rw [h0]; simp

/-! ## C88  printed and read back -/

/-- The relative error allowed for `d` digits: a bit less than `5 / 10 ^ d`. -/
def relBound (d : Nat) : ℚ := if d = 0 then 3 else 5 / 10 ^ d * (1 - 1 / (2 * 10 ^ d))

/-- The number printed. -/
theorem printed_rel (fmt : Char) (hfmt : fmt = 'e' ∨ fmt = 's' ∨ fmt = 'g') (neg : Bool) (q : ℚ)
    (hq1 : 1 / 10 ^ 304 ≤ q) (hq2 : q ≤ 10 ^ 304) (w d : Nat) (hw : w < 2 ^ 31) (hd : d ≤ 6) (radix : Char) (f : Fmt) :
    ∃ f' t v, f.addF binary64 308 radix (.fin neg q) fmt w d = some (.ok f') ∧ Inserts f f' t ∧ BeginsWithReal t neg v ∧
      |v - q| ≤ (if d = 0 then 2 else 5 / 10 ^ d * (1 - 1 / 10 ^ d)) * q := by
  have hq0 : 0 < q := lt_of_lt_of_le (by positivity) hq1
  obtain ⟨l1, l2⟩ := log_bounds hq0
  generalize Int.log 10 q = k at *
  have hk0 : (0 : ℚ) < 10 ^ k := by positivity
  rcases hfmt with rfl | rfl | rfl
  · obtain ⟨f', hf'⟩ := C23_eng_returns_partial q hq1 hq2 w d (by omega) radix neg f
    obtain ⟨t, ht, hi⟩ := addF_some hf'
    refine ⟨f', t, ?_⟩
    by_cases h0 : d = 0
    · subst h0
      obtain ⟨v, hv, hb⟩ := eng_no_digits_begins (binary64_setting 1 (by omega) (by omega)) hq1 hq2 ht
      refine ⟨v, hf', hi, hv, ?_⟩
      rw [if_pos rfl]
      rcases hb with rfl | hb
      · rw [zero_sub, abs_neg, abs_of_pos hq0]; linarith
      · rw [abs_le] at hb ⊢
        norm_num at hb ⊢
        constructor <;> linarith
    · obtain ⟨n, v, e, K, w', x, h1, h2, h3, Dc⟩ :=
        eng_decade (binary64_setting d (by omega) (by omega)) binary64_digits hq1 hq2 ht
      have he0 : (0 : ℚ) < 10 ^ e := by positivity
      have key := decade_rel Dc (by
        have : (10 : ℚ) ^ (2 * d) ≤ 10 ^ 12 := pow_le_pow_right₀ (by norm_num) (by omega)
        calc (2 : ℚ) / 10 ^ 13 ≤ 1 / (4 * 10 ^ 12) := by norm_num
          _ ≤ 1 / (4 * 10 ^ (2 * d)) := one_div_le_one_div_of_le (by positivity) (by linarith)) (by positivity)
      refine ⟨_, hf', hi, by rw [← h2]; exact begins_of_readEng h1 h3, ?_⟩
      rw [if_neg h0]
      have hscale : |v * 10 ^ e - q| = |v - q / 10 ^ e| * 10 ^ e := by
        rw [← abs_of_pos he0, ← abs_mul, abs_of_pos he0]
        congr 1
        field_simp
      rw [hscale]
      refine (mul_le_mul_of_nonneg_right key he0.le).trans (le_of_eq ?_)
      field_simp
  · obtain ⟨f', t, v, g1, g2, g3, _, g5⟩ := sci_read binary64 308 radix neg q hq0.le w d hw (by omega) f
    refine ⟨f', t, v, g1, g2, g3, (g5 k l2).trans ?_⟩
    rw [zpow_sub₀ (by norm_num), zpow_natCast]
    have h1 : (10 : ℚ) ^ k / 10 ^ d / 2 ≤ q * (1 / 10 ^ d) / 2 := by
      rw [div_eq_mul_one_div ((10 : ℚ) ^ k)]
      gcongr
    refine h1.trans ?_
    by_cases h0 : d = 0
    · subst h0; norm_num; linarith
    · rw [if_neg h0]
      have hE : (1 : ℚ) / 10 ^ d ≤ 1 / 10 := by
        refine one_div_le_one_div_of_le (by norm_num) ?_
        calc (10 : ℚ) = 10 ^ 1 := by norm_num
          _ ≤ 10 ^ d := pow_le_pow_right₀ (by norm_num) (by omega)
      have hE0 : (0 : ℚ) < 1 / 10 ^ d := by positivity
      rw [show (5 : ℚ) / 10 ^ d = 5 * (1 / 10 ^ d) by ring]
      generalize (1 : ℚ) / 10 ^ d = E at *
      have : 0 ≤ q * E := by positivity
      nlinarith
  · obtain ⟨f', t, v, g1, g2, g3, _, g5, g6⟩ := general_read binary64 308 radix neg q hq0.le w d hw (by omega) f
    refine ⟨f', t, v, g1, g2, g3, ?_⟩
    have h1 := g5 k l2
    by_cases h0 : d = 0
    · subst h0
      rw [if_pos rfl]
      refine h1.trans ?_
      norm_num
      linarith
    · have hmax : max d 1 = d := by omega
      rw [hmax] at h1 g6
      rw [if_neg h0]
      refine rel_of_half_unit (κ := k) (ε := 0) (by omega) (by positivity) l1 ?_ fun _ => g6 k hq0.ne' l1
      refine h1.trans (le_of_eq ?_)
      rw [zpow_sub₀ (by norm_num), zpow_add₀ (by norm_num), zpow_natCast, zpow_one]
      ring

set_option exponentiation.threshold 2000 in
theorem double_range {q : ℚ} (hq1 : 1 / 10 ^ 304 ≤ q) (hq2 : q ≤ 10 ^ 304) :
    1 / 2 ^ 1022 ≤ q / 1000 ∧ 4 * q ≤ 2 ^ 1023 := by
  have h1 : (1 : ℚ) / 2 ^ 1022 ≤ 1 / 10 ^ 304 / 1000 := by norm_num
  have h2 : (4 : ℚ) * 10 ^ 304 ≤ 2 ^ 1023 := by norm_num
  exact ⟨h1.trans (div_le_div_of_nonneg_right hq1 (by norm_num)),
    (mul_le_mul_of_nonneg_left hq2 (by norm_num)).trans h2⟩

theorem relBound_pos (d : Nat) (hd : d ≤ 6) : 1 / 10 ^ 6 ≤ relBound d ∧ relBound d ≤ 3 := by
  interval_cases d <;> norm_num [relBound]

/-- **C88** (reading back).  A finite number of magnitude between `1e-304` and `1e304`, printed in any of the three notations
with a precision of up to six digits and any width, is read back by `operator>>` as a number of the same sign whose relative
error is less than `5 / 10 ^ d` (for no digits: at most 3, because engineering notation then prints zero or twice the
number).  Zero is read back as zero. -/
theorem C88_relative (fmt : Char) (hfmt : fmt = 'e' ∨ fmt = 's' ∨ fmt = 'g') (neg : Bool) (q : ℚ)
    (hq1 : 1 / 10 ^ 304 ≤ q) (hq2 : q ≤ 10 ^ 304) (w d : Nat) (hw : w < 2 ^ 31) (hd : d ≤ 6) (radix : Char) (f : Fmt) :
    ∃ f' t r, f.addF binary64 308 radix (.fin neg q) fmt w d = some (.ok f') ∧ Inserts f f' t ∧
      extractReal binary64.rnd t = .good (.fin neg r) ∧ 0 ≤ r ∧ |r - q| ≤ relBound d * q := by
  have hq0 : 0 < q := lt_of_lt_of_le (by positivity) hq1
  have S := binary64_setting 1 (by omega) (by omega)
  obtain ⟨f', t, v, g1, g2, g3, g4⟩ := printed_rel fmt hfmt neg q hq1 hq2 w d hw hd radix f
  have hv0 := begins_nonneg g3
  obtain ⟨hlo, hhi⟩ := double_range hq1 hq2
  have hu : (1 : ℚ) / 2 ^ 53 ≤ 1 / 10 ^ 15 := by norm_num
  have hb : |v - q| ≤ 2 * q := by
    refine g4.trans (mul_le_mul_of_nonneg_right ?_ hq0.le)
    interval_cases d <;> norm_num
  obtain ⟨hb1, hb2⟩ := abs_le.1 hb
  obtain ⟨r, hr, hrr⟩ := S.close.err v hv0 (le_trans (by linarith) hhi)
  have hex := extractReal_begins binary64.rnd g3
  rw [hr] at hex
  have hr0 : 0 ≤ r := by
    obtain ⟨z, hz, hle⟩ := S.sane.mono 0 v r hv0 hr
    have := S.sane.fix 0 (by norm_num)
    rw [Nat.cast_zero, hz] at this
    have h0 : z = 0 := by simpa using this
    rw [← h0]
    exact hle
  refine ⟨f', t, r, g1, g2, hex, hr0, ?_⟩
  have hmax : max v (1 / 2 ^ 1022) ≤ 3 * q := max_le (by linarith) (hlo.trans (by linarith))
  have hrv : |r - v| ≤ 1 / 10 ^ 14 * q := by
    refine hrr.trans ?_
    have h0 : (0 : ℚ) ≤ max v (1 / 2 ^ 1022) := le_trans hv0 (le_max_left _ _)
    calc (1 : ℚ) / 2 ^ 53 * max v (1 / 2 ^ 1022) ≤ 1 / 10 ^ 15 * (3 * q) :=
          mul_le_mul hu hmax h0 (by positivity)
      _ ≤ 1 / 10 ^ 14 * q := by linarith
  have htri : |r - q| ≤ |r - v| + |v - q| := abs_sub_le _ _ _
  refine htri.trans ((add_le_add hrv g4).trans ?_)
  rw [← add_mul]
  refine mul_le_mul_of_nonneg_right ?_ hq0.le
  interval_cases d <;> norm_num [relBound]

theorem C88_zero (fmt : Char) (hfmt : fmt = 'e' ∨ fmt = 's' ∨ fmt = 'g') (neg : Bool)
    (w d : Nat) (hw : w < 2 ^ 31) (hd : d + 4 < 2 ^ 31) (f : Fmt) :
    ∃ f' t neg', f.addF binary64 308 '.' (.fin neg 0) fmt w d = some (.ok f') ∧ Inserts f f' t ∧
      extractReal binary64.rnd t = .good (.fin neg' 0) := by
  have hz : binary64.rnd 0 = some 0 := by simpa using binary64_sane.fix 0 (by norm_num)
  rcases hfmt with rfl | rfl | rfl
  · obtain ⟨f', t, g1, g2, g3⟩ := eng_zero_read binary64 308 neg w d f
    have := extractReal_begins binary64.rnd g3
    rw [hz] at this
    exact ⟨f', t, _, g1, g2, this⟩
  · obtain ⟨f', t, v, g1, g2, g3, g4, _⟩ := sci_read binary64 308 '.' neg 0 le_rfl w d hw hd f
    rw [g4 rfl] at g3
    have := extractReal_begins binary64.rnd g3
    rw [hz] at this
    exact ⟨f', t, _, g1, g2, this⟩
  · obtain ⟨f', t, v, g1, g2, g3, g4, _⟩ := general_read binary64 308 '.' neg 0 le_rfl w d hw hd f
    rw [g4 rfl] at g3
    have := extractReal_begins binary64.rnd g3
    rw [hz] at this
    exact ⟨f', t, _, g1, g2, this⟩

/-! ### The test program -/

namespace FmtTest

/-- The comparison of the test accepts the relative error above.  `pw` is what `pow` returns, which need only be correct
up to one unit in the last place. -/
theorem badDiff_small {pw q r : ℚ} {d : Nat} (hd : d ≤ 6) (hpw : (1 - 1 / 2 ^ 52) / 10 ^ d ≤ pw) (neg : Bool)
    (hq1 : 1 / 10 ^ 304 ≤ q) (hq2 : q ≤ 10 ^ 304) (h : |r - q| ≤ relBound d * q) :
    badDiff pw neg q neg r = false := by
  have hq0 : 0 < q := lt_of_lt_of_le (by positivity) hq1
  have S := binary64_setting 1 (by omega) (by omega)
  obtain ⟨hb1, hb2⟩ := relBound_pos d hd
  unfold badDiff
  cases neg with
  | true => simp
  | false =>
    simp only [Bool.false_eq_true, if_false, if_neg hq0.ne', if_true]
    cases hn : binary64.mul (some 5) (some pw) with
    | none => cases binary64.divc (binary64.rnd |q - r|) q <;> rfl
    | some n =>
      have hn' : binary64.rnd (5 * pw) = some n := hn
      obtain ⟨hlo, hhi'⟩ := double_range hq1 hq2
      have hB0 : 0 ≤ relBound d * q := by
        have : (0 : ℚ) ≤ relBound d := le_trans (by norm_num) hb1
        positivity
      have hhi : relBound d * q ≤ 2 ^ 1023 := by
        have h1 : relBound d * q ≤ 3 * q := mul_le_mul_of_nonneg_right hb2 hq0.le
        exact h1.trans (le_trans (by linarith) hhi')
      obtain ⟨b, hb, hbe⟩ := S.close.err (relBound d * q) hB0 hhi
      rw [abs_sub_comm] at h
      obtain ⟨a, ha, hab⟩ := S.sane.mono _ _ b h hb
      rw [ha]
      have hba : a / q ≤ 5 * pw := by
        rw [div_le_iff₀ hq0]
        have hmax : max (relBound d * q) (1 / 2 ^ 1022) ≤ (relBound d + 1 / 1000) * q := by
          rw [add_mul]
          exact max_le (by linarith) (hlo.trans (by linarith))
        have h1 : b ≤ (relBound d + 1 / 2 ^ 53 * (relBound d + 1 / 1000)) * q := by
          have h4 := (abs_le.1 hbe).2
          have h5 : (1 : ℚ) / 2 ^ 53 * max (relBound d * q) (1 / 2 ^ 1022) ≤
              1 / 2 ^ 53 * ((relBound d + 1 / 1000) * q) := mul_le_mul_of_nonneg_left hmax (by positivity)
          linarith
        have h2 : relBound d + 1 / 2 ^ 53 * (relBound d + 1 / 1000) ≤ 5 * ((1 - 1 / 2 ^ 52) / 10 ^ d) := by
          interval_cases d <;> norm_num [relBound]
        exact (hab.trans h1).trans (mul_le_mul_of_nonneg_right (by linarith) hq0.le)
      obtain ⟨c, hc, hcn⟩ := S.sane.mono _ _ n hba hn'
      have : binary64.divc (some a) q = some c := hc
      rw [this]
      simp [gt, hcn]

theorem str_inserted {f' : Fmt} {t : Str} (h : Inserts (Fmt.mk' "%0".toList) f' t) : f'.str = .ok t := by
  have e : Fmt.mk' "%0".toList = ⟨"%0".toList, [.fld 0], 0⟩ := by decide
  simp only [Inserts, addS_zero, Res.ok.injEq] at h
  rw [← h, e]
  simp [Fmt.insertField, Fmt.str, Fmt.assemble]

/-- What is tested: zero, or a number between `1e-304` and `1e304`, of either sign. -/
def Testable (v : Bool × ℚ) : Prop := v.2 = 0 ∨ 1 / 10 ^ 304 ≤ v.2 ∧ v.2 ≤ 10 ^ 304

/-- **C88** (the check of the test program).  `doTest` of `test/FormatTest.cxx` returns false for every such number, any width and a
precision of up to six digits. -/
theorem C88_test_passes (pw : Nat → ℚ) (hpw : ∀ p ≤ 6, (1 - 1 / 2 ^ 52) / 10 ^ p ≤ pw p) (v : Bool × ℚ)
    (hv : Testable v) (p w : Nat) (hp : p ≤ 6) (hw : w < 2 ^ 31) (fmt : Char)
    (hfmt : fmt = 'e' ∨ fmt = 's' ∨ fmt = 'g') : doTest pw 308 v.1 v.2 p w fmt = some (.ok false) := by
  obtain ⟨neg, q⟩ := v
  rcases hv with h0 | ⟨hq1, hq2⟩
  · dsimp only at h0 ⊢
    subst h0
    obtain ⟨f', t, neg', g1, g2, g3⟩ := C88_zero fmt hfmt neg w p hw (by omega) (Fmt.mk' "%0".toList)
    unfold doTest
    rw [g1]
    have hz : binary64.rnd 0 = some 0 := by simpa using binary64_sane.fix 0 (by norm_num)
    simp [str_inserted g2, Res.bind, checkVal, g3, badDiff, hz]
  · dsimp only at hq1 hq2 ⊢
    obtain ⟨f', t, r, g1, g2, g3, _, g5⟩ := C88_relative fmt hfmt neg q hq1 hq2 w p hw hp '.' (Fmt.mk' "%0".toList)
    unfold doTest
    rw [g1]
    simp [str_inserted g2, Res.bind, checkVal, g3, badDiff_small hp (hpw p hp) neg hq1 hq2 g5]

theorem cases_ok : ∀ c ∈ cases, c.1 ≤ 6 ∧ c.2.1 < 2 ^ 31 ∧ (c.2.2 = 'e' ∨ c.2.2 = 's' ∨ c.2.2 = 'g') := by
  intro c hc
  simp only [cases, List.mem_flatMap, List.mem_range, List.mem_map] at hc
  obtain ⟨p, hp, w, hw, x, hx, rfl⟩ := hc
  refine ⟨by dsimp only; omega, by dsimp only; omega, ?_⟩
  simpa using hx

/-- **C88** (the test program).  `runBigTest` counts no error, whatever the random numbers are. -/
theorem C88_big_test (pw : Nat → ℚ) (hpw : ∀ p ≤ 6, (1 - 1 / 2 ^ 52) / 10 ^ p ≤ pw p)
    (vals : List ((Bool × ℚ) × (Bool × ℚ))) (hv : ∀ v ∈ vals, Testable v.1 ∧ Testable v.2) :
    runBigTest pw 308 vals = some (.ok (some 0)) := by
  have key : ∀ cs : List ((Bool × ℚ) × (Bool × ℚ) × (Nat × Nat × Char)),
      (∀ c ∈ cs, Testable c.1 ∧ Testable c.2.1 ∧ c.2.2 ∈ cases) → allCases pw 308 cs 0 = some (.ok (some 0)) := by
    intro cs
    induction cs with
    | nil => intro _; rfl
    | cons c cs ih =>
      intro h
      obtain ⟨h1, h2, h3⟩ := h c (by simp)
      obtain ⟨h4, h5, h6⟩ := cases_ok _ h3
      obtain ⟨v, iv, c⟩ := c
      have e1 := C88_test_passes pw hpw v h1 c.1 c.2.1 h4 h5 c.2.2 h6
      have e2 := C88_test_passes pw hpw iv h2 c.1 c.2.1 h4 h5 c.2.2 h6
      simp only [allCases, oneCase, e1, e2, Option.bind_some, Option.map_some, Res.bind]
      exact ih fun c hc => h c (by simp [hc])
  refine key _ fun c hc => ?_
  simp only [List.mem_flatMap, List.mem_map] at hc
  obtain ⟨v, hvm, x, hx, rfl⟩ := hc
  exact ⟨(hv v hvm).1, (hv v hvm).2, hx⟩

set_option exponentiation.threshold 400 in
/-- Numbers of both signs. -/
example : ∀ v ∈ [((false, (64 : ℚ)), (true, (0 : ℚ))), ((true, 1 / 10 ^ 18), (false, 13 * 10 ^ 17))],
    Testable v.1 ∧ Testable v.2 := by
  intro v hv
  simp only [List.mem_cons, List.not_mem_nil, or_false] at hv
  rcases hv with rfl | rfl
  · exact ⟨.inr ⟨by norm_num, by norm_num⟩, .inl rfl⟩
  · exact ⟨.inr ⟨by norm_num, by norm_num⟩, .inr ⟨by norm_num, by norm_num⟩⟩

/-- The check does report a wrong text. -/
example : checkVal (fun p => 1 / 10 ^ p) false 100 "94".toList 2 = .ok true ∧
    checkVal (fun p => 1 / 10 ^ p) false 100 "96".toList 2 = .ok false := by decide +kernel

end FmtTest

/-! ### C20 with no digits -/

/-- C20 for a precision of no digits, what happens instead: engineering notation prints zero, or twice the number (which
is then half a power of ten, up to rounding).  Both occur. -/
theorem C20_no_digits_partial (neg : Bool) (q : ℚ) (hq1 : 1 / 10 ^ 304 ≤ q) (hq2 : q ≤ 10 ^ 304) (w : Nat)
    (radix : Char) (f : Fmt) :
    ∃ f' t v, f.addF binary64 308 radix (.fin neg q) 'e' w 0 = some (.ok f') ∧ Inserts f f' t ∧ BeginsWithReal t neg v ∧
      (v = 0 ∨ |v - 2 * q| ≤ 6 / 10 ^ 12 * q) := by
  obtain ⟨f', hf'⟩ := C23_eng_returns_partial q hq1 hq2 w 0 (by omega) radix neg f
  obtain ⟨t, ht, hi⟩ := addF_some hf'
  obtain ⟨v, hv, hb⟩ := eng_no_digits_begins (binary64_setting 1 (by omega) (by omega)) hq1 hq2 ht
  refine ⟨f', t, v, hf', hi, hv, hb.imp_right fun h => h.trans (le_of_eq (by ring))⟩

/-- Seven is printed as zero, five as ten. -/
example : textF binary64 308 '.' (.fin false 7) 'e' 0 0 = some (.ok " 0 e+0 ".toList) ∧
    textF binary64 308 '.' (.fin false 5) 'e' 0 0 = some (.ok " 10e+0 ".toList) := by decide +kernel

end SoDa
