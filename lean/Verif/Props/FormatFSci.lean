import Verif.Props.FormatF
import Verif.Proof.FormatFSci
/-!
`addF` in scientific ('s') and default ('g') notation, and with an unknown format character.
-/
namespace SoDa
open Spec

theorem precision_small {d : Nat} (hd : d < 2 ^ 31) : precision d = d := by
  have : d % u32 = d := Nat.mod_eq_of_lt (by simp only [u32]; omega)
  simp only [precision, this]
  rw [if_pos (by omega)]

/-- Padding of a finite number's text to the field width. -/
theorem padRight_field {w d : Nat} (hw : w < 2 ^ 31) (hd : d + 4 < 2 ^ 31) (body : Str) :
    padRight ' ' (if (if w = 0 then (d + 4) % u32 else w) ≠ 0 then setwWidth (if w = 0 then (d + 4) % u32 else w) else 0)
      body = body ++ List.replicate ((if w = 0 then d + 4 else w) - body.length) ' ' := by
  have hm : (d + 4) % u32 = d + 4 := Nat.mod_eq_of_lt (by simp only [u32]; omega)
  rw [hm]
  by_cases h0 : w = 0
  · simp [h0, setwWidth_small hd, padRight]
  · simp [h0, setwWidth_small hw, padRight]

/-- C65.  The text is a sign, one digit (not zero unless the value is), `d` fraction digits after a point (no point when
`d = 0`) and an exponent; read as a number it is within half a unit of the last place of the value (also of the last place
the value itself has, when it is rounded up to a power of ten). -/
theorem C65_addF_scientific (A : Arith) (fuel : Nat) (radix : Char) (neg : Bool) (q : ℚ) (hq : 0 ≤ q) (w d : Nat)
    (hw : w < 2 ^ 31) (hd : d + 4 < 2 ^ 31) (f : Fmt) :
    ∃ f' c fp ex n e, f.addF A fuel radix (.fin neg q) 's' w d = some (.ok f') ∧
      (let body := (if neg then ['-'] else []) ++ [c] ++ (if d = 0 then [] else '.' :: fp) ++ ex
       Inserts f f' (body ++ List.replicate ((if w = 0 then d + 4 else w) - body.length) ' ')) ∧
      fp.length = d ∧ numeral 10 (c :: fp) = some n ∧ ExpText e ex ∧
      (q = 0 → n = 0 ∧ e = 0) ∧ (q ≠ 0 → c ≠ '0') ∧
      |(n : ℚ) * 10 ^ (e - d) - q| ≤ 10 ^ (e - d) / 2 ∧
      (∀ k : Int, q < 10 ^ (k + 1) → |(n : ℚ) * 10 ^ (e - d) - q| ≤ 10 ^ (k - d) / 2) := by
  have main : ∃ c, Nat.toDigits 10 ((sciParts q d).1 / 10 ^ d) = [c] ∧ (q ≠ 0 → c ≠ '0') := by
    by_cases h : q = 0
    · exact ⟨'0', by simp [sciParts, h], fun h' => absurd h h'⟩
    · obtain ⟨h1, h2, _⟩ := sciParts_spec (lt_of_le_of_ne hq (Ne.symm h)) d
      obtain ⟨c, hc, hc', _⟩ := toDigits_single h1 h2
      exact ⟨c, hc, fun _ => hc'⟩
  obtain ⟨c, hc, hc0⟩ := main
  have herr : |((sciParts q d).1 : ℚ) * 10 ^ ((sciParts q d).2 - d) - q| ≤ 10 ^ ((sciParts q d).2 - d) / 2 := by
    by_cases h : q = 0
    · simp only [sciParts, h, if_true, Nat.cast_zero, zero_mul, sub_zero, abs_zero]
      positivity
    · exact sciParts_err (lt_of_le_of_ne hq (Ne.symm h)) d
  have hown : ∀ k : Int, q < 10 ^ (k + 1) →
      |((sciParts q d).1 : ℚ) * 10 ^ ((sciParts q d).2 - d) - q| ≤ 10 ^ (k - d) / 2 := by
    intro k hk
    by_cases h : q = 0
    · simp only [sciParts, h, if_true, Nat.cast_zero, zero_mul, sub_zero, abs_zero]
      positivity
    · exact sciParts_own (lt_of_le_of_ne hq (Ne.symm h)) d hk
  have hzero : q = 0 → (sciParts q d).1 = 0 ∧ (sciParts q d).2 = 0 := by
    intro h; simp [sciParts, h]
  set n := (sciParts q d).1 with hn
  set e := (sciParts q d).2 with he
  set fp : Str := if d = 0 then [] else padLeft '0' d (Nat.toDigits 10 (n % 10 ^ d)) with hfp
  set body : Str := (if neg then ['-'] else []) ++ [c] ++ (if d = 0 then [] else '.' :: fp) ++ showExp e with hbody
  have hshow : showSci neg q d = body := by
    unfold showSci showScaled
    rw [hbody, hfp]
    dsimp only
    rw [← hn, ← he]
    by_cases h0 : d = 0
    · rw [h0, pow_zero, Nat.div_one] at hc
      simp [h0, hc]
    · simp [h0, hc]
  have htext : textF A fuel radix (.fin neg q) 's' w d =
      some (.ok (body ++ List.replicate ((if w = 0 then d + 4 else w) - body.length) ' ')) := by
    rw [← padRight_field hw hd]
    simp only [textF, if_true, precision_small (show d < 2 ^ 31 by omega), hshow]
    rw [if_neg (by decide)]
  obtain ⟨f', hf', hi⟩ := addF_of_text f htext
  have hlt : n % 10 ^ d < 10 ^ d := Nat.mod_lt _ (by positivity)
  refine ⟨f', c, fp, showExp e, n, e, hf', hi, ?_, ?_, showExp_text e, hzero, hc0, herr, hown⟩
  · rw [hfp]
    by_cases h0 : d = 0
    · simp [h0]
    · rw [if_neg h0, length_padLeft_digits hlt (by omega)]
  · by_cases h0 : d = 0
    · have := numeral_toDigits 10 (by omega) (by omega) n
      rw [h0, pow_zero, Nat.div_one] at hc
      rw [hfp, if_pos h0, ← hc, this]
    · have := numeral_scaled n d h0
      rw [hfp, if_neg h0, show c :: padLeft '0' d (Nat.toDigits 10 (n % 10 ^ d)) =
        [c] ++ padLeft '0' d (Nat.toDigits 10 (n % 10 ^ d)) from rfl, ← hc]
      exact this

example : textF binary64 0 '.' (.fin true (355 / 113)) 's' 12 3 = some (.ok "-3.142e+00  ".toList) := by
  decide +kernel

example : textF binary64 0 '.' (.fin false (99996 / 10)) 's' 0 3 = some (.ok "1.000e+04".toList) := by
  decide +kernel

/-- C24, C65 and C66 for arguments of any size: what is printed for a precision `P` is a text that depends neither on the
width nor on how `P` was given, followed by spaces.  From 2^31 on the precision is 6 (it is a negative `int` for the
stream), and a field width from 2^31 on is none. -/
theorem C65_large_arguments (A : Arith) (fuel : Nat) (radix : Char) (neg : Bool) (q : ℚ) (fmt : Char)
    (hf : fmt = 'f' ∨ fmt = 's' ∨ fmt = 'g') (P : Nat) :
    ∃ body, ∀ w d, w < 2 ^ 32 → d < 2 ^ 32 → (if d < 2 ^ 31 then d else 6) = P →
      textF A fuel radix (.fin neg q) fmt w d = some (.ok (body ++ List.replicate
        ((let W := if w = 0 then (d + 4) % 2 ^ 32 else w; if W < 2 ^ 31 then W else 0) - body.length) ' ')) := by
  refine ⟨if fmt = 'f' then showFixed neg q P else if fmt = 's' then showSci neg q P else showGeneral neg q P, ?_⟩
  intro w d hw hd hP
  have hp : precision d = P := by
    have : d % u32 = d := Nat.mod_eq_of_lt (by simp only [u32]; omega)
    rw [← hP]
    simp only [precision, this, Nat.reducePow]
  have hu : (2 : Nat) ^ 32 = u32 := by decide
  rw [hu]
  generalize hWd : (if w = 0 then (d + 4) % u32 else w) = W
  have hW : W < u32 := by
    rw [← hWd, ← hu]
    split
    · exact Nat.mod_lt _ (by decide)
    · exact hw
  have hs : (if W ≠ 0 then setwWidth W else 0) = if W < 2 ^ 31 then W else 0 := by
    simp only [setwWidth, Nat.mod_eq_of_lt hW, Nat.reducePow]
    by_cases h : W = 0
    · simp [h]
    · simp only [ne_eq, h, not_false_eq_true, if_true]
  simp only [textF, hp, hWd, hs]
  rcases hf with rfl | rfl | rfl <;> simp only [padRight, Char.reduceEq, if_true, if_false]

example : textF binary64 0 '.' (.fin false (1 / 3)) 'f' 0 4294967295 = some (.ok "0.333333".toList) ∧
    textF binary64 0 '.' (.fin false (1 / 3)) 's' 14 2147483648 = some (.ok "3.333333e-01  ".toList) := by
  constructor <;> decide +kernel

/-- C66.  The text is a sign, an integer part, a fraction that does not end in zero (no point when it is empty) and
possibly an exponent.  With `p` significant digits (`p = max d 1`) the number read is `N · 10 ^ (x + 1 - p)` for a
`p`-digit `N`, within half a unit of the value (also of the unit the value itself has); there is an exponent exactly if `x < -4` or `p ≤ x`, and then the integer
part is one non-zero digit. -/
theorem C66_addF_general (A : Arith) (fuel : Nat) (radix : Char) (neg : Bool) (q : ℚ) (hq : 0 ≤ q) (w d : Nat)
    (hw : w < 2 ^ 31) (hd : d + 4 < 2 ^ 31) (f : Fmt) :
    ∃ f' ip fp ex m, f.addF A fuel radix (.fin neg q) 'g' w d = some (.ok f') ∧
      (let body := (if neg then ['-'] else []) ++ ip ++ (if fp = [] then [] else '.' :: fp) ++ ex
       Inserts f f' (body ++ List.replicate ((if w = 0 then d + 4 else w) - body.length) ' ')) ∧
      NoLeadingZero ip ∧ fp.getLast? ≠ some '0' ∧ numeral 10 (ip ++ fp) = some m ∧
      (q = 0 → ip = ['0'] ∧ fp = [] ∧ ex = []) ∧
      (q ≠ 0 → ∃ (x : Int) (N : Nat), 10 ^ (max d 1 - 1) ≤ N ∧ N < 10 ^ (max d 1) ∧
        (m : ℚ) / 10 ^ fp.length * 10 ^ (if ex = [] then 0 else x) = N * 10 ^ (x + 1 - (max d 1 : Nat)) ∧
        |(N : ℚ) * 10 ^ (x + 1 - (max d 1 : Nat)) - q| ≤ 10 ^ (x + 1 - (max d 1 : Nat)) / 2 ∧
        (∀ k : Int, q < 10 ^ (k + 1) →
          |(N : ℚ) * 10 ^ (x + 1 - (max d 1 : Nat)) - q| ≤ 10 ^ (k + 1 - (max d 1 : Nat)) / 2) ∧
        (ex = [] ↔ -4 ≤ x ∧ x < (max d 1 : Nat)) ∧
        (ex ≠ [] → ExpText x ex ∧ ip.length = 1 ∧ ip ≠ ['0'])) := by
  have hp : (if d = 0 then 1 else d) = max d 1 := by split <;> omega
  obtain ⟨p, hpd⟩ : ∃ p, max d 1 = p + 1 := ⟨max d 1 - 1, by omega⟩
  rw [hpd] at hp ⊢
  rw [show p + 1 - 1 = p by omega]
  set n := (sciParts q p).1 with hn
  set x := (sciParts q p).2 with hx
  have hxp : ∀ x : Int, x + 1 - ((p + 1 : Nat) : Int) = x - p := by intro x; push_cast; ring
  simp only [hxp]
  have hshow : showGeneral neg q d = (if neg then ['-'] else []) ++
      (if -4 ≤ x ∧ x < ((p + 1 : Nat) : Int) then
        stripZeros (showScaled (roundHalfEven (q * 10 ^ ((p : Int) - x).toNat)) ((p : Int) - x).toNat)
      else stripZeros (showScaled n p) ++ showExp x) := by
    unfold showGeneral
    dsimp only
    rw [hp, show p + 1 - 1 = p by omega, ← hn, ← hx, show ((p + 1 : Nat) : Int) - 1 - x = p - x by push_cast; ring]
  have htext : ∀ body, showGeneral neg q d = body → textF A fuel radix (.fin neg q) 'g' w d =
      some (.ok (body ++ List.replicate ((if w = 0 then d + 4 else w) - body.length) ' ')) := by
    intro body hb
    rw [← padRight_field hw hd]
    simp only [textF, if_true, precision_small (show d < 2 ^ 31 by omega), hb]
    rw [if_neg (by decide), if_neg (by decide)]
  by_cases hfix : -4 ≤ x ∧ x < ((p + 1 : Nat) : Int)
  · rw [if_pos hfix] at hshow
    obtain ⟨k, hk⟩ : ∃ k : Nat, (p : Int) - x = k := ⟨((p : Int) - x).toNat, by push_cast at hfix; omega⟩
    rw [hk, Int.toNat_natCast] at hshow
    have hr : roundHalfEven (q * 10 ^ k) = n := by
      by_cases h : q = 0
      · rw [hn]; simp [sciParts, h, roundHalfEven]
      · rw [hn, (sciParts_spec (lt_of_le_of_ne hq (Ne.symm h)) p).2.2, ← hx, scaled, hk, zpow_natCast]
    rw [hr] at hshow
    obtain ⟨fp, m, h1, h2, h3, h4, h5, h6⟩ := stripZeros_scaled n k
    rw [h1] at hshow
    obtain ⟨f', hf', hi⟩ := addF_of_text f (htext _ hshow)
    refine ⟨f', _, fp, [], m, hf', by simpa using hi, toDigits_noLeadingZero _, h2, h4, ?_, ?_⟩
    · intro h
      have hn0 : n = 0 := by rw [hn]; simp [sciParts, h]
      exact ⟨by rw [hn0]; simp, h6 hn0, rfl⟩
    · intro h
      have hq' : 0 < q := lt_of_le_of_ne hq (Ne.symm h)
      obtain ⟨g1, g2, g3⟩ := sciParts_spec hq' p
      refine ⟨x, n, g1, g2, ?_, sciParts_err hq' p, fun k hk => sciParts_own hq' p hk, by simpa using hfix, by simp⟩
      rw [if_pos rfl, zpow_zero, mul_one, show x - (p : Int) = -(k : Int) by omega, zpow_neg, zpow_natCast,
        ← div_eq_mul_inv, ← h5, div_eq_div_iff (by positivity) (by positivity)]
      push_cast
      rw [mul_assoc, ← pow_add, show k - fp.length + fp.length = k by omega]
  · rw [if_neg hfix] at hshow
    have h : q ≠ 0 := by
      intro h
      apply hfix
      have : x = 0 := by rw [hx]; simp [sciParts, h]
      rw [this]
      constructor
      · omega
      · push_cast; omega
    have hq' : 0 < q := lt_of_le_of_ne hq (Ne.symm h)
    obtain ⟨g1, g2, g3⟩ := sciParts_spec hq' p
    obtain ⟨c, hc, hc0, _⟩ := toDigits_single g1 g2
    obtain ⟨fp, m, h1, h2, h3, h4, h5, _⟩ := stripZeros_scaled n p
    rw [h1] at hshow
    obtain ⟨f', hf', hi⟩ := addF_of_text f (htext _ hshow)
    refine ⟨f', _, fp, showExp x, m, hf', by simpa using hi, toDigits_noLeadingZero _, h2, h4,
      fun h' => absurd h' h, fun _ => ⟨x, n, g1, g2, ?_, sciParts_err hq' p, fun k hk => sciParts_own hq' p hk, ?_, ?_⟩⟩
    · rw [if_neg (by simp [showExp]), zpow_sub₀ (by norm_num), zpow_natCast, ← h5]
      push_cast
      rw [div_mul_eq_mul_div, mul_div_assoc', div_eq_div_iff (by positivity) (by positivity)]
      have : (10 : ℚ) ^ p = 10 ^ (p - fp.length) * 10 ^ fp.length := by
        rw [← pow_add, show p - fp.length + fp.length = p by omega]
      rw [this]
      ring
    · constructor
      · intro h'; simp [showExp] at h'
      · intro h'; exact absurd h' hfix
    · intro _
      refine ⟨showExp_text x, ?_, ?_⟩
      · rw [hn, hc]; rfl
      · rw [hn, hc]; simpa using hc0

example : textF binary64 0 '.' (.fin true (355 / 113)) 'g' 12 6 = some (.ok "-3.14159    ".toList) := by
  decide +kernel

example : textF binary64 0 '.' (.fin false (1 / 40000)) 'g' 0 6 = some (.ok "2.5e-05   ".toList) := by
  decide +kernel

example : textF binary64 0 '.' (.fin false 999999500) 'g' 1 6 = some (.ok "1e+09".toList) := by
  decide +kernel

example : textF binary64 0 '.' (.fin false (1 / 10000)) 'g' 1 6 = some (.ok "0.0001".toList) := by
  decide +kernel

/-- C67.  With any format character but `f`, `s`, `g`, `e` a finite number leaves nothing: the placeholder is filled with
the empty text, whatever the width. -/
theorem C67_addF_unknown (A : Arith) (fuel : Nat) (radix : Char) (neg : Bool) (q : ℚ) (w d : Nat) (f : Fmt) (c : Char)
    (hc : c ∉ ['f', 's', 'g', 'e']) :
    ∃ f', f.addF A fuel radix (.fin neg q) c w d = some (.ok f') ∧ Inserts f f' [] := by
  apply addF_of_text
  simp only [List.mem_cons, List.not_mem_nil, or_false, not_or] at hc
  simp [textF, hc.1, hc.2.1, hc.2.2.1, hc.2.2.2]

example : ((Fmt.mk' "[%0]".toList).addF binary64 0 '.' (.fin false 7) 'd' 8 2).map
    (fun r => r.map fun f => f.str true) = some (.ok (.ok "[]".toList)) := by
  decide +kernel

end SoDa
