import Verif.Props.FormatFWidth
/-!
C99 in general notation: exactly when the default width leaves no spaces behind the text.
-/
namespace SoDa
open Spec

/-- A number whose digits do not end in zero. -/
theorem numeral_last {a fp : Str} {m : Nat} (h : numeral 10 (a ++ fp) = some m) (hf : fp ≠ []) (hl : fp.getLast? ≠ some '0') :
    m % 10 ≠ 0 := by
  obtain ⟨-, h2, rfl⟩ := (Opts.numeral_ten _ _).1 h
  obtain ⟨fp, c, rfl⟩ : ∃ l c, fp = l ++ [c] := ⟨fp.dropLast, fp.getLast hf, (List.dropLast_append_getLast hf).symm⟩
  have hc := h2 c (by simp)
  have h0 : c ≠ '0' := by rintro rfl; simp at hl
  rw [← List.append_assoc, Opts.digitsVal, List.foldl_append]
  simp only [List.foldl_cons, List.foldl_nil]
  have h3 : 48 ≤ c.toNat ∧ c.toNat ≤ 57 := by
    simp only [Char.isDigit, Bool.and_eq_true, decide_eq_true_eq, UInt32.le_iff_toNat_le] at hc
    exact hc
  have h4 : c.toNat ≠ 48 := fun e => h0 (Char.ext (UInt32.toNat_inj.1 e))
  omega

/-- Trailing zeros are unique. -/
theorem zeros_unique {M M' j j' : Nat} (h : M * 10 ^ j = M' * 10 ^ j') (hM : M % 10 ≠ 0) (hM' : M' % 10 ≠ 0) : j = j' := by
  have key : ∀ {M M' j j' : Nat}, M * 10 ^ j = M' * 10 ^ j' → M % 10 ≠ 0 → ¬ j < j' := by
    intro M M' j j' h hM hlt
    obtain ⟨k, rfl⟩ : ∃ k, j' = j + (k + 1) := ⟨j' - j - 1, by omega⟩
    rw [pow_add, mul_comm (10 ^ j), ← mul_assoc] at h
    have := Nat.eq_of_mul_eq_mul_right (by positivity) h
    rw [this, pow_succ, ← mul_assoc] at hM
    omega
  have := key h hM
  have := key h.symm hM'
  omega

/-- Every number but zero is followed by some number of zeros. -/
theorem zeros_exist (n : Nat) (hn : n ≠ 0) : ∃ j M, M % 10 ≠ 0 ∧ n = M * 10 ^ j := by
  induction n using Nat.strongRecOn with
  | _ n ih =>
    by_cases h : n % 10 = 0
    · obtain ⟨j, M, h1, h2⟩ := ih (n / 10) (by omega) (by omega)
      exact ⟨j + 1, M, h1, by rw [pow_succ, ← mul_assoc, ← h2]; omega⟩
    · exact ⟨0, n, h, by simp⟩

/-- How long a fixed text without trailing zeros is: `n` has `sig` digits up to the last that is not zero, and `j` zeros. -/
theorem length_strip {n k M j : Nat} (hn : n = M * 10 ^ j) (hM : M % 10 ≠ 0) :
    (stripZeros (showScaled n k)).length =
      (Nat.toDigits 10 (n / 10 ^ k)).length + (if k ≤ j then 0 else k - j + 1) := by
  obtain ⟨fp, m, h1, h2, h3, h4, h5, -⟩ := stripZeros_scaled n k
  rw [h1, List.length_append]
  congr 1
  by_cases hf : fp = []
  · subst hf
    have hkj : k ≤ j := by
      by_contra hlt
      simp only [List.length_nil, Nat.sub_zero] at h5
      rw [hn, show k = k - j + j by omega, pow_add, ← mul_assoc] at h5
      have := Nat.eq_of_mul_eq_mul_right (by positivity) h5
      obtain ⟨i, hi⟩ : ∃ i, k - j = i + 1 := ⟨k - j - 1, by omega⟩
      rw [← this, hi, pow_succ, ← mul_assoc] at hM
      omega
    simp [hkj]
  · have := zeros_unique (h5.trans hn) (numeral_last h4 hf h2) hM
    have := List.length_pos_iff.mpr hf
    rw [if_neg hf, if_neg (by omega)]
    simp; omega

theorem length_general (neg : Bool) (q : ℚ) (d : Nat) : 0 < (showGeneral neg q d).length := by
  unfold showGeneral
  dsimp only
  have h : ∀ n k, 0 < (stripZeros (showScaled n k)).length := by
    intro n k
    obtain ⟨fp, m, h1, -⟩ := stripZeros_scaled n k
    have := List.length_pos_iff.mpr (@Nat.toDigits_ne_nil (n / 10 ^ k) 10)
    rw [h1, List.length_append]; omega
  rw [List.length_append]
  refine Nat.add_pos_right _ ?_
  generalize (if d = 0 then 1 else d) = p
  split
  · exact h _ _
  · rw [List.length_append]
    exact Nat.add_pos_left (h _ _) _

/-- The text of general notation does not end in a space. -/
theorem showGeneral_last (neg : Bool) (q : ℚ) (hq : 0 ≤ q) (d : Nat) (hd : d + 4 < 2 ^ 31) :
    showGeneral neg q d ≠ [] ∧ (showGeneral neg q d).getLast? ≠ some ' ' := by
  set body := showGeneral neg q d with hb
  by_cases h0 : body = []
  · exfalso
    have := length_general neg q d
    rw [← hb, h0] at this
    simp at this
  have hpos := List.length_pos_iff.mpr h0
  have ht : textF exactArith 0 '.' (.fin neg q) 'g' 1 d = some (.ok body) := by
    have := padRight_field (w := 1) (d := d) (by norm_num) hd body
    rw [show (if (1 : Nat) = 0 then d + 4 else 1) - body.length = 0 by simp; omega] at this
    simp only [List.replicate_zero, List.append_nil] at this
    simp only [textF, if_true, precision_small (show d < 2 ^ 31 by omega), ← hb]
    rw [if_neg (by decide), if_neg (by decide), this]
  obtain ⟨f', hf, hi⟩ := addF_of_text (Fmt.mk' "%0".toList) ht
  obtain ⟨t, hi', core, k1, k2, k3⟩ := field_fsg exactArith 0 '.' neg q hq 'g' (.inr (.inr rfl)) 1 d (by norm_num) hd _ _ hf
  obtain rfl := inserted_unique hi hi'
  have : 1 - core.length = 0 := by
    have := List.length_pos_iff.mpr k1; omega
  simp only [one_ne_zero, if_false, this, List.replicate_zero, List.append_nil] at k3
  rw [k3]
  exact ⟨k1, k2⟩

/-- The claim holds exactly if the text is not shorter than `d + 4`. -/
theorem general_length (A : Arith) (neg : Bool) (q : ℚ) (hq : 0 ≤ q) (d : Nat) (hd : d + 4 < 2 ^ 31) :
    C99_claim A (.fin neg q) 'g' d ↔ d + 4 ≤ (showGeneral neg q d).length := by
  obtain ⟨l1, l2⟩ := showGeneral_last neg q hq d hd
  set body := showGeneral neg q d with hb
  have htext : ∀ fuel radix, textF A fuel radix (.fin neg q) 'g' 0 d =
      some (.ok (body ++ List.replicate (d + 4 - body.length) ' ')) := by
    intro fuel radix
    have := padRight_field (w := 0) (by norm_num) hd body
    simp only [if_true] at this
    simp only [textF, if_true, precision_small (show d < 2 ^ 31 by omega), ← hb]
    rw [if_neg (by decide), if_neg (by decide), this]
  constructor
  · intro hc
    obtain ⟨f', hf, hi⟩ := addF_of_text (Fmt.mk' "%0".toList) (htext 0 '.')
    obtain ⟨t, hi', ht⟩ := hc _ _ _ _ hf
    obtain rfl := inserted_unique hi hi'
    by_contra hcon
    rw [field_long (by simp; omega)] at ht
    apply ht
    rw [List.getLast?_append_of_ne_nil _ (by simp; omega), List.getLast?_replicate, if_neg (by omega)]
  · intro hl fuel radix f f' h
    obtain ⟨t, ht, hi⟩ := addF_some h
    rw [htext] at ht
    rw [show d + 4 - body.length = 0 by omega] at ht
    simp only [List.replicate_zero, List.append_nil, Option.some.injEq, Res.ok.injEq] at ht
    exact ⟨t, hi, body, l1, l2, by rw [← ht]; simp⟩

/-- Exactly when the claim holds in general notation.  Rounded to `max d 1` digits the value is `M * 10 ^ (x + 1 - sig)`
where `M` has `sig` digits, the last one not zero.  Without exponent the claim holds if the value is less than one and there
are enough zeros behind the point; with exponent, if at most one (with a sign at most two) of the `d` digits is dropped, or
one more for exponents of more than two digits. -/
theorem C99_general_exact (A : Arith) (neg : Bool) (q : ℚ) (hq : 0 ≤ q) (d : Nat) (hd : d + 4 < 2 ^ 31) :
    (q = 0 → ¬ C99_claim A (.fin neg q) 'g' d) ∧
    (q ≠ 0 → ∃ (x : Int) (M sig : Nat), 10 ^ (sig - 1) ≤ M ∧ M < 10 ^ sig ∧ M % 10 ≠ 0 ∧ sig ≤ max d 1 ∧
      |(M : ℚ) * 10 ^ (x + 1 - sig) - q| ≤ 10 ^ (x + 1 - (max d 1 : Nat)) / 2 ∧
      (C99_claim A (.fin neg q) 'g' d ↔
        if -4 ≤ x ∧ x < (max d 1 : Nat) then x < 0 ∧ (d : Int) + 3 ≤ (if neg then 1 else 0) + sig - x
        else d ≤ (if neg then 1 else 0) + sig + (if sig = 1 then 0 else 1) +
          ((Nat.toDigits 10 x.natAbs).length - 2))) := by
  rw [general_length A neg q hq d hd]
  have hp : (if d = 0 then 1 else d) = max d 1 := by split <;> omega
  obtain ⟨p, hpd⟩ : ∃ p, max d 1 = p + 1 := ⟨max d 1 - 1, by omega⟩
  rw [hpd] at hp ⊢
  set n := (sciParts q p).1 with hn
  set x := (sciParts q p).2 with hx
  have hshow : showGeneral neg q d = (if neg then ['-'] else []) ++
      (if -4 ≤ x ∧ x < ((p + 1 : Nat) : Int) then
        stripZeros (showScaled (roundHalfEven (q * 10 ^ ((p : Int) - x).toNat)) ((p : Int) - x).toNat)
      else stripZeros (showScaled n p) ++ showExp x) := by
    unfold showGeneral
    dsimp only
    rw [hp, show p + 1 - 1 = p by omega, ← hn, ← hx, show ((p + 1 : Nat) : Int) - 1 - x = p - x by push_cast; ring]
  have hsign : (if neg then ['-'] else [] : Str).length = if neg then 1 else 0 := by cases neg <;> rfl
  have hs1 : (if neg then 1 else 0 : Nat) ≤ 1 := by cases neg <;> simp
  refine ⟨fun h0 => ?_, fun h0 => ?_⟩
  · subst h0
    have hx0 : x = 0 := by rw [hx]; simp [sciParts]
    obtain ⟨fp, m, h1, -, -, -, -, h6⟩ := stripZeros_scaled (roundHalfEven (0 * 10 ^ ((p : Int) - x).toNat)) ((p : Int) - x).toNat
    have hr : roundHalfEven (0 * 10 ^ ((p : Int) - x).toNat) = 0 := by simp [roundHalfEven]
    rw [h6 hr, hr] at h1
    rw [if_pos (show -4 ≤ x ∧ x < ((p + 1 : Nat) : Int) by rw [hx0]; exact ⟨by omega, by push_cast; omega⟩), hr, h1] at hshow
    rw [hshow, List.length_append, hsign]
    simp
    omega
  · have hq' : 0 < q := lt_of_le_of_ne hq (Ne.symm h0)
    obtain ⟨g1, g2, g3⟩ := sciParts_spec hq' p
    have herr := sciParts_err hq' p
    rw [← hn, ← hx] at herr
    rw [← hn] at g1 g2
    have hn0 : n ≠ 0 := by
      have : 0 < 10 ^ p := by positivity
      omega
    obtain ⟨j, M, hM, hnM⟩ := zeros_exist n hn0
    have hj : j ≤ p := by
      by_contra hlt
      have : 10 ^ (p + 1) ≤ n := by
        rw [hnM]
        calc 10 ^ (p + 1) ≤ 10 ^ j := Nat.pow_le_pow_right (by omega) (by omega)
          _ ≤ M * 10 ^ j := Nat.le_mul_of_pos_left _ (by omega)
      omega
    refine ⟨x, M, p + 1 - j, ?_, ?_, hM, by omega, ?_, ?_⟩
    · rw [hnM, show p = p - j + j by omega, pow_add] at g1
      rw [show p + 1 - j - 1 = p - j by omega]
      exact Nat.le_of_mul_le_mul_right g1 (by positivity)
    · rw [hnM, show p + 1 = p + 1 - j + j by omega, pow_add] at g2
      exact Nat.lt_of_mul_lt_mul_right g2
    · have e1 : (M : ℚ) * 10 ^ (x + 1 - ((p + 1 - j : Nat) : Int)) = n * 10 ^ (x - p) := by
        rw [hnM, Nat.cast_sub (by omega), show x + 1 - (((p + 1 : Nat) : Int) - j) = j + (x - p) by push_cast; ring,
          zpow_add₀ (by norm_num), zpow_natCast]
        push_cast; ring
      rw [e1, show x + 1 - ((p + 1 : Nat) : Int) = x - p by push_cast; ring]
      exact herr
    · by_cases hfix : -4 ≤ x ∧ x < ((p + 1 : Nat) : Int)
      · rw [if_pos hfix] at hshow ⊢
        obtain ⟨k, hk⟩ : ∃ k : Nat, (p : Int) - x = k := ⟨((p : Int) - x).toNat, by push_cast at hfix; omega⟩
        rw [hk, Int.toNat_natCast] at hshow
        have hr : roundHalfEven (q * 10 ^ k) = n := by
          rw [hn, (sciParts_spec hq' p).2.2, ← hx, scaled, hk, zpow_natCast]
        rw [hr] at hshow
        rw [hshow, List.length_append, hsign, length_strip hnM hM]
        have hdig : ∀ a : Nat, 1 ≤ a → p + 1 ≤ k + a → (Nat.toDigits 10 (n / 10 ^ k)).length ≤ a := by
          intro a ha hle
          rw [Nat.length_toDigits_le_iff (by omega) (by omega), Nat.div_lt_iff_lt_mul (by positivity), ← pow_add]
          exact lt_of_lt_of_le g2 (Nat.pow_le_pow_right (by omega) (by omega))
        have hpos := List.length_pos_iff.mpr (@Nat.toDigits_ne_nil (n / 10 ^ k) 10)
        by_cases hx0 : x < 0
        · have := hdig 1 (by omega) (by omega)
          rw [if_neg (show ¬ k ≤ j by omega)]
          cases neg <;> simp only [if_true, if_false, Bool.false_eq_true] <;> omega
        · have := hdig (x + 1).toNat (by omega) (by omega)
          have : ¬ d + 4 ≤ (if neg then 1 else 0) +
              ((Nat.toDigits 10 (n / 10 ^ k)).length + (if k ≤ j then 0 else k - j + 1)) := by
            split_ifs <;> omega
          simp only [this, hx0, false_and]
      · rw [if_neg hfix] at hshow ⊢
        obtain ⟨c, hc, -⟩ := toDigits_single g1 g2
        rw [hshow, List.length_append, List.length_append, hsign, length_strip hnM hM, hc]
        have hE : (showExp x).length = 2 + max 2 (Nat.toDigits 10 x.natAbs).length := by
          simp [showExp, padLeft]; omega
        rw [hE]
        generalize (Nat.toDigits 10 x.natAbs).length = L
        simp only [List.length_singleton]
        cases neg <;> simp only [if_true, if_false, Bool.false_eq_true] <;> split_ifs <;> omega

/-- 1/3 is followed by spaces, 1/3000 is not; 123456789 = 1.23457e+08 is not, 120000000 = 1.2e+08 is. -/
example : (showGeneral false (1 / 3) 6, showGeneral false (1 / 3000) 6, showGeneral false 123456789 6,
    showGeneral false 120000000 6) =
    ("0.333333".toList, "0.000333333".toList, "1.23457e+08".toList, "1.2e+08".toList) := by decide +kernel

example : ¬ C99_claim binary64 (.fin false (1 / 3)) 'g' 6 ∧ C99_claim binary64 (.fin false (1 / 3000)) 'g' 6 ∧
    C99_claim binary64 (.fin false 123456789) 'g' 6 ∧ ¬ C99_claim binary64 (.fin false 120000000) 'g' 6 := by
  refine ⟨?_, ?_, ?_, ?_⟩ <;> rw [general_length _ _ _ (by norm_num) _ (by norm_num)] <;> decide +kernel

/-! ### Engineering notation with no digits -/

theorem modvalLoop_small : ∀ (k : Nat) (m r : Int), modvalLoop k m = .ok r → 1 ≤ m → m ≤ intMax → m * 10 ^ k ≤ intMax
  | 0, m, r, _, _, h => by simpa using h
  | k + 1, m, r, h, h1, _ => by
    unfold modvalLoop at h
    split_ifs at h with h3
    have := modvalLoop_small k (m * 10) r h (by omega) h3
    rw [pow_succ]; rw [mul_assoc, mul_comm (10 : Int)] at this; exact this

/-- Exactly when the claim holds in engineering notation with no digits: the same condition on the exponent.  (The text is
not a number in that notation, but the exponent can be read.) -/
theorem C99_eng_no_digits_partial (A : Arith) (neg : Bool) (q : ℚ) (hq : q ≠ 0) (fuel : Nat) (radix : Char) (f f' : Fmt)
    (h : f.addF A fuel radix (.fin neg q) 'e' 0 0 = some (.ok f')) :
    ∃ t pre s es sp n, Inserts f f' t ∧ t = pre ++ 'e' :: s :: es ++ sp ∧ (s = '+' ∨ s = '-') ∧ 'e' ∉ pre ∧
      numeral 10 es = some n ∧ (∀ c ∈ sp, c = ' ') ∧ (FieldText 0 t ↔ 10 ≤ n) := by
  obtain ⟨t, ht, hi⟩ := addF_some h
  simp only [textF, if_true, if_neg hq, show ¬ ('e' = 'f') by decide, show ¬ ('e' = 's') by decide,
    show ¬ ('e' = 'g') by decide, if_false] at ht
  rcases hl : log1k A fuel q 0 with _ | ⟨v, e⟩
  · simp [hl] at ht
  rw [hl] at ht
  simp only [Option.bind_some, fractionate, Option.map_map, Option.map_eq_some_iff, Function.comp] at ht
  obtain ⟨iw, hiw, ht⟩ := ht
  cases v with
  | none => simp [Res.bind] at ht
  | some x =>
    simp only at ht
    split_ifs at ht with hx
    · rcases hm : modvalLoop (iw - 0) 1 with mv | e' | _
      · rw [hm] at ht
        simp only [Res.bind, Nat.zero_sub] at ht
        rw [show loopCount 0 = 0 from rfl] at ht
        simp only [fracLoop, Res.ok.injEq] at ht
        have hb := modvalLoop_small _ _ _ hm (by omega) (by simp [intMax])
        have hiw' : (iw : Int) < 2147483647 := by
          have h1 : iw < 10 ^ iw := Nat.lt_pow_self (by omega)
          have h2 : (iw : Int) < 10 ^ iw := by exact_mod_cast h1
          simp [intMax] at hb
          omega
        subst ht
        have hz : (toI32 ((((0 + 4) % u32 : Nat) : Int) - (iw + (0 : Nat) + 4))).toNat = 0 := by
          simp only [toI32, u32]; omega
        have hexp : (if e < 0 then '-' :: padRight ' ' 2 (showInt (-e)) else '+' :: padRight ' ' 2 (showInt e)) =
            (if e < 0 then '-' else '+') :: (Nat.toDigits 10 e.natAbs ++
              List.replicate (2 - (Nat.toDigits 10 e.natAbs).length) ' ') := by
          split_ifs with h0
          · rw [show -e = ((e.natAbs : Nat) : Int) by omega, showInt_ofNat]; rfl
          · rw [show e = ((e.natAbs : Nat) : Int) by omega, showInt_ofNat]; rfl
        have hlen : 2 - (Nat.toDigits 10 e.natAbs).length = if 10 ≤ e.natAbs then 0 else 1 := by
          have h1 := List.length_pos_iff.mpr (@Nat.toDigits_ne_nil e.natAbs 10)
          have h2 := Nat.length_toDigits_le_iff (b := 10) (n := e.natAbs) (k := 1) (by omega) (by omega)
          split_ifs <;> omega
        have htx : engText neg ⟨⌊x⌋ - ⌊x⌋ % mv, 0, iw, 0⟩ e ((0 + 4) % u32) =
            ([if neg then '-' else ' '] ++ padRight ' ' iw (showInt (⌊x⌋ - ⌊x⌋ % mv))) ++ 'e' ::
              (if e < 0 then '-' else '+') :: Nat.toDigits 10 e.natAbs ++
              List.replicate (if 10 ≤ e.natAbs then 0 else 1) ' ' := by
          unfold engText
          dsimp only
          rw [hz, hexp, hlen]
          simp
        refine ⟨_, _, _, _, _, e.natAbs, hi, htx, ?_, ?_, numeral_toDigits 10 (by omega) (by omega) _, ?_, ?_⟩
        · split_ifs <;> simp
        · intro hc
          simp only [padRight, List.mem_append, List.mem_singleton, List.mem_replicate] at hc
          rcases hc with hc | hc | hc
          · split_ifs at hc <;> revert hc <;> decide
          · have hd : ∀ (z : Int), 'e' ∉ showInt z := by
              intro z hz
              cases z with
              | ofNat n => exact absurd (toDigits_isDigit n _ hz) (by decide)
              | negSucc n =>
                simp only [showInt, List.mem_cons] at hz
                rcases hz with hz | hz
                · revert hz; decide
                · exact absurd (toDigits_isDigit _ _ hz) (by decide)
            exact hd _ hc
          · exact absurd hc.2 (by decide)
        · intro c hc; exact (List.mem_replicate.1 hc).2
        · rw [htx, field_long (by simp)]
          by_cases h10 : 10 ≤ e.natAbs
          · rw [if_pos h10]
            simp only [List.replicate_zero, List.append_nil]
            refine ⟨fun _ => h10, fun _ => ?_⟩
            have := @getLast_digits (([if neg then '-' else ' '] ++ padRight ' ' iw (showInt (⌊x⌋ - ⌊x⌋ % mv))) ++
              ['e', if e < 0 then '-' else '+']) _ (@Nat.toDigits_ne_nil e.natAbs 10) (toDigits_isDigit _)
            simpa using this
          · rw [if_neg h10, List.getLast?_append_of_ne_nil _ (by simp)]; simp [h10]
      · exact e'.elim
      · rw [hm] at ht; simp [Res.bind] at ht
    · simp [Res.bind] at ht

/-- Both cases: 5.0 and 5e12. -/
example : textF binary64 308 '.' (.fin false 5) 'e' 0 0 = some (.ok " 10e+0 ".toList) ∧
    textF binary64 308 '.' (.fin true 5000000000000) 'e' 0 0 = some (.ok "-10e+12".toList) := by decide +kernel

end SoDa
