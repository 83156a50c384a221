import Verif.Props.FormatFSci
import Verif.Proof.FormatFWidth
/-!
C98-C101: what the documentation of `addF` says about the radix character, the width of the field and the number of
digits (include/Format.hxx:236-240, 338-407, 499-507).
-/
namespace SoDa
open Spec

/-! ### Fields -/

theorem field_long {w : Nat} {t : Str} (h : w < t.length) : FieldText w t ↔ t.getLast? ≠ some ' ' := by
  constructor
  · rintro ⟨core, h1, h2, h3⟩
    have : w - core.length = 0 := by
      by_contra hc
      rw [h3] at h
      simp only [List.length_append, List.length_replicate] at h
      omega
    rw [this] at h3
    simp only [List.replicate_zero, List.append_nil] at h3
    rwa [h3]
  · intro h2
    refine ⟨t, by rintro rfl; simp at h, h2, ?_⟩
    rw [show w - t.length = 0 by omega]; simp

theorem getLast_digits {a ds : Str} (h : ds ≠ []) (hd : ∀ c ∈ ds, c.isDigit = true) :
    (a ++ ds).getLast? ≠ some ' ' := by
  rw [List.getLast?_append_of_ne_nil _ h]
  intro hc
  have := hd ' ' (List.mem_of_getLast? hc)
  revert this; decide

theorem inserted_unique {f' : Fmt} {s t : Str} (h1 : Inserts (Fmt.mk' "%0".toList) f' s)
    (h2 : Inserts (Fmt.mk' "%0".toList) f' t) : s = t := by
  simp only [Inserts, addS_zero, Res.ok.injEq] at h1 h2
  exact insert_hole_inj _ _ (h1.trans h2.symm)

/-- The text of a call with sufficient fuel is the same whatever the fuel. -/
theorem textF_unique {A : Arith} {m n : Nat} {radix : Char} {v : Dbl} {fmt : Char} {w d : Nat} {s t : Str}
    (h1 : textF A m radix v fmt w d = some (.ok s)) (h2 : textF A n radix v fmt w d = some (.ok t)) : s = t := by
  have e1 := textF_mono n h1
  have e2 := textF_mono m h2
  rw [Nat.add_comm n m, e1] at e2
  exact Res.ok.inj (Option.some.inj e2)

/-! ### C98: the radix character -/

/-- What the documentation says of `SoDa::Format::separator = c`: the text is the one for '.' with `c` as the radix
character. -/
def C98_claim (A : Arith) (v : Dbl) (fmt : Char) (w d : Nat) : Prop :=
  ∀ (fuel : Nat) (c : Char) (f f' : Fmt), f.addF A fuel c v fmt w d = some (.ok f') →
    ∃ f'' t, f.addF A fuel '.' v fmt w d = some (.ok f'') ∧ Inserts f f'' t ∧ Inserts f f' (withRadix c t)

theorem textF_radix (A : Arith) (fuel : Nat) (c c' : Char) (v : Dbl) (fmt : Char) (w d : Nat)
    (h : ¬ (fmt = 'e' ∧ ∃ neg, v = .fin neg 0)) : textF A fuel c v fmt w d = textF A fuel c' v fmt w d := by
  cases v with
  | nan => rfl
  | inf n => rfl
  | fin neg q =>
    simp only [textF]
    split_ifs
    all_goals first
      | rfl
      | (rename_i h4 h5; exact absurd ⟨h4, neg, by rw [h5]⟩ h)

/-- The separator has no effect at all unless the value is zero and the format 'e'. -/
theorem C98_ignored_partial (A : Arith) (fuel : Nat) (c c' : Char) (f : Fmt) (v : Dbl) (fmt : Char) (w d : Nat)
    (h : ¬ (fmt = 'e' ∧ ∃ neg, v = .fin neg 0)) : f.addF A fuel c v fmt w d = f.addF A fuel c' v fmt w d := by
  simp only [Fmt.addF, textF_radix A fuel c c' v fmt w d h]

/-- The claim holds for zero in engineering notation (with at least one digit).  Missing: everything else, where it
holds only if there is no radix point in the text (`C98_exact`). -/
theorem C98_zero_partial (A : Arith) (neg : Bool) (w d : Nat) (hd : 1 ≤ d) (hd' : d ≤ 2 ^ 31) :
    C98_claim A (.fin neg 0) 'e' w d := by
  intro fuel c f f' h
  obtain ⟨f1, h1, i1⟩ := C20_eng_zero A fuel c neg w d hd hd' f
  obtain ⟨f2, h2, i2⟩ := C20_eng_zero A fuel '.' neg w d hd hd' f
  rw [h] at h1
  obtain rfl : f' = f1 := Res.ok.inj (Option.some.inj h1)
  refine ⟨f2, _, h2, i2, ?_⟩
  have : withRadix c (['0', '.'] ++ List.replicate (max 1 (d - 1)) '0' ++ "e0".toList) =
      ['0', c] ++ List.replicate (max 1 (d - 1)) '0' ++ "e0".toList := by
    simp [withRadix, List.map_replicate]
  rw [this]; exact i1

theorem withRadix_eq {t : Str} (h : '.' ∉ t) (c : Char) : withRadix c t = t := by
  unfold withRadix
  conv_rhs => rw [← List.map_id t]
  apply List.map_congr_left
  intro x hx
  rw [if_neg (by rintro rfl; exact h hx)]; rfl

theorem withRadix_ne {t : Str} (h : withRadix ',' t = t) : '.' ∉ t := by
  intro hm
  have : '.' ∈ withRadix ',' t := by rw [h]; exact hm
  simp only [withRadix, List.mem_map] at this
  obtain ⟨x, _, hx⟩ := this
  split at hx
  · revert hx; decide
  · rename_i h1; exact h1 hx

/-- Exactly when the claim holds: the text (for '.') contains no point, or the value is zero and the format 'e'.
`t` is what `Format("%0").addF(v, fmt, w, d).str()` returns. -/
theorem C98_exact (A : Arith) (v : Dbl) (fmt : Char) (w d : Nat) (hd : 1 ≤ d) (hd' : d ≤ 2 ^ 31) (fuel : Nat) (f' : Fmt)
    (t : Str) (h : (Fmt.mk' "%0".toList).addF A fuel '.' v fmt w d = some (.ok f'))
    (hi : Inserts (Fmt.mk' "%0".toList) f' t) :
    C98_claim A v fmt w d ↔ '.' ∉ t ∨ (fmt = 'e' ∧ ∃ neg, v = .fin neg 0) := by
  by_cases hz : fmt = 'e' ∧ ∃ neg, v = .fin neg 0
  · obtain ⟨rfl, neg, rfl⟩ := hz
    exact ⟨fun _ => .inr ⟨rfl, neg, rfl⟩, fun _ => C98_zero_partial A neg w d hd hd'⟩
  · simp only [hz, or_false]
    obtain ⟨t', ht, hi'⟩ := addF_some h
    obtain rfl := inserted_unique hi hi'
    constructor
    · intro hc
      obtain ⟨f'', t'', h1, h2, h3⟩ := hc fuel ',' _ f'
        ((C98_ignored_partial A fuel ',' '.' _ v fmt w d hz).trans h)
      rw [h] at h1
      obtain rfl : f' = f'' := Res.ok.inj (Option.some.inj h1)
      obtain rfl := inserted_unique hi h2
      exact withRadix_ne (inserted_unique h3 hi)
    · intro hno fuel' c f g hg
      rw [C98_ignored_partial A fuel' c '.' _ v fmt w d hz] at hg
      obtain ⟨s, hs, his⟩ := addF_some hg
      obtain rfl := textF_unique hs ht
      exact ⟨g, s, hg, his, by rw [withRadix_eq hno]; exact his⟩

/-- The claim fails for 1.5 in every notation. -/
theorem C98_refuted : ¬ C98_claim binary64 (.fin false (3 / 2)) 'f' 0 6 ∧
    ¬ C98_claim binary64 (.fin false (3 / 2)) 's' 0 6 ∧ ¬ C98_claim binary64 (.fin false (3 / 2)) 'g' 0 6 ∧
    ¬ C98_claim binary64 (.fin false (3 / 2)) 'e' 0 6 := by
  have main : ∀ (fmt : Char) (t : Str), textF binary64 20 '.' (.fin false (3 / 2)) fmt 0 6 = some (.ok t) → '.' ∈ t →
      ¬ C98_claim binary64 (.fin false (3 / 2)) fmt 0 6 := by
    intro fmt t ht hm
    obtain ⟨f', hf, hi⟩ := addF_of_text (Fmt.mk' "%0".toList) ht
    rw [C98_exact binary64 _ fmt 0 6 (by norm_num) (by norm_num) 20 f' t hf hi]
    rintro (h | ⟨_, neg, h⟩)
    · exact h hm
    · simp at h
  refine ⟨main 'f' "1.500000  ".toList (by decide +kernel) (by decide), main 's' "1.500000e+00".toList (by decide +kernel)
    (by decide), main 'g' "1.5       ".toList (by decide +kernel) (by decide),
    main 'e' " 1.50000e+0 ".toList (by decide +kernel) (by decide)⟩

/-- The separator at work: zero. -/
example : textF binary64 0 ',' (.fin true 0) 'e' 10 4 = some (.ok "0,000e0".toList) := by decide +kernel

/-! ### C99, C100: the width of the field -/

/-- What the documentation says of the default width: the field "will take up only as much room as the value
requires". -/
def C99_claim (A : Arith) (v : Dbl) (fmt : Char) (d : Nat) : Prop :=
  ∀ (fuel : Nat) (radix : Char) (f f' : Fmt), f.addF A fuel radix v fmt 0 d = some (.ok f') →
    ∃ t, Inserts f f' t ∧ FieldText 0 t

/-- What the documentation says of a width that is given: it is "the minimum width of the field", and the value is
left-justified. -/
def C100_claim (A : Arith) (v : Dbl) (fmt : Char) (w d : Nat) : Prop :=
  ∀ (fuel : Nat) (radix : Char) (f f' : Fmt), f.addF A fuel radix v fmt w d = some (.ok f') →
    ∃ t, Inserts f f' t ∧ FieldText w t

theorem expText_last {e : Int} {ex : Str} (h : ExpText e ex) (a : Str) : a ++ ex ≠ [] ∧ (a ++ ex).getLast? ≠ some ' ' := by
  obtain ⟨es, rfl, hn, hl, _⟩ := h
  have h1 := ((Opts.numeral_ten _ _).1 hn)
  refine ⟨by simp, ?_⟩
  have := getLast_digits (a := a ++ ['e', if e < 0 then '-' else '+']) h1.1 h1.2.1
  simpa using this

/-- The field in notations 'f', 's' and 'g'. -/
theorem field_fsg (A : Arith) (fuel : Nat) (radix : Char) (neg : Bool) (q : ℚ) (hq : 0 ≤ q) (fmt : Char)
    (hfmt : fmt = 'f' ∨ fmt = 's' ∨ fmt = 'g') (w d : Nat) (hw : w < 2 ^ 31) (hd : d + 4 < 2 ^ 31) (f f' : Fmt)
    (h : f.addF A fuel radix (.fin neg q) fmt w d = some (.ok f')) :
    ∃ t, Inserts f f' t ∧ FieldText (if w = 0 then d + 4 else w) t := by
  rcases hfmt with rfl | rfl | rfl
  · obtain ⟨g, ip, fp, n, hg, hi, _, hfp, hn, _⟩ := C24_addF_fixed A fuel radix neg q hq w d hw hd f
    rw [h] at hg
    obtain rfl : f' = g := Res.ok.inj (Option.some.inj hg)
    refine ⟨_, hi, _, ?_, ?_, rfl⟩
    all_goals
      obtain ⟨n1, n2, _⟩ := (Opts.numeral_ten _ _).1 hn
      by_cases h0 : d = 0
      · have : fp = [] := List.length_eq_zero_iff.1 (by omega)
        subst this
        simp only [List.append_nil] at n1 n2
        simp only [h0, if_true, List.append_nil]
        first | exact getLast_digits n1 n2 | simp [n1]
      · have h1 : fp ≠ [] := by rintro rfl; simp at hfp; omega
        simp only [h0, if_false]
        rw [show ('.' :: fp : Str) = ['.'] ++ fp from rfl, ← List.append_assoc]
        first | exact getLast_digits h1 fun c hc => n2 c (by simp [hc]) | simp
  · obtain ⟨g, c, fp, ex, n, e, hg, hi, _, _, hex, _⟩ := C65_addF_scientific A fuel radix neg q hq w d hw hd f
    rw [h] at hg
    obtain rfl : f' = g := Res.ok.inj (Option.some.inj hg)
    exact ⟨_, hi, _, (expText_last hex _).1, (expText_last hex _).2, rfl⟩
  · obtain ⟨g, ip, fp, ex, m, hg, hi, _, _, hn, hz, hnz⟩ := C66_addF_general A fuel radix neg q hq w d hw hd f
    rw [h] at hg
    obtain rfl : f' = g := Res.ok.inj (Option.some.inj hg)
    have key : ∀ a : Str, a ≠ [] ∧ a.getLast? ≠ some ' ' → (a ++ ex) ≠ [] ∧ (a ++ ex).getLast? ≠ some ' ' := by
      intro a ha
      by_cases hex : ex = []
      · simpa [hex] using ha
      · have hq0 : q ≠ 0 := fun h0 => hex (hz h0).2.2
        obtain ⟨x, N, _, _, _, _, _, _, hE⟩ := hnz hq0
        exact expText_last (hE hex).1 a
    obtain ⟨n1, n2, _⟩ := (Opts.numeral_ten _ _).1 hn
    have hbody := key ((if neg then ['-'] else []) ++ ip ++ (if fp = [] then [] else '.' :: fp)) (by
      by_cases h0 : fp = []
      · subst h0
        simp only [List.append_nil] at n1 n2
        simp only [if_true, List.append_nil]
        exact ⟨by simp [n1], getLast_digits n1 n2⟩
      · simp only [h0, if_false]
        refine ⟨by simp, ?_⟩
        rw [show ('.' :: fp : Str) = ['.'] ++ fp from rfl, ← List.append_assoc]
        exact getLast_digits h0 fun c hc => n2 c (by simp [hc]))
    exact ⟨_, hi, _, hbody.1, hbody.2, rfl⟩

/-- NaN and infinities: any width. -/
theorem field_nan_inf (A : Arith) (fuel : Nat) (radix fmt : Char) (w d : Nat) (f f' : Fmt) (v : Dbl)
    (hv : v = .nan ∨ ∃ neg, v = .inf neg) (h : f.addF A fuel radix v fmt w d = some (.ok f')) :
    ∃ t, Inserts f f' t ∧ FieldText (fieldWidth w d) t ∧ t.length = max 3 (fieldWidth w d) := by
  obtain ⟨name, hv', hl, hn⟩ : ∃ name : Str, ((v = .nan ∧ name = "nan".toList) ∨
      (∃ neg, v = .inf neg ∧ name = "inf".toList)) ∧ name.length = 3 ∧ name.getLast? ≠ some ' ' := by
    rcases hv with rfl | ⟨neg, rfl⟩
    · exact ⟨_, .inl ⟨rfl, rfl⟩, by decide, by decide⟩
    · exact ⟨_, .inr ⟨neg, rfl, rfl⟩, by decide, by decide⟩
  obtain ⟨g, hg, hi⟩ := C19_addF_nan_inf A fuel radix fmt w d f v name hv'
  rw [h] at hg
  obtain rfl : f' = g := Res.ok.inj (Option.some.inj hg)
  refine ⟨_, hi, ⟨name, by rintro rfl; simp at hl, hn, by rw [hl]⟩, ?_⟩
  simp only [List.length_append, List.length_replicate, hl]
  omega

/-- C100 in notations 'f', 's' and 'g'.  Missing: widths of 2^31 and more (`C65_large_arguments`), and 'e', where the
claim is false (`C100_refuted`). -/
theorem C100_fsg_partial (A : Arith) (neg : Bool) (q : ℚ) (hq : 0 ≤ q) (fmt : Char)
    (hfmt : fmt = 'f' ∨ fmt = 's' ∨ fmt = 'g') (w d : Nat) (hw0 : 0 < w) (hw : w < 2 ^ 31) (hd : d + 4 < 2 ^ 31) :
    C100_claim A (.fin neg q) fmt w d := by
  intro fuel radix f f' h
  have := field_fsg A fuel radix neg q hq fmt hfmt w d hw hd f f' h
  rwa [if_neg (by omega)] at this

/-- C100 for NaN and the infinities. -/
theorem C100_nan_inf_partial (A : Arith) (v : Dbl) (hv : v = .nan ∨ ∃ neg, v = .inf neg) (fmt : Char) (w d : Nat)
    (hw0 : 0 < w) : C100_claim A v fmt w d := by
  intro fuel radix f f' h
  obtain ⟨t, hi, hf, _⟩ := field_nan_inf A fuel radix fmt w d f f' v hv h
  rw [fieldWidth, if_neg (by omega)] at hf
  exact ⟨t, hi, hf⟩

/-- With the default width the notations 'f', 's' and 'g' make a field of `d + 4` characters. -/
theorem C99_fsg_width_partial (A : Arith) (neg : Bool) (q : ℚ) (hq : 0 ≤ q) (fmt : Char)
    (hfmt : fmt = 'f' ∨ fmt = 's' ∨ fmt = 'g') (d : Nat) (hd : d + 4 < 2 ^ 31) (fuel : Nat) (radix : Char) (f f' : Fmt)
    (h : f.addF A fuel radix (.fin neg q) fmt 0 d = some (.ok f')) : ∃ t, Inserts f f' t ∧ FieldText (d + 4) t := by
  have := field_fsg A fuel radix neg q hq fmt hfmt 0 d (by norm_num) hd f f' h
  rwa [if_pos rfl] at this

/-- Scientific notation never needs padding to `d + 4` characters: the claim holds. -/
theorem C99_sci_partial (A : Arith) (neg : Bool) (q : ℚ) (hq : 0 ≤ q) (d : Nat) (hd : d + 4 < 2 ^ 31) :
    C99_claim A (.fin neg q) 's' d := by
  intro fuel radix f f' h
  obtain ⟨g, c, fp, ex, n, e, hg, hi, hl, _, hex, _⟩ := C65_addF_scientific A fuel radix neg q hq 0 d (by norm_num) hd f
  rw [h] at hg
  obtain rfl : f' = g := Res.ok.inj (Option.some.inj hg)
  have h1 := expText_last hex ((if neg then ['-'] else []) ++ [c] ++ (if d = 0 then [] else '.' :: fp))
  have hel : 4 ≤ ex.length := by
    obtain ⟨es, rfl, _, h2, _⟩ := hex
    simp; omega
  have hlen : d + 4 ≤ ((if neg then ['-'] else []) ++ [c] ++ (if d = 0 then [] else '.' :: fp) ++ ex).length := by
    by_cases h0 : d = 0
    · simp [h0]; omega
    · simp [h0]; omega
  refine ⟨_, hi, _, h1.1, h1.2, ?_⟩
  simp only [if_true]
  rw [show d + 4 - _ = 0 by omega]
  simp

/-- NaN and the infinities are padded to `d + 4` characters: the claim is false. -/
theorem C99_nan_inf_refuted (A : Arith) (v : Dbl) (hv : v = .nan ∨ ∃ neg, v = .inf neg) (fmt : Char) (d : Nat)
    (hd : d + 4 < 2 ^ 32) : ¬ C99_claim A v fmt d := by
  intro hc
  have hw : fieldWidth 0 d = d + 4 := by simp only [fieldWidth, if_true]; exact Nat.mod_eq_of_lt hd
  obtain ⟨f', hf⟩ : ∃ f', (Fmt.mk' "%0".toList).addF A 0 '.' v fmt 0 d = some (.ok f') := by
    rcases hv with rfl | ⟨neg, rfl⟩ <;> exact ⟨_, rfl⟩
  obtain ⟨t, hi, ht⟩ := hc _ _ _ _ hf
  have key : ∀ name : Str, name.length = 3 → ((v = .nan ∧ name = "nan".toList) ∨
      (∃ neg, v = .inf neg ∧ name = "inf".toList)) → False := by
    intro name hl hv'
    obtain ⟨g, hg, hi'⟩ := C19_addF_nan_inf A 0 '.' fmt 0 d (Fmt.mk' "%0".toList) v name hv'
    rw [hf] at hg
    obtain rfl : f' = g := Res.ok.inj (Option.some.inj hg)
    obtain rfl := inserted_unique hi hi'
    rw [field_long (by simp; omega), hw] at ht
    apply ht
    rw [List.getLast?_append_of_ne_nil _ (by simp), List.getLast?_replicate, if_neg (by omega)]
  rcases hv with rfl | ⟨neg, rfl⟩
  · exact key _ (by decide) (.inl ⟨rfl, rfl⟩)
  · exact key _ (by decide) (.inr ⟨neg, rfl, rfl⟩)

/-- A value rounds to at least an even number exactly from half a unit below. -/
theorem le_rhe_even {x : ℚ} (hx : 0 ≤ x) {b : Nat} (hb : b % 2 = 0) :
    b ≤ roundHalfEven x ↔ (b : ℚ) - 1 / 2 ≤ x := by
  obtain ⟨h1, h2⟩ := rhe_floor hx
  unfold roundHalfEven
  dsimp only
  generalize ⌊x⌋.toNat = f at *
  have c1 : ∀ m n : Nat, m ≤ n ↔ (m : ℚ) ≤ n := fun m n => Nat.cast_le.symm
  constructor
  · intro h
    split_ifs at h with a1 a2 a3
    · have := (c1 _ _).1 h; linarith
    · have := (c1 _ _).1 h; push_cast at this; linarith
    · have := (c1 _ _).1 h; linarith
    · have := (c1 _ _).1 h; push_cast at this; linarith
  · intro h
    have hbf : b ≤ f + 1 := by
      by_contra hc
      have := (c1 (f + 2) b).1 (by omega)
      push_cast at this; linarith
    split_ifs with a1 a2 a3
    · by_contra hc
      have : b = f + 1 := by omega
      rw [this] at h; push_cast at h; linarith
    · omega
    · by_contra hc
      omega
    · omega

/-- The text in fixed notation does not end in a space. -/
theorem showFixed_last (neg : Bool) (q : ℚ) (hq : 0 ≤ q) (d : Nat) (hd : d + 4 < 2 ^ 31) :
    showFixed neg q d ≠ [] ∧ (showFixed neg q d).getLast? ≠ some ' ' := by
  have hpos : 1 ≤ (showFixed neg q d).length := by
    simp only [showFixed, showScaled]
    have := List.length_pos_iff.mpr (@Nat.toDigits_ne_nil (roundHalfEven (q * 10 ^ d)) 10)
    split_ifs <;> simp <;> omega
  have ht : textF exactArith 0 '.' (.fin neg q) 'f' 1 d = some (.ok (showFixed neg q d)) := by
    have := padRight_field (w := 1) (d := d) (by norm_num) hd (showFixed neg q d)
    rw [show (if (1 : Nat) = 0 then d + 4 else 1) - (showFixed neg q d).length = 0 by simp; omega] at this
    simp only [List.replicate_zero, List.append_nil] at this
    simp only [textF, if_true, precision_small (show d < 2 ^ 31 by omega)]
    rw [this]
  obtain ⟨f', hf, hi⟩ := addF_of_text (Fmt.mk' "%0".toList) ht
  obtain ⟨t, hi', core, k1, k2, k3⟩ := field_fsg exactArith 0 '.' neg q hq 'f' (.inl rfl) 1 d (by norm_num) hd _ _ hf
  obtain rfl := inserted_unique hi hi'
  have : 1 - core.length = 0 := by
    have := List.length_pos_iff.mpr k1; omega
  simp only [one_ne_zero, if_false, this, List.replicate_zero, List.append_nil] at k3
  rw [k3]
  exact ⟨k1, k2⟩

/-- Exactly when the claim holds in fixed notation: from 100 on (from 10 on with a sign; without fraction digits from
1000 and 100 on), or as close below as to be rounded up. -/
theorem C99_fixed_exact (A : Arith) (neg : Bool) (q : ℚ) (hq : 0 ≤ q) (d : Nat) (hd : d + 4 < 2 ^ 31) :
    C99_claim A (.fin neg q) 'f' d ↔
      (10 : ℚ) ^ ((if neg then 1 else 2) + (if d = 0 then 1 else 0)) - 1 / (2 * 10 ^ d) ≤ q := by
  set n := roundHalfEven (q * 10 ^ d) with hn
  set E : Nat := (if neg then 1 else 2) + (if d = 0 then 1 else 0) with hE
  set body : Str := showFixed neg q d with hbody
  have htext : ∀ fuel radix, textF A fuel radix (.fin neg q) 'f' 0 d =
      some (.ok (body ++ List.replicate (d + 4 - body.length) ' ')) := by
    intro fuel radix
    simp only [textF, if_true, precision_small (show d < 2 ^ 31 by omega)]
    have := padRight_field (w := 0) (by norm_num) hd body
    simp only [if_true] at this
    rw [hbody] at this ⊢
    rw [this]
  have hlt : n % 10 ^ d < 10 ^ d := Nat.mod_lt _ (by positivity)
  have hlen : d + 4 ≤ body.length ↔ 10 ^ E ≤ n / 10 ^ d := by
    have h1 : body.length = (if neg then 1 else 0) + (Nat.toDigits 10 (n / 10 ^ d)).length + (if d = 0 then 0 else d + 1) := by
      rw [hbody, showFixed, showScaled, ← hn]
      by_cases h0 : d = 0
      · cases neg <;> simp [h0]; omega
      · have := length_padLeft_digits hlt (by omega : 1 ≤ d)
        cases neg <;> simp [h0, this] <;> omega
    have h2 : ∀ k m : Nat, 1 ≤ k → (k < (Nat.toDigits 10 m).length ↔ 10 ^ k ≤ m) := by
      intro k m hk
      rw [← not_le, Nat.length_toDigits_le_iff (by omega) (by omega), not_lt]
    rw [← h2 E _ (by rw [hE]; split_ifs <;> omega), h1, hE]
    cases neg <;> by_cases h0 : d = 0 <;> simp [h0] <;> omega
  have hround : 10 ^ E ≤ n / 10 ^ d ↔ (10 : ℚ) ^ E - 1 / (2 * 10 ^ d) ≤ q := by
    rw [Nat.le_div_iff_mul_le (by positivity), hn, le_rhe_even (by positivity) ?_]
    · push_cast
      have : (10 : ℚ) ^ E * 10 ^ d - 1 / 2 = (10 ^ E - 1 / (2 * 10 ^ d)) * 10 ^ d := by field_simp
      rw [this]
      exact mul_le_mul_iff_left₀ (by positivity)
    · have : 10 ^ E = 10 * 10 ^ (E - 1) := by
        rw [← pow_succ']; congr 1; rw [hE]; split_ifs <;> omega
      rw [this, Nat.mul_assoc, Nat.mul_mod]; simp
  rw [← hround, ← hlen]
  constructor
  · intro hc
    obtain ⟨f', hf, hi⟩ := addF_of_text (Fmt.mk' "%0".toList) (htext 0 '.')
    obtain ⟨t, hi', ht⟩ := hc _ _ _ _ hf
    obtain rfl := inserted_unique hi hi'
    by_contra hcon
    rw [field_long (by simp; omega)] at ht
    apply ht
    rw [List.getLast?_append_of_ne_nil _ (by simp; omega), List.getLast?_replicate, if_neg (by omega)]
  · intro hl fuel radix f f' h
    obtain ⟨t, ht, hi⟩ := addF_some h
    rw [htext] at ht
    rw [show d + 4 - body.length = 0 by omega] at ht
    simp only [List.replicate_zero, List.append_nil, Option.some.injEq, Res.ok.injEq] at ht
    obtain ⟨l1, l2⟩ := showFixed_last neg q hq d hd
    exact ⟨t, hi, body, l1, l2, by rw [← ht]; simp⟩

/-- The claim fails for 1.0 (also 99.0) with all other arguments default: "1.000000  ". -/
theorem C99_refuted : ¬ C99_claim binary64 (.fin false 1) 'f' 6 ∧ ¬ C99_claim binary64 (.fin false 99) 'f' 6 ∧
    C99_claim binary64 (.fin false 100) 'f' 6 ∧ ¬ C99_claim binary64 (.fin false 1) 'g' 6 := by
  refine ⟨?_, ?_, ?_, ?_⟩
  · rw [C99_fixed_exact _ _ _ (by norm_num) _ (by norm_num)]; norm_num
  · rw [C99_fixed_exact _ _ _ (by norm_num) _ (by norm_num)]; norm_num
  · rw [C99_fixed_exact _ _ _ (by norm_num) _ (by norm_num)]; norm_num
  · intro hc
    obtain ⟨f', hf, hi⟩ := addF_of_text (Fmt.mk' "%0".toList)
      (show textF binary64 0 '.' (.fin false 1) 'g' 0 6 = some (.ok "1         ".toList) by decide +kernel)
    obtain ⟨t, hi', ht⟩ := hc _ _ _ _ hf
    obtain rfl := inserted_unique hi hi'
    rw [field_long (by decide)] at ht
    exact ht (by decide)

example : textF binary64 0 '.' (.fin false 1) 'f' 0 6 = some (.ok "1.000000  ".toList) := by decide +kernel

/-! #### Engineering notation -/

/-- The trailing spaces of engineering notation. -/
theorem eng_spaces {A : Arith} (hA : A.Sane) {fuel : Nat} {radix : Char} {neg : Bool} {q : ℚ} {w d : Nat} {t : Str}
    (hq : q ≠ 0) (hd : 1 ≤ d) (hd' : d + 4 < 2 ^ 31) (hw : w < 2 ^ 31)
    (h : textF A fuel radix (.fin neg q) 'e' w d = some (.ok t)) :
    ∃ core : Str, ∃ n : Eng, ∃ iw : Nat, iw ≤ 3 ∧ readEng t = some n ∧ core ≠ [] ∧ core.getLast? ≠ some ' ' ∧
      t = core ++ List.replicate ((if 10 ≤ n.exp.natAbs then 0 else 1) +
        ((if w = 0 then d + 4 else w) - (max d iw + 4))) ' ' ∧
      max d iw + 5 ≤ core.length + (if 10 ≤ n.exp.natAbs then 0 else 1) := by
  obtain ⟨x, e, r, hl, hf, hx1, hx2, hiw, ht⟩ := textF_eng_text hA hq hd h
  obtain ⟨x', e', r', hl', hf', _, _, _, hr⟩ := textF_eng hA hq hd h
  rw [hl] at hl'
  obtain ⟨rfl, rfl⟩ : x = x' ∧ e = e' := by simpa using hl'
  rw [hf] at hf'
  obtain rfl : r = r' := Res.ok.inj (Option.some.inj hf')
  obtain ⟨p1, p2, p3, p4, p5, p6, _⟩ := fractionate_spec hA hx1 hx2 hd hf
  have hlc : loopCount (d - r.intWid) = d - r.intWid := setwWidth_small (by omega)
  rw [hlc] at p6
  have hW : r.intWid + r.fracWid = max d r.intWid := by omega
  have hm : (if w = 0 then (d + 4) % u32 else w) = (if w = 0 then d + 4 else w) := by
    rw [Nat.mod_eq_of_lt (show d + 4 < u32 by simp only [u32]; omega)]
  have hI : (toI32 (((if w = 0 then (d + 4) % u32 else w : Nat) : Int) - (r.intWid + r.fracWid + 4))).toNat =
      (if w = 0 then d + 4 else w) - (max d r.intWid + 4) := by
    rw [hm]
    have hb : (if w = 0 then d + 4 else w) < 2 ^ 31 := by split_ifs <;> omega
    generalize (if w = 0 then d + 4 else w) = v at hb ⊢
    unfold toI32
    omega
  have hlen : 2 - (Nat.toDigits 10 e.natAbs).length = if 10 ≤ e.natAbs then 0 else 1 := by
    have h1 := List.length_pos_iff.mpr (@Nat.toDigits_ne_nil e.natAbs 10)
    have h2 := Nat.length_toDigits_le_iff (b := 10) (n := e.natAbs) (k := 1) (by omega) (by omega)
    split_ifs <;> omega
  rw [hI, hlen] at ht
  refine ⟨_, _, r.intWid, p4, hr, ?_, ?_, ht, ?_⟩
  · simp
  · exact getLast_digits Nat.toDigits_ne_nil (toDigits_isDigit _)
  · have h1 := List.length_pos_iff.mpr (@Nat.toDigits_ne_nil e.natAbs 10)
    have h3 : r.fracWid ≤ (padLeft '0' r.fracWid (Nat.toDigits 10 r.fracPart.toNat)).length := by
      simp [padLeft]; omega
    simp only [List.length_append, List.length_cons, List.length_nil]
    by_cases h0 : 0 < r.fracWid
    · rw [if_pos h0, List.length_cons]; split_ifs at hlen ⊢ <;> omega
    · rw [if_neg h0, List.length_nil]; split_ifs at hlen ⊢ <;> omega

/-- Exactly when the claim holds in engineering notation: exponents of one digit are followed by a space. -/
theorem C99_eng_partial (A : Arith) (hA : A.Sane) (neg : Bool) (q : ℚ) (hq : q ≠ 0) (d : Nat) (hd : 1 ≤ d)
    (hd' : d + 4 < 2 ^ 31) (fuel : Nat) (radix : Char) (f f' : Fmt)
    (h : f.addF A fuel radix (.fin neg q) 'e' 0 d = some (.ok f')) :
    ∃ t n, Inserts f f' t ∧ readEng t = some n ∧ (FieldText 0 t ↔ 10 ≤ n.exp.natAbs) := by
  obtain ⟨t, ht, hi⟩ := addF_some h
  obtain ⟨core, n, iw, h3, hr, hc1, hc2, htx, _⟩ := eng_spaces hA hq hd hd' (by norm_num) ht
  rw [if_pos rfl, show d + 4 - (max d iw + 4) = 0 by omega, Nat.add_zero] at htx
  refine ⟨t, n, hi, hr, ?_⟩
  have hpos := List.length_pos_iff.mpr hc1
  rw [field_long (by rw [htx]; simp; omega)]
  by_cases h10 : 10 ≤ n.exp.natAbs
  · rw [if_pos h10] at htx
    simp only [List.replicate_zero, List.append_nil] at htx
    rw [htx]; exact ⟨fun _ => h10, fun _ => hc2⟩
  · rw [if_neg h10] at htx
    rw [htx]; simp [h10]

/-- In engineering notation the text of a value other than zero is always longer than the width asked for, so that it
is a field of that width only if there is no padding.  With at most `d + 4` the padding depends on the exponent;
with more than `max d 3 + 4` there is always too much. -/
theorem C100_eng_partial (A : Arith) (hA : A.Sane) (neg : Bool) (q : ℚ) (hq : q ≠ 0) (w d : Nat) (hw0 : 0 < w)
    (hw : w < 2 ^ 31) (hd : 1 ≤ d) (hd' : d + 4 < 2 ^ 31) (fuel : Nat) (radix : Char) (f f' : Fmt)
    (h : f.addF A fuel radix (.fin neg q) 'e' w d = some (.ok f')) :
    ∃ t n, Inserts f f' t ∧ readEng t = some n ∧ w < t.length ∧ (FieldText w t ↔ t.getLast? ≠ some ' ') ∧
      (w ≤ d + 4 → (FieldText w t ↔ 10 ≤ n.exp.natAbs)) ∧ (max d 3 + 4 < w → ¬ FieldText w t) := by
  obtain ⟨t, ht, hi⟩ := addF_some h
  obtain ⟨core, n, iw, h3, hr, hc1, hc2, htx, hlen⟩ := eng_spaces hA hq hd hd' hw ht
  rw [if_neg (show w ≠ 0 by omega)] at htx
  have hl : w < t.length := by
    rw [htx]; simp only [List.length_append, List.length_replicate]; omega
  refine ⟨t, n, hi, hr, hl, field_long hl, ?_, ?_⟩
  · intro hwd
    rw [field_long hl]
    rw [show w - (max d iw + 4) = 0 by omega, Nat.add_zero] at htx
    by_cases h10 : 10 ≤ n.exp.natAbs
    · rw [if_pos h10] at htx
      simp only [List.replicate_zero, List.append_nil] at htx
      rw [htx]; exact ⟨fun _ => h10, fun _ => hc2⟩
    · rw [if_neg h10] at htx
      rw [htx]; simp [h10]
  · intro hwd
    rw [field_long hl, not_not, htx, List.getLast?_append_of_ne_nil _ (by simp; omega), List.getLast?_replicate,
      if_neg (by omega)]

/-- Zero in engineering notation: the width is ignored, so the claim holds only for widths that need no padding. -/
theorem C100_zero_exact (A : Arith) (neg : Bool) (w d : Nat) (hd : 1 ≤ d) (hd' : d ≤ 2 ^ 31) :
    C100_claim A (.fin neg 0) 'e' w d ↔ w ≤ max 5 (d + 3) := by
  have hlen : ∀ c : Char, (['0', c] ++ List.replicate (max 1 (d - 1)) '0' ++ "e0".toList).length = max 5 (d + 3) := by
    intro c; simp; omega
  have hlast : ∀ c : Char, (['0', c] ++ List.replicate (max 1 (d - 1)) '0' ++ "e0".toList).getLast? ≠ some ' ' := by
    intro c; rw [List.getLast?_append_of_ne_nil _ (by decide)]; decide
  constructor
  · intro hc
    obtain ⟨f', hf, hi⟩ := C20_eng_zero A 0 '.' neg w d hd hd' (Fmt.mk' "%0".toList)
    obtain ⟨t, hi', core, h1, h2, h3⟩ := hc _ _ _ _ hf
    obtain rfl := inserted_unique hi hi'
    by_contra hcon
    have hl := congrArg List.length h3
    rw [hlen] at hl
    simp only [List.length_append, List.length_replicate] at hl
    omega
  · intro hw fuel radix f f' h
    obtain ⟨g, hg, hi⟩ := C20_eng_zero A fuel radix neg w d hd hd' f
    rw [h] at hg
    obtain rfl : f' = g := Res.ok.inj (Option.some.inj hg)
    refine ⟨_, hi, _, by simp, hlast radix, ?_⟩
    rw [hlen, show w - max 5 (d + 3) = 0 by omega]
    simp

/-- The claim fails for 1.5 with four digits in a field of twenty characters: there are 22. -/
theorem C100_refuted : ¬ C100_claim binary64 (.fin false (3 / 2)) 'e' 20 4 ∧
    ¬ C100_claim binary64 (.fin false 0) 'e' 20 4 := by
  constructor
  · intro hc
    have ht : textF binary64 20 '.' (.fin false (3 / 2)) 'e' 20 4 = some (.ok " 1.500e+0             ".toList) := by
      decide +kernel
    obtain ⟨f', hf, hi⟩ := addF_of_text (Fmt.mk' "%0".toList) ht
    obtain ⟨t, hi', hF⟩ := hc _ _ _ _ hf
    obtain rfl := inserted_unique hi hi'
    rw [field_long (by decide)] at hF
    exact hF (by decide)
  · rw [C100_zero_exact _ _ _ _ (by norm_num) (by norm_num)]
    norm_num

/-- Hypotheses met: a field of ten characters in 'f', and an exponent of two digits. -/
example : textF binary64 0 '.' (.fin true (5 / 2)) 'f' 10 2 = some (.ok "-2.50     ".toList) ∧
    textF binary64 30 '.' (.fin true (10 ^ 13)) 'e' 6 2 = some (.ok "-10e+12".toList) := by
  constructor <;> decide +kernel

/-! ### C101: the number of digits -/

/-- "The sum of the number of integer and fraction digits is equal to the significant_digits value." -/
def C101_claim (A : Arith) (q : ℚ) (w d : Nat) : Prop :=
  ∀ (fuel : Nat) (radix : Char) (neg : Bool) (f f' : Fmt),
    f.addF A fuel radix (.fin neg q) 'e' w d = some (.ok f') →
    ∃ t n, Inserts f f' t ∧ readEng t = some n ∧ n.ip.length + n.fp.length = d

/-- How many digits there are: `d`, or as many as the integer part needs; one more if the number printed is a
power of ten. -/
def DigitCount (d : Nat) (n : Eng) : Prop :=
  n.ip.length + n.fp.length = max d n.ip.length ∨
  (∃ m, n.intPart = some (10 ^ m) ∧ n.ip.length = m + 1 ∧ n.ip.length + n.fp.length = max d m + 1) ∧
    ∀ c ∈ n.fp, c = '0'

theorem eng_count {A : Arith} {u lo hi ε : ℚ} {L N d : Nat} (S : Setting A u lo hi ε L N d) (D : A.Digits) {fuel : Nat}
    {radix : Char} {neg : Bool} {q : ℚ} {w : Nat} {t : Str} (hq : q ≠ 0)
    (h : textF A fuel radix (.fin neg q) 'e' w d = some (.ok t)) :
    ∃ n, readEng t = some n ∧ n.neg = neg ∧ DigitCount d n := by
  obtain ⟨x, e, r, hl, hf, hx1, hx2, _, hr⟩ := textF_eng S.sane hq S.hd (textF_mono 4 h)
  obtain ⟨d1, d2, d3⟩ := eng_digits S D hl hf hx1 hx2 (by omega)
  refine ⟨_, hr, rfl, ?_⟩
  have hfp : (if 0 < r.fracWid then padLeft '0' r.fracWid (Nat.toDigits 10 r.fracPart.toNat) else []).length =
      d - r.intWid := by
    split_ifs
    · rw [d2]; omega
    · simp; omega
  unfold DigitCount
  dsimp only [Eng.intPart]
  rw [hfp]
  rcases d3 with h1 | ⟨h1, h2⟩
  · left; rw [h1]; omega
  · right
    have e1 : r.intPart.toNat = 10 ^ r.intWid := by
      rw [h1]; exact_mod_cast Int.toNat_natCast (10 ^ r.intWid)
    have e2 : (Nat.toDigits 10 (10 ^ r.intWid)).length = r.intWid + 1 := by
      apply le_antisymm
      · rw [Nat.length_toDigits_le_iff (by omega) (by omega)]
        exact Nat.pow_lt_pow_right (by omega) (by omega)
      · by_cases h0 : r.intWid = 0
        · rw [h0]; decide
        · have : ¬ (Nat.toDigits 10 (10 ^ r.intWid)).length ≤ r.intWid := by
            rw [Nat.length_toDigits_le_iff (by omega) (by omega)]; omega
          omega
    rw [e1, e2]
    refine ⟨⟨r.intWid, numeral_toDigits 10 (by omega) (by omega) _, rfl, by omega⟩, ?_⟩
    intro c hc
    rw [h2] at hc
    split_ifs at hc
    · simp only [padLeft, List.mem_append, List.mem_replicate] at hc
      rcases hc with hc | hc
      · exact hc.2
      · simpa using hc
    · simp at hc

/-- The number of digits with exact arithmetic.  Missing: the claim itself, which fails for values just in the middle
below a power of ten (`C101_exact`) and for fewer digits than the integer part has. -/
theorem C101_digits_exact_partial (q : ℚ) (hq : 0 < q) (w d : Nat) (hd : 1 ≤ d) (hd' : d < 2 ^ 31) (fuel : Nat)
    (radix : Char) (neg : Bool) (f f' : Fmt)
    (h : f.addF exactArith fuel radix (.fin neg q) 'e' w d = some (.ok f')) :
    ∃ t n, Inserts f f' t ∧ readEng t = some n ∧ n.neg = neg ∧ DigitCount d n := by
  obtain ⟨t, ht, hi⟩ := addF_some h
  obtain ⟨L, _, _, S⟩ := exact_setting q hq d hd hd'
  obtain ⟨n, hr, hn, hc⟩ := eng_count S exactArith_digits hq.ne' ht
  exact ⟨t, n, hi, hr, hn, hc⟩

/-- The number of digits for doubles and up to nine digits.  Missing: as above, and more digits. -/
theorem C101_digits_binary64_partial (q : ℚ) (hq : 0 < q) (w d : Nat) (hd : 1 ≤ d) (hd9 : d ≤ 9) (fuel : Nat)
    (radix : Char) (neg : Bool) (f f' : Fmt)
    (h : f.addF binary64 fuel radix (.fin neg q) 'e' w d = some (.ok f')) :
    ∃ t n, Inserts f f' t ∧ readEng t = some n ∧ n.neg = neg ∧ DigitCount d n := by
  obtain ⟨t, ht, hi⟩ := addF_some h
  obtain ⟨n, hr, hn, hc⟩ := eng_count (binary64_setting d hd hd9) binary64_digits hq.ne' ht
  exact ⟨t, n, hi, hr, hn, hc⟩

/-- Exactly when the claim holds with exact arithmetic and at least three digits: unless the value lies just in the
middle between two texts of `d` digits, the larger of them a power of ten. -/
theorem C101_exact (q : ℚ) (w d : Nat) (hd : 3 ≤ d) (hd10 : d ≤ 10) (k : Int) (hk : (10 : ℚ) ^ k ≤ q)
    (hk' : q < 10 ^ (k + 1)) :
    C101_claim exactArith q w d ↔ q + 10 ^ (k + 1 - d) / 2 ≠ (10 : ℚ) ^ (k + 1) := by
  have hq : 0 < q := lt_of_lt_of_le (by positivity) hk
  have hkp : (0 : ℚ) < 10 ^ k := by positivity
  have hk1 : (10 : ℚ) ^ (k + 1) = 10 * 10 ^ k := by rw [zpow_add_one₀ (by norm_num), mul_comm]
  have hunit : ∀ m : Int, m ≤ k → (0 : ℚ) < 10 ^ m / 2 ∧ (10 : ℚ) ^ m / 2 < 9 * 10 ^ k := by
    intro m hm
    have h1 : (10 : ℚ) ^ m ≤ 10 ^ k := zpow_le_zpow_right₀ (by norm_num) hm
    have h2 : (0 : ℚ) < 10 ^ m := by positivity
    exact ⟨by linarith, by linarith⟩
  have hnot : q = 10 ^ k → ∀ m n : Int, m ≤ k → q + 10 ^ m / 2 ≠ 10 ^ n := by
    intro hqk m n hm heq
    obtain ⟨u1, u2⟩ := hunit m hm
    refine no_power_between (κ := k) (m := n) ?_ ?_ <;> rw [← heq] <;> linarith
  -- the scaled value is a power of ten exactly for the ties
  have key : ∀ fuel x e, log1k exactArith fuel q d = some (some x, e) → 1 ≤ x → x ≤ 1000 →
      ((∃ j : Nat, x = 10 ^ j) ↔ q + 10 ^ (k + 1 - d) / 2 = (10 : ℚ) ^ (k + 1)) := by
    intro fuel x e hl hx1 hx2
    have hep : (0 : ℚ) < 10 ^ e := by positivity
    have hsum := log1k_exact_sum (by omega) (by omega) hk hk' hl
    constructor
    · rintro ⟨j, rfl⟩
      have hj : (10 : ℚ) ^ j * 10 ^ e = 10 ^ ((j : Int) + e) := by
        rw [zpow_add₀ (by norm_num), zpow_natCast]
      rcases hsum with hs | ⟨hqk, hs⟩
      · rw [hj] at hs
        obtain ⟨u1, u2⟩ := hunit (k + 1 - d) (by omega)
        have a1 : (10 : ℚ) ^ k < 10 ^ ((j : Int) + e) := by rw [hs]; linarith
        have a2 : (10 : ℚ) ^ ((j : Int) + e) < 10 ^ (k + 2) := by
          rw [hs, show k + 2 = (k + 1) + 1 by ring, zpow_add_one₀ (by norm_num), hk1]; linarith
        rw [zpow_lt_zpow_iff_right₀ (by norm_num)] at a1 a2
        rw [← hs]; congr 1; omega
      · exact absurd (hs.symm.trans hj) (hnot hqk _ _ (by omega))
    · intro htie
      rcases hsum with hs | ⟨hqk, hs⟩
      · rw [htie] at hs
        have hx : x = 10 ^ (k + 1 - e) := by
          rw [zpow_sub₀ (by norm_num)]; field_simp; linarith
        have : (10 : ℚ) ^ (0 : Int) ≤ 10 ^ (k + 1 - e) := by rw [← hx]; simpa using hx1
        rw [zpow_le_zpow_iff_right₀ (by norm_num)] at this
        refine ⟨(k + 1 - e).toNat, ?_⟩
        rw [hx, ← zpow_natCast, Int.toNat_of_nonneg this]
      · exact absurd htie (hnot hqk _ _ (by omega))
  -- what is printed
  have print : ∀ fuel radix neg t, textF exactArith fuel radix (.fin neg q) 'e' w d = some (.ok t) →
      ∃ n, readEng t = some n ∧ (n.ip.length + n.fp.length = d ↔ q + 10 ^ (k + 1 - d) / 2 ≠ (10 : ℚ) ^ (k + 1)) := by
    intro fuel radix neg t ht
    obtain ⟨L, _, _, S⟩ := exact_setting q hq d (by omega) (by omega)
    obtain ⟨x, e, r, hl, hf, hx1, hx2, _, hr⟩ := textF_eng exactArith_sane hq.ne' (by omega) (textF_mono 4 ht)
    obtain ⟨d1, d2, d3⟩ := eng_digits S exactArith_digits hl hf hx1 hx2 (by omega)
    obtain ⟨p1, p2, p3, p4, p5, p6, p7, p8, p9⟩ := fractionate_spec exactArith_sane hx1 hx2 (by omega) hf
    have hfp : (if 0 < r.fracWid then padLeft '0' r.fracWid (Nat.toDigits 10 r.fracPart.toNat) else []).length =
        d - r.intWid := by
      split_ifs
      · rw [d2]; omega
      · simp; omega
    have hfl : r.intPart = ⌊x⌋ := by
      rw [p5, show r.intWid - d = 0 by omega]; simp
    obtain ⟨wd, hwd, hxw⟩ := getIntPartWidth_run S hx1 hx2 (fuel + 4) (by omega)
    have hwr : wd = r.intWid := by
      simp only [fractionate, hwd, Option.map_some, Option.some.injEq] at hf
      split at hf
      · generalize modvalLoop (wd - d) 1 = mv at hf
        cases mv with
        | ub => simp at hf
        | throw e => exact e.elim
        | ok mv =>
          simp only [Res.bind_ok] at hf
          generalize fracLoop exactArith (loopCount (d - wd)) (Int.fract x) 0 = fl at hf
          cases fl with
          | ub => simp at hf
          | throw e => exact e.elim
          | ok fl => simp only [Res.bind_ok, Res.ok.injEq] at hf; rw [← hf]
      · simp at hf
    subst hwr
    have hxw : x ≤ 10 ^ r.intWid := by simpa using hxw
    refine ⟨_, hr, ?_⟩
    have hk2 := key _ x e hl hx1 hx2
    dsimp only
    rw [hfp, ne_eq, ← hk2]
    have hip0 : 0 ≤ r.intPart := le_trans (by positivity) p1
    rcases d3 with h1 | ⟨h1, h2⟩
    · rw [h1]
      refine ⟨?_, fun _ => by omega⟩
      rintro - ⟨j, rfl⟩
      -- the floor of a power of ten has one digit more
      have hjw : j = r.intWid := by
        have a1 : j ≤ r.intWid := by
          by_contra hc
          exact absurd hxw (not_le.2 (pow_lt_pow_right₀ (by norm_num) (by omega)))
        rcases Nat.eq_zero_or_pos r.intWid with h0 | h0
        · omega
        · have a2 := p9 h0
          by_contra hc
          exact absurd a2 (not_lt.2 (pow_le_pow_right₀ (by norm_num) (by omega)))
      subst hjw
      have : r.intPart.toNat = 10 ^ r.intWid := by
        rw [hfl]
        have : ⌊(10 : ℚ) ^ r.intWid⌋ = ((10 ^ r.intWid : Nat) : Int) := by
          rw [show (10 : ℚ) ^ r.intWid = ((10 ^ r.intWid : Nat) : ℚ) by push_cast; rfl, Int.floor_natCast]
        rw [this, Int.toNat_natCast]
      rw [this] at h1
      rcases Nat.eq_zero_or_pos r.intWid with h0 | h0
      · rw [h0] at h1; revert h1; decide
      · have := (Nat.length_toDigits_le_iff (b := 10) (n := 10 ^ r.intWid) (k := r.intWid) (by omega) (by omega)).1 (by omega)
        omega
    · have hx : x = 10 ^ r.intWid := by
        apply le_antisymm hxw
        have : ((⌊x⌋ : Int) : ℚ) = 10 ^ r.intWid := by rw [← hfl, h1]; push_cast; rfl
        rw [← this]; exact Int.floor_le x
      have hl1 : r.intWid < (Nat.toDigits 10 r.intPart.toNat).length := by
        rw [show r.intPart.toNat = 10 ^ r.intWid by rw [h1]; exact_mod_cast Int.toNat_natCast (10 ^ r.intWid)]
        rcases Nat.eq_zero_or_pos r.intWid with h0 | h0
        · rw [h0]; decide
        · by_contra hc
          have := (Nat.length_toDigits_le_iff (b := 10) (n := 10 ^ r.intWid) (k := r.intWid) (by omega) (by omega)).1
            (by omega)
          omega
      refine ⟨fun hs => by omega, fun hs => absurd ⟨_, hx⟩ hs⟩
  constructor
  · intro hc
    obtain ⟨fuel, f', hrun⟩ := C23_eng_exact q hq w d hd10 '.' false (Fmt.mk' "%0".toList)
    obtain ⟨t, ht, hi⟩ := addF_some hrun
    obtain ⟨t', n, hi', hr', hsum⟩ := hc _ _ _ _ _ hrun
    obtain rfl := inserted_unique hi hi'
    obtain ⟨n', hr, hiff⟩ := print _ _ _ _ ht
    rw [hr] at hr'
    rw [Option.some.inj hr'] at hiff
    exact hiff.1 hsum
  · intro hnt fuel radix neg f f' h
    obtain ⟨t, ht, hi⟩ := addF_some h
    obtain ⟨n, hr, hiff⟩ := print _ _ _ _ ht
    exact ⟨t, n, hi, hr, hiff.2 hnt⟩

/-- The claim fails for the doubles nearest 9.95 (two digits) and 9.995 (three digits), and for 123 with one digit. -/
theorem C101_refuted : ¬ C101_claim binary64 ((binary64.rnd (995 / 100)).getD 0) 0 2 ∧
    ¬ C101_claim binary64 ((binary64.rnd (9995 / 1000)).getD 0) 0 3 ∧ ¬ C101_claim binary64 123 0 1 := by
  have main : ∀ (q : ℚ) (d : Nat) (t : Str) (n : Eng), textF binary64 20 '.' (.fin false q) 'e' 0 d = some (.ok t) →
      readEng t = some n → n.ip.length + n.fp.length ≠ d → ¬ C101_claim binary64 q 0 d := by
    intro q d t n ht hr hne hc
    obtain ⟨f', hf, hi⟩ := addF_of_text (Fmt.mk' "%0".toList) ht
    obtain ⟨t', n', hi', hr', hs⟩ := hc _ _ _ _ _ hf
    obtain rfl := inserted_unique hi hi'
    rw [hr] at hr'
    rw [Option.some.inj hr'] at hne
    exact hne hs
  refine ⟨main _ _ " 10.0e+0 ".toList ⟨false, "10".toList, "0".toList, 0⟩ (by decide +kernel) (by decide) (by decide),
    main _ _ " 10.00e+0 ".toList ⟨false, "10".toList, "00".toList, 0⟩ (by decide +kernel) (by decide) (by decide),
    main _ _ " 100e+0 ".toList ⟨false, "100".toList, [], 0⟩ (by decide +kernel) (by decide) (by decide)⟩

example : ¬ C101_claim exactArith (9995 / 1000) 0 3 ∧ C101_claim exactArith (9994 / 1000) 0 3 := by
  constructor
  · rw [C101_exact _ 0 3 (by norm_num) (by norm_num) 0 (by norm_num) (by norm_num)]; norm_num
  · rw [C101_exact _ 0 3 (by norm_num) (by norm_num) 0 (by norm_num) (by norm_num)]; norm_num

example : textF binary64 20 '.' (.fin false 31416) 'e' 0 4 = some (.ok " 31.42e+3 ".toList) := by decide +kernel

end SoDa
