import Verif.Proof.LocaleRead
import Verif.Props.Locale
import Verif.Props.OptionsNum
/-!
Property C130: the values of options in a program that has set another locale.
-/
namespace SoDa
open Spec Opts

variable {V : Type}

/-- A value is read in the same way whatever the locale is. -/
def C130_claim : Prop := ∀ (L : Locale) (bits : Nat) (rnd : ℚ → Option ℚ) (s : Str),
  L.extractSigned bits s = extractSigned bits s ∧ L.extractUnsigned bits s = extractUnsigned bits s ∧
  L.extractReal rnd s = (extractReal rnd s, true)

/-! ### Texts without separators -/

theorem Locale.digits_plain {L : Locale} (h : Distinct L) (s : Str) (hs : L.useGrouping = false ∨ L.thousands ∉ s) : ∀ D p,
    ∃ p', L.digits ⟨D, [], p, false⟩ s = ⟨D ++ s.takeWhile Char.isDigit, [], p', false⟩ := by
  induction s with
  | nil => intro D p; exact ⟨p, by simp [Locale.digits]⟩
  | cons c s ih =>
    intro D p
    have hc : ¬ (L.useGrouping = true ∧ c = L.thousands) := by
      rintro ⟨h1, h2⟩
      rcases hs with hs | hs
      · rw [hs] at h1; cases h1
      · exact hs (by simp [h2])
    have hs' : L.useGrouping = false ∨ L.thousands ∉ s := hs.imp id fun hh hm => hh (by simp [hm])
    rw [Locale.digits, if_neg hc, List.takeWhile_cons]
    by_cases hp : c = L.point
    · have hd : c.isDigit = false := hp ▸ h.point
      rw [if_pos hp, if_neg (by simp [hd])]
      exact ⟨p, by simp⟩
    · rw [if_neg hp]
      by_cases hd : c.isDigit = true
      · rw [if_pos hd, if_pos hd]
        obtain ⟨p', h'⟩ := ih hs' (D ++ [c]) (p + 1)
        exact ⟨p', by rw [h']; simp⟩
      · rw [if_neg hd, if_neg hd]
        exact ⟨p, by simp⟩

theorem Locale.scanInt_plain {L : Locale} (h : Distinct L) (s : Str) (hs : L.useGrouping = false ∨ L.thousands ∉ s) :
    L.scanInt s = match Opts.scanInt s with
      | .blank => .blank
      | .bad => .bad
      | .num neg m => .num neg m true := by
  unfold Locale.scanInt Opts.scanInt
  have hsub : ∀ c ∈ s.dropWhile isSpace, c ∈ s := fun c hc => (List.dropWhile_sublist _).subset hc
  cases hd : s.dropWhile isSpace with
  | nil => simp
  | cons c cs =>
    rw [hd] at hsub
    have hm1 : ∀ x ∈ ['-', '+'], x ≠ L.thousands := fun x hx e => h.thousands' (by rw [← e]; revert hx; simp; rintro (rfl | rfl) <;> simp)
    have hm2 : ∀ x ∈ ['-', '+'], x ≠ L.point := fun x hx e => h.point' (by rw [← e]; revert hx; simp; rintro (rfl | rfl) <;> simp)
    have hsign : ((c = '-' ∨ c = '+') ∧ ¬(L.useGrouping = true ∧ c = L.thousands) ∧ c ≠ L.point) ↔ (c = '-' ∨ c = '+') := by
      refine ⟨fun hh => hh.1, fun hh => ⟨hh, fun e => hm1 c (by simpa using hh) e.2, hm2 c (by simpa using hh)⟩⟩
    have hrest : L.useGrouping = false ∨ L.thousands ∉ (if c = '-' ∨ c = '+' then cs else c :: cs) := by
      refine hs.imp id fun hh hm => hh (hsub _ ?_)
      split at hm
      · simp [hm]
      · exact hm
    obtain ⟨p', hp'⟩ := Locale.digits_plain h _ hrest [] 0
    simp only [hsign, hp', List.nil_append, List.isEmpty_nil, Bool.true_or, Bool.false_eq_true, false_or, List.isEmpty_cons, if_false,
      List.head?_cons, Option.some_beq_some, Bool.or_eq_true, beq_iff_eq, List.drop_succ_cons, List.drop_zero, List.isEmpty_iff]
    generalize hx : (if c = '-' ∨ c = '+' then cs else c :: cs).takeWhile Char.isDigit = x
    by_cases he : x = []
    · simp [he]
    · simp only [he, if_false]
      congr 1
      by_cases hc : c = '-'
      · simp [hc]
      · simp [hc]

theorem Locale.floatChars_plain {L : Locale} (h : Distinct L) (s : Str) (hs : L.useGrouping = false ∨ L.thousands ∉ s)
    (hp : L.point = '.' ∨ L.point ∉ s ∧ '.' ∉ s) : ∀ mant dec p,
    L.floatChars mant dec [] p s = some (Opts.floatChars mant dec s, []) := by
  induction s with
  | nil => intro mant dec p; simp [Locale.floatChars, Opts.floatChars]
  | cons c s ih =>
    intro mant dec p
    have hc : ¬ (L.useGrouping = true ∧ c = L.thousands) := by
      rintro ⟨h1, h2⟩
      rcases hs with hs | hs
      · rw [hs] at h1; cases h1
      · exact hs (by simp [h2])
    have hs' : L.useGrouping = false ∨ L.thousands ∉ s := hs.imp id fun hh hm => hh (by simp [hm])
    have hp' : L.point = '.' ∨ L.point ∉ s ∧ '.' ∉ s := hp.imp id fun hh => ⟨fun hm => hh.1 (by simp [hm]), fun hm => hh.2 (by simp [hm])⟩
    have hpt : c = L.point ↔ c = '.' := by
      rcases hp with hp | ⟨h1, h2⟩
      · rw [hp]
      · exact ⟨fun e => absurd (by simp [e]) h1, fun e => absurd (by simp [e]) h2⟩
    rw [Locale.floatChars, Opts.floatChars, if_neg hc]
    by_cases hd : c.isDigit = true
    · have : ¬ c = L.point := (Locale.digit_ne h hd).2
      simp only [this, if_false, hd, if_true, ih hs' hp', Option.map_some]
    · by_cases he : c = '.'
      · have hq : c = L.point := hpt.2 he
        have h1 : ¬ (c = 'e' ∨ c = 'E') := by rw [he]; decide
        cases dec with
        | true => simp only [hq, if_true]; rw [← hq]; simp [hd, h1]
        | false =>
          rw [if_pos hq, if_neg Bool.false_ne_true, if_neg hd, if_pos (c := c = '.' ∧ _) ⟨he, rfl⟩, List.isEmpty_nil, if_pos rfl,
            ih hs' hp', he]
          rfl
      · have hq : ¬ c = L.point := fun e => he (hpt.1 e)
        by_cases hee : (c = 'e' ∨ c = 'E') ∧ mant = true
        · simp only [hq, if_false, hd, he, false_and, hee, and_self, if_true, List.isEmpty_nil, Bool.true_or, Bool.false_eq_true]
        · simp only [hq, if_false, hd, he, false_and, hee, List.isEmpty_nil, Bool.true_or, if_true, Bool.false_eq_true]

/-- A text in which there is no separator, or in a locale that uses none, is read as an integer as in the "C" locale; as a floating point
number if moreover the point is the usual one, or the text has neither. -/
theorem C130_same_partial {L : Locale} (h : Distinct L) (s : Str) (hs : L.useGrouping = false ∨ L.thousands ∉ s) :
    (∀ bits, L.extractSigned bits s = extractSigned bits s ∧ L.extractUnsigned bits s = extractUnsigned bits s) ∧
    (L.point = '.' ∨ L.point ∉ s ∧ '.' ∉ s → ∀ rnd, L.extractReal rnd s = (extractReal rnd s, true)) := by
  constructor
  · intro bits
    unfold Locale.extractSigned extractSigned Locale.extractUnsigned extractUnsigned
    rw [Locale.scanInt_plain h s hs]
    cases scanInt s with
    | blank => exact ⟨rfl, rfl⟩
    | bad => exact ⟨rfl, rfl⟩
    | num neg m => exact ⟨by simp, by simp⟩
  · intro hp rnd
    unfold Locale.extractReal extractReal
    have hsub : ∀ c ∈ s.dropWhile isSpace, c ∈ s := fun c hc => (List.dropWhile_sublist _).subset hc
    cases hd : s.dropWhile isSpace with
    | nil => simp
    | cons c cs =>
      rw [hd] at hsub
      have hm1 : ∀ x ∈ ['-', '+'], x ≠ L.thousands := fun x hx e => h.thousands' (by rw [← e]; revert hx; simp; rintro (rfl | rfl) <;> simp)
      have hm2 : ∀ x ∈ ['-', '+'], x ≠ L.point := fun x hx e => h.point' (by rw [← e]; revert hx; simp; rintro (rfl | rfl) <;> simp)
      have hsign : ((c = '-' ∨ c = '+') ∧ ¬(L.useGrouping = true ∧ c = L.thousands) ∧ c ≠ L.point) ↔ (c = '-' ∨ c = '+') := by
        refine ⟨fun hh => hh.1, fun hh => ⟨hh, fun e => hm1 c (by simpa using hh) e.2, hm2 c (by simpa using hh)⟩⟩
      have hin : ∀ x ∈ (if c = '-' ∨ c = '+' then cs else c :: cs), x ∈ s := by
        intro x hx
        refine hsub _ ?_
        split at hx
        · simp [hx]
        · exact hx
      have hf := Locale.floatChars_plain h (if c = '-' ∨ c = '+' then cs else c :: cs) (hs.imp id fun hh hm => hh (hin _ hm))
        (hp.imp id fun hh => ⟨fun hm => hh.1 (hin _ hm), fun hm => hh.2 (hin _ hm)⟩) false false 0
      simp only [hsign, hf, List.isEmpty_nil, Bool.true_or, List.isEmpty_cons, Bool.false_eq_true, if_false,
        List.head?_cons, Option.some_beq_some, Bool.or_eq_true, beq_iff_eq, List.drop_succ_cons, List.drop_zero]
      have hneg : decide ((c = '-' ∨ c = '+') ∧ c = '-') = (c == '-') := by
        by_cases hc : c = '-' <;> simp [hc]
      rw [hneg]
      rfl

/-! ### What is written in a locale is read in it -/

theorem Locale.showInt_eq (L : Locale) (v : Int) :
    L.showInt v = (if decide (v < 0) then ['-'] else []) ++ L.group (Nat.toDigits 10 v.natAbs) := by
  cases v with
  | ofNat n => simp [Locale.showInt]
  | negSucc n => simp [Locale.showInt]

theorem digitsVal_toDigits (n : Nat) : digitsVal (Nat.toDigits 10 n) = n :=
  ((numeral_ten _ _).1 (numeral_toDigits 10 (by omega) (by omega) n)).2.2.symm

theorem Locale.scanInt_spaces (L : Locale) (k : Nat) (s : Str) : L.scanInt (List.replicate k ' ' ++ s) = L.scanInt s := by
  have : (List.replicate k ' ' ++ s).dropWhile isSpace = s.dropWhile isSpace := by
    induction k with
    | zero => rfl
    | succ k ih => rw [List.replicate_succ, List.cons_append, List.dropWhile_cons, if_pos (by decide), ih]
  simp only [Locale.scanInt, this]

/-- `addI` with any width: what is written in a locale is read in it by an option of a signed type that can hold the number. -/
theorem C130_addI_partial {L : Locale} (h : Distinct L) (bits : Nat) (inj : Int → V) (o : Options V) (ho : Ready o) (sw : Str) (i : Nat)
    (d : Decl V) (hd : Denotes o.decls sw i d) (hh : ¬ HelpSwitch sw) (hk : d.kind = .scalar)
    (hr : d.read = (L.sintTy bits inj).read) (hs : d.isSigned = true) (ht : ∀ v, d.test v = true)
    (v : Int) (h1 : -2 ^ (bits - 1) ≤ v) (h2 : v < 2 ^ (bits - 1)) (w : Nat) :
    ∃ o', o.parse [sw, L.textI v w nul nul] = (o', true) ∧ o'.sc d.target = inj v := by
  refine C33_signed_scalar_partial o ho sw _ i d _ hd hh hk hs ⟨?_, ht _⟩
  have ht : L.textI v w nul nul = List.replicate ((if w ≠ 0 then setwWidth w else 0) - (L.showInt v).length) ' ' ++ L.showInt v := by
    simp [Locale.textI, padLeft]
  have hsc := Locale.scanInt_group h (decide (v < 0)) (Nat.toDigits 10 v.natAbs) [] (Nat.toDigits_ne_nil)
    (toDigits_isDigit _) (by intro c hc; simp at hc)
  rw [List.append_nil, ← Locale.showInt_eq, digitsVal_toDigits] at hsc
  have hv : (if decide (v < 0) = true then -(v.natAbs : Int) else v.natAbs) = v := by
    by_cases h0 : v < 0
    · rw [if_pos (by simpa using h0)]; omega
    · rw [if_neg (by simpa using h0)]; omega
  rw [hr, ht]
  simp only [Locale.sintTy, tyOf, Locale.extractSigned, Locale.scanInt_spaces, hsc, hv, if_true]
  rw [if_neg (by omega), if_neg (by omega)]

/-- The same for `addU` in decimal and unsigned types. -/
theorem C130_addU_partial {L : Locale} (h : Distinct L) (bits : Nat) (inj : Int → V) (o : Options V) (ho : Ready o) (sw : Str) (i : Nat)
    (d : Decl V) (hd : Denotes o.decls sw i d) (hh : ¬ HelpSwitch sw) (hk : d.kind = .scalar)
    (hr : d.read = (L.uintTy bits inj).read) (ht : ∀ v, d.test v = true)
    (v : Nat) (hv : v < 2 ^ bits) (w g : Nat) (fmt : Char) (hfmt : fmt ∉ ['x', 'X', 'h', 'H', 'o', 'O']) :
    ∃ o', o.parse [sw, L.textU v fmt w nul g] = (o', true) ∧ o'.sc d.target = inj v := by
  simp only [List.mem_cons, List.not_mem_nil, or_false, not_or] at hfmt
  have htx : L.textU v fmt w nul g =
      List.replicate ((if w ≠ 0 then setwWidth w else 0) - (L.showNat v).length) ' ' ++ L.showNat v := by
    simp [Locale.textU, padLeft, hfmt]
  obtain ⟨c, cs, hcc⟩ := List.exists_cons_of_ne_nil (Nat.toDigits_ne_nil (b := 10) (n := v))
  have hc : c.isDigit = true := toDigits_isDigit v c (by rw [hcc]; simp)
  obtain ⟨r, hr'⟩ := Locale.head_group L c cs
  have hsw : ¬ SwitchLike (L.textU v fmt w nul g) := by
    have hhd : (L.textU v fmt w nul g).head? ≠ some '-' := by
      rw [htx]
      cases (if w ≠ 0 then setwWidth w else 0) - (L.showNat v).length with
      | zero =>
        rw [Locale.showNat, hcc, hr']
        simp only [List.replicate_zero, List.nil_append, List.head?_cons, ne_eq, Option.some.injEq]
        rintro rfl
        simp [Char.isDigit] at hc
      | succ k => simp [List.replicate_succ]
    rintro (⟨c, r, h, _⟩ | ⟨n, h, _⟩) <;> exact hhd (by rw [h]; rfl)
  have hsc := Locale.scanInt_group h false (Nat.toDigits 10 v) [] (Nat.toDigits_ne_nil)
    (toDigits_isDigit _) (by intro c hc; simp at hc)
  rw [List.append_nil, digitsVal_toDigits] at hsc
  simp only [Bool.false_eq_true, if_false, List.nil_append] at hsc
  have ha : Accepts d (L.textU v fmt w nul g) (inj v) := by
    refine ⟨?_, ht _⟩
    rw [hr, htx]
    simp only [Locale.uintTy, tyOf, Locale.extractUnsigned, Locale.scanInt_spaces, Locale.showNat, hsc, Bool.false_eq_true, if_false,
      if_true]
    rw [if_neg (by omega)]
  obtain ⟨o', e1, e2, _⟩ := parse_pair o ho hd hh (by simp [hk]) (.inr hsw) ha
  exact ⟨o', e1, e2 hk⟩

/-! ### Floating point numbers -/

theorem takeWhile_spaces (x : Str) (k : Nat) : (x ++ List.replicate k ' ').takeWhile Char.isDigit = x.takeWhile Char.isDigit := by
  induction x with
  | nil => cases k <;> simp [List.replicate_succ, Char.isDigit]
  | cons c x ih => simp only [List.cons_append, List.takeWhile_cons, ih]

theorem expChars_spaces (x : Str) (k : Nat) : expChars (x ++ List.replicate k ' ') = expChars x := by
  cases x with
  | nil => cases k <;> simp [expChars, List.replicate_succ, Char.isDigit]
  | cons c x =>
    simp only [expChars, List.cons_append, List.head?_cons, List.take_succ_cons, List.take_zero, List.drop_succ_cons, List.drop_zero,
      takeWhile_spaces, List.takeWhile_cons]

theorem floatChars_spaces (x : Str) (k : Nat) : ∀ mant dec, floatChars mant dec (x ++ List.replicate k ' ') = floatChars mant dec x := by
  induction x with
  | nil => intro mant dec; cases k <;> simp [floatChars, List.replicate_succ, Char.isDigit]
  | cons c x ih => intro mant dec; simp only [List.cons_append, floatChars, ih, expChars_spaces]

theorem extractReal_spaces (rnd : ℚ → Option ℚ) (neg : Bool) (c : Char) (x : Str) (hc : c.isDigit = true) (k : Nat) :
    extractReal rnd ((if neg then ['-'] else []) ++ c :: (x ++ List.replicate k ' ')) =
      extractReal rnd ((if neg then ['-'] else []) ++ c :: x) := by
  have h1 : c ≠ '-' := by rintro rfl; revert hc; decide
  have h2 : c ≠ '+' := by rintro rfl; revert hc; decide
  cases neg with
  | false =>
    have hs : ∀ y : Str, (c :: y).dropWhile isSpace = c :: y := by
      intro y
      simp [digit_not_space hc]
    unfold extractReal
    simp only [Bool.false_eq_true, if_false, List.nil_append, hs, List.head?_cons, Option.some_beq_some, beq_eq_false_iff_ne.mpr h1, beq_eq_false_iff_ne.mpr h2, Bool.or_false,
      List.isEmpty_cons]
    rw [← List.cons_append, floatChars_spaces]
  | true =>
    have hs : ∀ y : Str, ('-' :: y).dropWhile isSpace = '-' :: y := by
      intro y
      rw [List.dropWhile_cons]
      rfl
    unfold extractReal
    simp only [if_true, List.singleton_append, hs, List.head?_cons, Option.some_beq_some, BEq.rfl, Bool.true_or, List.isEmpty_cons, Bool.false_eq_true, if_false,
      List.drop_succ_cons, List.drop_zero]
    rw [← List.cons_append, floatChars_spaces]

/-- Notations 'f', 's' and 'g': what `addF` writes in a locale is read in it as what it writes in the "C" locale is read in the "C"
locale. -/
theorem C130_real_partial {L : Locale} (h : Distinct L) (hpt : L.useGrouping = true → L.point ≠ L.thousands)
    (hsp : L.thousands ≠ ' ' ∧ L.point ≠ ' ') (A : Arith) (fuel : Nat) (radix : Char) (neg : Bool) (q : ℚ) (hq : 0 ≤ q) (fmt : Char)
    (hfmt : fmt = 'f' ∨ fmt = 's' ∨ fmt = 'g') (w sig : Nat) (rnd : ℚ → Option ℚ) :
    ∃ txtL txtC, L.textF A fuel radix (.fin neg q) fmt w sig = some (.ok txtL) ∧
      textF A fuel radix (.fin neg q) fmt w sig = some (.ok txtC) ∧
      L.extractReal rnd txtL = (extractReal rnd txtC, true) := by
  obtain ⟨m, fp, ex, W, hex, hC, hL⟩ := C129_real_partial L A fuel radix neg q hq fmt hfmt w sig
  refine ⟨_, _, hL, hC, ?_⟩
  rw [← L.group_spelled, padRight, padRight]
  generalize W - List.length _ = k1
  generalize W - List.length _ = k2
  obtain ⟨c, cs, hcc⟩ := List.exists_cons_of_ne_nil (Nat.toDigits_ne_nil (b := 10) (n := m))
  have hc : c.isDigit = true := toDigits_isDigit m c (by rw [hcc]; simp)
  have htail : Locale.Tail L (pointed L.point fp ++ ex ++ List.replicate k1 ' ') (pointed '.' fp ++ ex ++ List.replicate k1 ' ') := by
    unfold pointed
    by_cases hf : fp = []
    · rw [if_pos hf, if_pos hf, List.nil_append]
      refine .none _ fun c hc => ?_
      rcases hex with rfl | ⟨_, x, rfl⟩
      · cases k1 with
        | zero => simp at hc
        | succ k =>
          simp only [List.nil_append, List.replicate_succ, List.head?_cons, Option.some.injEq] at hc
          subst hc
          exact ⟨fun e => hsp.1 e.symm, fun e => hsp.2 e.symm, by decide, by decide⟩
      · simp only [showExp, List.cons_append, List.head?_cons, Option.some.injEq] at hc
        have := Locale.plain_e h (.inl hc.symm)
        refine ⟨this.1, this.2, ?_, ?_⟩ <;> subst hc <;> decide
    · rw [if_neg hf, if_neg hf]
      exact .point _
  have e1 := Locale.extractReal_group h rnd neg (Nat.toDigits_ne_nil (b := 10) (n := m)) (toDigits_isDigit m) htail hpt
  simp only [List.append_assoc] at e1 ⊢
  rw [e1]
  congr 1
  rw [hcc]
  have e2 := extractReal_spaces rnd neg c (cs ++ (pointed '.' fp ++ ex)) hc
  simp only [List.append_assoc, List.cons_append] at e2 ⊢
  rw [e2 k1, e2 k2]

/-! ### Where separators may stand in what is read -/

theorem Locale.scanInt_text {L : Locale} (h : Distinct L) (neg : Bool) (t : Str) (hne : t ≠ [])
    (ht : ∀ c ∈ t, c.isDigit = true ∨ c = L.thousands) (hs : ∀ c, t.head? = some c → isSpace c = false) :
    L.scanInt ((if neg then ['-'] else []) ++ t) =
      let x := L.digits ⟨[], [], 0, false⟩ t
      if x.bad = true ∨ x.ds = [] then .bad
      else .num neg (digitsVal x.ds) (x.found.isEmpty || Locale.verify L.grouping (x.found ++ [x.sepPos]).reverse) := by
  obtain ⟨c, cs, rfl⟩ := List.exists_cons_of_ne_nil hne
  have hc : c ≠ '-' ∧ c ≠ '+' := by
    rcases ht c (by simp) with hd | hd
    · constructor <;> (rintro rfl; revert hd; decide)
    · have := h.thousands'
      rw [← hd] at this
      simp only [List.mem_cons, not_or] at this
      exact ⟨this.1, this.2.1⟩
  unfold Locale.scanInt
  cases neg with
  | false =>
    have hd : (c :: cs).dropWhile isSpace = c :: cs := by
      rw [List.dropWhile_cons, hs c rfl]; rfl
    simp only [Bool.false_eq_true, if_false, List.nil_append, hd, hc.1, hc.2, false_and, or_self, decide_false]
  | true =>
    have hd : (['-'] ++ c :: cs).dropWhile isSpace = '-' :: c :: cs := by
      rw [List.singleton_append, List.dropWhile_cons]; rfl
    have hm1 : '-' ≠ L.thousands := fun e => h.thousands' (by simp [← e])
    have hm2 : '-' ≠ L.point := fun e => h.point' (by simp [← e])
    simp only [if_true, hd, hm1, hm2, and_false, not_false_eq_true, ne_eq, true_or, and_self, decide_true]

/-- Digits and separators are read as a number exactly if there are no separators, or they stand where the locale writes them. -/
theorem Locale.scanInt_accepted {L : Locale} (h : Distinct L) (hg : L.grouping ≠ []) (hl : ∀ g ∈ L.grouping, 0 < g ∧ g < 127) (neg : Bool)
    (t : Str) (ht : ∀ c ∈ t, c.isDigit = true ∨ c = L.thousands) (hs : ∀ c, t.head? = some c → isSpace c = false) (neg' : Bool) (m : Nat) :
    L.scanInt ((if neg then ['-'] else []) ++ t) = .num neg' m true ↔
      neg' = neg ∧ ∃ ds, numeral 10 ds = some m ∧ (t = ds ∨ t = spelled L.thousands (IsCut L.grouping) ds) := by
  have hl' : ∀ g ∈ L.grouping, limited g = true := fun g hgm => by
    have := hl g hgm
    simp [limited, this]
  have hu : L.useGrouping = true := by
    obtain ⟨g, gs, e⟩ := List.exists_cons_of_ne_nil hg
    unfold Locale.useGrouping
    rw [e]
    simpa using hl' g (by simp [e])
  constructor
  · intro hh
    by_cases hne : t = []
    · subst hne
      have hm1 : '-' ≠ L.thousands := fun e => h.thousands' (by simp [← e])
      have hm2 : '-' ≠ L.point := fun e => h.point' (by simp [← e])
      cases neg <;> simp [Locale.scanInt, isSpace, Locale.digits, hm1, hm2] at hh
    rw [Locale.scanInt_text h neg t hne ht hs] at hh
    simp only at hh
    split at hh
    · cases hh
    · rename_i hb
      simp only [not_or, Bool.not_eq_true] at hb
      simp only [Locale.Scan.num.injEq] at hh
      obtain ⟨e1, e2⟩ := Locale.digits_accepted h hu hl' t ht hb.1
      refine ⟨hh.1.symm, t.filter Char.isDigit, (numeral_ten _ _).2 ⟨?_, ?_, ?_⟩, ?_⟩
      · rw [← e1]; exact hb.2
      · intro c hc; exact (List.mem_filter.mp hc).2
      · rw [← e1]; exact hh.2.1.symm
      · rw [← L.group_spelled]; exact e2 hh.2.2
  · rintro ⟨rfl, ds, hn, ht'⟩
    obtain ⟨hne, hd, rfl⟩ := (numeral_ten _ _).1 hn
    rcases ht' with rfl | ht'
    · rw [Locale.scanInt_text h neg' t hne ht hs]
      have := Locale.digits_run h t [] hd [] [] 0
      rw [List.append_nil] at this
      simp [this, Locale.digits, hne]
    · have := Locale.scanInt_group h neg' ds [] hne hd (by intro c hc; simp at hc)
      rw [List.append_nil, L.group_spelled, ← ht'] at this
      exact this

/-- Digits and separators after an optional sign: an option takes them exactly if there are no separators, or all of them stand where the
locale itself writes them, and the number is in the range of the type. -/
theorem C130_grouped_exact {L : Locale} (h : Distinct L) (hg : L.grouping ≠ []) (hl : ∀ g ∈ L.grouping, 0 < g ∧ g < 127) (bits : Nat)
    (neg : Bool) (t : Str) (ht : ∀ c ∈ t, c.isDigit = true ∨ c = L.thousands) (hs : ∀ c, t.head? = some c → isSpace c = false) (v : Int) :
    (L.extractSigned bits ((if neg then ['-'] else []) ++ t) = .good v ↔
      ∃ ds m, numeral 10 ds = some m ∧ (t = ds ∨ t = spelled L.thousands (IsCut L.grouping) ds) ∧
        v = (if neg then -(m : Int) else m) ∧ -2 ^ (bits - 1) ≤ v ∧ v < 2 ^ (bits - 1)) ∧
    (L.extractUnsigned bits ((if neg then ['-'] else []) ++ t) = .good v ↔
      ∃ ds m, numeral 10 ds = some m ∧ (t = ds ∨ t = spelled L.thousands (IsCut L.grouping) ds) ∧
        m < 2 ^ bits ∧ v = (if neg then -(m : Int) % 2 ^ bits else m)) := by
  have key := Locale.scanInt_accepted h hg hl neg t ht hs
  unfold Locale.extractSigned Locale.extractUnsigned
  cases hc : L.scanInt ((if neg then ['-'] else []) ++ t) with
  | blank =>
    rw [hc] at key
    refine ⟨⟨by simp, ?_⟩, ⟨by simp, ?_⟩⟩ <;>
    · rintro ⟨ds, m, h1, h2, -⟩
      exact absurd ((key neg m).2 ⟨rfl, ds, h1, h2⟩) (by simp)
  | bad =>
    rw [hc] at key
    refine ⟨⟨by simp, ?_⟩, ⟨by simp, ?_⟩⟩ <;>
    · rintro ⟨ds, m, h1, h2, -⟩
      exact absurd ((key neg m).2 ⟨rfl, ds, h1, h2⟩) (by simp)
  | num n m g =>
    rw [hc] at key
    cases g with
    | false =>
      refine ⟨⟨?_, ?_⟩, ⟨?_, ?_⟩⟩
      · intro hh
        simp only [Bool.false_eq_true, if_false] at hh
        generalize (if n = true then -(m : Int) else m) = w at hh
        split at hh
        · cases hh
        · split at hh <;> cases hh
      · rintro ⟨ds, m, h1, h2, -⟩
        exact absurd ((key neg m).2 ⟨rfl, ds, h1, h2⟩) (by simp)
      · intro hh
        simp only [Bool.false_eq_true, if_false] at hh
        split at hh <;> cases hh
      · rintro ⟨ds, m, h1, h2, -⟩
        exact absurd ((key neg m).2 ⟨rfl, ds, h1, h2⟩) (by simp)
    | true =>
      obtain ⟨rfl, ds, h1, h2⟩ := (key n m).1 rfl
      have huniq : ∀ ds' m', numeral 10 ds' = some m' → (t = ds' ∨ t = spelled L.thousands (IsCut L.grouping) ds') → m' = m := by
        intro ds' m' h1' h2'
        have := (key n m').2 ⟨rfl, ds', h1', h2'⟩
        simp only [Locale.Scan.num.injEq, true_and, and_true] at this
        exact this.symm
      simp only [if_true]
      refine ⟨⟨fun hh => ⟨ds, m, h1, h2, ?_⟩, ?_⟩, ⟨fun hh => ⟨ds, m, h1, h2, ?_⟩, ?_⟩⟩
      · generalize (if n = true then -(m : Int) else m) = w at hh ⊢
        split at hh
        · cases hh
        · split at hh
          · cases hh
          · simp only [Extract.good.injEq] at hh
            exact ⟨hh.symm, by omega, by omega⟩
      · rintro ⟨ds', m', h1', h2', rfl, h3, h4⟩
        obtain rfl := huniq _ _ h1' h2'
        rw [if_neg (by omega), if_neg (by omega)]
      · split at hh
        · cases hh
        · simp only [Extract.good.injEq] at hh
          exact ⟨by omega, hh.symm⟩
      · rintro ⟨ds', m', h1', h2', h3, rfl⟩
        obtain rfl := huniq _ _ h1' h2'
        rw [if_neg (by omega)]

/-! ### Written in one locale and read in another -/

theorem digitsVal_append (a b : Str) : digitsVal (a ++ b) = digitsVal a * 10 ^ b.length + digitsVal b := by
  have gen : ∀ (b : Str) (n : Nat), b.foldl (fun n c => 10 * n + (c.toNat - 48)) n = n * 10 ^ b.length + digitsVal b := by
    intro b
    induction b with
    | nil => intro n; simp [digitsVal]
    | cons c b ih =>
      intro n
      have e : digitsVal (c :: b) = (10 * 0 + (c.toNat - 48)) * 10 ^ b.length + digitsVal b := by
        rw [← ih]; rfl
      rw [List.foldl_cons, ih, e, List.length_cons, pow_succ]
      ring
  unfold digitsVal
  rw [List.foldl_append, gen]
  rfl

theorem digitsVal_lt (b : Str) (h : ∀ c ∈ b, c.isDigit = true) : digitsVal b < 10 ^ b.length := by
  induction b with
  | nil => simp [digitsVal]
  | cons c b ih =>
    have hc := h c (by simp)
    have := ih fun x hx => h x (by simp [hx])
    have e := digitsVal_append [c] b
    rw [List.singleton_append] at e
    rw [e, List.length_cons, pow_succ]
    have h9 : digitsVal [c] ≤ 9 := by
      simp only [Char.isDigit, ge_iff_le, Bool.and_eq_true, decide_eq_true_eq] at hc
      have h2 : c.toNat ≤ 57 := by
        have := UInt32.le_iff_toNat_le.mp hc.2
        exact this
      simp only [digitsVal, List.foldl_cons, List.foldl_nil]
      omega
    nlinarith

/-! ### Floating point options: where separators may stand -/

theorem Locale.floatChars_digits {L : Locale} (h : Distinct L) (t : Str) (ht : ∀ c ∈ t, c.isDigit = true ∨ c = L.thousands) :
    L.useGrouping = true → ∀ mant D F p,
    L.floatChars mant false F p t =
      let x := L.digits ⟨D, F, p, false⟩ t
      if x.bad = true then none
      else some (x.ds.drop D.length, if x.found.isEmpty = true then x.found else x.found ++ [x.sepPos]) := by
  intro hu
  induction t with
  | nil => intro mant D F p; simp [Locale.floatChars, Locale.digits]
  | cons c t ih =>
    intro mant D F p
    have ih := ih fun c hc => ht c (List.mem_cons_of_mem _ hc)
    by_cases hc : c = L.thousands
    · by_cases hp : p = 0
      · simp [Locale.floatChars, Locale.digits, hc, hu, hp]
      · simp only [Locale.floatChars, Locale.digits, hc, hu, hp, and_self, if_true, if_false, Bool.false_eq_true]
        exact ih mant D _ 0
    · have hd : c.isDigit = true := (ht c (by simp)).resolve_right hc
      have hpt : c ≠ L.point := by
        rintro rfl
        have := h.point
        rw [this] at hd
        cases hd
      simp only [Locale.floatChars, Locale.digits, hc, hpt, hd, and_false, if_true, if_false]
      rw [ih true (D ++ [c]) F (p + 1)]
      obtain ⟨y, hy⟩ : ∃ y, (L.digits ⟨D ++ [c], F, p + 1, false⟩ t).ds = D ++ [c] ++ y := by
        have : ∀ (t : Str) (x : Locale.Digits), ∃ y, (L.digits x t).ds = x.ds ++ y := by
          intro t
          induction t with
          | nil => intro x; exact ⟨[], by simp [Locale.digits]⟩
          | cons c t ih =>
            intro x
            simp only [Locale.digits]
            split
            · split
              · exact ⟨[], by simp⟩
              · exact ih _
            · split
              · exact ⟨[], by simp⟩
              · split
                · obtain ⟨y, hy⟩ := ih { x with ds := x.ds ++ [c], sepPos := x.sepPos + 1 }
                  exact ⟨c :: y, by rw [hy]; simp⟩
                · exact ⟨[], by simp⟩
        exact this t _
      simp only [hy]
      split
      · rfl
      · simp

theorem Locale.extractReal_scanInt {L : Locale} (h : Distinct L) (hu : L.useGrouping = true) (rnd : ℚ → Option ℚ) (neg : Bool)
    (t : Str) (ht : ∀ c ∈ t, c.isDigit = true ∨ c = L.thousands) (hs : ∀ c, t.head? = some c → isSpace c = false) :
    match L.scanInt ((if neg then ['-'] else []) ++ t) with
    | .num neg' m g => L.extractReal rnd ((if neg then ['-'] else []) ++ t) =
        ((match rnd m with | some r => .good (.fin neg' r) | none => .over neg'), g)
    | _ => ∀ y b, L.extractReal rnd ((if neg then ['-'] else []) ++ t) ≠ (.good y, b) := by
  have hm1 : '-' ≠ L.thousands := fun e => h.thousands' (by simp [← e])
  have hm2 : '-' ≠ L.point := fun e => h.point' (by simp [← e])
  by_cases hne : t = []
  · subst hne
    cases neg <;> simp [Locale.scanInt, Locale.extractReal, isSpace, Locale.digits, Locale.floatChars, hm1, hm2, floatMag]
  rw [Locale.scanInt_text h neg t hne ht hs]
  have hx : L.extractReal rnd ((if neg then ['-'] else []) ++ t) =
      match L.floatChars false false [] 0 t with
      | none => (.bad, true)
      | some (x, found) =>
        ((match floatMag x with
          | none => .bad
          | some q => match rnd q with | some r => .good (.fin neg r) | none => .over neg),
          found.isEmpty || Locale.verify L.grouping found.reverse) := by
    obtain ⟨c, cs, rfl⟩ := List.exists_cons_of_ne_nil hne
    have hc : c ≠ '-' ∧ c ≠ '+' := by
      rcases ht c (by simp) with hd | hd
      · constructor <;> (rintro rfl; revert hd; decide)
      · have := h.thousands'
        rw [← hd] at this
        simp only [List.mem_cons, not_or] at this
        exact ⟨this.1, this.2.1⟩
    unfold Locale.extractReal
    cases neg with
    | false =>
      have hd : (c :: cs).dropWhile isSpace = c :: cs := by
        rw [List.dropWhile_cons, hs c rfl]; rfl
      simp only [Bool.false_eq_true, if_false, List.nil_append, hd, hc.1, hc.2, false_and, or_self, decide_false]
      rcases L.floatChars false false [] 0 (c :: cs) with _ | ⟨x, f⟩ <;> rfl
    | true =>
      have hd : (['-'] ++ c :: cs).dropWhile isSpace = '-' :: c :: cs := by
        rw [List.singleton_append, List.dropWhile_cons]; rfl
      simp only [if_true, hd, hm1, hm2, and_false, not_false_eq_true, ne_eq, true_or, and_self, decide_true]
      rcases L.floatChars false false [] 0 (c :: cs) with _ | ⟨x, f⟩ <;> rfl
  rw [hx, Locale.floatChars_digits h t ht hu false [] [] 0]
  simp only [List.length_nil, List.drop_zero]
  by_cases hb : (L.digits ⟨[], [], 0, false⟩ t).bad = true
  · simp [hb]
  · have hds : ∀ c ∈ (L.digits ⟨[], [], 0, false⟩ t).ds, c.isDigit = true := by
      rw [(Locale.digits_reading h hu t ht [] ⟨[], [], 0, false⟩ ⟨[], [], rfl, rfl, rfl, rfl, by simp⟩ (by simpa using hb) rfl).2]
      intro c hc
      simp only [List.nil_append] at hc
      exact (List.mem_filter.mp hc).2
    have hf := floatMag_eval (ip := (L.digits ⟨[], [], 0, false⟩ t).ds) (pt := []) (fp := []) (t := []) (.inl ⟨rfl, rfl⟩) hds (by simp)
      (.inl rfl)
    simp only [List.append_nil] at hf
    by_cases hd : (L.digits ⟨[], [], 0, false⟩ t).ds = []
    · simp [hb, hd, floatMag]
    · rw [if_neg hd] at hf
      have he : floatExp [] = some 0 := by simp [floatExp]
      simp only [he, Option.map_some, List.length_nil, pow_zero, div_one, zpow_zero, mul_one] at hf
      simp only [hb, hd, or_self, if_false, hf, Bool.false_eq_true]
      cases hfo : (L.digits ⟨[], [], 0, false⟩ t).found with
      | nil => cases rnd _ <;> simp
      | cons a l => cases rnd _ <;> simp

/-- The same for floating point options: digits and separators after an optional sign are taken exactly if there are no separators, or all
of them stand where the locale itself writes them, and the number is in the range of the type. -/
theorem C130_real_exact {L : Locale} (h : Distinct L) (hg : L.grouping ≠ []) (hl : ∀ g ∈ L.grouping, 0 < g ∧ g < 127)
    (rnd : ℚ → Option ℚ) (big : ℚ) (inj : Dbl → V) (o : Options V) (ho : Ready o) (sw : Str) (i : Nat)
    (d : Decl V) (hd : Denotes o.decls sw i d) (hh : ¬ HelpSwitch sw) (hk : d.kind = .scalar)
    (hr : d.read = (L.realTy rnd big inj).read) (hsg : d.isSigned = true) (hte : ∀ v, d.test v = true)
    (neg : Bool) (t : Str) (ht : ∀ c ∈ t, c.isDigit = true ∨ c = L.thousands) (hs : ∀ c, t.head? = some c → isSpace c = false) :
    (∀ ds m r, numeral 10 ds = some m → (t = ds ∨ t = spelled L.thousands (IsCut L.grouping) ds) → rnd m = some r →
      ∃ o', o.parse [sw, (if neg then ['-'] else []) ++ t] = (o', true) ∧ o'.sc d.target = inj (.fin neg r)) ∧
    ((¬ ∃ ds m r, numeral 10 ds = some m ∧ (t = ds ∨ t = spelled L.thousands (IsCut L.grouping) ds) ∧ rnd m = some r) →
      (o.parse [sw, (if neg then ['-'] else []) ++ t]).2 = false) := by
  have hu : L.useGrouping = true := by
    obtain ⟨g, gs, e⟩ := List.exists_cons_of_ne_nil hg
    unfold Locale.useGrouping
    rw [e]
    have := hl g (by simp [e])
    simp [limited, this]
  have key := Locale.scanInt_accepted h hg hl neg t ht hs
  have hx := Locale.extractReal_scanInt h hu rnd neg t ht hs
  constructor
  · intro ds m r h1 h2 h3
    refine C33_signed_scalar_partial o ho sw _ i d _ hd hh hk hsg ⟨?_, hte _⟩
    rw [(key neg m).2 ⟨rfl, ds, h1, h2⟩] at hx
    simp only [h3] at hx
    rw [hr]
    simp only [Locale.realTy, hx]
  · intro hno
    refine parse_pair_rejected o ho hd hh (by simp [hk]) (.inl (.inl hsg)) ?_
    rintro v ⟨ha, -⟩
    rw [hr] at ha
    simp only [Locale.realTy] at ha
    split at ha
    · rename_i y hy
      cases hc : L.scanInt ((if neg then ['-'] else []) ++ t) with
      | blank => rw [hc] at hx; exact hx _ _ hy
      | bad => rw [hc] at hx; exact hx _ _ hy
      | num neg' m g =>
        rw [hc] at hx
        simp only [hy, Prod.mk.injEq] at hx
        obtain ⟨hx1, rfl⟩ := hx
        obtain ⟨-, ds, h1, h2⟩ := (key neg' m).1 hc
        cases hm : rnd m with
        | none => rw [hm] at hx1; cases hx1
        | some r => exact hno ⟨ds, m, r, h1, h2, hm⟩
    · cases ha

/-- A number written with separators and read in the "C" locale: only the digits before the first separator count, and nobody complains.
`k` is the number of digits after the first separator. -/
theorem C130_crossed (L : Locale) (hd : L.thousands.isDigit = false) (bits : Nat) (v : Int) (h1 : -2 ^ (bits - 1) ≤ v)
    (h2 : v < 2 ^ (bits - 1)) (fill : Char) (k : Nat) (hk0 : 0 < k) (hk : k < (Nat.toDigits 10 v.natAbs).length) (hc : IsCut L.grouping k)
    (hmax : ∀ j, k < j → j < (Nat.toDigits 10 v.natAbs).length → ¬ IsCut L.grouping j) :
    extractSigned bits (L.textI v 0 nul fill) = .good (Int.sign v * (v.natAbs / 10 ^ k : Nat)) := by
  rw [(C129_written_partial L v fill).1]
  generalize hds : Nat.toDigits 10 v.natAbs = ds at hk hmax
  have hdig : ∀ c ∈ ds, c.isDigit = true := by rw [← hds]; exact toDigits_isDigit _
  have hval : digitsVal ds = v.natAbs := by rw [← hds]; exact digitsVal_toDigits _
  have hlen : (ds.drop (ds.length - k)).length = k := by rw [List.length_drop]; omega
  have ha : ds.take (ds.length - k) ≠ [] := by
    intro e
    have := congrArg List.length e
    rw [List.length_take, List.length_nil] at this
    omega
  have hb : ds.drop (ds.length - k) ≠ [] := by
    intro e
    rw [e] at hlen
    simp at hlen
    omega
  have hsp := spelled_append L.thousands (IsCut L.grouping) _ _ ha hb (by rw [hlen]; exact hc)
  rw [List.take_append_drop, hlen, spelled_none _ (ds.take (ds.length - k)) (by
    intro j hj0 hj
    rw [List.length_take] at hj
    exact hmax _ (by omega) (by omega))] at hsp
  have hq : digitsVal (ds.take (ds.length - k)) = v.natAbs / 10 ^ k := by
    have e := digitsVal_append (ds.take (ds.length - k)) (ds.drop (ds.length - k))
    rw [List.take_append_drop, hval, hlen] at e
    have l := digitsVal_lt (ds.drop (ds.length - k)) fun c hc => hdig c (List.mem_of_mem_drop hc)
    rw [hlen] at l
    rw [e, Nat.add_comm, Nat.add_mul_div_right _ _ (by positivity), Nat.div_eq_of_lt l, Nat.zero_add]
  have hle : v.natAbs / 10 ^ k ≤ v.natAbs := Nat.div_le_self _ _
  generalize hm : v.natAbs / 10 ^ k = m at hq hle ⊢
  rw [hsp]
  refine (extractSigned_good_iff bits _ _).2 ⟨⟨[], if v < 0 then ['-'] else [], ds.take (ds.length - k),
    L.thousands :: spelled L.thousands (IsCut L.grouping) (ds.drop (ds.length - k)), m, by simp, by simp, ?_, ?_, ?_, ?_⟩, ?_, ?_⟩
  · by_cases h0 : v < 0
    · simp [h0]
    · simp [h0]
  · exact (numeral_ten _ _).2 ⟨ha, fun c hc => hdig c (List.mem_of_mem_take hc), hq.symm⟩
  · intro c hcc
    simp only [List.head?_cons, Option.some.injEq] at hcc
    rw [← hcc]
    intro hh
    rw [show L.thousands.isDigit = true by simp only [Char.isDigit, Bool.and_eq_true, decide_eq_true_eq]; exact hh] at hd
    cases hd
  · rcases lt_trichotomy v 0 with h0 | h0 | h0
    · simp [h0, Int.sign_eq_neg_one_of_neg h0]
    · subst h0
      simp at hle
      simp [hle]
    · simp [Int.sign_eq_one_of_pos h0, show ¬ v < 0 by omega]
  · rcases lt_trichotomy v 0 with h0 | h0 | h0
    · rw [Int.sign_eq_neg_one_of_neg h0]; omega
    · subst h0; simp
    · rw [Int.sign_eq_one_of_pos h0]; omega
  · rcases lt_trichotomy v 0 with h0 | h0 | h0
    · rw [Int.sign_eq_neg_one_of_neg h0]
      have : (0 : Int) < 2 ^ (bits - 1) := by positivity
      omega
    · subst h0
      have : (0 : Int) < 2 ^ (bits - 1) := by positivity
      simp
      omega
    · rw [Int.sign_eq_one_of_pos h0]; omega

/-! ### Examples -/

deriving instance DecidableEq for ExtractF

theorem plain_english : Distinct english := ⟨by decide, by decide, by decide, by decide⟩
theorem plain_german : Distinct german := ⟨by decide, by decide, by decide, by decide⟩
theorem plain_indian : Distinct indian := ⟨by decide, by decide, by decide, by decide⟩

theorem cut_english (n : Nat) (h : 0 < n) : IsCut english.grouping (3 * n) := by
  refine ⟨n, h, fun j _ => ?_, ?_⟩
  · cases j <;> simp [groupSize, english]
  · have : ∀ j, groupSize [3] j = 3 := by intro j; cases j <;> simp [groupSize]
    rw [show english.grouping = [3] from rfl, show groupSize [3] = fun _ => 3 from funext this]
    simp [Nat.mul_comm]

/-- "1,234" is 1 in the "C" locale and 1234 in an English one, where "1,23" is refused although the "C" locale takes it for 1; "3.14" is 3
where the decimal point is a comma; both with no complaint.  What `addF` has written for 1.234567 in notation 'e' (C129_refuted) is read in
the same locale as 1234567.  The spaces after what `addF` has written for 12 make it unreadable where the separator is a space.  The same
number written in one locale and read in the other. -/
theorem C130_refuted : ¬ C130_claim ∧
    extractSigned 32 "1,234".toList = .good 1 ∧ english.extractSigned 32 "1,234".toList = .good 1234 ∧
    extractSigned 32 "1,23".toList = .good 1 ∧ english.extractSigned 32 "1,23".toList = .over 123 ∧
    german.extractReal some "2,5".toList = (.good (.fin false (5 / 2)), true) ∧
    extractReal some "2,5".toList = .good (.fin false 2) ∧
    (⟨' ', ',', []⟩ : Locale).extractReal some "3.14".toList = (.good (.fin false 3), true) ∧
    german.extractReal some "3.14".toList = (.good (.fin false 314), false) ∧
    german.extractReal some " 1.234.567e+0 ".toList = (.good (.fin false 1234567), true) ∧
    (⟨' ', ',', [3]⟩ : Locale).extractReal some "12    ".toList = (.bad, true) ∧
    extractSigned 32 (english.textI (-1234567) 0 nul nul) = .good (-1) := by
  have a1 : extractSigned 32 "1,234".toList = .good 1 := by decide +kernel
  have a2 : english.extractSigned 32 "1,234".toList = .good 1234 := by decide +kernel
  refine ⟨fun h => ?_, a1, a2, by decide +kernel, by decide +kernel, by decide +kernel, by decide +kernel, by decide +kernel,
    by decide +kernel, by decide +kernel, by decide +kernel, ?_⟩
  · have := (h english 32 some "1,234".toList).1
    rw [a1, a2] at this
    simp at this
  · rw [C130_crossed english (by decide) 32 (-1234567) (by norm_num) (by norm_num) nul 6 (by norm_num) (by decide +kernel)
      (cut_english 2 (by norm_num)) (fun j h1 h2 => by
        have : (Nat.toDigits 10 (-1234567 : Int).natAbs).length = 7 := by decide +kernel
        omega)]
    decide +kernel

/-- The conditions of `C130_grouped_exact` for a text that is refused in an Indian locale. -/
example (v : Int) : indian.extractSigned 32 "1,234,567".toList = .good v ↔
    ∃ ds m, numeral 10 ds = some m ∧ ("1,234,567".toList = ds ∨ "1,234,567".toList = spelled ',' (IsCut indian.grouping) ds) ∧
      v = (if false then -(m : Int) else m) ∧ -2 ^ (32 - 1) ≤ v ∧ v < 2 ^ (32 - 1) :=
  (C130_grouped_exact plain_indian (by decide) (by decide) 32 false "1,234,567".toList (by decide +kernel) (by
    intro c hc
    simp at hc
    subst hc
    decide) v).1

example : indian.extractSigned 32 "1,234,567".toList = .over 1234567 := by decide +kernel

example : indian.extractSigned 32 "12,34,567".toList = .good 1234567 ∧ indian.extractSigned 32 "1234567".toList = .good 1234567 ∧
    indian.extractSigned 32 "1,34,567,".toList = .over 134567 := ⟨by decide +kernel, by decide +kernel, by decide +kernel⟩

/-- An object with an `int` option `-l` and an `unsigned int` option `-c` in an Indian locale. -/
def indianSample : Options Int :=
  ((Options.new false (fun _ => 0) (fun _ => [])).add (indian.sintTy 32 id) 0 "long".toList 'l').add
    (indian.uintTy 32 id) 1 "count".toList 'c'

theorem indianSample_ready : Ready indianSample :=
  .add _ _ _ _ _ _ _ (.add _ _ _ _ _ _ _ (.new _ _ _))

example : ∃ o', indianSample.parse ["-l".toList, indian.textI (-12345678) 14 nul nul] = (o', true) ∧ o'.sc 0 = -12345678 :=
  C130_addI_partial plain_indian 32 id indianSample indianSample_ready _ 0 indianSample.decls[0]
    (.short (c := 'l') (r := []) (by decide) (isLast_of_findAb indianSample_ready.wf (by decide) rfl)) (not_help (by decide) (by decide))
    rfl rfl rfl (fun _ => rfl) _ (by norm_num) (by norm_num) 14

example : ∃ o', indianSample.parse ["-c".toList, indian.textU 4294967295 'd' 14 nul 4] = (o', true) ∧ o'.sc 1 = 4294967295 :=
  C130_addU_partial plain_indian 32 id indianSample indianSample_ready _ 1 indianSample.decls[1]
    (.short (c := 'c') (r := []) (by decide) (isLast_of_findAb indianSample_ready.wf (by decide) rfl)) (not_help (by decide) (by decide))
    rfl rfl (fun _ => rfl) _ (by norm_num) 14 4 'd' (by decide)

/-- An object with a `double` option `-g` in a German locale (no rounding). -/
def germanSample : Options Dbl :=
  (Options.new false (fun _ => .nan) (fun _ => [])).add (german.realTy some 0 id) 0 "gain".toList 'g'

theorem germanSample_ready : Ready germanSample := .add _ _ _ _ _ _ _ (.new _ _ _)

/-- `-g -1.234.567` is taken, `-g 3.14` is not. -/
example : (∃ o', germanSample.parse ["-g".toList, "-1.234.567".toList] = (o', true) ∧ o'.sc 0 = .fin true 1234567) ∧
    (germanSample.parse ["-g".toList, "3.14".toList]).2 = false := by
  have h := C130_real_exact plain_german (by decide) (by decide) some 0 id germanSample germanSample_ready "-g".toList 0 germanSample.decls[0]
    (.short (c := 'g') (r := []) (by decide) (isLast_of_findAb germanSample_ready.wf (by decide) rfl)) (not_help (by decide) (by decide))
    rfl rfl rfl (fun _ => rfl)
  constructor
  · refine (h true "1.234.567".toList (by decide +kernel) (by intro c hc; simp at hc; subst hc; decide)).1 "1234567".toList 1234567 _
      (by decide +kernel) (.inr ?_) rfl
    have := german.group_spelled "1234567".toList
    rw [show german.grouping = [3] from rfl] at *
    rw [show german.thousands = '.' from rfl] at this ⊢
    rw [← this]
    decide +kernel
  · refine (h false "3.14".toList (by decide +kernel) (by intro c hc; simp at hc; subst hc; decide)).2 ?_
    rintro ⟨ds, m, r, h1, h2, -⟩
    have e := (Locale.scanInt_accepted plain_german (by decide) (by decide) false "3.14".toList (by decide +kernel)
      (by intro c hc; simp at hc; subst hc; decide) false m).2 ⟨rfl, ds, h1, h2⟩
    rw [show german.scanInt ((if false then ['-'] else []) ++ "3.14".toList) = .num false 314 false by decide +kernel] at e
    cases e

example : ∃ txtL txtC, german.textF exactArith 100 '.' (.fin true (2469135 / 2)) 'f' 0 2 = some (.ok txtL) ∧
    textF exactArith 100 '.' (.fin true (2469135 / 2)) 'f' 0 2 = some (.ok txtC) ∧
    german.extractReal some txtL = (extractReal some txtC, true) :=
  C130_real_partial plain_german (by decide) (by decide) _ _ _ _ _ (by norm_num) _ (.inl rfl) _ _ _

example : german.extractReal some "-1.234.567,50".toList = (.good (.fin true (2469135 / 2)), true) := by decide +kernel

end SoDa
