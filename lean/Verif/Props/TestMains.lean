import Verif.Model.TestMains
import Verif.Proof.CTest
import Verif.Props.RepoTests
/-!
Property C106: what CTest concludes from the other test programs, for all answers of the library.
-/
namespace SoDa.Spec

/-- The tokens that test/SplitTest.cxx expects. -/
def expectedTokens : List Str := ["this".toList, "that".toList, "the other thing".toList]

/-- The texts that test/FormatHexTest.cxx writes down for a value, a width, a format and a separator. -/
def expectedTexts : List (Str × Nat × Nat × Char × Char) :=
  [("0x0".toList, 0, 0, 'X', '\x00'), ("0x000".toList, 0, 3, 'X', '\x00'), ("0x0000".toList, 0, 4, 'X', '\x00'),
    ("0x100".toList, 256, 0, 'X', '\x00'), ("0x0100".toList, 256, 4, 'X', '\x00'),
    ("0x00000100".toList, 256, 8, 'X', '\x00'), ("0x0000000000000100".toList, 256, 16, 'X', '\x00'),
    ("0x0".toList, 0, 0, 'X', '_'), ("0x000".toList, 0, 3, 'X', '_'), ("0x100".toList, 256, 0, 'X', '_'),
    ("0x0100".toList, 256, 4, 'X', '_'), ("0x0000_0100".toList, 256, 8, 'X', '_'),
    ("0x0000_0000_0000_0100".toList, 256, 16, 'X', '_'),
    ("0".toList, 0, 0, '\x00', '\x00'), ("  0".toList, 0, 3, '\x00', '\x00'), ("100".toList, 100, 0, '\x00', '\x00'),
    (" 100".toList, 100, 4, '\x00', '\x00'), ("     100".toList, 100, 8, '\x00', '\x00'),
    ("             100".toList, 100, 16, '\x00', '\x00'),
    ("0".toList, 0, 0, 'o', '\x00'), ("000".toList, 0, 3, 'o', '\x00'), ("0137".toList, 95, 0, 'o', '\x00'),
    ("0137".toList, 95, 4, 'o', '\x00'), ("00000137".toList, 95, 8, 'o', '\x00'),
    ("0000000000000137".toList, 95, 16, 'o', '\x00')]

/-- What test/OptionsTest.cxx expects of the library. -/
def OptionsRight (a : CTest.OptAnswers) : Prop :=
  a.parsed = true ∧ a.si_val = -3 ∧ a.u_val = 3 ∧ a.f0_bad = false ∧ a.f1_bad = false ∧
    a.sind_val = "'--args=\"type=b200,serial=c00ld00d\"'".toList ∧ a.s_val = "\"--this is a test\"".toList ∧
    a.numPosArgs = 3 ∧ a.posArgs = ["po0".toList, "po1".toList, "po2".toList]

end SoDa.Spec

namespace SoDa.CTest
open Spec

/-! ### test/SplitTest.cxx -/

theorem vecLoop_spec (sv : List Str) : ∀ (refs : List Str) (i : Nat),
    ((vecLoop sv i refs).isSome ↔ i + refs.length ≤ sv.length ∨ refs = []) ∧
    ∀ o, vecLoop sv i refs = some o → (o.2 = true ↔ ∃ t, sv.drop i = refs ++ t) ∧ (o.2 = true → o.1 = [])
  | [], i => by simp [vecLoop]
  | ref :: refs, i => by
    obtain ⟨ih1, ih2⟩ := vecLoop_spec sv refs (i + 1)
    rw [vecLoop]
    rcases Nat.lt_or_ge i sv.length with hi | hi
    · rw [List.getElem?_eq_getElem hi]
      simp only [Option.isSome_map]
      constructor
      · rw [ih1]
        simp only [List.length_cons, reduceCtorEq, or_false]
        constructor
        · rintro (h | h)
          · omega
          · subst h; simpa using hi
        · intro h; left; omega
      · intro o ho
        obtain ⟨⟨out, pass⟩, h1, h2⟩ := Option.map_eq_some_iff.1 ho
        obtain ⟨h3, h4⟩ := ih2 _ h1
        rw [List.drop_eq_getElem_cons hi]
        simp only at h2 h3 h4
        split at h2
        next hne =>
          subst h2
          refine ⟨⟨fun h => (nomatch h), ?_⟩, fun h => nomatch h⟩
          rintro ⟨t, ht⟩
          rw [List.cons_append] at ht
          exact absurd (List.cons.inj ht).1 hne
        next heq =>
          subst h2
          refine ⟨?_, h4⟩
          simp only
          rw [h3]
          constructor
          · rintro ⟨t, ht⟩
            exact ⟨t, by rw [ht, Classical.not_not.1 heq]; rfl⟩
          · rintro ⟨t, ht⟩
            rw [List.cons_append] at ht
            exact ⟨t, (List.cons.inj ht).2⟩
    · rw [List.getElem?_eq_none hi]
      refine ⟨?_, fun o ho => by cases ho⟩
      simp only [Option.isSome_none, List.length_cons, reduceCtorEq, or_false, Bool.false_eq_true, false_iff]
      omega

theorem listLoop_spec : ∀ (sl : List Str) (i : Nat),
    ((listLoop i sl).isSome ↔ i + sl.length ≤ 3 ∨ sl = []) ∧
    ∀ o, listLoop i sl = some o → (o.2 = true ↔ ∃ t, commaRef.drop i = sl ++ t) ∧ (o.2 = true → o.1 = [])
  | [], i => by simp [listLoop]
  | got :: sl, i => by
    have hl : commaRef.length = 3 := rfl
    obtain ⟨ih1, ih2⟩ := listLoop_spec sl (i + 1)
    rw [listLoop]
    rcases Nat.lt_or_ge i 3 with hi | hi
    · rw [List.getElem?_eq_getElem (by rw [hl]; exact hi)]
      simp only [Option.isSome_map]
      constructor
      · rw [ih1]
        simp only [List.length_cons, reduceCtorEq, or_false]
        constructor
        · rintro (h | h)
          · omega
          · subst h; simpa using hi
        · intro h; left; omega
      · intro o ho
        obtain ⟨⟨out, pass⟩, h1, h2⟩ := Option.map_eq_some_iff.1 ho
        obtain ⟨h3, h4⟩ := ih2 _ h1
        rw [List.drop_eq_getElem_cons (by rw [hl]; exact hi)]
        simp only at h2 h3 h4
        split at h2
        next hne =>
          subst h2
          refine ⟨⟨fun h => (nomatch h), ?_⟩, fun h => nomatch h⟩
          rintro ⟨t, ht⟩
          rw [List.cons_append] at ht
          exact absurd (List.cons.inj ht).1.symm hne
        next heq =>
          subst h2
          refine ⟨?_, h4⟩
          simp only
          rw [h3]
          constructor
          · rintro ⟨t, ht⟩
            exact ⟨t, by rw [ht, Classical.not_not.1 heq]; rfl⟩
          · rintro ⟨t, ht⟩
            rw [List.cons_append] at ht
            exact ⟨t, (List.cons.inj ht).2⟩
    · rw [List.getElem?_eq_none (by rw [hl]; exact hi)]
      refine ⟨?_, fun o ho => by cases ho⟩
      simp only [Option.isSome_none, List.length_cons, reduceCtorEq, or_false, Bool.false_eq_true, false_iff]
      omega

/-- What SplitTest accepts: `splitVec` may return further tokens after the expected ones, `split` may omit the last ones.  Fewer
tokens of `splitVec`, or more of `split`, are undefined behaviour of the test itself. -/
theorem C106_split_exact (sv sl : List Str) :
    ((splitMain sv sl).isSome ↔ 3 ≤ sv.length ∧ sl.length ≤ 3) ∧
    ∀ out, splitMain sv sl = some out →
      (splitTest.passes out 0 = true ↔ expectedTokens <+: sv ∧ sl <+: expectedTokens) := by
  obtain ⟨a1, a2⟩ := vecLoop_spec sv commaRef 0
  obtain ⟨b1, b2⟩ := listLoop_spec sl 0
  have hr : commaRef = expectedTokens := rfl
  constructor
  · have e : (splitMain sv sl).isSome ↔ (vecLoop sv 0 commaRef).isSome ∧ (listLoop 0 sl).isSome := by
      unfold splitMain
      cases vecLoop sv 0 commaRef <;> cases listLoop 0 sl <;> simp
    rw [e, a1, b1]
    have hl : commaRef.length = 3 := rfl
    have hn : commaRef ≠ [] := by rw [hr]; simp [expectedTokens]
    constructor
    · rintro ⟨h1 | h1, h2 | h2⟩
      · omega
      · subst h2; simp; omega
      · exact absurd h1 hn
      · exact absurd h1 hn
    · rintro ⟨h1, h2⟩
      exact ⟨.inl (by omega), .inl (by omega)⟩
  · intro out ho
    unfold splitMain at ho
    cases hv : vecLoop sv 0 commaRef with
    | none => rw [hv] at ho; simp at ho
    | some o1 =>
    cases hl : listLoop 0 sl with
    | none => rw [hv, hl] at ho; simp at ho
    | some o2 =>
    obtain ⟨out1, pass1⟩ := o1
    obtain ⟨out2, pass2⟩ := o2
    rw [hv, hl] at ho
    simp only [Option.some.injEq] at ho
    obtain ⟨c1, c2⟩ := a2 _ hv
    obtain ⟨d1, d2⟩ := b2 _ hl
    simp only [List.drop_zero, hr] at c1 c2 d1 d2
    have hp : (expectedTokens <+: sv ∧ sl <+: expectedTokens) ↔ (pass1 && pass2) = true := by
      rw [Bool.and_eq_true, c1, d1]
      constructor
      · rintro ⟨⟨t, ht⟩, ⟨u, hu⟩⟩; exact ⟨⟨t, ht.symm⟩, ⟨u, hu.symm⟩⟩
      · rintro ⟨⟨t, ht⟩, ⟨u, hu⟩⟩; exact ⟨⟨t, ht.symm⟩, ⟨u, hu.symm⟩⟩
    rw [hp]
    cases hpp : (pass1 && pass2) with
    | true =>
      rw [hpp, if_pos rfl] at ho
      rw [Bool.and_eq_true] at hpp
      rw [c2 hpp.1, d2 hpp.2] at ho
      subst ho
      decide
    | false =>
      rw [hpp] at ho
      simp only [Bool.false_eq_true, if_false] at ho
      have hf : found "FAIL".toList out = true := by
        rw [found_iff]
        exact ⟨out1 ++ out2, "\n".toList, by rw [← ho, List.append_assoc _ "FAIL".toList]; rfl⟩
      simp only [Test.passes, splitTest, hf]
      simp

/-! ### test/FormatHexTest.cxx -/

theorem hexLoop_eq (lib : Nat → Nat → Char → Char → Str) (fmt sep : Char) (m : List (Str × Nat × Nat)) (ok : Bool) :
    hexLoop lib fmt sep m ok = true ↔ ok = true ∧ ∀ e ∈ m, lib e.2.1 e.2.2 fmt sep = e.1 := by
  unfold hexLoop
  induction m generalizing ok with
  | nil => simp
  | cons e m ih =>
    rw [List.foldl_cons, ih]
    simp only [Bool.and_eq_true, beq_iff_eq, List.mem_cons, forall_eq_or_imp, and_assoc]

theorem mem_maps :
    (∀ e, e ∈ initMap hexList ↔ e ∈ hexList) ∧ (∀ e, e ∈ initMap underList ↔ e ∈ underList) ∧
    (∀ e, e ∈ initMap decList ↔ e ∈ decList) ∧
    ∀ e, e ∈ initMap octList ↔ e ∈ octList ∧ e ≠ ("0137".toList, 0o137, 4) := by
  have key : ∀ l l' : List (Str × Nat × Nat), (∀ e ∈ l, e ∈ l') → (∀ e ∈ l', e ∈ l) → ∀ e, e ∈ l ↔ e ∈ l' :=
    fun l l' h1 h2 e => ⟨h1 e, h2 e⟩
  refine ⟨key _ _ (by decide +kernel) (by decide +kernel), key _ _ (by decide +kernel) (by decide +kernel),
    key _ _ (by decide +kernel) (by decide +kernel), ?_⟩
  intro e
  have hm : (e ∈ octList ∧ e ≠ ("0137".toList, 0o137, 4)) ↔ e ∈ octList.filter fun e => decide (e ≠ ("0137".toList, 0o137, 4)) := by
    rw [List.mem_filter, decide_eq_true_iff]
  rw [hm]
  exact key _ _ (by decide +kernel) (by decide +kernel) e

/-- What FormatHexTest checks: all the texts it writes down except one.  The octal text of 0137 with width 4 has the key of another
one in the map, and is dropped. -/
theorem C106_hex_exact (lib : Nat → Nat → Char → Char → Str) (out : Str) :
    plainTest.passes out (hexMain lib) = true ↔
      ∀ c ∈ expectedTexts, c ≠ ("0137".toList, 95, 4, 'o', '\x00') → lib c.2.1 c.2.2.1 c.2.2.2.1 c.2.2.2.2 = c.1 := by
  obtain ⟨m1, m2, m3, m4⟩ := mem_maps
  have h1 : plainTest.passes out (hexMain lib) = true ↔ hexMain lib = 0 := by simp [Test.passes, plainTest]
  have h2 : hexMain lib = 0 ↔ hexLoop lib 'o' nul (initMap octList) (hexLoop lib nul nul (initMap decList)
      (hexLoop lib 'X' '_' (initMap underList) (hexLoop lib 'X' nul (initMap hexList) true))) = true := by
    simp only [hexMain]
    split
    next h => simp [h]
    next h => simp [h]
  rw [h1, h2]
  simp only [hexLoop_eq, true_and, m1, m2, m3, m4]
  have hsplit : expectedTexts = (hexList.map fun e => (e.1, e.2.1, e.2.2, 'X', nul)) ++
      (underList.map fun e => (e.1, e.2.1, e.2.2, 'X', '_')) ++ (decList.map fun e => (e.1, e.2.1, e.2.2, nul, nul)) ++
      octList.map fun e => (e.1, e.2.1, e.2.2, 'o', nul) := rfl
  rw [hsplit]
  constructor
  · rintro ⟨⟨⟨a, b⟩, c⟩, d⟩ x hx hne
    simp only [List.mem_append, List.mem_map] at hx
    rcases hx with ((⟨e, he, rfl⟩ | ⟨e, he, rfl⟩) | ⟨e, he, rfl⟩) | ⟨e, he, rfl⟩
    · exact a e he
    · exact b e he
    · exact c e he
    · exact d e ⟨he, fun h => hne (by rw [h]; rfl)⟩
  · intro h
    have no : ∀ {e : Str × Nat × Nat} {f s : Char}, f ≠ 'o' →
        (e.1, e.2.1, e.2.2, f, s) ≠ ("0137".toList, 95, 4, 'o', '\x00') := by
      intro e f s hf heq
      simp only [Prod.mk.injEq] at heq
      exact hf heq.2.2.2.1
    refine ⟨⟨⟨fun e he => ?_, fun e he => ?_⟩, fun e he => ?_⟩, fun e he => ?_⟩
    · exact h (e.1, e.2.1, e.2.2, 'X', nul) (by simp only [List.mem_append, List.mem_map]; exact .inl (.inl (.inl ⟨e, he, rfl⟩)))
        (no (by decide))
    · exact h (e.1, e.2.1, e.2.2, 'X', '_') (by simp only [List.mem_append, List.mem_map]; exact .inl (.inl (.inr ⟨e, he, rfl⟩)))
        (no (by decide))
    · exact h (e.1, e.2.1, e.2.2, nul, nul) (by simp only [List.mem_append, List.mem_map]; exact .inl (.inr ⟨e, he, rfl⟩))
        (no (by decide))
    · refine h (e.1, e.2.1, e.2.2, 'o', nul) (by simp only [List.mem_append, List.mem_map]; exact .inr ⟨e, he.1, rfl⟩) ?_
      intro heq
      apply he.2
      obtain ⟨x, y, z⟩ := e
      simp only [Prod.mk.injEq] at heq ⊢
      exact ⟨heq.1, heq.2.1, heq.2.2.1⟩

/-! ### test/FormatNaN.cxx and test/FormatTest.cxx -/

/-- What FormatNaN and FastFormatTest check. -/
theorem C106_format_exact (out foo true_str false_str check_str : Str) (big : Option Int) :
    (plainTest.passes out (nanMain foo) = true ↔ foo = "ok 1.000000 inf inf  nan nan ".toList) ∧
    (plainTest.passes out (formatMain true_str false_str check_str big) = true ↔
      true_str = ['T'] ∧ false_str = ['F'] ∧ check_str = "00033 044,444  55,555   66666".toList ∧
      ∃ n, big = some n ∧ n ≤ 0) := by
  have h1 : ∀ c : Int, plainTest.passes out c = true ↔ c = 0 := by simp [Test.passes, plainTest]
  rw [h1, h1]
  constructor
  · unfold nanMain
    by_cases h : foo = "ok 1.000000 inf inf  nan nan ".toList
    · rw [if_neg (fun hn => hn h)]; exact ⟨fun _ => h, fun _ => rfl⟩
    · rw [if_pos h]; exact ⟨fun hx => (nomatch hx), fun hx => absurd hx h⟩
  · unfold formatMain
    have ht : "T".toList = ['T'] := rfl
    have hf : "F".toList = ['F'] := rfl
    rw [ht, hf]
    generalize "00033 044,444  55,555   66666".toList = S
    simp only [Bool.not_eq_true', Bool.and_eq_false_iff, beq_eq_false_iff_ne]
    split
    next h => exact ⟨fun hx => (nomatch hx), fun hx => (h.elim (fun h => h hx.1) fun h => h hx.2.1).elim⟩
    next h =>
    rw [not_or, Classical.not_not, Classical.not_not] at h
    split
    next h2 => exact ⟨fun hx => (nomatch hx), fun hx => absurd hx.2.2.1.symm h2⟩
    next h2 =>
    rw [Classical.not_not] at h2
    cases big with
    | none => exact ⟨fun hx => (nomatch hx), fun ⟨_, _, _, n, hn, _⟩ => nomatch hn⟩
    | some n =>
      simp only
      split
      next h3 =>
        refine ⟨fun hx => (nomatch hx), ?_⟩
        rintro ⟨_, _, _, m, hm, hle⟩
        cases hm
        omega
      next h3 => exact ⟨fun _ => ⟨h.1, h.2, h2.symm, n, rfl, by omega⟩, fun _ => rfl⟩

/-! ### test/OptionsTest.cxx -/

/-- OptionsTestSimple passes whatever the library does: the program always returns 0, and CTest does not look at what it writes.
It ends with "FAIL" if a check fails; the positional arguments are counted, but not compared. -/
theorem C106_options_exact (a : OptAnswers) :
    plainTest.passes (optionsMain a) 0 = true ∧
    ("FAIL\n".toList <:+ optionsMain a ↔ ¬ OptionsRight { a with posArgs :=
      if a.posArgs.length = 3 then ["po0".toList, "po1".toList, "po2".toList] else [] }) := by
  refine ⟨rfl, ?_⟩
  have hr : OptionsRight { a with posArgs :=
      if a.posArgs.length = 3 then ["po0".toList, "po1".toList, "po2".toList] else [] } ↔ (testPosArgs a).2 = true := by
    simp only [OptionsRight, testPosArgs, List.any_cons, List.any_nil, Bool.or_false, Bool.not_or, Bool.and_eq_true, Bool.not_not,
      Bool.not_eq_true', bne_eq_false_iff_eq]
    have : (if a.posArgs.length = 3 then ["po0".toList, "po1".toList, "po2".toList] else []) =
        ["po0".toList, "po1".toList, "po2".toList] ↔ a.posArgs.length = 3 := by
      split
      next h => simp [h]
      next h => simp [h]
    rw [this]
  rw [hr]
  unfold optionsMain
  cases (testPosArgs a).2 with
  | true =>
    simp only [if_true, not_true, iff_false]
    intro ⟨t, ht⟩
    have h1 := List.append_inj_right' ht rfl
    revert h1
    decide
  | false =>
    simp only [Bool.false_eq_true, if_false, not_false_iff, iff_true]
    exact ⟨_, rfl⟩

/-! ### The claim -/

/-- The claim: if the library gives another answer than a test program writes down, CTest says that the test has failed. -/
def C106_claim_split : Prop := ∀ sv sl out, splitMain sv sl = some out → sv ≠ expectedTokens ∨ sl ≠ expectedTokens →
  splitTest.passes out 0 = false
def C106_claim_hex : Prop := ∀ lib out, (∃ c ∈ expectedTexts, lib c.2.1 c.2.2.1 c.2.2.2.1 c.2.2.2.2 ≠ c.1) →
  plainTest.passes out (hexMain lib) = false
def C106_claim_options : Prop := ∀ a, ¬ OptionsRight a → plainTest.passes (optionsMain a) 0 = false

/-- It holds for none of the three programs: SplitTest does not notice that `split` returns nothing, FormatHexTest does not check
one of its texts, OptionsTestSimple nothing at all. -/
theorem C106_refuted : ¬ C106_claim_split ∧ ¬ C106_claim_hex ∧ ¬ C106_claim_options := by
  refine ⟨fun h => ?_, fun h => ?_, fun h => ?_⟩
  · have h2 := h expectedTokens [] _ rfl (.inr (by decide))
    revert h2
    decide +kernel
  · let lib : Nat → Nat → Char → Char → Str := fun v w f s =>
      ((expectedTexts.find? fun c => c.2 == (v, w, f, s) && c.2 != (95, 4, 'o', '\x00')).map (·.1)).getD []
    have h2 := h lib [] ⟨("0137".toList, 95, 4, 'o', '\x00'), by decide +kernel, by decide +kernel⟩
    revert h2
    decide +kernel
  · have h2 := h ⟨false, 0, 0, true, true, [], [], 0, []⟩ (by simp [OptionsRight])
    revert h2
    decide +kernel

/-- What holds: a wrong text is noticed by FormatHexTest unless it is that one, and a wrong token by SplitTest unless it is a
missing or an additional one at the end.  Missing: those, and OptionsTestSimple. -/
theorem C106_noticed_partial :
    (∀ lib out, ∀ c ∈ expectedTexts, c ≠ ("0137".toList, 95, 4, 'o', '\x00') → lib c.2.1 c.2.2.1 c.2.2.2.1 c.2.2.2.2 ≠ c.1 →
      plainTest.passes out (hexMain lib) = false) ∧
    ∀ sv sl out, splitMain sv sl = some out →
      (∃ (i : Nat) (x y : Str), expectedTokens[i]? = some x ∧ (sv[i]? = some y ∨ sl[i]? = some y) ∧ y ≠ x) →
      splitTest.passes out 0 = false := by
  constructor
  · intro lib out c hc hne hw
    rw [Bool.eq_false_iff, ne_eq, C106_hex_exact]
    exact fun h => hw (h c hc hne)
  · rintro sv sl out ho ⟨i, x, y, hx, hy, hne⟩
    rw [Bool.eq_false_iff, ne_eq, (C106_split_exact sv sl).2 out ho]
    rintro ⟨⟨t, ht⟩, ⟨u, hu⟩⟩
    rcases hy with hy | hy
    · rw [← ht, List.getElem?_append_left (by
        rcases Nat.lt_or_ge i expectedTokens.length with h | h
        · exact h
        · rw [List.getElem?_eq_none h] at hx; cases hx), hx] at hy
      exact hne (Option.some.inj hy).symm
    · rw [← hu, List.getElem?_append_left (by
        rcases Nat.lt_or_ge i sl.length with h | h
        · exact h
        · rw [List.getElem?_eq_none h] at hy; cases hy), hy] at hx
      exact hne (Option.some.inj hx)

/-- With the library as it is, the tests pass. -/
example : (∃ out, splitMain ["this".toList, "that".toList, "the other thing".toList]
      ["this".toList, "that".toList, "the other thing".toList] = some out ∧ splitTest.passes out 0 = true) ∧
    plainTest.passes [] (hexMain fun v w f s => textOf (RepoTests.hexText v w f s)) = true := by
  refine ⟨⟨_, rfl, by decide +kernel⟩, by decide +kernel⟩

end SoDa.CTest
