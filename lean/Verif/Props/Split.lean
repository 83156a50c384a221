import Verif.Proof.Split
/-!
Property theorems about `squashSpaces`, `split` and `splitVec` (C01–C04).
-/
namespace SoDa
open Spec

/-! ## C01  squashSpaces normal form -/

/-- On every string with a non-space character the result is the words of the string
joined by single spaces. -/
theorem C01_squash_words (s : Str) (h : ∃ c ∈ s, c ≠ ' ') :
    squashSpaces s = .ok (join [' '] (words s)) := by
  rcases squashSpaces_cases s with ⟨_, h2⟩ | ⟨h1, _⟩
  · obtain ⟨c, hc, hne⟩ := h; exact absurd (h2 c hc) hne
  · exact h1

/-- The result is not empty, has no leading, trailing or doubled space, and contains the
non-space characters of the input in their order. -/
theorem C01_squash_shape (s r : Str) (h : squashSpaces s = .ok r) :
    r ≠ [] ∧ r.head? ≠ some ' ' ∧ r.getLast? ≠ some ' ' ∧
    (¬ ∃ a b, r = a ++ ' ' :: ' ' :: b) ∧
    r.filter (· ≠ ' ') = s.filter (· ≠ ' ') ∧ words r = words s := by
  obtain ⟨h1, h2, h3, h4⟩ := squashSpaces_clean h
  have hw : words r = words s := by
    rcases squashSpaces_cases s with ⟨e, _⟩ | ⟨e, hs⟩
    · simp [e] at h
    · rw [e] at h; cases h
      have hne := words_ne_nil s hs
      have hfree : ∀ t ∈ words s, ∀ x ∈ t, decide (x = ' ') = false := by
        intro t ht x hx
        have : ∀ (d : Char → Bool) (s : Str), ∀ t ∈ fields d s, ∀ x ∈ t, d x = false := by
          intro d s
          induction s with
          | nil => simp [fields]
          | cons c cs ih =>
            cases hc : d c with
            | true => simpa [fields, hc] using ih
            | false =>
              obtain ⟨f, fs, hf⟩ := fields_eq_cons d cs
              rw [fields_cons_not d hc hf]
              rw [hf] at ih
              intro t ht x hx
              rcases List.mem_cons.mp ht with rfl | ht
              · rcases List.mem_cons.mp hx with rfl | hx
                · exact hc
                · exact ih f (by simp) x hx
              · exact ih t (by simp [ht]) x hx
        exact this _ s t (List.mem_filter.mp ht).1 x hx
      have := fields_join (· = ' ') ' ' (by simp) (words s) hne hfree
      rw [words, this, words, List.filter_filter]
      simp
  refine ⟨h1, h2, h3, h4, ?_, hw⟩
  have hflat : ∀ s : Str, s.filter (· ≠ ' ') = (words s).flatten := by
    intro s
    induction s with
    | nil => rfl
    | cons c cs ih =>
      by_cases hc : c = ' '
      · subst hc; rw [words_cons_space]; simpa using ih
      · obtain ⟨f, fs, hf⟩ := fields_eq_cons (· = ' ') cs
        rw [words, hf] at ih
        rw [words, fields_cons_not (· = ' ') (by simpa using hc) hf, List.filter_cons, ih]
        cases f <;> simp [hc]
  rw [hflat, hflat, hw]

/-- Squashing twice is the same as squashing once. -/
theorem C01_squash_idempotent (s r : Str) (h : squashSpaces s = .ok r) : squashSpaces r = .ok r :=
  squashSpaces_clean_fix (squashSpaces_clean h)

example : squashSpaces "  foo   bar ".toList = .ok "foo bar".toList :=
  C01_squash_words _ ⟨'f', by decide, by decide⟩

/-! ## C02  defined behaviour exactly on non-blank strings -/

/-- `squashSpaces` has undefined behaviour exactly on strings without a non-space character
(the empty string included) and returns normally on all others. -/
theorem C02_squash_ub_iff (s : Str) : squashSpaces s = .ub ↔ ∀ c ∈ s, c = ' ' := by
  rcases squashSpaces_cases s with ⟨h1, h2⟩ | ⟨h1, c, hc, hne⟩
  · simp only [h1, true_iff]; exact h2
  · simp only [h1, reduceCtorEq, false_iff]
    intro h; exact hne (h c hc)

theorem C02_split_ub_iff (s d : Str) (ne : Bool) : split s d ne = .ub ↔ ∀ c ∈ s, c = ' ' := by
  rw [← C02_squash_ub_iff]
  rcases squashSpaces_cases s with ⟨h1, _⟩ | ⟨h1, _⟩ <;> simp [split, h1]

theorem C02_splitVec_ub_iff (s d : Str) (ne : Bool) : splitVec s d ne = .ub ↔ ∀ c ∈ s, c = ' ' := by
  rw [← C02_split_ub_iff s d ne, splitVec]
  cases split s d ne <;> simp

example : squashSpaces "".toList = .ub ∧ squashSpaces "   ".toList = .ub ∧
    squashSpaces " x ".toList ≠ .ub := by
  refine ⟨(C02_squash_ub_iff _).2 (by decide), (C02_squash_ub_iff _).2 (by decide), ?_⟩
  rw [Ne, C02_squash_ub_iff]; decide

/-! ## C03  split returns exactly the delimited fields -/

theorem C03_split_fields (s d : Str) (h : ∃ c ∈ s, c ≠ ' ') :
    split s d false =
      .ok (dropFinalEmpty (fields (fun c => d.contains c) (join [' '] (words s)))) := by
  simpa using split_of_squash false (C01_squash_words s h)

theorem C03_split_fields_noEmpty (s d : Str) (h : ∃ c ∈ s, c ≠ ' ') :
    split s d true =
      .ok ((fields (fun c => d.contains c) (join [' '] (words s))).filter (fun w => !w.isEmpty)) := by
  simpa [filter_dropFinalEmpty] using split_of_squash true (C01_squash_words s h)

theorem C03_splitVec_same (s d : Str) (ne : Bool) :
    (splitVec s d ne).map Array.toList = split s d ne := by
  rw [splitVec]; cases h : split s d ne <;> simp [copyToVec_toList]

/-- What `fields` means, for the reader of the statements above: fields contain no delimiter,
there is one more field than delimiters, and writing the delimiters back between the fields
restores the text (stated for a single delimiter character). -/
theorem C03_fields_meaning (c : Char) (s : Str) :
    join [c] (fields (· = c) s) = s ∧ (∀ f ∈ fields (· = c) s, c ∉ f) ∧
    (fields (· = c) s).length = s.count c + 1 := by
  induction s with
  | nil => simp [fields]
  | cons x xs ih =>
    obtain ⟨i1, i2, i3⟩ := ih
    obtain ⟨f, fs, hf⟩ := fields_eq_cons (· = c) xs
    by_cases hx : x = c
    · subst hx
      rw [fields_cons_of (· = x) (by simp)]
      refine ⟨?_, ?_, ?_⟩
      · rw [join_cons _ _ (fields_ne_nil _ _), i1]; simp
      · simpa using i2
      · simp [i3]
    · rw [fields_cons_not (· = c) (by simpa using hx) hf]
      rw [hf] at i1 i2 i3
      refine ⟨?_, ?_, ?_⟩
      · cases fs with
        | nil => simp at i1 ⊢; exact i1
        | cons g gs =>
          rw [join_cons _ _ (by simp)] at i1 ⊢
          simp at i1 ⊢; exact i1
      · intro g hg
        rcases List.mem_cons.mp hg with rfl | hg
        · have := i2 f (by simp)
          simp [this, Ne.symm hx]
        · exact i2 g (by simp [hg])
      · simp [hx] at i3 ⊢; exact i3

example : ∃ c ∈ "a, b,,c,".toList, c ≠ ' ' := ⟨'a', by decide, by decide⟩
example : dropFinalEmpty (fields (fun c => ",".toList.contains c) (join [' '] (words "a, b,,c,".toList)))
    = ["a".toList, " b".toList, "".toList, "c".toList] := by decide

/-! ## C04  split inverts join -/

theorem C04_split_join (c : Char) (d : Str) (ts : List Str) (hc : c ≠ ' ') (hd : c ∈ d)
    (hne : ts ≠ []) (hlast : ts.getLast? ≠ some [])
    (hfree : ∀ t ∈ ts, ∀ x ∈ t, x ∉ d)
    (hclean : ∀ t ∈ ts, t.head? ≠ some ' ' ∧ t.getLast? ≠ some ' ' ∧ ¬ ∃ a b, t = a ++ ' ' :: ' ' :: b) :
    split (join [c] ts) d false = .ok ts := by
  have hcl := squashSpaces_clean_fix (clean_join hc ts hne hlast hclean)
  rw [split_of_squash false hcl]
  have := fields_join (fun x => d.contains x) c (by simpa using hd) ts hne
    (fun t ht x hx => by simpa using hfree t ht x hx)
  simp only [this, dropFinalEmpty_id ts hlast]; rfl

/-- The same for a blank as the delimiter: words joined by single spaces come back. -/
theorem C04_split_join_space (d : Str) (ts : List Str) (hd : ' ' ∈ d) (hne : ts ≠ [])
    (hfree : ∀ t ∈ ts, t ≠ [] ∧ ∀ x ∈ t, x ∉ d) :
    split (join [' '] ts) d false = .ok ts := by
  have hw : words (join [' '] ts) = ts := by
    rw [words, fields_join (· = ' ') ' ' (by simp) ts hne]
    · rw [List.filter_eq_self]
      intro t ht
      have := (hfree t ht).1
      cases t <;> simp_all
    · intro t ht x hx
      simp only [decide_eq_false_iff_not]
      rintro rfl; exact (hfree t ht).2 _ hx hd
  have hns : ∃ x ∈ join [' '] ts, x ≠ ' ' := by
    rcases squashSpaces_cases (join [' '] ts) with ⟨_, h2⟩ | ⟨_, h⟩
    · exfalso
      have : ∀ s : Str, (∀ c ∈ s, c = ' ') → words s = [] := by
        intro s
        induction s with
        | nil => intro _; rfl
        | cons c cs ih =>
          intro h
          have hc := h c (by simp)
          subst hc; rw [words_cons_space]; exact ih (fun c hc => h c (by simp [hc]))
      rw [this _ h2] at hw; exact hne hw.symm
    · exact h
  have := split_of_squash (d := d) false (C01_squash_words _ hns)
  rw [hw] at this
  rw [this, fields_join (fun x => d.contains x) ' ' (by simpa using hd) ts hne
    (fun t ht x hx => by simpa using (hfree t ht).2 x hx)]
  have hl : ts.getLast? ≠ some [] := by
    intro h
    have := List.mem_of_getLast? h
    exact (hfree [] this).1 rfl
  simp [dropFinalEmpty_id ts hl]

example : split (join [','] ["this".toList, "that".toList, "the other thing".toList]) ",".toList false
    = .ok ["this".toList, "that".toList, "the other thing".toList] := by
  refine C04_split_join ',' _ _ (by decide) (by decide) (by decide) (by decide) (by decide) ?_
  intro t ht
  simp at ht
  have key : ∀ t : Str, sq t = t → ¬ ∃ a b, t = a ++ ' ' :: ' ' :: b := fun t h => h ▸ sq_no_double t
  rcases ht with rfl | rfl | rfl <;> exact ⟨by decide, by decide, key _ (by decide)⟩

end SoDa
