import Verif.Model.StdMap
/-!
Lemmas about the model of `std::map`.
-/
namespace SoDa

variable {K W : Type}

theorem strLess_irrefl (a : Str) : strLess a a = false := by
  induction a with
  | nil => rfl
  | cons c cs ih => simp [strLess, ih]

theorem strLess_antisymm : ∀ (a b : Str), strLess a b = false → strLess b a = false → a = b := by
  intro a
  induction a with
  | nil => intro b h _; cases b with
    | nil => rfl
    | cons => simp [strLess] at h
  | cons x xs ih =>
    intro b h1 h2
    cases b with
    | nil => simp [strLess] at h2
    | cons y ys =>
      simp only [strLess] at h1 h2
      by_cases hxy : x < y
      · simp [hxy] at h1
      · by_cases hyx : y < x
        · simp [hyx] at h2
        · have : x = y := Char.le_antisymm (Char.not_lt.mp hyx) (Char.not_lt.mp hxy)
          subst this
          simp [hxy] at h1 h2
          rw [ih ys h1 h2]

theorem strLess_iff : ∀ a b : Str, strLess a b = true ↔ a < b := by
  intro a
  induction a with
  | nil => intro b; cases b <;> simp [strLess]
  | cons x xs ih =>
    intro b
    cases b with
    | nil => simp [strLess]
    | cons y ys =>
      simp only [strLess, List.cons_lt_cons_iff]
      by_cases hxy : x < y
      · simp [hxy]
      · by_cases hyx : y < x
        · simp only [hxy, hyx, if_true, if_false, Bool.false_eq_true, false_or, false_iff, not_and]
          intro h; subst h; exact absurd hyx hxy
        · have : x = y := Char.le_antisymm (Char.not_lt.mp hyx) (Char.not_lt.mp hxy)
          subst this
          simp [hxy, ih]

theorem strLess_trans {a b c : Str} (h1 : strLess a b = true) (h2 : strLess b c = true) :
    strLess a c = true := by
  rw [strLess_iff] at *
  exact List.lt_trans h1 h2

theorem charLess_irrefl (a : Char) : charLess a a = false := by simp [charLess]

theorem charLess_antisymm (a b : Char) (h1 : charLess a b = false) (h2 : charLess b a = false) :
    a = b := by
  simp [charLess] at h1 h2
  exact Char.le_antisymm h2 h1

/-- What `std::map` requires of its comparison (plus: equivalent keys are equal). -/
structure StrictOrder {K : Type} (less : K → K → Bool) : Prop where
  irrefl : ∀ a, less a a = false
  trans : ∀ {a b c}, less a b = true → less b c = true → less a c = true
  antisymm : ∀ a b, less a b = false → less b a = false → a = b

theorem strLess_order : StrictOrder strLess := ⟨strLess_irrefl, strLess_trans, strLess_antisymm⟩

theorem charLess_order : StrictOrder charLess :=
  ⟨charLess_irrefl, fun h1 h2 => by
    simp only [charLess, decide_eq_true_eq] at *; exact Char.lt_trans h1 h2, charLess_antisymm⟩

theorem intLess_order : StrictOrder intLess :=
  ⟨by simp [intLess], fun h1 h2 => by simp only [intLess, decide_eq_true_eq] at *; omega,
    fun a b h1 h2 => by simp only [intLess, decide_eq_false_iff_not] at *; omega⟩

/-- The keys ascend. -/
abbrev Sorted (less : K → K → Bool) (m : List (K × W)) : Prop :=
  m.Pairwise (fun a b => less a.1 b.1 = true)

theorem mapFind_mapSet [DecidableEq K] {less : K → K → Bool} (ho : StrictOrder less)
    (k k' : K) (v : W) (m : List (K × W)) :
    mapFind less k' (mapSet less k v m) = if k' = k then some v else mapFind less k' m := by
  have hi := ho.irrefl
  have ha := ho.antisymm
  have hne : ∀ {a b : K}, a ≠ b → (!less a b && !less b a) = false := by
    intro a b h
    cases h1 : less a b <;> cases h2 : less b a <;> simp
    exact h (ha a b h1 h2)
  induction m with
  | nil =>
    by_cases h : k' = k
    · subst h; simp [mapSet, mapFind, hi]
    · simp [mapSet, mapFind, hne h, h]
  | cons p m ih =>
    obtain ⟨q, w⟩ := p
    simp only [mapSet]
    by_cases h1 : less k q = true
    · simp only [h1, if_true]
      by_cases h : k' = k
      · subst h; simp [mapFind, hi]
      · simp [mapFind, hne h, h]
    · simp only [h1, if_false, Bool.false_eq_true]
      by_cases h2 : less q k = true
      · simp only [h2, if_true, mapFind, ih]
        by_cases h : k' = k
        · subst h
          simp [h2]
        · simp [h]
      · have : k = q := ha _ _ (by simpa using h1) (by simpa using h2)
        subst this
        simp only [h2, if_false, Bool.false_eq_true, mapFind]
        by_cases h : k' = k
        · subst h; simp [hi]
        · simp [hne h, h]

theorem mapSet_sorted {less : K → K → Bool} (ho : StrictOrder less) (k : K) (v : W) (m : List (K × W))
    (h : m.Pairwise (fun a b => less a.1 b.1 = true)) :
    (mapSet less k v m).Pairwise (fun a b => less a.1 b.1 = true) ∧
    ∀ x ∈ mapSet less k v m, x = (k, v) ∨ (x ∈ m ∧ x.1 ≠ k) := by
  induction m with
  | nil => simp [mapSet]
  | cons p m ih =>
    obtain ⟨q, w⟩ := p
    simp only [List.pairwise_cons] at h
    obtain ⟨ih1, ih2⟩ := ih h.2
    have hne : ∀ {a b : K}, less a b = true → b ≠ a := by
      intro a b hab he; subst he; rw [ho.irrefl] at hab; simp at hab
    simp only [mapSet]
    by_cases h1 : less k q = true
    · simp only [h1, if_true]
      refine ⟨?_, ?_⟩
      · simp only [List.pairwise_cons, List.mem_cons]
        refine ⟨?_, h.1, h.2⟩
        rintro x (rfl | hx)
        · exact h1
        · exact ho.trans h1 (h.1 x hx)
      · intro x hx
        rcases List.mem_cons.mp hx with rfl | hx
        · exact .inl rfl
        · refine .inr ⟨hx, ?_⟩
          rcases List.mem_cons.mp hx with rfl | hx
          · exact hne h1
          · exact hne (ho.trans h1 (h.1 x hx))
    · simp only [h1, if_false, Bool.false_eq_true]
      by_cases h2 : less q k = true
      · simp only [h2, if_true]
        refine ⟨?_, ?_⟩
        · simp only [List.pairwise_cons]
          refine ⟨?_, ih1⟩
          intro x hx
          rcases ih2 x hx with rfl | ⟨hx, _⟩
          · exact h2
          · exact h.1 x hx
        · intro x hx
          rcases List.mem_cons.mp hx with rfl | hx
          · exact .inr ⟨by simp, fun he => hne h2 he.symm⟩
          · rcases ih2 x hx with h' | ⟨hx, hk⟩
            · exact .inl h'
            · exact .inr ⟨by simp [hx], hk⟩
      · have hkq : k = q := ho.antisymm _ _ (by simpa using h1) (by simpa using h2)
        subst hkq
        simp only [h2, if_false, Bool.false_eq_true]
        refine ⟨?_, ?_⟩
        · simp only [List.pairwise_cons]; exact h
        · intro x hx
          rcases List.mem_cons.mp hx with rfl | hx
          · exact .inl rfl
          · exact .inr ⟨by simp [hx], hne (h.1 x hx)⟩

theorem mapFind_mem {less : K → K → Bool} (ho : StrictOrder less) (k : K) (v : W) (m : List (K × W))
    (h : m.Pairwise (fun a b => less a.1 b.1 = true)) :
    mapFind less k m = some v ↔ (k, v) ∈ m := by
  induction m with
  | nil => simp [mapFind]
  | cons p m ih =>
    obtain ⟨q, w⟩ := p
    simp only [List.pairwise_cons] at h
    simp only [mapFind]
    by_cases hc : (!less k q && !less q k) = true
    · simp at hc
      have := ho.antisymm _ _ hc.1 hc.2
      subst this
      simp only [hc.1, Bool.not_false, Bool.and_self, if_true, Option.some.injEq, List.mem_cons,
        Prod.mk.injEq, true_and]
      constructor
      · intro h'; exact .inl h'.symm
      · rintro (h' | h')
        · exact h'.symm
        · have := h.1 _ h'; simp [ho.irrefl] at this
    · simp only [hc, if_false, Bool.false_eq_true, ih h.2, List.mem_cons, Prod.mk.injEq]
      constructor
      · exact .inr
      · rintro (⟨rfl, _⟩ | h')
        · simp [ho.irrefl] at hc
        · exact h'

theorem mapErase_sublist (less : K → K → Bool) (k : K) (m : List (K × W)) :
    (mapErase less k m).Sublist m := by
  induction m with
  | nil => exact .slnil
  | cons p m ih =>
    obtain ⟨q, w⟩ := p
    simp only [mapErase]
    split
    · exact List.sublist_cons_self _ _
    · exact ih.cons_cons _

theorem mapErase_sorted {less : K → K → Bool} (k : K) {m : List (K × W)} (h : Sorted less m) :
    Sorted less (mapErase less k m) := h.sublist (mapErase_sublist less k m)

theorem mapFind_mapErase [DecidableEq K] {less : K → K → Bool} (ho : StrictOrder less)
    (k k' : K) {m : List (K × W)} (h : Sorted less m) :
    mapFind less k' (mapErase less k m) = if k' = k then none else mapFind less k' m := by
  induction m with
  | nil => simp [mapErase, mapFind]
  | cons p m ih =>
    obtain ⟨q, w⟩ := p
    simp only [Sorted, List.pairwise_cons] at h
    simp only [mapErase]
    by_cases hc : (!less k q && !less q k) = true
    · rw [if_pos hc]
      simp at hc
      have := ho.antisymm _ _ hc.1 hc.2
      subst this
      have hnone : mapFind less k m = none := by
        cases hf : mapFind less k m with
        | none => rfl
        | some v =>
          have := h.1 _ ((mapFind_mem ho k v m h.2).1 hf)
          simp [ho.irrefl] at this
      by_cases hk : k' = k
      · subst hk; simp [hnone]
      · rw [if_neg hk]
        have : (!less k' k && !less k k') = false := by
          cases h1 : less k' k <;> cases h2 : less k k' <;> simp
          exact hk (ho.antisymm _ _ h1 h2)
        simp [mapFind, this]
    · rw [if_neg hc]
      simp only [mapFind, ih h.2]
      by_cases hk : k' = k
      · subst hk; simp only [hc, if_false, if_true, Bool.false_eq_true]
      · simp only [hk, if_false]

theorem mapErase_eq_filter [DecidableEq K] {less : K → K → Bool} (ho : StrictOrder less)
    (k : K) {m : List (K × W)} (h : Sorted less m) :
    mapErase less k m = m.filter (fun x => decide (x.1 ≠ k)) := by
  induction m with
  | nil => rfl
  | cons p m ih =>
    obtain ⟨q, w⟩ := p
    simp only [Sorted, List.pairwise_cons] at h
    simp only [mapErase]
    by_cases hk : q = k
    · subst hk
      have : ∀ x ∈ m, decide (x.1 ≠ q) = true := by
        intro x hx
        have := h.1 x hx
        simp only [ne_eq, decide_not, Bool.not_eq_true', decide_eq_false_iff_not]
        intro he; simp [he, ho.irrefl] at this
      rw [if_pos (by simp [ho.irrefl]), List.filter_cons_of_neg (by simp), List.filter_eq_self.mpr this]
    · have : (!less k q && !less q k) = false := by
        cases h1 : less k q <;> cases h2 : less q k <;> simp
        exact hk (ho.antisymm _ _ h2 h1)
      simp [this, hk, ih h.2]

end SoDa
