import Verif.Model.Format
import Verif.Spec.Format
import Mathlib.Data.List.Induction
namespace SoDa
open Spec

/-! ### The scanner is the template grammar -/

/-- Forget how literal text is cut into segments. -/
def flatSegs : List Seg → List Item
  | [] => []
  | .lit v :: rest => v.map Item.chr ++ flatSegs rest
  | .fld n :: rest => .hole n :: flatSegs rest

theorem flatSegs_append (a b : List Seg) : flatSegs (a ++ b) = flatSegs a ++ flatSegs b := by
  induction a with
  | nil => rfl
  | cons s rest ih => cases s <;> simp [flatSegs, ih]

theorem flatSegs_lit (v : Str) : flatSegs [.lit v] = v.map Item.chr := by simp [flatSegs]

/-- What remains to be recognised while in the middle of a digit run. -/
def accItems (n : Nat) (r : Str) : List Item :=
  .hole (Nat.ofDigitChars 10 (r.takeWhile Char.isDigit) n % u32) :: template (r.dropWhile Char.isDigit)

theorem ofDigitChars_cons' (c : Char) (cs : Str) (n : Nat) :
    Nat.ofDigitChars 10 (c :: cs) n = Nat.ofDigitChars 10 cs (n * 10 + digitVal c) := by
  simp [Nat.ofDigitChars, digitVal, Nat.mul_comm]

theorem ofDigitChars_mod (cs : Str) : ∀ n m : Nat, n % u32 = m % u32 →
    Nat.ofDigitChars 10 cs n % u32 = Nat.ofDigitChars 10 cs m % u32 := by
  induction cs with
  | nil => intro n m h; simpa [Nat.ofDigitChars] using h
  | cons c cs ih =>
    intro n m h
    rw [ofDigitChars_cons', ofDigitChars_cons']
    apply ih
    rw [Nat.add_mod, Nat.mul_mod, h, ← Nat.mul_mod, ← Nat.add_mod]

theorem accItems_mod (n m : Nat) (r : Str) (h : n % u32 = m % u32) : accItems n r = accItems m r := by
  simp [accItems, ofDigitChars_mod _ n m h]

theorem template_nil : template [] = [] := by rw [template]

theorem template_chr {c : Char} (r : Str) (h : c ≠ '%') :
    template (c :: r) = .chr c :: template r := by
  cases r <;> simp [template, h]

theorem template_pc_end : template ['%'] = [.chr '%'] := by simp [template]

theorem template_pc_pc (r : Str) : template ('%' :: '%' :: r) = .chr '%' :: template r := by
  rw [template]; simp

theorem template_pc_other {c : Char} (r : Str) (h : c ≠ '%') (hd : ¬ c.isDigit = true) :
    template ('%' :: c :: r) = .chr '%' :: .chr c :: template r := by
  rw [template]; simp [h, hd]

theorem template_pc_digit (c : Char) (r : Str) (h : c.isDigit = true) :
    template ('%' :: c :: r) = accItems (digitVal c) r := by
  rw [template]
  simp only [ne_eq, not_true_eq_false, if_false, h, if_true, accItems, u32, ofDigitChars_cons']
  simp

theorem digitVal_lt {c : Char} (h : c.isDigit = true) : digitVal c < 10 := by
  simp [Char.isDigit] at h
  have h2 : c.val ≤ 57 := h.2
  have : c.toNat ≤ 57 := UInt32.le_iff_toNat_le.mp h2
  simp only [digitVal]; omega

theorem scan_flat (r : Str) : ∀ s : Scan, (s.state = .accFld → s.curStr = [] ∧ s.fldnum < u32) →
    flatSegs (scanFinish (r.foldl scanStep s)) = flatSegs s.segs ++
      (match s.state with
        | .norm => s.curStr.map Item.chr ++ template r
        | .sawPc => s.curStr.map Item.chr ++ template ('%' :: r)
        | .accFld => accItems s.fldnum r) := by
  induction r with
  | nil =>
    rintro ⟨segs, st, cur, n⟩ h
    cases st
    · simp only [List.foldl_nil, scanFinish, template, List.append_nil]
      cases cur <;> simp [flatSegs_append, flatSegs]
    · simp [scanFinish, flatSegs_append, flatSegs_lit, template]
    · have := (h rfl).2
      simp only at this
      simp [scanFinish, flatSegs_append, flatSegs, accItems, Nat.ofDigitChars, template,
        Nat.mod_eq_of_lt this]
  | cons c r ih =>
    rintro ⟨segs, st, cur, n⟩ h
    rw [List.foldl_cons]
    cases st
    · by_cases hc : c = '%'
      · subst hc
        rw [ih _ (by simp [scanStep])]
        simp [scanStep]
      · rw [ih _ (by simp [scanStep, hc])]
        rw [template_chr r hc]
        simp [scanStep, hc]
    · by_cases hd : c.isDigit = true
      · have hlt := digitVal_lt hd
        rw [ih _ (by simp only [scanStep, hd, if_true]; intro _; cases cur <;> simp [u32] <;> omega)]
        simp only [scanStep, hd, if_true, template_pc_digit c r hd]
        cases cur <;> simp [flatSegs_append, flatSegs]
      · rw [ih _ (by simp [scanStep, hd])]
        by_cases hc : c = '%'
        · subst hc; rw [template_pc_pc]; simp [scanStep]
        · rw [template_pc_other r hc hd]; simp [scanStep, hd, hc]
    · have hn := h rfl
      simp only at hn
      obtain ⟨rfl, hn⟩ := hn
      by_cases hd : c.isDigit = true
      · rw [ih _ (by simp only [scanStep, hd, if_true]; exact fun _ => ⟨trivial, Nat.mod_lt _ (by decide)⟩)]
        simp only [scanStep, hd, if_true]
        rw [accItems_mod _ (n * 10 + digitVal c) r (Nat.mod_mod _ _)]
        simp only [accItems, List.takeWhile_cons, hd, if_true, ofDigitChars_cons',
          List.dropWhile_cons]
      · by_cases hc : c = '%'
        · subst hc
          rw [ih _ (by simp [scanStep])]
          simp [scanStep, flatSegs_append, flatSegs, accItems, Nat.ofDigitChars,
            Nat.mod_eq_of_lt hn]
        · rw [ih _ (by simp [scanStep, hd, hc])]
          simp only [accItems, List.takeWhile_cons, hd, List.dropWhile_cons]
          simp [template_chr r hc, scanStep, hd, hc, flatSegs_append, flatSegs, Nat.ofDigitChars,
            Nat.mod_eq_of_lt hn]

theorem initialScan_flat (s : Str) : flatSegs (initialScan s) = template s := by
  have := scan_flat s ⟨[], .norm, [], 0⟩ (by simp)
  simpa [initialScan, flatSegs] using this


theorem template_hole_lt (s : Str) (n : Nat) (h : Item.hole n ∈ template s) : n < 2 ^ 32 := by
  fun_induction template s <;> simp_all
  rcases h with rfl | h
  · exact Nat.mod_lt _ (by decide)
  · rename_i ih; exact ih h

theorem mem_flatSegs_of_fld {segs : List Seg} {n : Nat} (h : Seg.fld n ∈ segs) :
    Item.hole n ∈ flatSegs segs := by
  induction segs with
  | nil => simp at h
  | cons a rest ih =>
    cases a <;> simp [flatSegs] at h ⊢
    · exact ih h
    · rcases h with h | h
      · exact Or.inl h
      · exact Or.inr (ih h)

theorem initialScan_fld_lt {s : Str} {n : Nat} (h : Seg.fld n ∈ initialScan s) : n < u32 :=
  template_hole_lt s n (initialScan_flat s ▸ mem_flatSegs_of_fld h)

/-! ### Substitution -/

/-- A segment after the values `vals` have been inserted. -/
def fillSeg (vals : List Str) : Seg → Seg
  | .lit v => .lit v
  | .fld n => match vals[n]? with
    | some v => .lit v
    | none => .fld n

theorem insert_all (s : Str) (vals : List Str) :
    vals.foldl Fmt.insertField (Fmt.mk' s) =
      { orig := s, segs := (initialScan s).map (fillSeg vals), cur := vals.length % u32 } := by
  induction vals using List.reverseRecOn with
  | nil =>
    simp only [List.foldl_nil, Fmt.mk', List.length_nil]
    congr 1
    symm
    rw [List.map_congr_left (g := id)]
    · simp
    · intro a _; cases a <;> simp [fillSeg]
  | append_singleton vals v ih =>
    rw [List.foldl_append, ih]
    simp only [List.foldl_cons, List.foldl_nil, Fmt.insertField, List.map_map]
    congr 1
    · apply List.map_congr_left
      intro a ha
      cases a with
      | lit _ => simp [fillSeg]
      | fld n =>
        have hn := initialScan_fld_lt ha
        simp only [Function.comp, fillSeg]
        rcases Nat.lt_trichotomy n vals.length with h | h | h
        · simp [List.getElem?_append, h]
        · have : vals.length % u32 = n := by rw [← h]; exact Nat.mod_eq_of_lt hn
          simp [h, this]
        · have h1 : ¬ n < vals.length := by omega
          have h2 : n ≠ vals.length % u32 := by
            rw [Nat.mod_eq_of_lt (by omega)]; omega
          have h3 : vals.length ≤ n := by omega
          have h4 : (vals ++ [v]).length ≤ n := by simp; omega
          simp [List.getElem?_eq_none h3, List.getElem?_eq_none h4, h2]
    · simp [Nat.add_mod]

theorem assemble_fill (vals : List Str) (segs : List Seg) :
    (Fmt.assemble (segs.map (fillSeg vals))).1 = render vals (flatSegs segs) ∧
    ((Fmt.assemble (segs.map (fillSeg vals))).2 = 0 ↔
      ∀ n, Item.hole n ∈ flatSegs segs → n < vals.length) := by
  induction segs with
  | nil => simp [Fmt.assemble, render, flatSegs]
  | cons a rest ih =>
    obtain ⟨ih1, ih2⟩ := ih
    cases a with
    | lit v =>
      constructor
      · simp only [List.map_cons, fillSeg, Fmt.assemble, ih1, render, flatSegs, List.flatMap_append]
        congr 1
        induction v with
        | nil => rfl
        | cons c cs ih => simp [renderItem, List.flatMap_cons, ← ih]
      · simp [fillSeg, Fmt.assemble, ih2, flatSegs]
    | fld n =>
      simp only [List.map_cons, fillSeg, flatSegs]
      cases h : vals[n]? with
      | some v =>
        have hlt : n < vals.length := (List.getElem?_eq_some_iff.mp h).1
        refine ⟨?_, ?_⟩
        · simp [Fmt.assemble, ih1, render, renderItem, h, List.flatMap_cons]
        · simp only [Fmt.assemble, ih2, List.mem_cons, Item.hole.injEq]
          constructor
          · rintro H m (rfl | hm)
            · exact hlt
            · exact H m hm
          · exact fun H m hm => H m (Or.inr hm)
      | none =>
        have hge : vals.length ≤ n := List.getElem?_eq_none_iff.mp h
        refine ⟨?_, ?_⟩
        · simp [Fmt.assemble, ih1, render, renderItem, h, List.flatMap_cons, Nat.toList_repr]
        · simp only [Fmt.assemble, List.mem_cons]
          constructor
          · intro H; omega
          · intro H; have := H n (Or.inl rfl); omega

end SoDa
