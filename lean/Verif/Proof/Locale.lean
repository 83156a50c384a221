import Verif.Spec.Locale
/-!
Grouping of digits puts separators where the specification says, and removes none.
-/
namespace SoDa
open Spec

theorem limited_iff {g : Nat} : limited g = true ↔ 0 < g ∧ g < 127 := by
  simp only [limited, Bool.and_eq_true, decide_eq_true_eq]

/-- The sizes that are left when the first has been used. -/
def nextGroups (g : Nat) (gs : List Nat) : List Nat := if gs.isEmpty then [g] else gs

theorem groupSize_zero (g : Nat) (gs : List Nat) : groupSize (g :: gs) 0 = g := rfl

theorem groupSize_succ (g : Nat) (gs : List Nat) (j : Nat) : groupSize (g :: gs) (j + 1) = groupSize (nextGroups g gs) j := by
  unfold nextGroups groupSize
  cases gs with
  | nil => cases j <;> simp
  | cons h t => simp

theorem isCut_cons (g : Nat) (gs : List Nat) (k : Nat) :
    IsCut (g :: gs) k ↔ (0 < g ∧ g < 127) ∧ g ≤ k ∧ (k - g = 0 ∨ IsCut (nextGroups g gs) (k - g)) := by
  constructor
  · rintro ⟨m, hm, hl, rfl⟩
    cases m with
    | zero => omega
    | succ m =>
      have h0 := hl 0 (by omega)
      rw [groupSize_zero] at h0
      have hs : ((List.range (m + 1)).map (groupSize (g :: gs))).sum = g + ((List.range m).map (groupSize (nextGroups g gs))).sum := by
        rw [List.range_succ_eq_map, List.map_cons, List.sum_cons, groupSize_zero, List.map_map]
        congr 2
        refine List.map_congr_left fun j _ => ?_
        exact groupSize_succ g gs j
      rw [hs]
      refine ⟨h0, by omega, ?_⟩
      cases m with
      | zero => left; simp
      | succ m =>
        right
        refine ⟨m + 1, by omega, fun j hj => ?_, by omega⟩
        have := hl (j + 1) (by omega)
        rwa [groupSize_succ] at this
  · rintro ⟨hg, hk, h⟩
    rcases h with h | ⟨m, hm, hl, h⟩
    · exact ⟨1, by omega, fun j hj => by have : j = 0 := by omega
                                         subst this; exact hg, by simp [groupSize_zero]; omega⟩
    · refine ⟨m + 1, by omega, fun j hj => ?_, ?_⟩
      · cases j with
        | zero => exact hg
        | succ j => rw [groupSize_succ]; exact hl j (by omega)
      · rw [List.range_succ_eq_map, List.map_cons, List.sum_cons, groupSize_zero, List.map_map]
        have : (List.map (groupSize (g :: gs) ∘ Nat.succ) (List.range m)) = (List.range m).map (groupSize (nextGroups g gs)) :=
          List.map_congr_left fun j _ => groupSize_succ g gs j
        rw [this]
        omega

theorem isCut_nil (k : Nat) : ¬ IsCut [] k := by
  rintro ⟨m, hm, hl, -⟩
  have := hl 0 hm
  simp [groupSize] at this

/-! ### Spelling -/

theorem spelled_congr (sep : Char) {p q : Nat → Prop} (ds : Str) (h : ∀ k, 0 < k → k < ds.length → (p k ↔ q k)) :
    spelled sep p ds = spelled sep q ds := by
  induction ds with
  | nil => rfl
  | cons d ds ih =>
    unfold spelled
    rw [ih fun k h0 hk => h k h0 (by simp only [List.length_cons]; omega)]
    by_cases hd : ds = []
    · simp [hd]
    · have hl : 0 < ds.length := List.length_pos_iff.mpr hd
      have := h ds.length hl (by simp)
      by_cases hq : q ds.length
      · rw [if_pos ⟨hd, this.2 hq⟩, if_pos ⟨hd, hq⟩]
      · rw [if_neg fun hh => hq (this.1 hh.2), if_neg fun hh => hq hh.2]

theorem spelled_none (sep : Char) {p : Nat → Prop} (ds : Str) (h : ∀ k, 0 < k → k < ds.length → ¬ p k) : spelled sep p ds = ds := by
  induction ds with
  | nil => rfl
  | cons d ds ih =>
    unfold spelled
    rw [ih fun k h0 hk => h k h0 (by simp only [List.length_cons]; omega)]
    by_cases hd : ds = []
    · simp [hd]
    · have hl : 0 < ds.length := List.length_pos_iff.mpr hd
      rw [if_neg fun hh => h ds.length hl (by simp) hh.2]

theorem spelled_append (sep : Char) (p : Nat → Prop) (a b : Str) (ha : a ≠ []) (hb : b ≠ []) (hp : p b.length) :
    spelled sep p (a ++ b) = spelled sep (fun k => p (k + b.length)) a ++ sep :: spelled sep p b := by
  induction a with
  | nil => exact absurd rfl ha
  | cons d a ih =>
    rw [List.cons_append]
    by_cases hd : a = []
    · subst hd
      simp only [List.nil_append, spelled]
      rw [if_pos ⟨hb, hp⟩, if_neg (by simp)]
      rfl
    · rw [spelled, spelled, ih hd]
      by_cases hq : p (a.length + b.length)
      · rw [if_pos ⟨by simp [hd], by rw [List.length_append]; exact hq⟩, if_pos ⟨hd, hq⟩]; rfl
      · rw [if_neg (fun h => hq (by have := h.2; rwa [List.length_append] at this)), if_neg (fun h => hq h.2)]; rfl

theorem groupRev_spelled (sep : Char) (gs : List Nat) (rs : Str) :
    (groupRev sep gs rs).reverse = spelled sep (IsCut gs) rs.reverse := by
  induction gs, rs using groupRev.induct with
  | case1 rs =>
    rw [groupRev, spelled_none]
    exact fun k _ _ => isCut_nil k
  | case2 g gs rs h ih =>
    simp only [dite_eq_ite] at ih
    have hg := limited_iff.mp h.1
    rw [groupRev, dif_pos h, List.reverse_append, List.reverse_cons, ih]
    have hsplit : rs.reverse = (rs.drop g).reverse ++ (rs.take g).reverse := by
      rw [← List.reverse_append, List.take_append_drop]
    have hlen : (rs.take g).reverse.length = g := by simp; omega
    rw [hsplit, spelled_append]
    · rw [hlen, spelled_none (ds := (rs.take g).reverse)]
      · rw [List.append_assoc]
        congr 1
        refine spelled_congr _ _ fun k h0 _ => ?_
        rw [isCut_cons]
        constructor
        · intro hc; exact ⟨hg, by omega, .inr (by rw [Nat.add_sub_cancel]; exact hc)⟩
        · rintro ⟨-, -, hc | hc⟩
          · omega
          · rw [Nat.add_sub_cancel] at hc; exact hc
      · intro k h0 hk hc
        rw [isCut_cons] at hc
        omega
    · intro hc
      have := congrArg List.length hc
      simp at this
      omega
    · intro hc
      have := congrArg List.length hc
      rw [hlen] at this
      simp at this
      omega
    · rw [hlen, isCut_cons]
      exact ⟨hg, le_refl _, .inl (by omega)⟩
  | case3 g gs rs h =>
    rw [groupRev, dif_neg h, spelled_none]
    intro k h0 hk hc
    rw [isCut_cons] at hc
    rw [List.length_reverse] at hk
    exact h ⟨limited_iff.mpr hc.1, by omega⟩

theorem Locale.group_spelled (L : Locale) (ds : Str) : L.group ds = spelled L.thousands (IsCut L.grouping) ds := by
  unfold Locale.group
  rw [groupRev_spelled, List.reverse_reverse]

/-- Without the separators it is the number. -/
theorem spelled_filter (sep : Char) (p : Nat → Prop) (ds : Str) (h : sep ∉ ds) : (spelled sep p ds).filter (· ≠ sep) = ds := by
  induction ds with
  | nil => rfl
  | cons d ds ih =>
    simp only [List.mem_cons, not_or] at h
    have hd : (fun c : Char => decide (c ≠ sep)) d = true := by simp; exact fun e => h.1 e.symm
    unfold spelled
    split
    · rw [List.filter_cons_of_pos (p := fun c : Char => decide (c ≠ sep)) hd, List.filter_cons_of_neg (by simp), ih h.2]
    · rw [List.filter_cons_of_pos (p := fun c : Char => decide (c ≠ sep)) hd, ih h.2]

theorem spelled_length (sep : Char) (p : Nat → Prop) (ds : Str) : ds.length ≤ (spelled sep p ds).length := by
  induction ds with
  | nil => simp [spelled]
  | cons d ds ih =>
    unfold spelled
    split <;> simp only [List.length_cons] <;> omega

/-- No separators. -/
theorem Locale.group_none (L : Locale) (ds : Str) (h : ∀ k, 0 < k → k < ds.length → ¬ IsCut L.grouping k) : L.group ds = ds := by
  rw [L.group_spelled, spelled_none _ _ h]

/-- The last separator. -/
theorem Locale.group_last (L : Locale) (ds : Str) {k : Nat} (hk : k < ds.length) (hc : IsCut L.grouping k) :
    ∃ g X, g < ds.length ∧ (L.group ds).reverse = ds.reverse.take g ++ L.thousands :: X := by
  unfold Locale.group
  rw [List.reverse_reverse]
  cases hg : L.grouping with
  | nil => rw [hg] at hc; exact absurd hc (isCut_nil k)
  | cons g gs =>
    rw [hg, isCut_cons] at hc
    refine ⟨g, groupRev L.thousands (if gs.isEmpty then [g] else gs) (ds.reverse.drop g), by omega, ?_⟩
    rw [groupRev, dif_pos ⟨limited_iff.mpr hc.1, by rw [List.length_reverse]; omega⟩]

theorem reverse_split (ds : Str) {g : Nat} (h : g < ds.length) : ∃ b Y, b ∈ ds ∧ ds.reverse = ds.reverse.take g ++ b :: Y := by
  have hl : g < ds.reverse.length := by simpa using h
  refine ⟨ds.reverse[g], ds.reverse.drop (g + 1), ?_, ?_⟩
  · exact List.mem_reverse.mp (List.getElem_mem hl)
  · rw [List.getElem_cons_drop, List.take_append_drop]

/-! ### The separators of `addI` and `addU` -/

/-- What `addI` makes of a text, from its end to its beginning; `i` characters since the last separator. -/
def sepRev (sep : Char) : Nat → Str → Str
  | _, [] => []
  | i, c :: cs => if i = 3 then sep :: c :: sepRev sep 1 cs else c :: sepRev sep (i + 1) cs

theorem addISep_fold (sep : Char) (cs : Str) : ∀ (acc : Str) (i : Nat),
    (cs.foldl (addISepStep sep) (acc, i)).1.reverse = acc.reverse ++ sepRev sep i cs := by
  induction cs with
  | nil => intro acc i; simp [sepRev]
  | cons c cs ih =>
    intro acc i
    rw [List.foldl_cons]
    by_cases hi : i = 3
    · simp only [addISepStep, hi, if_true, sepRev]
      rw [ih]
      simp
    · simp only [addISepStep, if_neg hi, sepRev]
      rw [ih]
      simp

theorem sepRev_prefix (sep : Char) (P : Str) : ∀ i, ∃ Q, ∀ a X, ∃ X', sepRev sep i (P ++ a :: X) = Q ++ a :: X' := by
  induction P with
  | nil =>
    intro i
    by_cases hi : i = 3
    · exact ⟨[sep], fun a X => ⟨sepRev sep 1 X, by simp [sepRev, hi]⟩⟩
    · exact ⟨[], fun a X => ⟨sepRev sep (i + 1) X, by simp [sepRev, hi]⟩⟩
  | cons c P ih =>
    intro i
    by_cases hi : i = 3
    · obtain ⟨Q, hQ⟩ := ih 1
      refine ⟨sep :: c :: Q, fun a X => ?_⟩
      obtain ⟨X', h⟩ := hQ a X
      exact ⟨X', by simp [sepRev, hi, h]⟩
    · obtain ⟨Q, hQ⟩ := ih (i + 1)
      refine ⟨c :: Q, fun a X => ?_⟩
      obtain ⟨X', h⟩ := hQ a X
      exact ⟨X', by simp [sepRev, hi, h]⟩

/-- The same for `addU`. -/
def sepRevU (sep : Char) (gc : Nat) (lim : Int) : Nat → Nat → Str → Str
  | _, _, [] => []
  | i, cc, c :: cs =>
    if i = gc ∧ (cc : Int) < lim then sep :: c :: sepRevU sep gc lim 1 (cc + 1) cs else c :: sepRevU sep gc lim (i + 1) (cc + 1) cs

theorem addUSep_fold (sep : Char) (gc : Nat) (lim : Int) (cs : Str) : ∀ (acc : Str) (i cc : Nat),
    (cs.foldl (addUSepStep sep gc lim) (acc, i, cc)).1.reverse = acc.reverse ++ sepRevU sep gc lim i cc cs := by
  induction cs with
  | nil => intro acc i cc; simp [sepRevU]
  | cons c cs ih =>
    intro acc i cc
    rw [List.foldl_cons]
    by_cases hi : i = gc ∧ (cc : Int) < lim
    · simp only [addUSepStep, if_pos hi, sepRevU]
      rw [ih]
      simp
    · simp only [addUSepStep, if_neg hi, sepRevU]
      rw [ih]
      simp

theorem sepRevU_prefix (sep : Char) (gc : Nat) (P : Str) : ∀ i cc : Nat, ∃ Q, ∀ (lim : Int) a X, ((cc + P.length : Nat) : Int) < lim →
    ∃ X', sepRevU sep gc lim i cc (P ++ a :: X) = Q ++ a :: X' := by
  induction P with
  | nil =>
    intro i cc
    by_cases hi : i = gc
    · refine ⟨[sep], fun lim a X hl => ⟨sepRevU sep gc lim 1 (cc + 1) X, ?_⟩⟩
      simp only [List.nil_append, sepRevU]
      rw [if_pos ⟨hi, by simpa using hl⟩]
      rfl
    · refine ⟨[], fun lim a X _ => ⟨sepRevU sep gc lim (i + 1) (cc + 1) X, ?_⟩⟩
      simp only [List.nil_append, sepRevU]
      rw [if_neg fun h => hi h.1]
  | cons c P ih =>
    intro i cc
    by_cases hi : i = gc
    · obtain ⟨Q, hQ⟩ := ih 1 (cc + 1)
      refine ⟨sep :: c :: Q, fun lim a X hl => ?_⟩
      simp only [List.length_cons] at hl
      obtain ⟨X', h⟩ := hQ lim a X (by omega)
      refine ⟨X', ?_⟩
      simp only [List.cons_append, sepRevU]
      rw [if_pos ⟨hi, by omega⟩, h]
    · obtain ⟨Q, hQ⟩ := ih (i + 1) (cc + 1)
      refine ⟨c :: Q, fun lim a X hl => ?_⟩
      simp only [List.length_cons] at hl
      obtain ⟨X', h⟩ := hQ lim a X (by omega)
      refine ⟨X', ?_⟩
      simp only [List.cons_append, sepRevU]
      rw [if_neg fun h => hi h.1, h]

/-- The text with the separators of the locale and the one without differ where the last separator stands, whatever else is done. -/
theorem padLeft_differ {f : Char} {w : Nat} {a b : Char} {Q s t X Y : Str} (hs : s.reverse = Q ++ a :: X) (ht : t.reverse = Q ++ b :: Y)
    (h : padLeft f w s = padLeft f w t) : a = b := by
  have h' := congrArg List.reverse h
  simp only [padLeft, List.reverse_append, hs, ht, List.append_assoc, List.cons_append] at h'
  exact (List.cons.inj (List.append_cancel_left h')).1

end SoDa
