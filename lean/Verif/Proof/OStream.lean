import Verif.Spec.OStream
/-!
Insertions one after the other.
-/
namespace SoDa
open Spec

namespace OStream

theorem healthy_good {s : OStream} : s.good = true ↔ Healthy s := by
  simp [good, Healthy]

theorem padded_length (w : Nat) (fill : Char) (left : Bool) (t : Str) : (padded w fill left t).length = max w t.length := by
  cases left <;> simp [padded] <;> omega

theorem padded_of_le {w : Nat} {fill : Char} {left : Bool} {t : Str} (h : w ≤ t.length) : padded w fill left t = t := by
  have : w - t.length = 0 := by omega
  cases left <;> simp [padded, this]

theorem fits_none (t : Str) : Fits none t := by simp [Fits]
theorem fits_some (r : Nat) (t : Str) : Fits (some r) t ↔ t.length ≤ r := by simp [Fits]

instance (room : Option Nat) (t : Str) : Decidable (Fits room t) :=
  match room with
  | none => .isTrue (fits_none t)
  | some r => decidable_of_iff _ (fits_some r t).symm

/-- What is left of a write. -/
theorem write_eq (s : OStream) (t : Str) : s.write t =
    if Fits s.room t then { s with out := s.out ++ t, room := s.room.map (· - t.length) }
    else { s with out := s.out ++ fitting s.room t, room := some 0, badbit := true } := by
  cases h : s.room with
  | none => simp [write, h, fits_none]
  | some r => simp [write, h, fits_some, fitting]

theorem fitting_of_fits {room : Option Nat} {t : Str} (h : Fits room t) : fitting room t = t := by
  cases room with
  | none => rfl
  | some r => exact List.take_of_length_le ((fits_some r t).1 h)

theorem fits_append {room : Option Nat} {t u : Str} :
    Fits room (t ++ u) ↔ Fits room t ∧ Fits (room.map (· - t.length)) u := by
  cases room with
  | none => simp [fits_none]
  | some r => simp [fits_some]; omega

theorem fitting_append {room : Option Nat} {t u : Str} (h : Fits room t) :
    fitting room (t ++ u) = t ++ fitting (room.map (· - t.length)) u := by
  cases room with
  | none => rfl
  | some r =>
    have := (fits_some r t).1 h
    simp [fitting, List.take_append, List.take_of_length_le this]

theorem fitting_append_not {room : Option Nat} {t u : Str} (h : ¬ Fits room t) : fitting room (t ++ u) = fitting room t := by
  cases room with
  | none => simp [fits_none] at h
  | some r =>
    have := (fits_some r t).not.1 h
    simp only [fitting, List.take_append]
    have : r - t.length = 0 := by omega
    simp [this]

theorem map_map_room (room : Option Nat) (a b : Nat) : (room.map (· - a)).map (· - b) = room.map (· - (a + b)) := by
  cases room <;> simp; omega

/-- One insertion into a stream without errors. -/
theorem insert_eq {s : OStream} (h : Healthy s) (t : Str) :
    s.insert t =
      if Fits s.room (padded s.width s.fill s.left t) then
        ({ s with width := 0, out := s.out ++ padded s.width s.fill s.left t,
                  room := s.room.map (· - (padded s.width s.fill s.left t).length) }, false)
      else ({ s with width := if s.excBad then s.width else 0, out := s.out ++ fitting s.room (padded s.width s.fill s.left t),
                     room := some 0, badbit := true }, s.excBad) := by
  have hg := healthy_good.2 h
  by_cases hw : t.length < s.width
  · cases hl : s.left with
    | false =>
      have hpad : padded s.width s.fill false t = List.replicate (s.width - t.length) s.fill ++ t := rfl
      rw [hpad, insert, if_pos hg, if_pos hw]
      generalize List.replicate (s.width - t.length) s.fill = P at *
      by_cases h1 : Fits s.room P
      · by_cases h2 : Fits (s.room.map (· - P.length)) t
        · have h3 : Fits s.room (P ++ t) := fits_append.2 ⟨h1, h2⟩
          simp [hl, write_eq, h1, h2, h3, good, throws, h.1, h.2]
          cases s.room <;> simp; omega
        · have h3 : ¬ Fits s.room (P ++ t) := fun h => h2 (fits_append.1 h).2
          cases he : s.excBad <;>
            simp [hl, write_eq, h1, h2, h3, good, throws, h.1, h.2, he, fitting_append]
      · have h3 : ¬ Fits s.room (P ++ t) := fun h => h1 (fits_append.1 h).1
        cases he : s.excBad <;>
          simp [hl, write_eq, h1, h3, good, throws, h.2, he, fitting_append_not]
    | true =>
      have hpad : padded s.width s.fill true t = t ++ List.replicate (s.width - t.length) s.fill := rfl
      rw [hpad, insert, if_pos hg, if_pos hw]
      generalize List.replicate (s.width - t.length) s.fill = P at *
      by_cases h1 : Fits s.room t
      · by_cases h2 : Fits (s.room.map (· - t.length)) P
        · have h3 : Fits s.room (t ++ P) := fits_append.2 ⟨h1, h2⟩
          simp [hl, write_eq, h1, h2, h3, good, throws, h.1, h.2]
          cases s.room <;> simp; omega
        · have h3 : ¬ Fits s.room (t ++ P) := fun h => h2 (fits_append.1 h).2
          cases he : s.excBad <;>
            simp [hl, write_eq, h1, h2, h3, good, throws, h.1, h.2, he, fitting_append]
      · have h3 : ¬ Fits s.room (t ++ P) := fun h => h1 (fits_append.1 h).1
        cases he : s.excBad <;>
          simp [hl, write_eq, h1, h3, good, throws, h.1, h.2, he, fitting_append_not]
  · rw [padded_of_le (by omega)]
    by_cases h1 : Fits s.room t
    · simp [insert, hg, hw, write_eq, h1, throws, h.1, h.2]
    · cases he : s.excBad <;> simp [insert, hg, hw, write_eq, h1, throws, h.2, he]

/-- Insertions into a stream with errors write nothing. -/
theorem insertAll_not_healthy {s : OStream} (h : ¬ Healthy s) (ps : List Str) :
    (s.insertAll ps).1 = { s with failbit := if ps = [] then s.failbit else true } ∧
    ((s.insertAll ps).2 = true ↔ ps ≠ [] ∧ { s with failbit := true }.throws = true) := by
  induction ps generalizing s with
  | nil => simp [insertAll]
  | cons p ps ih =>
    have hg : s.good = false := by
      rw [← Bool.not_eq_true]; exact fun e => h (healthy_good.1 e)
    have hi : s.insert p = ({ s with failbit := true }, { s with failbit := true }.throws) := by simp [insert, hg]
    have ih := ih (s := { s with failbit := true }) (by simp [Healthy])
    cases ht : { s with failbit := true }.throws with
    | true => simp [insertAll, hi, ht]
    | false =>
      simp only [insertAll, hi, ht]
      rw [ht] at ih
      simp [ih]

/-- Insertions one after the other. -/
theorem insertAll_eq {s : OStream} (h : Healthy s) (p : Str) (ps : List Str) :
    let T := padded s.width s.fill s.left p
    Wrote s (s.insertAll (p :: ps)).1 (T ++ ps.flatten) ∧
    ((s.insertAll (p :: ps)).1.failbit = true ↔ s.excBad = false ∧ ps ≠ [] ∧ ¬ Fits s.room (T ++ ps.dropLast.flatten)) ∧
    ((s.insertAll (p :: ps)).2 = true ↔
      ¬ Fits s.room (T ++ ps.flatten) ∧ (s.excBad = true ∨ s.excFail = true ∧ ps ≠ [] ∧ ¬ Fits s.room (T ++ ps.dropLast.flatten))) := by
  induction ps generalizing s p with
  | nil =>
    simp only [insertAll, insert_eq h]
    by_cases hf : Fits s.room (padded s.width s.fill s.left p)
    · simp only [hf, if_true]
      refine ⟨⟨?_, ?_, ?_, ?_, ?_, ?_, ?_⟩, ?_, ?_⟩ <;> simp [hf, fitting_of_fits, h.1, h.2]
    · simp only [hf, if_false]
      have hr : (some 0 : Option Nat) = s.room.map (· - (padded s.width s.fill s.left p).length) := by
        cases hr : s.room with
        | none => rw [hr] at hf; exact absurd (fits_none _) hf
        | some r => rw [hr, fits_some] at hf; simp; omega
      cases he : s.excBad <;>
        refine ⟨⟨?_, ?_, ?_, ?_, ?_, ?_, ?_⟩, ?_, ?_⟩ <;> simp [hf, h.2, hr, he]
  | cons q qs ih =>
    intro T
    by_cases hf : Fits s.room T
    · have hi : s.insert p = ({ s with width := 0, out := s.out ++ T, room := s.room.map (· - T.length) }, false) := by
        rw [insert_eq h]; exact if_pos hf
      have hh : Healthy { s with width := 0, out := s.out ++ T, room := s.room.map (· - T.length) } := h
      obtain ⟨i1, i2, i3⟩ := ih hh q
      rw [insertAll, hi]
      simp only at i1 i2 i3 ⊢
      rw [padded_of_le (Nat.zero_le _)] at i1 i2 i3
      have e1 : T ++ (q :: qs).flatten = T ++ (q ++ qs.flatten) := rfl
      have hdl : qs ≠ [] → T ++ (q :: qs).dropLast.flatten = T ++ (q ++ qs.dropLast.flatten) := by
        intro hq
        obtain ⟨a, l, rfl⟩ := List.exists_cons_of_ne_nil hq
        rfl
      refine ⟨⟨?_, ?_, i1.fill, i1.left, i1.masks, ?_, ?_⟩, ?_, ?_⟩
      · rw [i1.out, e1, fitting_append hf]; simp
      · rw [i1.bad, e1, fits_append (t := T)]; simp [hf]
      · intro hx; exact i1.width (fits_append.1 (e1 ▸ hx)).2
      · rw [i1.room, map_map_room, e1]; simp
      · rw [i2]
        cases qs with
        | nil => simp [hf]
        | cons a l => rw [hdl (by simp), fits_append (t := T)]; simp [hf]
      · rw [i3, e1, fits_append (t := T)]
        cases qs with
        | nil => simp [hf]
        | cons a l => rw [hdl (by simp), fits_append (t := T)]; simp [hf]
    · have hi : s.insert p = ({ s with width := if s.excBad then s.width else 0, out := s.out ++ fitting s.room T, room := some 0, badbit := true },
          s.excBad) := by
        rw [insert_eq h]; exact if_neg hf
      have hr : ∀ u : Str, (some 0 : Option Nat) = s.room.map (· - (T ++ u).length) := by
        intro u
        cases hr : s.room with
        | none => rw [hr] at hf; exact absurd (fits_none _) hf
        | some r => rw [hr, fits_some] at hf; simp; omega
      have hn : ∀ u, ¬ Fits s.room (T ++ u) := fun u hu => hf (fits_append.1 hu).1
      rw [insertAll, hi]
      cases he : s.excBad with
      | true =>
        simp only [if_true]
        refine ⟨⟨?_, ?_, rfl, rfl, ?_, ?_, hr _⟩, ?_, ?_⟩ <;> simp [hn, fitting_append_not hf, h.2, he]
      | false =>
        simp only [Bool.false_eq_true, if_false]
        obtain ⟨j1, j2⟩ := insertAll_not_healthy (s := { s with width := 0, out := s.out ++ fitting s.room T, room := some 0, badbit := true }) (by simp [Healthy]) (q :: qs)
        simp only [he] at j1 j2
        rw [j1]
        refine ⟨⟨?_, ?_, rfl, rfl, ?_, ?_, hr _⟩, ?_, ?_⟩
        · simp [fitting_append_not hf]
        · simp [hn]
        · simp [he]
        · intro hx; exact absurd hx (hn _)
        · simp [hn]
        · rw [j2]; simp [hn, throws]

end OStream
end SoDa
