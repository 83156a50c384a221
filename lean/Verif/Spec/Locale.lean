import Verif.Model.Locale
/-!
Where separators stand in a number.  From the model only `Locale` is used.
-/
namespace SoDa.Spec

/-- The size of group `j`, counted from the end: the last element of `grouping` is used again and again. -/
def groupSize (gs : List Nat) (j : Nat) : Nat := gs.getD j (gs.getLastD 0)

/-- There is a separator before the last `k` digits (if there are more): `k` is the size of some groups together, none of which is
without limit. -/
def IsCut (gs : List Nat) (k : Nat) : Prop :=
  ∃ m, 0 < m ∧ (∀ j < m, 0 < groupSize gs j ∧ groupSize gs j < 127) ∧ k = ((List.range m).map (groupSize gs)).sum

open Classical in
/-- The digits `ds`, with a separator before the last `k` of them if `cut k`. -/
noncomputable def spelled (sep : Char) (cut : Nat → Prop) : Str → Str
  | [] => []
  | d :: ds => if ds ≠ [] ∧ cut ds.length then d :: sep :: spelled sep cut ds else d :: spelled sep cut ds

/-- The separator and the point of the locale cannot be taken for a digit, a sign or the mark of an exponent. -/
structure Distinct (L : Locale) : Prop where
  thousands : L.thousands.isDigit = false
  point : L.point.isDigit = false
  thousands' : L.thousands ∉ ['-', '+', 'e', 'E']
  point' : L.point ∉ ['-', '+', 'e', 'E']

end SoDa.Spec
