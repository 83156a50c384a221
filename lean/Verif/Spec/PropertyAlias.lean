import Verif.Model.PropertyAlias
import Mathlib.Logic.Relation
import Mathlib.Data.List.Forall2
/-!
Specification vocabulary for documents with aliases.
-/
namespace SoDa.Spec
open SoDa.Prop

/-- The document has finitely many nodes: those below `N`. -/
def NodesBelow (g : Graph) (N : Nat) : Prop := ∀ i, N ≤ i → g i = .null

mutual
/-- The tree in which every alias is replaced by what it stands for. -/
inductive Unfolds (g : Graph) : Nat → Y → Prop where
  | null {i} (h : g i = .null) : Unfolds g i .null
  | scalar {i s} (h : g i = .scalar s) : Unfolds g i (.scalar s)
  | seq {i l ys} (h : g i = .seq l) (hl : UnfoldsList g l ys) : Unfolds g i (.seq ys)
  | map {i es ys} (h : g i = .map es) (hl : UnfoldsEntries g es ys) : Unfolds g i (.map ys)
inductive UnfoldsList (g : Graph) : List Nat → List Y → Prop where
  | nil : UnfoldsList g [] []
  | cons {i l y ys} (h : Unfolds g i y) (hl : UnfoldsList g l ys) : UnfoldsList g (i :: l) (y :: ys)
inductive UnfoldsEntries (g : Graph) : List (Nat × Nat) → List (Y × Y) → Prop where
  | nil : UnfoldsEntries g [] []
  | cons {k v es a b ys} (hk : Unfolds g k a) (hv : Unfolds g v b) (hl : UnfoldsEntries g es ys) :
      UnfoldsEntries g ((k, v) :: es) ((a, b) :: ys)
end

/-- The key is good enough: only scalars and maps need one. -/
def KeyFine (g : Graph) (k v : Nat) : Prop :=
  (∃ s, g v = .scalar s) ∨ (∃ l, g v = .map l) → ∃ s, g k = .scalar s

/-- Node `i` is not an element that is a sequence, and nothing below it is one or has a bad key, and it is finite. -/
inductive Fine (g : Graph) : Nat → Prop where
  | null {i} (h : g i = .null) : Fine g i
  | scalar {i s} (h : g i = .scalar s) : Fine g i
  | empty {i} (h : g i = .seq []) : Fine g i
  | map {i es} (h : g i = .map es) (hk : ∀ k v, (k, v) ∈ es → KeyFine g k v)
      (hm : ∀ k v l, (k, v) ∈ es → g v = .map l → Fine g v)
      (hs : ∀ k v l x, (k, v) ∈ es → g v = .seq l → x ∈ l → Fine g x) : Fine g i

/-- The same for an entry of a map. -/
def FineEntry (g : Graph) (k v : Nat) : Prop :=
  KeyFine g k v ∧ (∀ l, g v = .map l → Fine g v) ∧ ∀ l, g v = .seq l → ∀ x ∈ l, Fine g x

/-- Node `j` is inside node `i`: the value of an entry, if it is a map, or an element of a sequence that is the value of an
entry; and everything before it is fine. -/
inductive Inside (g : Graph) (j i : Nat) : Prop where
  | value {es k es' l} (h : g i = .map (es ++ (k, j) :: es')) (he : ∀ x ∈ es, FineEntry g x.1 x.2)
      (hk : ∃ s, g k = .scalar s) (hj : g j = .map l) : Inside g j i
  | element {es k v es' l l'} (h : g i = .map (es ++ (k, v) :: es')) (he : ∀ x ∈ es, FineEntry g x.1 x.2)
      (hv : g v = .seq (l ++ j :: l')) (hl : ∀ x ∈ l, Fine g x) : Inside g j i

/-- Some node is inside itself, and there is no mistake before it. -/
def Circular (g : Graph) (top : Nat) : Prop :=
  ∃ x, Relation.ReflTransGen (fun a b => Inside g b a) top x ∧ Relation.TransGen (fun a b => Inside g b a) x x

/-- The tree `y` agrees with the document from node `i` downwards for `d` levels; what is further down is not looked at. -/
def AgreesTo (g : Graph) : Nat → Nat → Y → Prop
  | 0, _, _ => True
  | d + 1, i, y =>
    match g i, y with
    | .null, .null => True
    | .scalar s, .scalar t => s = t
    | .seq l, .seq ys => List.Forall₂ (AgreesTo g d) l ys
    | .map es, .map ys => List.Forall₂ (fun e p => AgreesTo g d e.1 p.1 ∧ AgreesTo g d e.2 p.2) es ys
    | _, _ => False

end SoDa.Spec
