import Verif.Spec.PropertyErrors
import Verif.Proof.PropertyHeap
import Verif.Proof.PropertyTreeAll
/-!
Proofs for documents with mistakes.
-/
namespace SoDa.PropMem
open SoDa.Prop Spec

theorem keyStr_none {k : Y} : keyStr k = none ↔ ∀ s, k ≠ .scalar s := by
  cases k <;> simp [keyStr]

mutual
/-- A document with a mistake has a first one. -/
theorem before_exists (y : Y) (h : ¬ Readable y) : ∃ e a, Before e a y := by
  cases y with
  | null => exact absurd trivial h
  | scalar s => exact absurd trivial h
  | seq l =>
    cases l with
    | nil => exact absurd rfl h
    | cons y ys => exact ⟨_, _, .sequence y ys rfl⟩
  | map es =>
    obtain ⟨e, as, h1⟩ := beforeEntries_exists es h
    exact ⟨e, _, .map h1⟩
theorem beforeEntries_exists (es : List (Y × Y)) (h : ¬ ReadableEntries es) : ∃ e as, BeforeEntries e as es := by
  cases es with
  | nil => exact absurd trivial h
  | cons x es =>
    by_cases hx : ReadableEntry x
    · obtain ⟨e, as, h1⟩ := beforeEntries_exists es fun h' => h ⟨hx, h'⟩
      exact ⟨e, _, .after x hx h1⟩
    · exact beforeEntry_exists x hx es
theorem beforeEntry_exists (x : Y × Y) (h : ¬ ReadableEntry x) (es : List (Y × Y)) :
    ∃ e as, BeforeEntries e as (x :: es) := by
  obtain ⟨k, v⟩ := x
  cases v with
  | null => exact absurd trivial h
  | scalar s => exact ⟨_, _, .keyOfScalar k s es (fun s' hs => h ⟨s', hs⟩) rfl⟩
  | map l =>
    by_cases hk : ∃ s, k = .scalar s
    · obtain ⟨s, rfl⟩ := hk
      obtain ⟨e, as, h1⟩ := beforeEntries_exists l fun h' => h ⟨⟨s, rfl⟩, h'⟩
      exact ⟨e, _, .inMap s es h1⟩
    · exact ⟨_, _, .keyOfMap k l es (fun s' hs => hk ⟨s', hs⟩) rfl⟩
  | seq l =>
    obtain ⟨e, as, h1⟩ := beforeList_exists l h
    exact ⟨e, _, .inSeq k es h1⟩
theorem beforeList_exists (l : List Y) (h : ¬ ReadableList l) : ∃ e as, BeforeList e as l := by
  cases l with
  | nil => exact absurd trivial h
  | cons y ys =>
    by_cases hy : Readable y
    · obtain ⟨e, as, h1⟩ := beforeList_exists ys fun h' => h ⟨hy, h'⟩
      exact ⟨e, _, .after y hy h1⟩
    · obtain ⟨e, a, h1⟩ := before_exists y hy
      exact ⟨e, _, .inside ys h1⟩
end

mutual
/-- What stands before the first mistake has no mistake, and the document has one. -/
theorem before_readable {a b : Y} : ∀ {e : YErr}, Before e a b → Readable a ∧ ¬ Readable b := by
  intro e h
  cases h with
  | sequence y ys he => exact ⟨trivial, by simp [Readable]⟩
  | map h => simpa only [Readable] using beforeEntries_readable h
termination_by sizeOf b
theorem beforeEntries_readable {as bs : List (Y × Y)} : ∀ {e : YErr}, BeforeEntries e as bs → ReadableEntries as ∧ ¬ ReadableEntries bs := by
  intro e h
  cases h with
  | after x hx h =>
    obtain ⟨h1, h2⟩ := beforeEntries_readable h
    exact ⟨⟨hx, h1⟩, fun h => h2 h.2⟩
  | keyOfScalar k s es hk he => exact ⟨trivial, fun h => by obtain ⟨s', hs⟩ := h.1; exact hk s' hs⟩
  | keyOfMap k l es hk he => exact ⟨trivial, fun h => by obtain ⟨⟨s', hs⟩, -⟩ := h.1; exact hk s' hs⟩
  | inMap s es h =>
    obtain ⟨h1, h2⟩ := beforeEntries_readable h
    exact ⟨⟨⟨⟨s, rfl⟩, h1⟩, trivial⟩, fun h => h2 h.1.2⟩
  | inSeq k es h =>
    obtain ⟨h1, h2⟩ := beforeList_readable h
    exact ⟨⟨h1, trivial⟩, fun h => h2 h.1⟩
termination_by sizeOf bs
theorem beforeList_readable {as bs : List Y} : ∀ {e : YErr}, BeforeList e as bs → ReadableList as ∧ ¬ ReadableList bs := by
  intro e h
  cases h with
  | after y hy h =>
    obtain ⟨h1, h2⟩ := beforeList_readable h
    exact ⟨⟨hy, h1⟩, fun h => h2 h.2⟩
  | inside ys h =>
    obtain ⟨h1, h2⟩ := before_readable h
    exact ⟨⟨h1, trivial⟩, fun h => h2 h.1⟩
termination_by sizeOf bs
end

mutual
/-- The first mistake and what stands before it are determined. -/
theorem before_unique {e e' : YErr} {a a' b : Y} (h : Before e a b) (h' : Before e' a' b) : e = e' ∧ a = a' := by
  cases h with
  | sequence y ys he => cases h' with | sequence _ _ he' => exact ⟨he.trans he'.symm, rfl⟩
  | map h =>
    cases h' with
    | map h' =>
      obtain ⟨rfl, rfl⟩ := beforeEntries_unique h h'
      exact ⟨rfl, rfl⟩
termination_by sizeOf b
theorem beforeEntries_unique {e e' : YErr} {as as' bs : List (Y × Y)} (h : BeforeEntries e as bs)
    (h' : BeforeEntries e' as' bs) : e = e' ∧ as = as' := by
  cases h with
  | after x hx h =>
    cases h' with
    | after _ _ h' =>
      obtain ⟨rfl, rfl⟩ := beforeEntries_unique h h'
      exact ⟨rfl, rfl⟩
    | keyOfScalar k s es hk he => obtain ⟨s', hs⟩ := hx; exact absurd hs (hk s')
    | keyOfMap k l es hk he => obtain ⟨⟨s', hs⟩, -⟩ := hx; exact absurd hs (hk s')
    | inMap s es h' => exact absurd hx.2 (beforeEntries_readable h').2
    | inSeq k es h' => exact absurd hx (beforeList_readable h').2
  | keyOfScalar k s es hk he =>
    cases h' with
    | after _ hx _ => obtain ⟨s', hs⟩ := hx; exact absurd hs (hk s')
    | keyOfScalar _ _ _ _ he' => exact ⟨he.trans he'.symm, rfl⟩
  | keyOfMap k l es hk he =>
    cases h' with
    | after _ hx _ => obtain ⟨⟨s', hs⟩, -⟩ := hx; exact absurd hs (hk s')
    | keyOfMap _ _ _ _ he' => exact ⟨he.trans he'.symm, rfl⟩
    | inMap s es h' => exact absurd rfl (hk s)
  | inMap s es h =>
    cases h' with
    | after _ hx _ => exact absurd hx.2 (beforeEntries_readable h).2
    | keyOfMap k l es hk he => exact absurd rfl (hk s)
    | inMap _ _ h' =>
      obtain ⟨rfl, rfl⟩ := beforeEntries_unique h h'
      exact ⟨rfl, rfl⟩
  | inSeq k es h =>
    cases h' with
    | after _ hx _ => exact absurd hx (beforeList_readable h).2
    | inSeq _ _ h' =>
      obtain ⟨rfl, rfl⟩ := beforeList_unique h h'
      exact ⟨rfl, rfl⟩
termination_by sizeOf bs
theorem beforeList_unique {e e' : YErr} {as as' bs : List Y} (h : BeforeList e as bs) (h' : BeforeList e' as' bs) :
    e = e' ∧ as = as' := by
  cases h with
  | after y hy h =>
    cases h' with
    | after _ _ h' =>
      obtain ⟨rfl, rfl⟩ := beforeList_unique h h'
      exact ⟨rfl, rfl⟩
    | inside ys h' => exact absurd hy (before_readable h').2
  | inside ys h =>
    cases h' with
    | after _ hy _ => exact absurd hy (before_readable h).2
    | inside _ h' =>
      obtain ⟨rfl, rfl⟩ := before_unique h h'
      exact ⟨rfl, rfl⟩
termination_by sizeOf bs
end

theorem fillEntry_ok {x : Y × Y} (h : ReadableEntry x) (n : Node) : (Prop.fillEntry x n).2 = none :=
  ((fillEntry_does x n).1 h).1

theorem fill_ok {y : Y} (h : Readable y) (n : Node) : (Prop.fill y n).2 = none := ((fill_does y n).1 h).1

mutual
/-- The tree. -/
theorem fill_before {a b : Y} : ∀ {e : YErr}, Before e a b → ∀ n : Node, Prop.fill b n = ((Prop.fill a n).1, some e) := by
  intro e h n
  cases h with
  | sequence y ys he => simp [Prop.fill, he]
  | map h => simp only [Prop.fill]; exact fillEntries_before h n
termination_by sizeOf b
theorem fillEntries_before {as bs : List (Y × Y)} : ∀ {e : YErr}, BeforeEntries e as bs → ∀ n : Node, Prop.fillEntries bs n = ((Prop.fillEntries as n).1, some e) := by
  intro e h n
  cases h with
  | after x hx h =>
    have h1 := fillEntry_ok hx n
    simp only [Prop.fillEntries]
    rcases hq : Prop.fillEntry x n with ⟨n', o⟩
    rw [hq] at h1
    simp only at h1
    subst h1
    exact fillEntries_before h n'
  | keyOfScalar k s es hk he => simp [Prop.fillEntries, Prop.fillEntry, keyStr_none.2 hk, he]
  | keyOfMap k l es hk he => simp [Prop.fillEntries, Prop.fillEntry, keyStr_none.2 hk, he]
  | @inMap as bs s es h =>
    have h1 := fillEntries_before h (Node.new [] false)
    have h2 := ((fillEntries_does as (Node.new [] false)).1 (beforeEntries_readable h).1).1
    simp only [Prop.fillEntries, Prop.fillEntry, keyStr, h1, h2]
  | @inSeq as bs k es h =>
    have h1 := fillList_before h n
    have h2 := ((fillList_does as n).1 (beforeList_readable h).1).1
    simp only [Prop.fillEntries, Prop.fillEntry, h1]
    rcases hq : Prop.fillList as n with ⟨n', o⟩
    rw [hq] at h2
    simp only at h2
    subst h2
    rfl
termination_by sizeOf bs
theorem fillList_before {as bs : List Y} : ∀ {e : YErr}, BeforeList e as bs → ∀ n : Node, Prop.fillList bs n = ((Prop.fillList as n).1, some e) := by
  intro e h n
  cases h with
  | after y hy h =>
    have h1 := fill_ok hy n
    simp only [Prop.fillList]
    rcases hq : Prop.fill y n with ⟨n', o⟩
    rw [hq] at h1
    simp only at h1
    subst h1
    exact fillList_before h n'
  | @inside a b ys h =>
    have h1 := fill_before h n
    have h2 := fill_ok (before_readable h).1 n
    simp only [Prop.fillList, h1]
    rcases hq : Prop.fill a n with ⟨n', o⟩
    rw [hq] at h2
    simp only at h2
    subst h2
    rfl
termination_by sizeOf bs
end

/-- One node more if a key is not a scalar. -/
def lostBy : YErr → Nat
  | .badConversion => 1
  | .invalidNode => 0

mutual
/-- In memory there is the same exception. -/
theorem fill_err (y : Y) (p : Nat) (m m' : Mem) (o : Option YErr) (h : fill y p m = some (m', o)) (n : Node) :
    (Prop.fill y n).2 = o := by
  cases y with
  | null => simp [fill] at h; simp [Prop.fill, h.2]
  | scalar s =>
    simp only [fill, Option.map_eq_some_iff, Prod.mk.injEq] at h
    obtain ⟨-, -, -, rfl⟩ := h
    simp [Prop.fill]
  | seq l => cases l <;> simp [fill] at h <;> simp [Prop.fill, h.2]
  | map es => simp only [fill] at h; simp only [Prop.fill]; exact fillEntries_err es p m m' o h n
theorem fillEntries_err (es : List (Y × Y)) (p : Nat) (m m' : Mem) (o : Option YErr)
    (h : fillEntries es p m = some (m', o)) (n : Node) : (Prop.fillEntries es n).2 = o := by
  cases es with
  | nil => simp [fillEntries] at h; simp [Prop.fillEntries, h.2]
  | cons x es =>
    simp only [fillEntries] at h
    simp only [Prop.fillEntries]
    rcases hq : fillEntry x p m with _ | ⟨m1, o1⟩
    · simp [hq] at h
    · have h1 := fillEntry_err x p m m1 o1 hq n
      rcases hq' : Prop.fillEntry x n with ⟨n1, o2⟩
      rw [hq'] at h1
      simp only at h1
      subst h1
      rw [hq] at h
      cases o2 with
      | some e => simp only [Option.some.injEq, Prod.mk.injEq] at h ⊢; exact h.2
      | none => exact fillEntries_err es p m1 m' o h n1
theorem fillEntry_err (x : Y × Y) (p : Nat) (m m' : Mem) (o : Option YErr) (h : fillEntry x p m = some (m', o))
    (n : Node) : (Prop.fillEntry x n).2 = o := by
  obtain ⟨k, v⟩ := x
  cases v with
  | null => simp [fillEntry] at h; simp [Prop.fillEntry, h.2]
  | scalar s =>
    simp only [fillEntry] at h
    simp only [Prop.fillEntry]
    cases hk : keyStr k with
    | none => simp [hk] at h; simp [h.2]
    | some ks =>
      simp only [hk, Option.map_eq_some_iff, Prod.mk.injEq] at h
      obtain ⟨-, -, -, rfl⟩ := h
      rfl
  | map es =>
    simp only [fillEntry] at h
    simp only [Prop.fillEntry]
    cases hk : keyStr k with
    | none => simp [hk] at h; simp [h.2]
    | some ks =>
      cases hs : (m.alloc (some p) [] false).setKey p ks m.length with
      | none => simp [hk, hs] at h
      | some m1 =>
        simp only [hk, hs] at h
        exact fillEntries_err es m.length m1 m' o h _
  | seq l => simp only [fillEntry] at h; simp only [Prop.fillEntry]; exact fillList_err l p m m' o h n
theorem fillList_err (l : List Y) (p : Nat) (m m' : Mem) (o : Option YErr) (h : fillList l p m = some (m', o))
    (n : Node) : (Prop.fillList l n).2 = o := by
  cases l with
  | nil => simp [fillList] at h; simp [Prop.fillList, h.2]
  | cons x es =>
    simp only [fillList] at h
    simp only [Prop.fillList]
    rcases hq : fill x p m with _ | ⟨m1, o1⟩
    · simp [hq] at h
    · have h1 := fill_err x p m m1 o1 hq n
      rcases hq' : Prop.fill x n with ⟨n1, o2⟩
      rw [hq'] at h1
      simp only at h1
      subst h1
      rw [hq] at h
      cases o2 with
      | some e => simp only [Option.some.injEq, Prod.mk.injEq] at h ⊢; exact h.2
      | none => exact fillList_err es p m1 m' o h n1
end

theorem fill_fine {y : Y} (h : Readable y) (p : Nat) (m m' : Mem) (e : YErr) : fill y p m ≠ some (m', some e) := fun hf => by
  have h1 := fill_err y p m m' _ hf newTree
  rw [fill_ok h] at h1; cases h1

theorem fill_bad {y : Y} (h : ¬ Readable y) (p : Nat) (m m' : Mem) : fill y p m ≠ some (m', none) := fun hf =>
  (fill_does y newTree).2 h (fill_err y p m m' _ hf newTree)

theorem fillEntries_bad {es : List (Y × Y)} (h : ¬ ReadableEntries es) (p : Nat) (m m' : Mem) :
    fillEntries es p m ≠ some (m', none) := fun hf =>
  (fillEntries_does es newTree).2 h (fillEntries_err es p m m' _ hf newTree)

theorem fillEntry_fine {x : Y × Y} (h : ReadableEntry x) (p : Nat) (m m' : Mem) (e : YErr) :
    fillEntry x p m ≠ some (m', some e) := fun hf => by
  have h1 := fillEntry_err x p m m' _ hf newTree
  rw [fillEntry_ok h] at h1; cases h1

theorem fillList_bad {l : List Y} (h : ¬ ReadableList l) (p : Nat) (m m' : Mem) : fillList l p m ≠ some (m', none) := fun hf =>
  (fillList_does l newTree).2 h (fillList_err l p m m' _ hf newTree)

mutual
/-- The nodes. -/
theorem fill_before_count {a b : Y} : ∀ {e : YErr}, Before e a b → ∀ (p : Nat) (m m' : Mem) (e' : YErr),
    fill b p m = some (m', some e') → m'.length = m.length + nodesOf a + lostBy e := by
  intro e h p m m' e' hf
  cases h with
  | sequence y ys he => subst he; simp [fill] at hf; simp [← hf.1, nodesOf, lostBy]
  | map h => simp only [fill] at hf; rw [nodesOf]; exact fillEntries_before_count h p m m' _ hf
termination_by sizeOf b
theorem fillEntries_before_count {as bs : List (Y × Y)} : ∀ {e : YErr}, BeforeEntries e as bs →
    ∀ (p : Nat) (m m' : Mem) (e' : YErr), fillEntries bs p m = some (m', some e') →
      m'.length = m.length + nodesOfEntries as + lostBy e := by
  intro e h p m m' e' hf
  cases h with
  | @after as bs x hx h =>
    simp only [fillEntries] at hf
    rcases hq : fillEntry x p m with _ | ⟨m1, _ | e1⟩ <;> rw [hq] at hf <;> simp only at hf
    · cases hf
    · have h1 := fillEntry_count x p m m1 hq
      have h2 := fillEntries_before_count h p m1 m' _ hf
      rw [nodesOfEntries]; omega
    · exact absurd hq (fillEntry_fine hx p m _ _)
  | keyOfScalar k s es hk he =>
    simp [fillEntries, fillEntry, keyStr_none.2 hk] at hf
    subst he
    simp [← hf.1, length_alloc, nodesOfEntries, lostBy]
  | keyOfMap k l es hk he =>
    simp [fillEntries, fillEntry, keyStr_none.2 hk] at hf
    subst he
    simp [← hf.1, length_alloc, nodesOfEntries, lostBy]
  | @inMap as bs s es h =>
    simp only [fillEntries, fillEntry, keyStr] at hf
    cases hk : (m.alloc (some p) [] false).setKey p s m.length with
    | none => simp [hk] at hf
    | some m1 =>
      simp only [hk] at hf
      have hl : m1.length = m.length + 1 := by
        simp only [Mem.setKey, Option.map_eq_some_iff] at hk
        obtain ⟨c, -, rfl⟩ := hk
        simp [length_alloc]
      rcases hq : fillEntries bs m.length m1 with _ | ⟨m2, _ | e1⟩ <;> rw [hq] at hf <;> simp only at hf
      · cases hf
      · exact absurd hq (fillEntries_bad (beforeEntries_readable h).2 _ _ _)
      · cases hf
        have := fillEntries_before_count h _ _ _ _ hq
        simp only [nodesOfEntries, nodesOfEntry]; omega
  | @inSeq as bs k es h =>
    simp only [fillEntries, fillEntry] at hf
    rcases hq : fillList bs p m with _ | ⟨m2, _ | e1⟩ <;> rw [hq] at hf <;> simp only at hf
    · cases hf
    · exact absurd hq (fillList_bad (beforeList_readable h).2 _ _ _)
    · cases hf
      have := fillList_before_count h _ _ _ _ hq
      simp only [nodesOfEntries, nodesOfEntry]; omega
termination_by sizeOf bs
theorem fillList_before_count {as bs : List Y} : ∀ {e : YErr}, BeforeList e as bs →
    ∀ (p : Nat) (m m' : Mem) (e' : YErr), fillList bs p m = some (m', some e') →
      m'.length = m.length + nodesOfList as + lostBy e := by
  intro e h p m m' e' hf
  cases h with
  | @after as bs y hy h =>
    simp only [fillList] at hf
    rcases hq : fill y p m with _ | ⟨m1, _ | e1⟩ <;> rw [hq] at hf <;> simp only at hf
    · cases hf
    · have h1 := fill_count y p m m1 hq
      have h2 := fillList_before_count h p m1 m' _ hf
      rw [nodesOfList]; omega
    · exact absurd hq (fill_fine hy p m _ _)
  | @inside a b ys h =>
    simp only [fillList] at hf
    rcases hq : fill b p m with _ | ⟨m1, _ | e1⟩ <;> rw [hq] at hf <;> simp only at hf
    · cases hf
    · exact absurd hq (fill_bad (before_readable h).2 _ _ _)
    · cases hf
      have := fill_before_count h _ _ _ _ hq
      simp only [nodesOfList]; omega
termination_by sizeOf bs
end

end SoDa.PropMem
