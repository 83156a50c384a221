import Verif.Spec.PropertyTree
import Verif.Proof.StdMap
/-!
Filling a property tree from a document.
-/
namespace SoDa.Prop
open Spec

theorem find?_eq_mapFind (k : Str) (m : List (Str × Node)) :
    (m.find? (fun e => e.1 = k)).map (·.2) = mapFind strLess k m := by
  induction m with
  | nil => rfl
  | cons e m ih =>
    obtain ⟨k', v⟩ := e
    simp only [List.find?_cons, mapFind]
    by_cases hk : k' = k
    · subst hk; simp [strLess_irrefl]
    · have : (!strLess k k' && !strLess k' k) = false := by
        cases h1 : strLess k k' with
        | true => rfl
        | false =>
          cases h2 : strLess k' k with
          | true => rfl
          | false => exact absurd (strLess_antisymm _ _ h1 h2).symm hk
      simp [hk, this, ih]

theorem childAt_eq (n : Node) (k : Str) : childAt n k = mapFind strLess k n.dict :=
  find?_eq_mapFind k n.dict

theorem childAt_set (n : Node) (k k' : Str) (p : Node) :
    childAt (n.set k p) k' = if k' = k then some p else childAt n k' := by
  rw [childAt_eq, childAt_eq]
  exact mapFind_mapSet strLess_order k k' p n.dict

theorem childAt_push (n p : Node) (k : Str) : childAt (n.push p) k = childAt n k := rfl

/-- The dictionary is sorted. -/
def Node.Ordered (n : Node) : Prop := Sorted strLess n.dict

theorem Node.Ordered.set {n : Node} (h : n.Ordered) (k : Str) (p : Node) : (n.set k p).Ordered :=
  (mapSet_sorted strLess_order k p n.dict h).1

theorem Node.Ordered.keys {n : Node} (h : n.Ordered) : n.getKeys.Pairwise (· < ·) := by
  unfold Node.getKeys
  rw [List.pairwise_map]
  exact List.Pairwise.imp (fun h1 => (strLess_iff _ _).1 h1) h

theorem mem_getKeys (n : Node) (k : Str) : k ∈ n.getKeys ↔ (childAt n k).isSome = true := by
  unfold Node.getKeys childAt
  rw [List.mem_map]
  constructor
  · rintro ⟨e, he, rfl⟩
    simp only [Option.isSome_map]
    rw [List.find?_isSome]
    exact ⟨e, he, by simp⟩
  · intro h
    simp only [Option.isSome_map] at h
    rw [List.find?_isSome] at h
    obtain ⟨e, he, hk⟩ := h
    exact ⟨e, he, by simpa using hk⟩

/-- The node built for a value. -/
def built : Y → Node
  | .scalar s => leaf s
  | .map es => (fillEntries es (Node.new [] false)).1
  | _ => leaf []

theorem fillList_scalars (l : List Str) (n : Node) :
    fillList (l.map .scalar) n = (.mk n.val n.terminal (n.list ++ l.map leaf) n.dict, none) := by
  induction l generalizing n with
  | nil => cases n; simp [fillList, Node.val, Node.terminal, Node.list, Node.dict]
  | cons s l ih =>
    simp only [List.map_cons, fillList, fill, ih]
    simp [Node.push, Node.val, Node.terminal, Node.list, Node.dict, Node.new, leaf]

/-- What filling in the entries of a map does to a node. -/
structure Filled (es : List (Y × Y)) (n n' : Node) : Prop where
  val : n'.val = n.val
  terminal : n'.terminal = n.terminal
  list : n'.list = n.list ++ (scalarsIn es).map leaf
  ordered : n.Ordered → n'.Ordered
  child : ∀ k, childAt n' k = match entryAt es k with
    | some v => some (built v)
    | none => childAt n k

theorem entryAt_foldl (es : List (Y × Y)) (k : Str) (init : Option Y) :
    es.foldl (fun found e => (entryOne e k).or found) init = (entryAt es k).or init := by
  unfold entryAt
  induction es generalizing init with
  | nil => simp
  | cons e es ih =>
    simp only [List.foldl_cons]
    rw [ih, ih ((entryOne e k).or none), Option.or_assoc]
    simp

theorem entryAt_cons (e : Y × Y) (es : List (Y × Y)) (k : Str) :
    entryAt (e :: es) k = (entryAt es k).or (entryOne e k) := by
  have h : entryAt (e :: es) k =
      es.foldl (fun found e => (entryOne e k).or found) ((entryOne e k).or none) := rfl
  rw [h, entryAt_foldl]
  simp

theorem scalarsIn_seq (k : Y) (l : List Str) : scalarsIn [(k, .seq (l.map .scalar))] = l := by
  simp only [scalarsIn, List.flatMap_cons, List.flatMap_nil, List.append_nil]
  induction l with
  | nil => rfl
  | cons a l ih => rw [List.map_cons, List.filterMap_cons, ih]

theorem scalarsIn_cons (e : Y × Y) (es : List (Y × Y)) :
    scalarsIn (e :: es) = scalarsIn [e] ++ scalarsIn es := by
  simp [scalarsIn]

theorem Filled.cons {e : Y × Y} {es : List (Y × Y)} {n n₁ n₂ : Node} (h1 : Filled [e] n n₁)
    (h2 : Filled es n₁ n₂) : Filled (e :: es) n n₂ where
  val := h2.val.trans h1.val
  terminal := h2.terminal.trans h1.terminal
  list := by rw [h2.list, h1.list, scalarsIn_cons e es]; simp
  ordered h := h2.ordered (h1.ordered h)
  child k := by
    rw [h2.child, h1.child, entryAt_cons e es, entryAt_cons e []]
    have : entryAt [] k = none := rfl
    rw [this]
    cases entryAt es k <;> simp

theorem filled_none (n : Node) : Filled [] n n where
  val := rfl
  terminal := rfl
  list := by simp [scalarsIn]
  ordered := id
  child k := rfl

/-- Filling in a plain map goes well and has the effect described. -/
theorem fillEntries_plain (es : List (Y × Y)) (hk : ∀ e ∈ es, ∃ s, e.1 = .scalar s)
    (hv : ∀ e ∈ es, Plain e.2) (hwell : ∀ e ∈ es, ∀ es', e.2 = .map es' →
      (fillEntries es' (Node.new [] false)).2 = none) (n : Node) :
    ∃ n', fillEntries es n = (n', none) ∧ Filled es n n' := by
  induction es generalizing n with
  | nil => exact ⟨n, by simp [fillEntries], filled_none n⟩
  | cons e es ih =>
    obtain ⟨k, v⟩ := e
    obtain ⟨s, hs⟩ := hk (k, v) (by simp)
    subst hs
    have hone : ∃ n₁, fillEntry (.scalar s, v) n = (n₁, none) ∧ Filled [(.scalar s, v)] n n₁ := by
      have hp := hv (.scalar s, v) (by simp)
      cases hp with
      | scalar t =>
        refine ⟨n.set s (leaf t), by simp [fillEntry, keyStr, leaf, Node.new], ?_⟩
        constructor
        · rfl
        · rfl
        · simp [scalarsIn, Node.set, Node.list]
        · intro h; exact h.set _ _
        · intro k'
          rw [childAt_set, entryAt_cons]
          simp only [entryOne, entryAt, List.foldl_nil, Option.none_or]
          by_cases hks : k' = s
          · simp [hks, built]
          · simp [hks, Ne.symm hks]
      | seq l =>
        refine ⟨_, by simp only [fillEntry]; exact fillList_scalars l n, ?_⟩
        constructor
        · rfl
        · rfl
        · show n.list ++ _ = n.list ++ _
          rw [scalarsIn_seq]
        · exact id
        · intro k'
          have : entryAt [(Y.scalar s, Y.seq (l.map .scalar))] k' = none := rfl
          rw [this]
          rfl
      | map es' hk' hv' =>
        have hw := hwell (.scalar s, .map es') (by simp) es' rfl
        refine ⟨n.set s (fillEntries es' (Node.new [] false)).1, ?_, ?_⟩
        · simp only [fillEntry, keyStr]
          rw [hw]
        constructor
        · rfl
        · rfl
        · simp [scalarsIn, Node.set, Node.list]
        · intro h; exact h.set _ _
        · intro k'
          rw [childAt_set, entryAt_cons]
          simp only [entryOne, entryAt, List.foldl_nil, Option.none_or]
          by_cases hks : k' = s
          · simp [hks, built]
          · simp [hks, Ne.symm hks]
    obtain ⟨n₁, h1, h2⟩ := hone
    obtain ⟨n₂, h3, h4⟩ := ih (fun e he => hk e (by simp [he])) (fun e he => hv e (by simp [he]))
      (fun e he => hwell e (by simp [he])) n₁
    exact ⟨n₂, by simp [fillEntries, h1, h3], h2.cons h4⟩

theorem plain_well {y : Y} (h : Plain y) : ∀ es, y = .map es → ∀ n,
    ∃ n', fillEntries es n = (n', none) ∧ Filled es n n' := by
  induction h with
  | scalar s => intro es he; cases he
  | seq l => intro es he; cases he
  | map es hk hv ih =>
    intro es' he n
    cases he
    apply fillEntries_plain es hk hv
    intro e he es' hes'
    obtain ⟨n', h1, -⟩ := ih e he es' hes' (Node.new [] false)
    rw [h1]

/-- The value found in a plain map is plain, and not a sequence. -/
theorem entryAt_plain {es : List (Y × Y)} (hv : ∀ e ∈ es, Plain e.2) {k : Str} {y : Y}
    (h : entryAt es k = some y) : Plain y ∧ ((∃ s, y = .scalar s) ∨ ∃ es', y = .map es') := by
  induction es with
  | nil => cases h
  | cons e es ih =>
    rw [entryAt_cons] at h
    cases hq : entryAt es k with
    | some z =>
      rw [hq] at h
      simp only [Option.some_or, Option.some.injEq] at h
      subst h
      exact ih (fun e he => hv e (by simp [he])) hq
    | none =>
      rw [hq] at h
      simp only [Option.none_or] at h
      obtain ⟨k', v⟩ := e
      have hp := hv (k', v) (by simp)
      unfold entryOne at h
      cases k' <;> cases v <;> simp at h
      all_goals
        obtain ⟨-, rfl⟩ := h
        exact ⟨hp, by simp⟩

/-- A node obtained by filling a plain map mirrors it, at every path. -/
theorem mirrors {y : Y} (h : Plain y) {es : List (Y × Y)} (hy : y = .map es) {n n' : Node}
    (hf : Filled es n n') (hn : n.terminal = false) (hl : n.list = []) (hd : n.dict = [])
    (p : List Str) : Mirrors (nodeAt n' p) (docAt y p) := by
  induction p generalizing y es n n' with
  | nil =>
    subst hy
    refine ⟨hf.terminal.trans hn, (hf.ordered ?_).keys, ?_, ?_⟩
    · unfold Node.Ordered; rw [hd]; exact List.Pairwise.nil
    · intro k
      rw [mem_getKeys, hf.child]
      have : childAt n k = none := by unfold childAt; rw [hd]; rfl
      rw [this]
      cases entryAt es k <;> simp
    · unfold Node.getList; rw [hf.list, hl]; simp
  | cons k p ih =>
    subst hy
    simp only [nodeAt, docAt]
    rw [hf.child]
    have hnone : childAt n k = none := by unfold childAt; rw [hd]; rfl
    rw [hnone]
    cases hq : entryAt es k with
    | none => simp [Mirrors]
    | some v =>
      simp only [Option.bind_some]
      have hv : ∀ e ∈ es, Plain e.2 := by
        cases h with
        | map _ _ hv => exact hv
      obtain ⟨hpl, hc⟩ := entryAt_plain hv hq
      rcases hc with ⟨s, rfl⟩ | ⟨es', rfl⟩
      · cases p with
        | nil => simp [nodeAt, docAt, built, Mirrors]
        | cons k' p => simp [nodeAt, docAt, built, leaf, childAt, Node.dict, Mirrors]
      · obtain ⟨m, h1, h2⟩ := plain_well hpl es' rfl (Node.new [] false)
        have hb : built (.map es') = m := by simp [built, h1]
        rw [hb]
        exact ih hpl rfl h2 rfl rfl rfl

theorem _root_.SoDa.Spec.Nested.plain {y : Y} (h : Nested y) : Plain y := by
  induction h with
  | scalar s => exact Plain.scalar s
  | map es hk hv ih => exact Plain.map es hk ih

end SoDa.Prop
