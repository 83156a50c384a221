import Verif.Proof.PropertyTree
/-!
Filling a property tree from documents in general, and the text written by `dump`.
-/
namespace SoDa.Prop
open Spec

/-- What filling in contributions `l` does to a node. -/
structure FilledAll (l : List Contrib) (n n' : Node) : Prop where
  val : n'.val = n.val
  terminal : n'.terminal = n.terminal
  list : n'.list = n.list ++ (items l).map leaf
  ordered : n.Ordered → n'.Ordered
  child : ∀ k, childAt n' k = match lastEntry l k with
    | some v => some (built v)
    | none => childAt n k

theorem items_append (a b : List Contrib) : items (a ++ b) = items a ++ items b := by
  simp [items]

theorem lastEntry_append (a b : List Contrib) (k : Str) :
    lastEntry (a ++ b) k = (lastEntry b k).or (lastEntry a k) := by
  simp [lastEntry, List.head?_append]

theorem FilledAll.append {a b : List Contrib} {n n₁ n₂ : Node} (h1 : FilledAll a n n₁)
    (h2 : FilledAll b n₁ n₂) : FilledAll (a ++ b) n n₂ where
  val := h2.val.trans h1.val
  terminal := h2.terminal.trans h1.terminal
  list := by rw [h2.list, h1.list, items_append]; simp
  ordered h := h2.ordered (h1.ordered h)
  child k := by
    rw [h2.child, h1.child, lastEntry_append]
    cases lastEntry b k <;> simp

theorem filledAll_nil (n : Node) : FilledAll [] n n where
  val := rfl
  terminal := rfl
  list := by simp [items]
  ordered := id
  child k := rfl

theorem filledAll_item (s : Str) (n : Node) : FilledAll [.item s] n (n.push (Node.new s true)) where
  val := rfl
  terminal := rfl
  list := by simp [items, Node.push, Node.list, leaf, Node.new]
  ordered := id
  child k := rfl

theorem filledAll_entry (s : Str) (v : Y) (n : Node) :
    FilledAll [.entry s v] n (n.set s (built v)) where
  val := rfl
  terminal := rfl
  list := by simp [items, Node.set, Node.list]
  ordered h := h.set _ _
  child k := by
    rw [childAt_set]
    by_cases hk : k = s
    · simp [hk, lastEntry]
    · simp [hk, Ne.symm hk, lastEntry]

/-- Filling with outcome `r` from `n`: normal exactly if `ok`, and then as described. -/
def Does (ok : Prop) (l : List Contrib) (n : Node) (r : Node × Option YErr) : Prop :=
  (ok → r.2 = none ∧ FilledAll l n r.1) ∧ (¬ ok → r.2 ≠ none)

mutual
theorem fill_does : ∀ (y : Y) (n : Node), Does (Readable y) (contents y) n (fill y n)
  | .null, n => by
    simp only [Readable, contents, fill]
    exact ⟨fun _ => ⟨rfl, filledAll_nil n⟩, fun h => absurd trivial h⟩
  | .scalar s, n => by
    simp only [Readable, contents, fill]
    exact ⟨fun _ => ⟨rfl, filledAll_item s n⟩, fun h => absurd trivial h⟩
  | .seq [], n => by
    simp only [Readable, contents, fill]
    exact ⟨fun _ => ⟨rfl, filledAll_nil n⟩, fun h => absurd trivial h⟩
  | .seq (a :: l), n => by
    simp only [Readable, contents, fill]
    exact ⟨fun h => by simp at h, fun _ => by simp⟩
  | .map es, n => by
    simp only [Readable, contents, fill]
    exact fillEntries_does es n
theorem fillEntries_does : ∀ (es : List (Y × Y)) (n : Node),
    Does (ReadableEntries es) (contentsEntries es) n (fillEntries es n)
  | [], n => by
    simp only [ReadableEntries, contentsEntries, fillEntries]
    exact ⟨fun _ => ⟨rfl, filledAll_nil n⟩, fun h => absurd trivial h⟩
  | e :: es, n => by
    simp only [ReadableEntries, contentsEntries, fillEntries]
    have h1 := fillEntry_does e n
    rcases hq : fillEntry e n with ⟨n', r⟩
    rw [hq] at h1
    cases r with
    | some x =>
      refine ⟨fun h => ?_, fun _ => by simp⟩
      have := (h1.1 h.1).1
      simp at this
    | none =>
      have h2 := fillEntries_does es n'
      have hok : ReadableEntry e :=
        Classical.byContradiction fun hc => h1.2 hc rfl
      refine ⟨fun h => ⟨(h2.1 h.2).1, (h1.1 h.1).2.append (h2.1 h.2).2⟩, fun h => h2.2 ?_⟩
      intro hes
      exact h ⟨hok, hes⟩
theorem fillEntry_does : ∀ (e : Y × Y) (n : Node),
    Does (ReadableEntry e) (contentsEntry e) n (fillEntry e n)
  | (k, .null), n => by
    have hc : contentsEntry (k, .null) = [] := by cases k <;> simp [contentsEntry]
    simp only [ReadableEntry, fillEntry, hc]
    exact ⟨fun _ => ⟨rfl, filledAll_nil n⟩, fun h => absurd trivial h⟩
  | (k, .map es), n => by
    have h1 := fillEntries_does es (Node.new [] false)
    simp only [ReadableEntry]
    cases k with
    | scalar s =>
      simp only [fillEntry, keyStr, contentsEntry]
      refine ⟨fun h => ⟨(h1.1 h.2).1, filledAll_entry s (.map es) n⟩, fun h => h1.2 ?_⟩
      intro hes
      exact h ⟨⟨s, rfl⟩, hes⟩
    | null => exact ⟨fun h => by simp at h, fun _ => by simp [fillEntry, keyStr]⟩
    | seq l => exact ⟨fun h => by simp at h, fun _ => by simp [fillEntry, keyStr]⟩
    | map l => exact ⟨fun h => by simp at h, fun _ => by simp [fillEntry, keyStr]⟩
  | (k, .scalar t), n => by
    simp only [ReadableEntry]
    cases k with
    | scalar s =>
      simp only [fillEntry, keyStr, contentsEntry]
      exact ⟨fun h => ⟨rfl, filledAll_entry s (.scalar t) n⟩, fun h => absurd ⟨s, rfl⟩ h⟩
    | null => exact ⟨fun h => by simp at h, fun _ => by simp [fillEntry, keyStr]⟩
    | seq l => exact ⟨fun h => by simp at h, fun _ => by simp [fillEntry, keyStr]⟩
    | map l => exact ⟨fun h => by simp at h, fun _ => by simp [fillEntry, keyStr]⟩
  | (k, .seq l), n => by
    have hc : contentsEntry (k, .seq l) = contentsList l := by cases k <;> simp [contentsEntry]
    simp only [ReadableEntry, fillEntry, hc]
    exact fillList_does l n
theorem fillList_does : ∀ (l : List Y) (n : Node),
    Does (ReadableList l) (contentsList l) n (fillList l n)
  | [], n => by
    simp only [ReadableList, contentsList, fillList]
    exact ⟨fun _ => ⟨rfl, filledAll_nil n⟩, fun h => absurd trivial h⟩
  | y :: ys, n => by
    simp only [ReadableList, contentsList, fillList]
    have h1 := fill_does y n
    rcases hq : fill y n with ⟨n', r⟩
    rw [hq] at h1
    cases r with
    | some x =>
      refine ⟨fun h => ?_, fun _ => by simp⟩
      have := (h1.1 h.1).1
      simp at this
    | none =>
      have h2 := fillList_does ys n'
      have hok : Readable y :=
        Classical.byContradiction fun hc => h1.2 hc rfl
      refine ⟨fun h => ⟨(h2.1 h.2).1, (h1.1 h.1).2.append (h2.1 h.2).2⟩, fun h => h2.2 ?_⟩
      intro hes
      exact h ⟨hok, hes⟩
end

theorem lastEntry_mem {l : List Contrib} {k : Str} {y : Y} (h : lastEntry l k = some y) :
    Contrib.entry k y ∈ l := by
  unfold lastEntry at h
  have := List.mem_of_mem_head? h
  rw [List.mem_filterMap] at this
  obtain ⟨i, hi, he⟩ := this
  cases i with
  | item s => simp at he
  | entry k' y' =>
    simp only [Option.ite_none_right_eq_some, Option.some.injEq] at he
    obtain ⟨rfl, rfl⟩ := he
    simpa using hi

theorem lastEntry_isSome (l : List Contrib) (k : Str) :
    (lastEntry l k).isSome = true ↔ ∃ y, Contrib.entry k y ∈ l := by
  constructor
  · intro h
    obtain ⟨y, hy⟩ := Option.isSome_iff_exists.1 h
    exact ⟨y, lastEntry_mem hy⟩
  · rintro ⟨y, hy⟩
    cases hq : lastEntry l k with
    | some z => rfl
    | none =>
      unfold lastEntry at hq
      rw [List.head?_eq_none_iff, List.filterMap_eq_nil_iff] at hq
      have := hq _ (List.mem_reverse.2 hy)
      simp at this

mutual
theorem contents_readable : ∀ (y : Y), Readable y → ∀ k v, Contrib.entry k v ∈ contents y →
    Readable v ∧ ((∃ s, v = .scalar s) ∨ ∃ es, v = .map es)
  | .null, _, k, v, h => by simp [contents] at h
  | .scalar s, _, k, v, h => by simp [contents] at h
  | .seq l, _, k, v, h => by simp [contents] at h
  | .map es, hr, k, v, h => by
    rw [contents] at h
    rw [Readable] at hr
    exact contentsEntries_readable es hr k v h
theorem contentsEntries_readable : ∀ (es : List (Y × Y)), ReadableEntries es → ∀ k v,
    Contrib.entry k v ∈ contentsEntries es → Readable v ∧ ((∃ s, v = .scalar s) ∨ ∃ es, v = .map es)
  | [], _, k, v, h => by simp [contentsEntries] at h
  | e :: es, hr, k, v, h => by
    rw [contentsEntries] at h
    rw [ReadableEntries] at hr
    rcases List.mem_append.1 h with h | h
    · exact contentsEntry_readable e hr.1 k v h
    · exact contentsEntries_readable es hr.2 k v h
theorem contentsEntry_readable : ∀ (e : Y × Y), ReadableEntry e → ∀ k v,
    Contrib.entry k v ∈ contentsEntry e → Readable v ∧ ((∃ s, v = .scalar s) ∨ ∃ es, v = .map es)
  | (k', .null), hr, k, v, h => by cases k' <;> simp [contentsEntry] at h
  | (k', .scalar t), hr, k, v, h => by
    cases k' <;> simp [contentsEntry] at h
    obtain ⟨-, rfl⟩ := h
    simp [Readable]
  | (k', .map es), hr, k, v, h => by
    cases k' <;> simp [contentsEntry] at h
    obtain ⟨-, rfl⟩ := h
    rw [ReadableEntry] at hr
    exact ⟨by rw [Readable]; exact hr.2, .inr ⟨es, rfl⟩⟩
  | (k', .seq l), hr, k, v, h => by
    have hc : contentsEntry (k', .seq l) = contentsList l := by cases k' <;> simp [contentsEntry]
    rw [hc] at h
    rw [ReadableEntry] at hr
    exact contentsList_readable l hr k v h
theorem contentsList_readable : ∀ (l : List Y), ReadableList l → ∀ k v,
    Contrib.entry k v ∈ contentsList l → Readable v ∧ ((∃ s, v = .scalar s) ∨ ∃ es, v = .map es)
  | [], _, k, v, h => by simp [contentsList] at h
  | y :: ys, hr, k, v, h => by
    rw [contentsList] at h
    rw [ReadableList] at hr
    rcases List.mem_append.1 h with h | h
    · exact contents_readable y hr.1 k v h
    · exact contentsList_readable ys hr.2 k v h
end

/-- A node filled from nothing shows the contributions. -/
theorem FilledAll.shows {l : List Contrib} {n n' : Node} (hf : FilledAll l n n') (hl : n.list = [])
    (hd : n.dict = []) : Shows n' l where
  ascending := (hf.ordered (by unfold Node.Ordered; rw [hd]; exact List.Pairwise.nil)).keys
  keys k := by
    rw [mem_getKeys, hf.child, ← lastEntry_isSome]
    have : childAt n k = none := by unfold childAt; rw [hd]; rfl
    rw [this]
    cases lastEntry l k <;> simp
  scalars := by unfold Node.getList; rw [hf.list, hl]; simp

/-- What is reached by keys, in the tree and in the document. -/
theorem represents {y : Y} (hr : Readable y) {n n' : Node} (hf : FilledAll (contents y) n n')
    (hd : n.dict = []) (k : Str) (p : List Str) :
    Represents (nodeAt n' (k :: p)) (valueAt y (k :: p)) := by
  induction p generalizing y n n' k with
  | nil =>
    simp only [nodeAt, valueAt]
    rw [hf.child]
    have hnone : childAt n k = none := by unfold childAt; rw [hd]; rfl
    rw [hnone]
    cases hq : lastEntry (contents y) k with
    | none => simp [Represents]
    | some v =>
      obtain ⟨h1, h2⟩ := contents_readable y hr k v (lastEntry_mem hq)
      rcases h2 with ⟨s, rfl⟩ | ⟨es, rfl⟩
      · simp [Represents, built]
      · have hf' := ((fill_does (.map es) (Node.new [] false)).1 h1).2
        simp only [Option.bind_some, Represents]
        exact ⟨hf'.terminal, hf'.val, hf'.shows rfl rfl⟩
  | cons k' p ih =>
    rw [nodeAt, valueAt, hf.child]
    have hnone : childAt n k = none := by unfold childAt; rw [hd]; rfl
    rw [hnone]
    cases hq : lastEntry (contents y) k with
    | none => simp [Represents]
    | some v =>
      obtain ⟨h1, h2⟩ := contents_readable y hr k v (lastEntry_mem hq)
      simp only [Option.bind_some]
      rcases h2 with ⟨s, rfl⟩ | ⟨es, rfl⟩
      · simp [nodeAt, valueAt, built, leaf, childAt, Node.dict, Represents, contents, lastEntry]
      · have hf' := ((fill_does (.map es) (Node.new [] false)).1 h1).2
        exact ih h1 hf' rfl k'

/-! ### Dump -/

/-- Empty or ending with a line feed. -/
def Ended (t : Str) : Prop := t = [] ∨ t.getLast? = some '\n'

theorem Ended.append {a b : Str} (ha : Ended a) (hb : Ended b) : Ended (a ++ b) := by
  rcases hb with rfl | hb
  · simpa using ha
  · exact .inr (by rw [List.getLast?_append, hb]; rfl)

theorem ended_line (a : Str) : Ended (a ++ ['\n']) := .inr (by simp)

theorem _root_.SoDa.Spec.HasLine.after {t u line : Str} (h : HasLine t line) (hu : Ended u) :
    HasLine (u ++ t) line := by
  obtain ⟨a, b, rfl, ha⟩ := h
  exact ⟨u ++ a, b, by simp, hu.append ha⟩

theorem _root_.SoDa.Spec.HasLine.before {t line : Str} (h : HasLine t line) (u : Str) : HasLine (t ++ u) line := by
  obtain ⟨a, b, rfl, ha⟩ := h
  exact ⟨a, b ++ u, by simp, ha⟩

theorem hasLine_self (line rest : Str) : HasLine (line ++ '\n' :: rest) line :=
  ⟨[], rest, by simp, .inl rfl⟩

mutual
theorem dump_ended : ∀ (n : Node) (indent : Str), Ended (n.dump indent)
  | .mk val true l d, indent => by rw [Node.dump]; exact ended_line _
  | .mk val false l d, indent => by
    rw [Node.dump]
    refine Ended.append ?_ ?_
    · split
      · exact .inl rfl
      · exact Ended.append (.inr (by decide)) (dumpList_ended l indent)
    · split
      · exact .inl rfl
      · exact Ended.append (.inr (by decide)) (dumpDict_ended d indent)
theorem dumpList_ended : ∀ (l : List Node) (indent : Str), Ended (dumpList l indent)
  | [], _ => by rw [dumpList]; exact .inl rfl
  | v :: vs, indent => by
    rw [dumpList]
    refine Ended.append ?_ (dumpList_ended vs indent)
    split
    · exact ended_line _
    · exact dump_ended v _
theorem dumpDict_ended : ∀ (d : List (Str × Node)) (indent : Str), Ended (dumpDict d indent)
  | [], _ => by rw [dumpDict]; exact .inl rfl
  | (k, v) :: vs, indent => by
    rw [dumpDict]
    refine Ended.append ?_ (dumpDict_ended vs indent)
    split
    · rw [← List.append_assoc]; exact ended_line _
    · rw [← List.append_assoc]; exact (ended_line _).append (dump_ended v _)
end

theorem dumpDict_mem {d : List (Str × Node)} {k : Str} {v : Node} (h : (k, v) ∈ d) (indent line : Str)
    (hl : HasLine (indent ++ k ++ ":  ".toList ++
      (if v.terminal then v.val ++ "\n".toList
       else "\n".toList ++ v.dump (indent ++ "  ".toList))) line) :
    HasLine (dumpDict d indent) line := by
  induction d with
  | nil => simp at h
  | cons e d ih =>
    obtain ⟨k', v'⟩ := e
    rw [dumpDict]
    rcases List.mem_cons.1 h with h | h
    · cases h
      exact hl.before _
    · refine (ih h).after ?_
      split
      · rw [← List.append_assoc]; exact ended_line _
      · rw [← List.append_assoc]; exact (ended_line _).append (dump_ended _ _)

theorem dumpList_mem {l : List Node} {s : Str} (h : leaf s ∈ l) (indent : Str) :
    HasLine (dumpList l indent) (indent ++ s) := by
  induction l with
  | nil => simp at h
  | cons v l ih =>
    rw [dumpList]
    rcases List.mem_cons.1 h with rfl | h
    · simp only [leaf, Node.terminal, if_true, Node.val]
      have := hasLine_self (indent ++ s) (dumpList l indent)
      simpa using this
    · refine (ih h).after ?_
      split
      · exact ended_line _
      · exact dump_ended _ _

theorem dump_dict {n : Node} (hn : n.terminal = false) {k : Str} {v : Node} (h : (k, v) ∈ n.dict)
    (indent line : Str) (hl : HasLine (indent ++ k ++ ":  ".toList ++
      (if v.terminal then v.val ++ "\n".toList
       else "\n".toList ++ v.dump (indent ++ "  ".toList))) line) :
    HasLine (n.dump indent) line := by
  obtain ⟨val, t, l, d⟩ := n
  simp only [Node.terminal] at hn
  subst hn
  rw [Node.dump]
  simp only [Node.dict] at h
  have hd : d.isEmpty = false := by cases d <;> simp_all
  refine HasLine.after ?_ ?_
  · rw [hd]
    simp only [Bool.false_eq_true, if_false]
    exact (dumpDict_mem h indent line hl).after (.inr (by decide))
  · split
    · exact .inl rfl
    · exact Ended.append (.inr (by decide)) (dumpList_ended l indent)

theorem dump_item {n : Node} (hn : n.terminal = false) {s : Str} (h : leaf s ∈ n.list)
    (indent : Str) : HasLine (n.dump indent) (indent ++ s) := by
  obtain ⟨val, t, l, d⟩ := n
  simp only [Node.terminal] at hn
  subst hn
  rw [Node.dump]
  simp only [Node.list] at h
  have hd : l.isEmpty = false := by cases l <;> simp_all
  rw [hd]
  simp only [Bool.false_eq_true, if_false]
  exact ((dumpList_mem h indent).after (.inr (by decide))).before _

theorem childAt_mem {n m : Node} {k : Str} (h : childAt n k = some m) : (k, m) ∈ n.dict := by
  unfold childAt at h
  rw [Option.map_eq_some_iff] at h
  obtain ⟨e, h1, rfl⟩ := h
  have h2 := List.find?_some h1
  simp only [decide_eq_true_eq] at h2
  have h3 := List.mem_of_find?_eq_some h1
  rw [← h2]
  exact h3

/-- Two spaces per level. -/
def indentOf (depth : Nat) : Str := List.replicate (2 * depth) ' '

theorem indentOf_succ (d : Nat) : indentOf (d + 1) = indentOf d ++ "  ".toList := by
  unfold indentOf
  rw [show 2 * (d + 1) = 2 * d + 2 by omega, ← List.replicate_append_replicate]
  rfl

/-- The lines of a node reached by keys through inner nodes are lines of the whole. -/
theorem dump_below {p : List Str} {n m : Node} (h : nodeAt n p = some m)
    (hin : ∀ q m', q <+: p → nodeAt n q = some m' → m'.terminal = false) (d : Nat) (line : Str)
    (hl : HasLine (m.dump (indentOf (d + p.length))) line) : HasLine (n.dump (indentOf d)) line := by
  induction p generalizing n d with
  | nil =>
    simp only [nodeAt, Option.some.injEq] at h
    subst h
    simpa using hl
  | cons k p ih =>
    have hn : n.terminal = false := hin [] n (by simp) rfl
    simp only [nodeAt] at h
    obtain ⟨v, h1, h2⟩ := Option.bind_eq_some_iff.1 h
    have hv : v.terminal = false := hin [k] v (by simp) (by simp [nodeAt, h1])
    refine dump_dict hn (childAt_mem h1) _ _ ?_
    rw [hv]
    simp only [Bool.false_eq_true, if_false]
    rw [← List.append_assoc, ← indentOf_succ]
    refine HasLine.after (ih h2 ?_ (d + 1) ?_) (ended_line _)
    · intro q m' hq hm
      exact hin (k :: q) m' (by simpa using hq) (by simp [nodeAt, h1, hm])
    · rw [show d + 1 + p.length = d + (k :: p).length by simp; omega]
      exact hl

end SoDa.Prop
