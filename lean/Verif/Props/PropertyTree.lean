import Verif.Proof.PropertyTreeAll
import Verif.Proof.OptionsText
import Verif.Props.Split
/-!
Properties C52-C55 and C59-C63: property trees.

`Ref.root n` is the pointer to the root node of a tree, `Ref.child r m` a pointer to a node `m` one
level below `r`.
-/
namespace SoDa.Prop
open Spec

/-! ### Paths -/

theorem split_path {ks : List Str} (h : Writable ks) : split (pathOf ks) ":".toList = .ok ks :=
  C04_split_join ':' ":".toList ks (by decide) (by decide) h.some_key h.last
    (fun t ht x hx hx' => by
      have : x = ':' := by simpa using hx'
      exact h.colon t ht (this ▸ hx)) h.spaces

theorem mapFind_isSome (n : Node) (k : Str) :
    (mapFind strLess k n.dict).isSome = true ↔ k ∈ n.getKeys := by
  rw [mem_getKeys, childAt_eq]

theorem getPropRecursive_all (r : Ref) (orig : Str) (t : Bool) (ks : List Str)
    (h : ∀ k ∈ ks, k ∈ r.node.getKeys) : getPropRecursive r orig t ks = .ok (some r) := by
  induction ks with
  | nil => rfl
  | cons k ks ih =>
    rw [getPropRecursive, if_pos ((mapFind_isSome _ _).2 (h k (by simp)))]
    exact ih fun k hk => h k (by simp [hk])

theorem getPropRecursive_missing (r : Ref) (orig : Str) (t : Bool) (ks : List Str)
    (h : ∃ k ∈ ks, k ∉ r.node.getKeys) : getPropRecursive r orig t ks =
      if t then .throw (.notFound orig) else .ok none := by
  induction ks with
  | nil => simp at h
  | cons k ks ih =>
    rw [getPropRecursive]
    by_cases hk : (mapFind strLess k r.node.dict).isSome = true
    · rw [if_pos hk]
      apply ih
      obtain ⟨k', h1, h2⟩ := h
      rcases List.mem_cons.1 h1 with rfl | h1
      · exact absurd ((mapFind_isSome _ _).1 hk) h2
      · exact ⟨k', h1, h2⟩
    · rw [if_neg hk]

theorem writable_one {k : Str} (h0 : k ≠ []) (h1 : ':' ∉ k) (h2 : k.head? ≠ some ' ')
    (h3 : k.getLast? ≠ some ' ') (h4 : ¬ ∃ a b, k = a ++ ' ' :: ' ' :: b) : Writable [k] where
  some_key := by simp
  last := by simpa using h0
  colon := by simpa using h1
  spaces := by simpa using ⟨h2, h3, fun a b hab => h4 ⟨a, b, hab⟩⟩

/-- `{a: x, b: y}` read into a new tree. -/
def sampleDoc : Y := .map [(.scalar "b".toList, .scalar "y".toList),
  (.scalar "a".toList, .scalar "x".toList)]

def sampleTree : Node := (readFile newTree (.doc sampleDoc)).1

theorem sampleTree_eq : sampleTree = .mk "root".toList false []
    [("a".toList, leaf "x".toList), ("b".toList, leaf "y".toList)] := by
  simp [sampleTree, readFile, fill, fillEntries, fillEntry, sampleDoc, keyStr, newTree, Node.new,
    Node.set, Node.val, Node.terminal, Node.list, Node.dict, mapSet, strLess, leaf]

/-! ## C52  path lookup -/

/-- The intention: the node at the path is found. -/
def C52_claim : Prop := ∀ (root m : Node) (ks : List Str) (t : Bool), Writable ks →
  nodeAt root ks = some m → ∃ r, getProp (Ref.root root) (pathOf ks) t = .ok (some r) ∧ r.node = m

/-- What holds: every component of an existing one-component path is found, in the sense that
neither `nullptr` is returned nor an exception thrown; and `getProp` returns the node it is called
on exactly if every component is a key of that node.  Missing: that the node returned is the one
at the path. -/
theorem C52_lookup_partial (r : Ref) (ks : List Str) (t : Bool) (h : Writable ks) :
    getProp r (pathOf ks) t = .ok (some r) ↔ ∀ k ∈ ks, k ∈ r.node.getKeys := by
  unfold getProp
  rw [split_path h]
  constructor
  · intro hg
    apply Classical.byContradiction
    intro hn
    have : ∃ k ∈ ks, k ∉ r.node.getKeys := by
      apply Classical.byContradiction
      intro hc
      exact hn fun k hk => Classical.byContradiction fun hk' => hc ⟨k, hk, hk'⟩
    have h2 := getPropRecursive_missing r (pathOf ks) t ks this
    simp only [h2] at hg
    cases t <;> simp at hg
  · exact getPropRecursive_all r _ t ks

/-- The lookup never descends: the only node ever returned is the one the search began at. -/
theorem getProp_self (r r' : Ref) (path : Str) (t : Bool) (h : getProp r path t = .ok (some r')) :
    r' = r := by
  unfold getProp at h
  cases hs : split path ":".toList with
  | ok l =>
    rw [hs] at h
    simp only at h
    by_cases hm : ∃ k ∈ l, k ∉ r.node.getKeys
    · rw [getPropRecursive_missing r path t l hm] at h
      cases t <;> simp at h
    · have : ∀ k ∈ l, k ∈ r.node.getKeys := fun k hk => Classical.byContradiction fun hk' =>
        hm ⟨k, hk, hk'⟩
      rw [getPropRecursive_all r path t l this] at h
      simpa using h.symm
  | throw e => rw [hs] at h; simp at h
  | ub => rw [hs] at h; simp at h

theorem childAt_size {n m : Node} {k : Str} (h : childAt n k = some m) : sizeOf m < sizeOf n := by
  have h1 := childAt_mem h
  obtain ⟨val, t, l, d⟩ := n
  simp only [Node.dict] at h1
  have h2 := List.sizeOf_lt_of_mem h1
  have h3 : sizeOf (k, m) = 1 + sizeOf k + sizeOf m := rfl
  have h4 : sizeOf (Node.mk val t l d) = 1 + sizeOf val + sizeOf t + sizeOf l + sizeOf d := by simp
  omega

theorem nodeAt_size {n m : Node} {ks : List Str} (h : nodeAt n ks = some m) (hne : ks ≠ []) :
    sizeOf m < sizeOf n := by
  induction ks generalizing n with
  | nil => exact absurd rfl hne
  | cons k ks ih =>
    simp only [nodeAt] at h
    obtain ⟨v, h1, h2⟩ := Option.bind_eq_some_iff.1 h
    have h3 := childAt_size h1
    cases ks with
    | nil => simp only [nodeAt, Option.some.injEq] at h2; subst h2; exact h3
    | cons k' ks => exact Nat.lt_trans (ih h2 (by simp)) h3

/-- The claim fails at every path of every tree: the node at the path is never returned. -/
theorem C52_refuted_always (root m : Node) (ks : List Str) (t : Bool) (hw : Writable ks)
    (hm : nodeAt root ks = some m) :
    ¬ ∃ r, getProp (Ref.root root) (pathOf ks) t = .ok (some r) ∧ r.node = m := by
  rintro ⟨r, h1, h2⟩
  have h3 := getProp_self _ _ _ _ h1
  subst h3
  have := nodeAt_size hm hw.some_key
  rw [← h2] at this
  exact Nat.lt_irrefl _ this

theorem writable_a : Writable ["a".toList] :=
  writable_one (by decide) (by decide) (by decide) (by decide) (by
    rintro ⟨a, b, h⟩
    have := congrArg List.length h
    simp at this
    omega)

/-- In `{a: x, b: y}` the path `a` leads to a node with the value `x`, but `get` reads `root`. -/
theorem C52_refuted : ¬ C52_claim ∧
    (nodeAt sampleTree ["a".toList]).map Node.val = some "x".toList ∧
    get strTy sampleTree "a".toList = .ok (some "root".toList) := by
  have h1 : nodeAt sampleTree ["a".toList] = some (leaf "x".toList) := by
    rw [sampleTree_eq]; rfl
  refine ⟨?_, ?_, ?_⟩
  · intro h
    exact C52_refuted_always _ _ _ false writable_a h1 (h sampleTree _ _ false writable_a h1)
  · rw [h1]; rfl
  · have h2 := (C52_lookup_partial (Ref.root sampleTree) ["a".toList] false writable_a).2 (by
      rw [sampleTree_eq]; simp [Ref.root, Node.getKeys, Node.dict])
    have h3 : pathOf ["a".toList] = "a".toList := rfl
    rw [h3] at h2
    unfold get
    rw [h2, sampleTree_eq]
    decide

/-! ## C53  missing paths -/

/-- The intention: a path that leads nowhere is reported. -/
def C53_claim : Prop := ∀ (V : Type) (T : Ty V) (root : Node) (ks : List Str) (t : Bool),
  Writable ks → nodeAt root ks = none → get T root (pathOf ks) t = .throw (.notFound (pathOf ks))

/-- What holds, at every node: paths with a component that is not a key of the node itself are
reported, by `nullptr` or `PropertyNotFound` according to the flag.  Missing: paths whose
components are all keys of the node, though they do not lead anywhere. -/
theorem C53_missing_partial (r : Ref) (ks : List Str) (h : Writable ks)
    (hm : ∃ k ∈ ks, k ∉ r.node.getKeys) :
    getProp r (pathOf ks) false = .ok none ∧
    getProp r (pathOf ks) true = .throw (.notFound (pathOf ks)) := by
  unfold getProp
  rw [split_path h]
  exact ⟨getPropRecursive_missing r _ false ks hm, getPropRecursive_missing r _ true ks hm⟩

/-- `get` then throws whatever the flag. -/
theorem C53_get_partial {V : Type} (T : Ty V) (root : Node) (ks : List Str) (t : Bool)
    (h : Writable ks) (hm : ∃ k ∈ ks, k ∉ root.getKeys) :
    get T root (pathOf ks) t = .throw (.notFound (pathOf ks)) := by
  have := C53_missing_partial (Ref.root root) ks h hm
  unfold get
  cases t
  · rw [this.1]
  · rw [this.2]

/-- In particular, paths of one component behave as intended. -/
theorem C53_one_component {V : Type} (T : Ty V) (root : Node) (k : Str) (t : Bool)
    (h : Writable [k]) (hm : nodeAt root [k] = none) :
    get T root (pathOf [k]) t = .throw (.notFound (pathOf [k])) := by
  refine C53_get_partial T root [k] t h ⟨k, by simp, ?_⟩
  rw [mem_getKeys]
  cases hc : childAt root k with
  | none => simp
  | some m => simp [nodeAt, hc] at hm

theorem writable_ab : Writable ["a".toList, "b".toList] where
  some_key := by simp
  last := by decide
  colon := by decide
  spaces := by
    intro k hk
    have hl : k.length = 1 := by
      rcases List.mem_cons.1 hk with rfl | hk
      · rfl
      · have := List.mem_singleton.1 hk; subst this; rfl
    refine ⟨?_, ?_, ?_⟩
    · rcases List.mem_cons.1 hk with rfl | hk
      · decide
      · have := List.mem_singleton.1 hk; subst this; decide
    · rcases List.mem_cons.1 hk with rfl | hk
      · decide
      · have := List.mem_singleton.1 hk; subst this; decide
    · rintro ⟨a, b, rfl⟩
      simp at hl
      omega

/-- `{a: x, b: y}` has nothing at `a:b`, but `get` reads `root` there. -/
theorem C53_refuted : ¬ C53_claim ∧ nodeAt sampleTree ["a".toList, "b".toList] = none ∧
    get strTy sampleTree "a:b".toList true = .ok (some "root".toList) := by
  have h1 : nodeAt sampleTree ["a".toList, "b".toList] = none := by rw [sampleTree_eq]; rfl
  have h2 : get strTy sampleTree "a:b".toList true = .ok (some "root".toList) := by
    have h2 := (C52_lookup_partial (Ref.root sampleTree) ["a".toList, "b".toList] true
      writable_ab).2 (by rw [sampleTree_eq]; simp [Ref.root, Node.getKeys, Node.dict])
    have h3 : pathOf ["a".toList, "b".toList] = "a:b".toList := rfl
    rw [h3] at h2
    unfold get
    rw [h2, sampleTree_eq]
    decide
  refine ⟨?_, h1, h2⟩
  intro h
  have h4 := h Str strTy sampleTree _ true writable_ab h1
  have h5 : get strTy sampleTree "a:b".toList true = .throw (.notFound "a:b".toList) := h4
  rw [h2] at h5
  simp at h5

/-- A blank path is undefined behaviour, not an exception. -/
theorem C53_blank_refuted {V : Type} (T : Ty V) (root : Node) (path : Str) (t : Bool)
    (h : ∀ c ∈ path, c = ' ') : get T root path t = .ub := by
  have h1 : split path ":".toList = .ub := by
    unfold split
    rw [(C02_squash_ub_iff path).2 h]
    rfl
  unfold get getProp
  rw [h1]

example : get intTy sampleTree "c".toList = .throw (.notFound "c".toList) :=
  C53_one_component intTy sampleTree "c".toList false
    (writable_one (by decide) (by decide) (by decide) (by decide) (by
      rintro ⟨a, b, h⟩
      have := congrArg List.length h
      simp at this
      omega)) (by rw [sampleTree_eq]; rfl)

/-! ## C54, C55  reading documents -/

/-- Nested maps with scalar leaves: what is reached by a path in the tree is what is reached by it
in the document; dictionaries have the keys of the map, ascending, each once. -/
theorem C54_maps (es : List (Y × Y)) (h : Nested (.map es)) :
    ∃ root, readFile newTree (.doc (.map es)) = (root, .normal) ∧
      ∀ p, Mirrors (nodeAt root p) (docAt (.map es) p) := by
  obtain ⟨n', h1, h2⟩ := plain_well h.plain es rfl newTree
  exact ⟨n', by simp [readFile, fill, h1], mirrors h.plain rfl h2 rfl rfl rfl⟩

/-- The same with sequences of scalars: they become the list of the node that holds the map. -/
theorem C55_sequences (es : List (Y × Y)) (h : Plain (.map es)) :
    ∃ root, readFile newTree (.doc (.map es)) = (root, .normal) ∧
      ∀ p, Mirrors (nodeAt root p) (docAt (.map es) p) := by
  obtain ⟨n', h1, h2⟩ := plain_well h es rfl newTree
  exact ⟨n', by simp [readFile, fill, h1], mirrors h rfl h2 rfl rfl rfl⟩

/-- `test/test1.yaml` -/
def test1 : List (Y × Y) := [
  (.scalar "FLINTSTONE".toList, .map [(.scalar "FRED".toList, .scalar "guy".toList),
    (.scalar "WILMA".toList, .scalar "gal".toList),
    (.scalar "PEBBLES".toList, .scalar "girl".toList)]),
  (.scalar "RUBBLE".toList, .map [(.scalar "BARNEY".toList, .scalar "guy".toList),
    (.scalar "BETTY".toList, .scalar "gal".toList),
    (.scalar "BAMBAM".toList, .scalar "boy".toList)]),
  (.scalar "NUMBERS".toList, .seq (["1".toList, "2".toList, "3".toList].map .scalar))]

theorem test1_plain : Plain (.map test1) := by
  unfold test1
  refine .map _ (by simp) ?_
  intro e he
  simp only [List.mem_cons, List.not_mem_nil, or_false] at he
  rcases he with rfl | rfl | rfl
  · refine .map _ (by simp) ?_
    intro e he
    simp only [List.mem_cons, List.not_mem_nil, or_false] at he
    rcases he with rfl | rfl | rfl <;> exact .scalar _
  · refine .map _ (by simp) ?_
    intro e he
    simp only [List.mem_cons, List.not_mem_nil, or_false] at he
    rcases he with rfl | rfl | rfl <;> exact .scalar _
  · exact .seq _

/-- In the tree for `test/test1.yaml`: a scalar two levels down, and the list at the root. -/
example : ∃ root, readFile newTree (.doc (.map test1)) = (root, .normal) ∧
    nodeAt root ["RUBBLE".toList, "BETTY".toList] = some (leaf "gal".toList) ∧
    nodeAt root ["NUMBERS".toList] = none ∧
    root.getList = [leaf "1".toList, leaf "2".toList, leaf "3".toList] := by
  obtain ⟨root, h1, h2⟩ := C55_sequences _ test1_plain
  refine ⟨root, h1, ?_, ?_, ?_⟩
  · have h := h2 ["RUBBLE".toList, "BETTY".toList]
    have hd : docAt (.map test1) ["RUBBLE".toList, "BETTY".toList] = some (.scalar "gal".toList) := by
      rfl
    rw [hd] at h
    cases hn : nodeAt root ["RUBBLE".toList, "BETTY".toList] with
    | none => rw [hn] at h; exact absurd h (by simp [Mirrors])
    | some m => rw [hn] at h; simp only [Mirrors] at h; rw [h]
  · have h := h2 ["NUMBERS".toList]
    have hd : docAt (.map test1) ["NUMBERS".toList] = none := by
      rfl
    rw [hd] at h
    cases hn : nodeAt root ["NUMBERS".toList] with
    | none => rfl
    | some m => rw [hn] at h; exact absurd h (by simp [Mirrors])
  · have h : StandsFor root test1 := h2 []
    rw [h.scalars]
    rfl

/-- A tree for which the hypotheses of C54 hold and duplicate keys occur. -/
example : Nested (.map [(.scalar "k".toList, .scalar "1".toList),
    (.scalar "k".toList, .map [(.scalar "x".toList, .scalar "2".toList)])]) := by
  refine .map _ (by simp) ?_
  intro e he
  simp only [List.mem_cons, List.not_mem_nil, or_false] at he
  rcases he with rfl | rfl
  · exact .scalar _
  · refine .map _ (by simp) ?_
    intro e he
    simp only [List.mem_singleton] at he
    subst he
    exact .scalar _

/-! ## C62  documents in general -/

/-- Reading ends normally exactly for the readable documents; an exception of yaml-cpp otherwise. -/
theorem C62_normal_iff (root : Node) (y : Y) :
    (readFile root (.doc y)).2 = .normal ↔ Readable y := by
  have h := fill_does y root
  simp only [readFile]
  rcases hq : fill y root with ⟨n, r⟩
  rw [hq] at h
  constructor
  · intro hn
    apply Classical.byContradiction
    intro hc
    cases r with
    | none => exact h.2 hc rfl
    | some e => simp at hn
  · intro hr
    have := (h.1 hr).1
    simp only at this
    rw [this]

/-- The tree for every readable document: the root has the contributed scalars as its list and the
contributed keys, ascending, each once; below, what is reached by a path stands for what is
reached by it in the document. -/
theorem C62_tree (y : Y) (h : Readable y) :
    ∃ root, readFile newTree (.doc y) = (root, .normal) ∧ root.val = "root".toList ∧
      root.terminal = false ∧ Shows root (contents y) ∧
      ∀ k p, Represents (nodeAt root (k :: p)) (valueAt y (k :: p)) := by
  obtain ⟨h1, h2⟩ := (fill_does y newTree).1 h
  refine ⟨(fill y newTree).1, ?_, h2.val, h2.terminal, h2.shows rfl rfl, represents h h2 rfl⟩
  simp only [readFile]
  rcases hq : fill y newTree with ⟨n, r⟩
  rw [hq] at h1
  simp only at h1
  rw [h1]

/-- `{l: [1, {a: x}, 2], a: y, n: null}`: the map within the sequence goes to the root itself. -/
def mixedDoc : Y := .map [(.scalar "l".toList, .seq [.scalar "1".toList,
    .map [(.scalar "c".toList, .scalar "x".toList)], .scalar "2".toList]),
  (.scalar "a".toList, .scalar "y".toList), (.scalar "n".toList, .null)]

example : Readable mixedDoc ∧ items (contents mixedDoc) = ["1".toList, "2".toList] ∧
    lastEntry (contents mixedDoc) "c".toList = some (.scalar "x".toList) ∧
    lastEntry (contents mixedDoc) "n".toList = none := by
  refine ⟨?_, ?_, ?_, ?_⟩ <;>
    simp [mixedDoc, Readable, ReadableEntries, ReadableEntry, ReadableList, contents, items,
      lastEntry, contentsEntries, contentsEntry, contentsList]

/-- A sequence within a sequence stops the reading; what precedes it in the map stays. -/
theorem C62_stops (root : Node) (es es' : List (Y × Y)) (k a : Y) (l l' : List Y)
    (h : ReadableEntries es) :
    readFile root (.doc (.map (es ++ (k, .seq (.seq (a :: l) :: l')) :: es'))) =
      ((readFile root (.doc (.map es))).1, .yaml .invalidNode) := by
  have h2 : ∀ n, fillEntries ((k, .seq (.seq (a :: l) :: l')) :: es') n = (n, some .invalidNode) := by
    intro n
    have : fillEntry (k, .seq (.seq (a :: l) :: l')) n = (n, some .invalidNode) := by
      simp [fillEntry, fillList, fill]
    rw [fillEntries, this]
  have h3 : ∀ (es : List (Y × Y)) n, ReadableEntries es →
      fillEntries (es ++ (k, .seq (.seq (a :: l) :: l')) :: es') n =
        ((fillEntries es n).1, some .invalidNode) := by
    intro es
    induction es with
    | nil => intro n _; rw [List.nil_append, h2]; simp [fillEntries]
    | cons e es ih =>
      intro n hr
      rw [ReadableEntries] at hr
      rw [List.cons_append, fillEntries, fillEntries]
      have h1 := ((fillEntry_does e n).1 hr.1).1
      rcases hq : fillEntry e n with ⟨n', r⟩
      rw [hq] at h1
      simp only at h1
      subst h1
      exact ih n' hr.2
  have h4 : (readFile root (.doc (.map es))).1 = (fillEntries es root).1 := by
    simp only [readFile, fill]
    rcases fillEntries es root with ⟨n, r⟩
    cases r <;> rfl
  rw [h4]
  simp only [readFile, fill]
  rw [h3 es root h]

/-- A sequence at the top is not read at all. -/
theorem C62_top_sequence (root : Node) (a : Y) (l : List Y) :
    readFile root (.doc (.seq (a :: l))) = (root, .yaml .invalidNode) := by
  simp [readFile, fill]

/-! ## C59  reading a second file -/

/-- Reading another file into a tree: keys of the new document are as if it were the only one
(also below: dictionaries are replaced, not merged), other keys are as before, and the list is
continued. -/
theorem C59_second_file (root : Node) (y : Y) (h : Readable y) :
    ∃ root', readFile root (.doc y) = (root', .normal) ∧
      root'.val = root.val ∧ root'.terminal = root.terminal ∧
      root'.getList = root.getList ++ (readFile newTree (.doc y)).1.getList ∧
      (∀ k p, (∃ v, Contrib.entry k v ∈ contents y) →
        nodeAt root' (k :: p) = nodeAt (readFile newTree (.doc y)).1 (k :: p)) ∧
      (∀ k p, (¬ ∃ v, Contrib.entry k v ∈ contents y) →
        nodeAt root' (k :: p) = nodeAt root (k :: p)) := by
  obtain ⟨h1, h2⟩ := (fill_does y root).1 h
  obtain ⟨h3, h4⟩ := (fill_does y newTree).1 h
  have hr : ∀ n, (fill y n).2 = none → readFile n (.doc y) = ((fill y n).1, .normal) := by
    intro n hn
    simp only [readFile]
    rcases hq : fill y n with ⟨n', r⟩
    rw [hq] at hn
    simp only at hn
    rw [hn]
  refine ⟨(fill y root).1, hr _ h1, h2.val, h2.terminal, ?_, ?_, ?_⟩
  · rw [hr _ h3]
    unfold Node.getList
    rw [h2.list, h4.list]
    simp [newTree, Node.new, Node.list]
  · intro k p hk
    rw [hr _ h3]
    simp only [nodeAt]
    rw [h2.child, h4.child]
    obtain ⟨v, hv⟩ := Option.isSome_iff_exists.1 ((lastEntry_isSome _ _).2 hk)
    rw [hv]
  · intro k p hk
    simp only [nodeAt]
    rw [h2.child]
    have : lastEntry (contents y) k = none := by
      cases hq : lastEntry (contents y) k with
      | none => rfl
      | some v => exact absurd ((lastEntry_isSome _ _).1 (by rw [hq]; rfl)) hk
    rw [this]

/-- `{a: x, b: y}` followed by `{a: {c: z}}`. -/
example : ∃ root', readFile sampleTree (.doc (.map [(.scalar "a".toList,
      .map [(.scalar "c".toList, .scalar "z".toList)])])) = (root', .normal) ∧
    nodeAt root' ["a".toList, "c".toList] = some (leaf "z".toList) ∧
    nodeAt root' ["b".toList] = some (leaf "y".toList) := by
  obtain ⟨r, h1, -, -, -, h2, h3⟩ := C59_second_file sampleTree (.map [(.scalar "a".toList,
      .map [(.scalar "c".toList, .scalar "z".toList)])]) (by simp [Readable, ReadableEntries, ReadableEntry])
  refine ⟨r, h1, ?_, ?_⟩
  · rw [h2 _ _ ⟨_, by simp [contents, contentsEntries, contentsEntry]; rfl⟩]
    simp [readFile, fill, fillEntries, fillEntry, keyStr, nodeAt, childAt_set, newTree, leaf,
      Node.new]
  · rw [h3 _ _ (by simp [contents, contentsEntries, contentsEntry]), sampleTree_eq]
    rfl

/-- A file that cannot be opened is reported and leaves the tree alone. -/
theorem C59_file_not_found (root : Node) (what : Str) :
    readFile root (.badFile what) = (root, .fileNotFound what) := rfl

/-! ## C60  exception texts -/

/-- The intention: `BadPropertyType` tells the type. -/
def C60_claim : Prop := ∀ p t v, ∃ a b, (Err.badType p t v).what = .ok (a ++ t ++ b)

/-- What holds, for all strings.  Missing: the type in the text of `BadPropertyType`. -/
theorem C60_texts_partial (p t v : Str) :
    (Err.fileNotFound p).what = .ok ("PropertyTree::PropNode::FileNotFound \"".toList ++ p ++ ['"']) ∧
    (Err.notFound p).what =
      .ok ("PropertyTree::PropNode::PropertyNotFound \"".toList ++ p ++ ['"']) ∧
    (Err.badType p t v).what = .ok ("PropertyTree::PropNode::BadPropertyType at node name \"".toList
      ++ p ++ "\" with value string \"".toList ++ v ++
      "\" which cannot be converted to type \"2\"".toList) := by
  have hs : Fmt.mk' "PropertyTree::PropNode::FileNotFound \"%0\"".toList =
      ⟨"PropertyTree::PropNode::FileNotFound \"%0\"".toList,
       [.lit "PropertyTree::PropNode::FileNotFound \"".toList, .fld 0, .lit ['"']], 0⟩ := by decide
  have hs' : Fmt.mk' "PropertyTree::PropNode::PropertyNotFound \"%0\"".toList =
      ⟨"PropertyTree::PropNode::PropertyNotFound \"%0\"".toList,
       [.lit "PropertyTree::PropNode::PropertyNotFound \"".toList, .fld 0, .lit ['"']], 0⟩ := by
    decide
  have hs'' : Fmt.mk' ("PropertyTree::PropNode::BadPropertyType at node name \"%0\" with " ++
      "value string \"%1\" which cannot be converted to type \"2\"").toList =
      ⟨("PropertyTree::PropNode::BadPropertyType at node name \"%0\" with " ++
        "value string \"%1\" which cannot be converted to type \"2\"").toList,
       [.lit "PropertyTree::PropNode::BadPropertyType at node name \"".toList, .fld 0,
        .lit "\" with value string \"".toList, .fld 1,
        .lit "\" which cannot be converted to type \"2\"".toList], 0⟩ := by decide +kernel
  refine ⟨?_, ?_, ?_⟩
  · simp only [Err.what, Err.what.render, hs]
    simp [Fmt.calls, Fmt.call, Fmt.addS, textS, Fmt.str, Fmt.insertField, Fmt.assemble, u32]
  · simp only [Err.what, Err.what.render, hs']
    simp [Fmt.calls, Fmt.call, Fmt.addS, textS, Fmt.str, Fmt.insertField, Fmt.assemble, u32]
  · simp only [Err.what, Err.what.render, hs'']
    simp [Fmt.calls, Fmt.call, Fmt.addS, textS, Fmt.str, Fmt.insertField, Fmt.assemble, u32]

/-- The text is the same for all types. -/
theorem C60_refuted : ¬ C60_claim := by
  intro h
  obtain ⟨a, b, hab⟩ := h [] ['#'] []
  rw [(C60_texts_partial [] ['#'] []).2.2] at hab
  simp only [Res.ok.injEq] at hab
  have : '#' ∈ ("PropertyTree::PropNode::BadPropertyType at node name \"".toList
      ++ [] ++ "\" with value string \"".toList ++ [] ++
      "\" which cannot be converted to type \"2\"".toList) := by
    rw [hab]; simp
  revert this
  decide

/-- The path name consists of the values on the way, not of the keys. -/
theorem C60_path_name (r : Ref) (m : Node) :
    (Ref.root m).getPathName = [] ∧ (r.child m).getPathName = r.getPathName ++ ':' :: m.val := by
  refine ⟨rfl, ?_⟩
  simp [Ref.getPathName, Ref.child]

/-! ## C61  values -/

theorem strTy_read (s : Str) : strTy.read s =
    if ((s.dropWhile Opts.isSpace).takeWhile (fun c => !Opts.isSpace c)).isEmpty then none
    else some ((s.dropWhile Opts.isSpace).takeWhile (fun c => !Opts.isSpace c)) := rfl

/-- `get<std::string>` reads the first word of the value. -/
theorem C61_string (r : Ref) (t : Bool) :
    (∀ w, FirstWord r.node.val w → r.get strTy t = .ok (some w)) ∧
    ((¬ ∃ w, FirstWord r.node.val w) → r.get strTy false = .ok none ∧
      r.get strTy true = .throw (.badType r.getPathName strTy.name r.node.val)) := by
  constructor
  · rintro w ⟨ws, rest, h1, h2, h3, h4, h5⟩
    have hd : (ws ++ w ++ rest).dropWhile Opts.isSpace = w ++ rest := by
      rw [List.append_assoc, Opts.dropWhile_append_all _ _ _
        (fun x hx => (Opts.isSpace_iff x).2 (h2 x hx))]
      obtain ⟨c, w', rfl⟩ := List.exists_cons_of_ne_nil h3
      have : Opts.isSpace c = false := by
        cases hq : Opts.isSpace c with
        | false => rfl
        | true => exact absurd ((Opts.isSpace_iff c).1 hq) (h4 c (by simp))
      simp [this]
    have ht : (w ++ rest).takeWhile (fun c => !Opts.isSpace c) = w := by
      rw [List.takeWhile_append_of_pos]
      · have : rest.takeWhile (fun c => !Opts.isSpace c) = [] := by
          cases rest with
          | nil => rfl
          | cons c rest =>
            have := (Opts.isSpace_iff c).2 (h5 c rfl)
            simp [this]
        rw [this]; simp
      · intro c hc
        cases hq : Opts.isSpace c with
        | false => rfl
        | true => exact absurd ((Opts.isSpace_iff c).1 hq) (h4 c hc)
    unfold Ref.get
    have hr : strTy.read r.node.val = some w := by
      rw [strTy_read, h1, hd, ht]
      cases w with
      | nil => exact absurd rfl h3
      | cons c w => rfl
    rw [hr]
  · intro h
    have hr : strTy.read r.node.val = none := by
      rw [strTy_read]
      split
      · rfl
      · rename_i hne
        exfalso
        apply h
        refine ⟨_, r.node.val.takeWhile Opts.isSpace,
          (r.node.val.dropWhile Opts.isSpace).dropWhile (fun c => !Opts.isSpace c), ?_, ?_,
          by simpa using hne, ?_, ?_⟩
        · rw [List.append_assoc, List.takeWhile_append_dropWhile, List.takeWhile_append_dropWhile]
        · intro c hc
          exact (Opts.isSpace_iff c).1 (Opts.mem_takeWhile hc)
        · intro c hc hw
          have := Opts.mem_takeWhile hc
          rw [(Opts.isSpace_iff c).2 hw] at this
          simp at this
        · intro c hc
          have := List.head?_dropWhile_not (fun c => !Opts.isSpace c)
            (r.node.val.dropWhile Opts.isSpace)
          rw [hc] at this
          exact (Opts.isSpace_iff c).1 (by simpa using this)
    unfold Ref.get
    rw [hr]
    simp

/-- `get<int>` reads the integer the value begins with, if it is in range. -/
theorem C61_int (r : Ref) (t : Bool) :
    (∀ n : Int, BeginsWithInt r.node.val n → -2147483648 ≤ n → n ≤ 2147483647 →
      r.get intTy t = .ok (some n)) ∧
    ((¬ ∃ n : Int, BeginsWithInt r.node.val n ∧ -2147483648 ≤ n ∧ n ≤ 2147483647) →
      r.get intTy false = .ok none ∧
      r.get intTy true = .throw (.badType r.getPathName "i".toList r.node.val)) := by
  constructor
  · intro n h1 h2 h3
    have := (Opts.extractInt_good_iff r.node.val n).2 ⟨h1, h2, h3⟩
    unfold Ref.get
    simp [intTy, this]
  · intro h
    have hr : intTy.read r.node.val = none := by
      cases hq : Opts.extractInt r.node.val with
      | good n => exact absurd ⟨n, (Opts.extractInt_good_iff _ _).1 hq⟩ h
      | _ => simp [intTy, hq]
    unfold Ref.get
    rw [hr]
    simp [intTy]

example : (Ref.root (leaf " -12 abc".toList)).get intTy = .ok (some (-12)) := by decide
example : (Ref.root (leaf "one two".toList)).get strTy = .ok (some "one".toList) := by decide
example : ((Ref.root newTree).child (leaf "x".toList)).get intTy true =
    .throw (.badType ":x".toList "i".toList "x".toList) := by decide

/-! ## C63  dump -/

theorem inner_above {root : Node} {y : Y} (h : ∀ k p, Represents (nodeAt root (k :: p)) (valueAt y (k :: p)))
    (ht : root.terminal = false) {p : List Str} {m : Node} (hm : nodeAt root p = some m) {k : Str}
    (hk : (childAt m k).isSome = true ∨ m.terminal = false) : m.terminal = false := by
  cases p with
  | nil => simp only [nodeAt, Option.some.injEq] at hm; subst hm; exact ht
  | cons k' p =>
    rcases hk with hk | hk
    · have h1 := h k' p
      rw [hm] at h1
      cases hv : valueAt y (k' :: p) with
      | none => rw [hv] at h1; exact absurd h1 (by simp [Represents])
      | some v =>
        rw [hv] at h1
        cases v with
        | scalar s =>
          simp only [Represents] at h1
          rw [h1] at hk
          simp [childAt, leaf, Node.dict] at hk
        | map es => exact h1.1
        | null => exact absurd h1 (by simp [Represents])
        | seq l => exact absurd h1 (by simp [Represents])
    · exact hk

theorem nodeAt_append (n : Node) (p q : List Str) :
    nodeAt n (p ++ q) = (nodeAt n p).bind fun m => nodeAt m q := by
  induction p generalizing n with
  | nil => simp [nodeAt]
  | cons k p ih =>
    simp only [List.cons_append, nodeAt]
    cases childAt n k with
    | none => rfl
    | some v => simp [ih]

/-- After reading a document every scalar under a key is a line of the dump: two spaces for each
level, the key, a colon, two spaces, and the scalar. -/
theorem C63_key_lines (y : Y) (hr : Readable y) (p : List Str) (k s : Str)
    (h : valueAt y (p ++ [k]) = some (.scalar s)) :
    HasLine ((readFile newTree (.doc y)).1.dump [])
      (List.replicate (2 * p.length) ' ' ++ k ++ ":  ".toList ++ s) := by
  obtain ⟨root, h1, -, h3, -, h5⟩ := C62_tree y hr
  rw [h1]
  have h6 : nodeAt root (p ++ [k]) = some (leaf s) := by
    obtain ⟨k', p', hp⟩ : ∃ k' p', p ++ [k] = k' :: p' := by cases p <;> simp
    have h7 := h5 k' p'
    rw [← hp, h] at h7
    cases hn : nodeAt root (p ++ [k]) with
    | none => rw [hn] at h7; exact absurd h7 (by simp [Represents])
    | some m => rw [hn] at h7; simp only [Represents] at h7; rw [h7]
  rw [nodeAt_append] at h6
  obtain ⟨m, h7, h8⟩ := Option.bind_eq_some_iff.1 h6
  simp only [nodeAt] at h8
  obtain ⟨v, h9, h10⟩ := Option.bind_eq_some_iff.1 h8
  simp only [Option.some.injEq] at h10
  subst h10
  refine dump_below h7 ?_ 0 _ ?_
  · intro q m' hq hm'
    obtain ⟨t, ht⟩ := hq
    rw [← ht] at h7
    rw [nodeAt_append, hm'] at h7
    simp only [Option.bind_some] at h7
    cases t with
    | nil =>
      simp only [nodeAt, Option.some.injEq] at h7
      subst h7
      exact inner_above h5 h3 hm' (.inl (by rw [h9]; rfl))
    | cons k' t =>
      simp only [nodeAt] at h7
      obtain ⟨v, hv, -⟩ := Option.bind_eq_some_iff.1 h7
      exact inner_above h5 h3 hm' (.inl (by rw [hv]; rfl))
  · refine dump_dict (inner_above h5 h3 h7 (.inl (by rw [h9]; rfl))) (childAt_mem h9) _ _ ?_
    have := hasLine_self (indentOf (0 + p.length) ++ k ++ ":  ".toList ++ s) []
    simpa [leaf, Node.terminal, Node.val, indentOf] using this

/-- And every list item is a line of the dump, indented according to the level. -/
theorem C63_item_lines (y : Y) (hr : Readable y) (p : List Str) (es : List (Y × Y)) (s : Str)
    (h : valueAt y p = some (.map es)) (hs : Contrib.item s ∈ contents (.map es)) :
    HasLine ((readFile newTree (.doc y)).1.dump [])
      (List.replicate (2 * p.length) ' ' ++ s) := by
  obtain ⟨root, h1, -, h3, h4, h5⟩ := C62_tree y hr
  rw [h1]
  have hsi : s ∈ items (contents (.map es)) := by
    unfold items
    rw [List.mem_filterMap]
    exact ⟨_, hs, rfl⟩
  have h6 : ∃ m, nodeAt root p = some m ∧ m.terminal = false ∧ leaf s ∈ m.list := by
    cases p with
    | nil =>
      simp only [valueAt, Option.some.injEq] at h
      subst h
      refine ⟨root, rfl, h3, ?_⟩
      have := h4.scalars
      unfold Node.getList at this
      rw [this]
      exact List.mem_map.2 ⟨s, hsi, rfl⟩
    | cons k p =>
      have h7 := h5 k p
      rw [h] at h7
      cases hn : nodeAt root (k :: p) with
      | none => rw [hn] at h7; exact absurd h7 (by simp [Represents])
      | some m =>
        rw [hn] at h7
        refine ⟨m, rfl, h7.1, ?_⟩
        have := h7.2.2.scalars
        unfold Node.getList at this
        rw [this]
        exact List.mem_map.2 ⟨s, hsi, rfl⟩
  obtain ⟨m, h7, h8, h9⟩ := h6
  refine dump_below h7 ?_ 0 _ ?_
  · intro q m' hq hm'
    obtain ⟨t, ht⟩ := hq
    rw [← ht] at h7
    rw [nodeAt_append, hm'] at h7
    simp only [Option.bind_some] at h7
    cases t with
    | nil =>
      simp only [nodeAt, Option.some.injEq] at h7
      subst h7
      exact h8
    | cons k' t =>
      simp only [nodeAt] at h7
      obtain ⟨v, hv, -⟩ := Option.bind_eq_some_iff.1 h7
      exact inner_above h5 h3 hm' (.inl (by rw [hv]; rfl))
  · rw [Nat.zero_add]
    exact dump_item h8 h9 _

/-- The complete text for a node whose list and dictionary contain leaves only. -/
theorem C63_flat (val : Str) (l : List Str) (d : List (Str × Str)) (indent : Str) :
    (Node.mk val false (l.map leaf) (d.map fun e => (e.1, leaf e.2))).dump indent =
      (if l = [] then [] else "<<<PROPLIST>>>\n".toList ++
        l.flatMap fun s => indent ++ s ++ ['\n']) ++
      (if d = [] then [] else "<<<DICTIONARY>>>\n".toList ++
        d.flatMap fun e => indent ++ e.1 ++ ":  ".toList ++ e.2 ++ ['\n']) := by
  have h1 : dumpList (l.map leaf) indent = l.flatMap fun s => indent ++ s ++ ['\n'] := by
    induction l with
    | nil => simp [dumpList]
    | cons s l ih => simp [dumpList, ih, leaf, Node.terminal, Node.val]
  have h2 : dumpDict (d.map fun e => (e.1, leaf e.2)) indent =
      d.flatMap fun e => indent ++ e.1 ++ ":  ".toList ++ e.2 ++ ['\n'] := by
    induction d with
    | nil => simp [dumpDict]
    | cons e d ih =>
      rw [List.map_cons, dumpDict, ih]
      simp [leaf, Node.terminal, Node.val]
  rw [Node.dump, h1, h2]
  cases l <;> cases d <;> simp

example : sampleTree.dump [] = "<<<DICTIONARY>>>\na:  x\nb:  y\n".toList := by
  rw [sampleTree_eq]
  exact C63_flat _ [] [("a".toList, "x".toList), ("b".toList, "y".toList)] []

end SoDa.Prop
