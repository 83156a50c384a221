import Verif.Proof.PropertyAlloc
import Verif.Props.PropertyHeap
/-!
Properties C121 and C122: reading files into property trees when memory runs out.
-/
namespace SoDa.PropAlloc
open SoDa.Prop SoDa.PropMem Spec

/-! ### Examples -/

/-- `{a: {b: x}, l: [u, v]}` -/
def exLow : Y := .map [(.scalar "a".toList, .map [(.scalar "b".toList, .scalar "x".toList)]),
  (.scalar "l".toList, .seq [.scalar "u".toList, .scalar "v".toList])]

/-- An empty tree. -/
def exLow0 : St := ({ mem := [⟨none, "root".toList, false, [], []⟩], root := fun _ => none } : St).setRoot 0 (some 0)

theorem exLow0_reach : Reach [(.make 0, 1)] exLow0 := Reach.snoc (c := .make 0) (left := 1) Reach.init rfl

theorem exLow0_shows : ShowsTree exLow0 0 newTree := ⟨0, [0], rfl, .mk rfl .nil .nil (by decide)⟩

/-- The nodes when the second element of the sequence has been created but could not be put into the list. -/
def exLowMem : Mem :=
  [⟨none, "root".toList, false, [3], [("a".toList, 1)]⟩,
   ⟨some 0, [], false, [], [("b".toList, 2)]⟩,
   ⟨some 1, "x".toList, true, [], []⟩,
   ⟨some 0, "u".toList, true, [], []⟩,
   ⟨some 0, "v".toList, true, [], []⟩]

theorem exLow_fails : exec exLow0 15 (.read 0 (.doc exLow)) = some ({ exLow0 with mem := exLowMem }, .badAlloc) := rfl

/-! ## C121  Reading a file when memory runs out -/

/-- Whatever has failed before, a variable leads to exactly one tree. -/
theorem C121_one_tree {cs s} (h : Reach cs s) (i : Nat) (hi : s.root i ≠ none) : ∃! n, ShowsTree s i n := by
  obtain ⟨r, hr⟩ := Option.ne_none_iff_exists'.1 hi
  obtain ⟨n, fp, hh⟩ := (reach_fit h).tree i r hr
  refine ⟨n, ⟨r, fp, hr, hh⟩, ?_⟩
  rintro n' ⟨r', fp', hr', hh'⟩
  rw [hr] at hr'; cases hr'
  exact (hh'.unique hh).2.1

example : ∃ cs s, Reach cs s ∧ (∃ c left s0, exec s0 left c = some (s, .badAlloc)) ∧ s.root 0 ≠ none :=
  ⟨_, _, exLow0_reach.snoc exLow_fails, ⟨_, _, _, exLow_fails⟩, by decide⟩

/-- `i.readFile(filename)` does what it does with enough memory, or throws `std::bad_alloc`.  Then the tree is the one that the
beginning of the document gives, up to some place; at most one node has been created and belongs to no tree.  In both cases
the trees of objects that do not share their nodes with `i` stay as they are. -/
theorem C121_read {cs s} (h : Reach cs s) (i : Nat) (n : Node) (hi : ShowsTree s i n) (f : Load) (left : Nat) :
    ∃ s' out, exec s left (.read i f) = some (s', out) ∧ s'.root = s.root ∧
      (∀ j k, ¬ Shares s i j → ShowsTree s j k → ShowsTree s' j k) ∧
      ((out = .done (Prop.readFile n f).2 ∧ ShowsTree s' i (Prop.readFile n f).1) ∨
        (out = .badAlloc ∧ ∃ y y', f = .doc y ∧ Initial y' y ∧ Readable y' ∧ ShowsTree s' i (Prop.readFile n (.doc y')).1 ∧
          ∃ lost ≤ 1, s'.mem.length = s.mem.length + nodesOf y' + lost)) := by
  obtain ⟨r, fp, hr, hh⟩ := hi
  obtain ⟨m', out, h1, h2⟩ := readFile_cut f hh left
  have key : ∀ n', Filled s.mem none r fp m' n' → ShowsTree { s with mem := m' } i n' ∧
      ∀ j k, ¬ Shares s i j → ShowsTree s j k → ShowsTree { s with mem := m' } j k := by
    intro n' hf
    obtain ⟨fp', h3, -⟩ := hf.holds
    refine ⟨⟨r, fp', hr, h3⟩, ?_⟩
    rintro j k hs ⟨q, fq, hq, hk⟩
    exact ⟨q, fq, hq, hf.other hk ((reach_fit h).apart i j r q n k fp fq hr hq
      (fun e => hs ⟨by simp [hr], by rw [hr, hq, e]⟩) hh hk r (Holds_root_mem hh))⟩
  refine ⟨{ s with mem := m' }, out, by simp [exec, hr, h1], rfl, ?_⟩
  rcases h2 with ⟨h2, h3⟩ | ⟨h2, y, y', h4, h5, h6, h3, h7⟩
  · exact ⟨(key _ h3).2, .inl ⟨h2, (key _ h3).1⟩⟩
  · exact ⟨(key _ h3).2, .inr ⟨h2, y, y', h4, h5, h6, by rw [Initial.readFile_fst]; exact (key _ h3).1, h7⟩⟩

example : ∃ n s', ShowsTree exLow0 0 n ∧ exec exLow0 15 (.read 0 (.doc exLow)) = some (s', .badAlloc) ∧ s'.mem.length = 5 :=
  ⟨_, _, exLow0_shows, exLow_fails, rfl⟩

/-- Some number of requests is enough for a document, and with fewer than that the reading fails. -/
theorem C121_enough (s : St) (i : Nat) (n : Node) (hi : ShowsTree s i n) (y : Y) :
    ∃ N, ∀ left, (left < N ↔ ∃ s', exec s left (.read i (.doc y)) = some (s', .badAlloc)) := by
  obtain ⟨r, fp, hr, hh⟩ := hi
  obtain ⟨N, hN⟩ := fill_threshold y r s.mem
  refine ⟨N, fun left => ⟨fun hl => ?_, fun ⟨s', hs⟩ => ?_⟩⟩
  · obtain ⟨m', h1⟩ := (hN left).1 hl
    exact ⟨{ s with mem := m' }, by simp [exec, hr, readFile, h1]⟩
  · by_contra hl
    have h1 := (hN left).2 (by omega)
    obtain ⟨m', h2, -⟩ := fill_spec y hh
    rw [h2] at h1
    rcases hE : (Prop.fill y n).2 with _ | e <;> rw [hE] at h1 <;> simp [exec, hr, readFile, h1] at hs

/-- How many that is for `exLow`. -/
example : (∃ s', exec exLow0 17 (.read 0 (.doc exLow)) = some (s', .badAlloc)) ∧
    ∃ s', exec exLow0 18 (.read 0 (.doc exLow)) = some (s', .done .normal) := ⟨⟨_, rfl⟩, ⟨_, rfl⟩⟩

/-- If memory runs out in a constructor there is no object; the others stay as they are. -/
theorem C121_construct (s : St) (i : Nat) (hi : s.root i = none) (c : Cmd)
    (hc : c = .make i ∨ ∃ f, c = .load i f) (left : Nat) :
    ∃ s' out, exec s left c = some (s', out) ∧ (∀ j k, ShowsTree s j k → ShowsTree s' j k) ∧
      (out = .badAlloc → s'.root = s.root) := by
  have new : ∀ (m' : Mem) (r : Nat), (∀ q < s.mem.length, m'[q]? = s.mem[q]?) → ∀ j k, ShowsTree s j k →
      ShowsTree { s with mem := m' } j k ∧ ShowsTree (({ s with mem := m' } : St).setRoot i (some r)) j k := by
    rintro m' r hm j k ⟨q, fq, hq, hk⟩
    have hk' : Holds m' none q k fq := hk.frame fun x hx => hm x (hk.valid x hx)
    have hj : j ≠ i := by rintro rfl; simp [hi] at hq
    exact ⟨⟨q, fq, hq, hk'⟩, ⟨q, fq, by simpa [St.setRoot, hj] using hq, hk'⟩⟩
  rcases hc with rfl | ⟨f, rfl⟩
  · cases left with
    | zero => exact ⟨s, .badAlloc, by simp [exec, hi], fun _ _ h => h, fun _ => rfl⟩
    | succ left =>
      simp only [exec, if_pos hi]
      exact ⟨_, _, rfl, fun j k hj => (new _ _ (fun q hq => getElem?_alloc_lt _ _ _ _ hq) j k hj).2, by simp⟩
  · cases left with
    | zero => exact ⟨s, .badAlloc, by simp [exec, hi], fun _ _ h => h, fun _ => rfl⟩
    | succ left =>
      obtain ⟨m', out, h1, h2, h3⟩ := load_cut s f left
      simp only [exec, if_pos hi, h1]
      rcases h3 with ⟨rfl, -⟩ | rfl
      · cases ho : (Prop.readFile newTree f).2 <;> simp only
        · exact ⟨_, _, rfl, fun j k hj => (new m' _ h2 j k hj).2, by simp⟩
        all_goals exact ⟨_, _, rfl, fun j k hj => (new m' 0 h2 j k hj).1, by simp⟩
      · exact ⟨_, _, rfl, fun j k hj => (new m' 0 h2 j k hj).1, fun _ => rfl⟩

example : ∃ s', exec exLow0 7 (.load 1 (.doc exLow)) = some (s', .badAlloc) := ⟨_, rfl⟩

/-! ## C122  Trying again -/

/-- When a reading has failed for lack of memory, it can be done again: the tree is then what it would have been. -/
def C122_claim : Prop :=
  ∀ (cs : List (Cmd × Nat)) (s : St) (i : Nat) (n : Node) (y : Y) (left left' : Nat) (s1 s2 : St), Reach cs s →
    ShowsTree s i n → exec s left (.read i (.doc y)) = some (s1, .badAlloc) →
    exec s1 left' (.read i (.doc y)) = some (s2, .done .normal) → ShowsTree s2 i (Prop.readFile n (.doc y)).1

/-- Both readings. -/
theorem again {cs s} (h : Reach cs s) (i : Nat) (n : Node) (y : Y) (left left' : Nat) (s1 s2 : St)
    (hi : ShowsTree s i n) (h1 : exec s left (.read i (.doc y)) = some (s1, .badAlloc))
    (h2 : exec s1 left' (.read i (.doc y)) = some (s2, .done .normal)) :
    n.Ordered ∧ Readable y ∧ ∃ y', Initial y' y ∧ Readable y' ∧ ShowsTree s1 i (Prop.fill y' n).1 ∧
      ShowsTree s2 i (Prop.fill y (Prop.fill y' n).1).1 := by
  obtain ⟨s', out, h3, -, -, h4⟩ := C121_read h i n hi (.doc y) left
  rw [h1] at h3; cases h3
  rcases h4 with ⟨h4, -⟩ | ⟨-, y0, y', e, h5, h6, h7, -⟩
  · cases h4
  cases e
  obtain ⟨s', out, h3, -, -, h8⟩ := C121_read (h.snoc h1) i _ h7 (.doc y) left'
  rw [h2] at h3; cases h3
  rcases h8 with ⟨h8, h9⟩ | ⟨h8, -⟩
  · rw [Initial.readFile_fst, Initial.readFile_fst] at h9
    rw [Initial.readFile_fst] at h7
    exact ⟨(reach_fit h).sorted i n hi, (C62_normal_iff _ y).1 (by simpa using h8.symm), y', h5, h6, h7, h9⟩
  · cases h8

/-- What holds: below every key the tree is what it would have been, and so are value and kind of the root.  Missing: the
list of the root has once more, in front, what had been put into it when memory ran out. -/
theorem C122_again_partial {cs s} (h : Reach cs s) (i : Nat) (n : Node) (y : Y) (left left' : Nat) (s1 s2 : St)
    (hi : ShowsTree s i n) (h1 : exec s left (.read i (.doc y)) = some (s1, .badAlloc))
    (h2 : exec s1 left' (.read i (.doc y)) = some (s2, .done .normal)) :
    ∃ t1 t2, ShowsTree s1 i t1 ∧ ShowsTree s2 i t2 ∧
      (∀ k p, nodeAt t2 (k :: p) = nodeAt (Prop.readFile n (.doc y)).1 (k :: p)) ∧
      (∀ k, k ∈ t2.getKeys ↔ k ∈ (Prop.readFile n (.doc y)).1.getKeys) ∧ t2.val = n.val ∧ t2.terminal = n.terminal ∧
      ∃ l, t1.getList = n.getList ++ l ∧ (Prop.readFile n (.doc y)).1.getList = n.getList ++ (items (contents y)).map leaf ∧
        t2.getList = n.getList ++ l ++ (items (contents y)).map leaf := by
  obtain ⟨-, hy, y', h3, h4, h5, h6⟩ := again h i n y left left' s1 s2 hi h1 h2
  obtain ⟨a1, a2, a3⟩ := fill_again h3 h4 hy n
  have f1 := ((fill_does y' n).1 h4).2
  have f2 := ((fill_does y (Prop.fill y' n).1).1 hy).2
  rw [Initial.readFile_fst]
  refine ⟨_, _, h5, h6, fun k p => by simp [nodeAt, a1], fun k => by rw [mem_getKeys, mem_getKeys, a1],
    f2.val.trans f1.val, f2.terminal.trans f1.terminal, _, f1.list, a3, a2⟩

/-- Exactly when trying again is right: if nothing had been put into the list of the root. -/
theorem C122_again_exact {cs s} (h : Reach cs s) (i : Nat) (n : Node) (y : Y) (left left' : Nat) (s1 s2 : St)
    (hi : ShowsTree s i n) (h1 : exec s left (.read i (.doc y)) = some (s1, .badAlloc))
    (h2 : exec s1 left' (.read i (.doc y)) = some (s2, .done .normal)) :
    ShowsTree s2 i (Prop.readFile n (.doc y)).1 ↔ ∃ t1, ShowsTree s1 i t1 ∧ t1.getList = n.getList := by
  obtain ⟨ho, hy, y', h3, h4, h5, h6⟩ := again h i n y left left' s1 s2 hi h1 h2
  obtain ⟨a1, a2, a3⟩ := fill_again h3 h4 hy n
  have f1 := ((fill_does y' n).1 h4).2
  have f2 := ((fill_does y (Prop.fill y' n).1).1 hy).2
  have f := ((fill_does y n).1 hy).2
  have uniq : ∀ {s : St} {a b : Node}, ShowsTree s i a → ShowsTree s i b → a = b := by
    rintro s a b ⟨r, fp, hr, ha⟩ ⟨r', fp', hr', hb⟩
    rw [hr] at hr'; cases hr'
    exact (ha.unique hb).2.1
  rw [Initial.readFile_fst]
  constructor
  · intro hs
    have := congrArg Node.list (uniq hs h6)
    rw [a2, a3, List.append_assoc, List.append_cancel_left_eq] at this
    have hz : (items (contents y')).map leaf = [] := by
      have := congrArg List.length this
      simp only [List.length_append] at this
      exact List.length_eq_zero_iff.1 (by omega)
    exact ⟨_, h5, by show (Prop.fill y' n).1.list = n.list; rw [f1.list, hz, List.append_nil]⟩
  · rintro ⟨t1, ht, hl⟩
    cases uniq ht h5
    have hz : (items (contents y')).map leaf = [] := by
      have hl : (Prop.fill y' n).1.list = n.list := hl
      rw [f1.list] at hl
      simpa using hl
    have : (Prop.fill y (Prop.fill y' n).1).1 = (Prop.fill y n).1 :=
      node_ext (f2.ordered (f1.ordered ho)) (f.ordered ho) (by rw [f2.val, f1.val, f.val])
        (by rw [f2.terminal, f1.terminal, f.terminal]) (by rw [a2, a3, hz, List.append_nil]) a1
    rwa [← this]

/-- Both cases occur: with the 7th request failing nothing is in the list yet, with the 16th there is. -/
theorem C122_refuted : ¬ C122_claim := by
  intro hc
  have h2 : ∃ s2, exec { exLow0 with mem := exLowMem } 18 (.read 0 (.doc exLow)) = some (s2, .done .normal) := ⟨_, rfl⟩
  obtain ⟨s2, h2⟩ := h2
  have h := hc _ exLow0 0 newTree exLow 15 18 _ s2 exLow0_reach exLow0_shows exLow_fails h2
  obtain ⟨t1, h3, h4⟩ := (C122_again_exact exLow0_reach 0 newTree exLow 15 18 _ s2 exLow0_shows exLow_fails h2).1 h
  obtain ⟨r, fp, hr, hh⟩ := h3
  cases hr
  rcases t1 with ⟨v, t, l, d⟩
  cases h4
  cases hh with
  | mk hcell hl hd hn =>
    have : some (_ : Cell) = some _ := hcell
    cases this
    cases hl

example : ∃ s1 s2, exec exLow0 6 (.read 0 (.doc exLow)) = some (s1, .badAlloc) ∧
    exec s1 18 (.read 0 (.doc exLow)) = some (s2, .done .normal) ∧ ∃ t1, ShowsTree s1 0 t1 ∧ t1.getList = newTree.getList :=
  ⟨_, _, rfl, rfl, .mk "root".toList false [] [("a".toList, .mk [] false [] [])],
    ⟨0, [0, 1], rfl, .mk rfl .nil (.cons (.mk rfl .nil .nil (by decide)) .nil) (by decide)⟩, rfl⟩

end SoDa.PropAlloc
