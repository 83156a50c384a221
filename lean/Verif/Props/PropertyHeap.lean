import Verif.Proof.PropertyHeap
import Verif.Props.PropertyTree
/-!
Properties C92-C94: property trees as what they are in memory, nodes that are created with `new`, hold pointers to their
children and to their parent, and are never deleted.

`ShowsTree s i n`: in memory, the variable `i` leads to the tree `n`, with all the pointers to parents as they should be and
without a node that occurs twice.
-/
namespace SoDa.PropMem
open SoDa.Prop Spec

/-! ### Examples -/

/-- `{a: {b: x}}` -/
def exDoc : Y := .map [(.scalar "a".toList, .map [(.scalar "b".toList, .scalar "x".toList)])]
/-- `{c: y}` -/
def exDoc2 : Y := .map [(.scalar "c".toList, .scalar "y".toList)]
/-- The nodes that `exDoc` is turned into. -/
def exMem : Mem :=
  [⟨none, "root".toList, false, [], [("a".toList, 1)]⟩,
   ⟨some 0, [], false, [], [("b".toList, 2)]⟩,
   ⟨some 1, "x".toList, true, [], []⟩]
/-- A state with two variables that have the same nodes, and its program. -/
def exProg : List Cmd := [.make 0, .read 0 (.doc exDoc), .copy 1 0]
def exState : St := { mem := exMem, root := fun i => if i = 1 then some 0 else if i = 0 then some 0 else none }
/-- The tree there. -/
def exTree : Node :=
  .mk "root".toList false [] [("a".toList, .mk [] false [] [("b".toList, .mk "x".toList true [] [])])]

theorem exState_reach : Reach exProg exState := by
  have h1 := Reach.snoc (c := .make 0) Reach.init rfl
  have h2 := Reach.snoc (c := .read 0 (.doc exDoc)) h1 rfl
  exact Reach.snoc (c := .copy 1 0) h2 rfl

theorem exState_holds : Holds exState.mem none 0 exTree [0, 1, 2] :=
  .mk rfl .nil (.cons (.mk rfl .nil (.cons (.mk rfl .nil .nil (by decide)) .nil) (by decide)) .nil) (by decide)

theorem exState_shows : ShowsTree exState 1 exTree := ⟨0, [0, 1, 2], rfl, exState_holds⟩

/-! ## C92  The pointers -/

/-- Whatever the program did before, a variable leads to exactly one tree. -/
theorem C92_one_tree {cs s} (h : Reach cs s) (i : Nat) (hi : s.root i ≠ none) : ∃! n, ShowsTree s i n := by
  obtain ⟨r, hr⟩ := Option.ne_none_iff_exists'.1 hi
  obtain ⟨n, fp, hh⟩ := (reach_good h).tree i r hr
  refine ⟨n, ⟨r, fp, hr, hh⟩, ?_⟩
  rintro n' ⟨r', fp', hr', hh'⟩
  rw [hr] at hr'; cases hr'
  exact (hh'.unique hh).2.1

example : ∃ cs s, Reach cs s ∧ s.root 1 ≠ none := ⟨_, _, exState_reach, by simp [exState]⟩

/-- Variables have the same root, or no node in common. -/
theorem C92_separate {cs s} (h : Reach cs s) (i j : Nat) (r r' : Ptr) (n n' : Node) (fp fp' : List Ptr)
    (hi : s.root i = some r) (hj : s.root j = some r') (hs : ¬ Shares s i j) (hr : Holds s.mem none r n fp)
    (hr' : Holds s.mem none r' n' fp') : ∀ x ∈ fp, x ∉ fp' :=
  (reach_good h).apart i j r r' n n' fp fp' hi hj
    (fun e => hs ⟨by simp [hi], by rw [hi, hj, e]⟩) hr hr'

/-- `PropertyTreeYAML i;`: an empty tree; the others stay as they are. -/
theorem C92_make {cs s} (h : Reach cs s) (i : Nat) (hi : s.root i = none) :
    ∃ s', exec s (.make i) = some (s', .normal) ∧ ShowsTree s' i newTree ∧
      (∀ j n, ShowsTree s j n → ShowsTree s' j n) ∧ ∀ j, ¬ Shares s' i j ∨ j = i := by
  have g := reach_good h
  simp only [exec, if_pos hi]
  refine ⟨_, rfl, ⟨s.mem.length, _, by simp [St.setRoot], holds_root _⟩, ?_, ?_⟩
  · rintro j n ⟨r, fp, hr, hh⟩
    refine ⟨r, fp, ?_, hh.frame fun q hq => getElem?_alloc_lt _ _ _ _ (hh.valid q hq)⟩
    have : j ≠ i := by rintro rfl; simp [hi] at hr
    simpa [St.setRoot, this] using hr
  · intro j
    by_cases e : j = i
    · exact .inr e
    · left
      rintro ⟨-, h2⟩
      simp [St.setRoot, e] at h2
      obtain ⟨n, fp, hh⟩ := g.tree j _ h2.symm
      exact absurd hh.lt (Nat.lt_irrefl _)

/-- `PropertyTreeYAML i(filename);`: if the reading ends normally there is a variable with the tree of the file; otherwise
the exception comes out and there is no variable.  The others stay as they are. -/
theorem C92_load (s : St) (i : Nat) (hi : s.root i = none) (f : Load) :
    ∃ s', exec s (.load i f) = some (s', (Prop.readFile newTree f).2) ∧
      ((Prop.readFile newTree f).2 = .normal → ShowsTree s' i (Prop.readFile newTree f).1) ∧
      ((Prop.readFile newTree f).2 ≠ .normal → s'.root i = none) ∧
      ∀ j n, ShowsTree s j n → ShowsTree s' j n := by
  obtain ⟨m', h1, h2, h3, fp, h4, h5⟩ := load_spec s f
  have other : ∀ j n, ShowsTree s j n → ∃ r fp, s.root j = some r ∧ j ≠ i ∧ Holds m' none r n fp := by
    rintro j n ⟨r, fp, hr, hh⟩
    exact ⟨r, fp, hr, by rintro rfl; simp [hi] at hr, hh.frame fun q hq => h3 q (hh.valid q hq)⟩
  cases ho : (Prop.readFile newTree f).2 <;> rw [ho] at h1 <;> simp only [exec, if_pos hi, h1]
  · refine ⟨_, rfl, fun _ => ⟨s.mem.length, fp, by simp [St.setRoot], h4⟩, by simp, fun j n hj => ?_⟩
    obtain ⟨r, fp, hr, hne, hh⟩ := other j n hj
    exact ⟨r, fp, by simpa [St.setRoot, hne] using hr, hh⟩
  all_goals
    refine ⟨_, rfl, by simp, fun _ => hi, fun j n hj => ?_⟩
    obtain ⟨r, fp, hr, hne, hh⟩ := other j n hj
    exact ⟨r, fp, hr, hh⟩

example : St.init.root 0 = none ∧ (Prop.readFile newTree (.doc exDoc)).2 = .normal := ⟨rfl, rfl⟩

/-- `i.readFile(filename);` is always defined; it ends as in C52-C63, and the variable leads to the tree that is described
there. -/
theorem C92_read {cs s} (h : Reach cs s) (i : Nat) (n : Node) (hi : ShowsTree s i n) (f : Load) :
    ∃ s', exec s (.read i f) = some (s', (Prop.readFile n f).2) ∧ ShowsTree s' i (Prop.readFile n f).1 ∧
      ∀ j k, ¬ Shares s i j → ShowsTree s j k → ShowsTree s' j k := by
  obtain ⟨r, fp, hr, hh⟩ := hi
  obtain ⟨m', h1, h2⟩ := exec_read hr hh f
  obtain ⟨fp', h3, -⟩ := h2.holds
  refine ⟨_, h1, ⟨r, fp', hr, h3⟩, ?_⟩
  rintro j k hs ⟨q, fq, hq, hk⟩
  exact ⟨q, fq, hq, h2.other hk
    (C92_separate h i j r q n k fp fq hr hq hs hh hk r (Holds_root_mem hh))⟩

example : ∃ n s', ShowsTree exState 0 n ∧ exec exState (.read 0 (.doc exDoc2)) = some (s', .normal) :=
  ⟨exTree, _, ⟨0, _, rfl, exState_holds⟩, rfl⟩

/-- Copying, assigning and the end of a life change no tree. -/
theorem C92_others (s : St) (c : Cmd) (s' : St) (out : ReadOut) (he : exec s c = some (s', out))
    (hc : ∀ i f, c ≠ .read i f ∧ c ≠ .load i f ∧ c ≠ .make i) (j : Nat) (n : Node) (hj : LeavesVar j c)
    (h : ShowsTree s j n) : ShowsTree s' j n := by
  obtain ⟨r, fp, hr, hh⟩ := h
  cases c with
  | make i => exact absurd rfl (hc i .otherError).2.2
  | load i f => exact absurd rfl (hc i f).2.1
  | read i f => exact absurd rfl (hc i f).1
  | copy a b =>
    simp only [exec] at he
    split at he
    · next ha _ =>
      cases he
      have : j ≠ a := by rintro rfl; simp [ha] at hr
      exact ⟨r, fp, by simpa [St.setRoot, this] using hr, hh⟩
    · cases he
  | assign a b =>
    simp only [exec] at he
    split at he
    · cases he
      have : j ≠ a := fun e => hj e.symm
      exact ⟨r, fp, by simpa [St.setRoot, this] using hr, hh⟩
    · cases he
  | destroy a =>
    simp only [exec] at he
    split at he
    · cases he
    · cases he
      have : j ≠ a := fun e => hj e.symm
      exact ⟨r, fp, by simpa [St.setRoot, this] using hr, hh⟩

example : LeavesVar 1 (.destroy 0) ∧ exec exState (.destroy 0) ≠ none := ⟨by simp [LeavesVar], by simp [exec, exState]⟩

/-- Every node of the tree can be reached by pointers, and those lead to nothing else: at each one are the value, the kind,
as many list entries and the same keys. -/
theorem C92_nodes {m : Mem} {p : Ptr} {n : Node} {fp : List Ptr} (hp : Holds m none p n fp) {q : Ptr} {r : Ref}
    (h : Below m p n q r) :
    ∃ c, m[q]? = some c ∧ c.val = r.node.val ∧ c.terminal = r.node.terminal ∧ c.list.length = r.node.list.length ∧
      c.dict.map (·.1) = r.node.getKeys := by
  obtain ⟨⟨par, f, h1, -⟩, -⟩ := below_holds hp h
  rcases hr : r.node with ⟨v, t, l, d⟩
  rw [hr] at h1
  cases h1 with
  | mk hc hl hd hn => exact ⟨_, hc, rfl, rfl, hl.length, by simpa [Node.getKeys, Node.dict] using hd.keys⟩

/-- `getPathName` follows the pointers to the parents and ends, with the values from the root down. -/
theorem C92_path_name {m : Mem} {p : Ptr} {n : Node} {fp : List Ptr} (hp : Holds m none p n fp) {q : Ptr} {r : Ref}
    (h : Below m p n q r) (calls : Nat) (hc : r.above.length < calls) :
    getPathName m calls q = some r.getPathName :=
  (below_holds hp h).2 calls hc

/-- `get<T>` of a node. -/
theorem C92_node_get {V : Type} (T : Ty V) {m : Mem} {p : Ptr} {n : Node} {fp : List Ptr} (hp : Holds m none p n fp)
    {q : Ptr} {r : Ref} (h : Below m p n q r) (calls : Nat) (hc : r.above.length < calls) (throwEx : Bool) :
    nodeGet T calls m q throwEx = r.get T throwEx := by
  obtain ⟨⟨par, f, h1, -⟩, h2⟩ := below_holds hp h
  exact nodeGet_spec T r h1 calls (h2 calls hc) throwEx

/-- The node with the value `x`, two levels down. -/
example : Below exMem 0 exTree 2 ⟨[[], "x".toList], .mk "x".toList true [] []⟩ := by
  have h1 : Below exMem 0 exTree 1 _ := .dict (i := 0) (k := "a".toList) .root rfl rfl rfl
  exact .dict (i := 0) (k := "b".toList) h1 rfl rfl rfl

example : Holds exMem none 0 exTree [0, 1, 2] := exState_holds

/-- `getProp` on a node: as in C53-C55; if a node is found, then the pointer is the one to the node that was asked. -/
theorem C92_getProp {m : Mem} {p : Ptr} {n : Node} {fp : List Ptr} (hp : Holds m none p n fp) {q : Ptr} {r : Ref}
    (h : Below m p n q r) (path : Str) (throwEx : Bool) :
    getProp m q path throwEx = (Prop.getProp r path throwEx).map fun o => o.map fun _ => q := by
  obtain ⟨⟨par, f, h1, -⟩, -⟩ := below_holds hp h
  exact getProp_spec r h1 path throwEx

/-- `get<T>(path)` on a tree. -/
theorem C92_get {V : Type} (T : Ty V) (s : St) (i : Nat) (n : Node) (hi : ShowsTree s i n) (path : Str) (throwEx : Bool) :
    ∃ r, s.root i = some r ∧ get T 1 s.mem r path throwEx = Prop.get T n path throwEx := by
  obtain ⟨r, fp, hr, hh⟩ := hi
  refine ⟨r, hr, ?_⟩
  have hb : Below s.mem r n r (Ref.root n) := .root
  unfold get Prop.get
  rw [C92_getProp hh hb]
  cases hg : Prop.getProp (Ref.root n) path throwEx with
  | ok o =>
    cases o with
    | none => rfl
    | some r' =>
      rw [getProp_self _ _ _ _ hg]
      exact C92_node_get T hh hb 1 (by simp [Ref.root]) throwEx
  | throw e => rfl
  | ub => rfl

/-- `dump` ends, nested no deeper than there are nodes, and writes the text of C63. -/
theorem C92_dump (s : St) (i : Nat) (n : Node) (hi : ShowsTree s i n) (indent : Str) :
    ∃ r, s.root i = some r ∧ ∀ calls, s.mem.length ≤ calls → dump s.mem calls r indent = some (n.dump indent) := by
  obtain ⟨r, fp, hr, hh⟩ := hi
  exact ⟨r, hr, fun calls hc => dump_spec hh calls (le_trans hh.length_le hc) indent⟩

example : ∃ n, ShowsTree exState 1 n := ⟨_, exState_shows⟩

/-! ## C93  Copies -/

/-- Copies of a tree object are independent: reading a file into one leaves the other alone. -/
def C93_claim : Prop :=
  ∀ (cs : List Cmd) (s : St) (i j : Nat) (n : Node) (f : Load) (s' : St) (out : ReadOut), Reach cs s → i ≠ j →
    ShowsTree s j n → exec s (.read i f) = some (s', out) → ShowsTree s' j n

/-- A copy, and a variable after an assignment, have the nodes of the other one, -/
theorem C93_same (s : St) (i j : Nat) (s' : St) (out : ReadOut)
    (he : exec s (.copy i j) = some (s', out) ∨ exec s (.assign i j) = some (s', out)) : Shares s' i j := by
  have key : ∀ r, s.root j = some r → Shares (s.setRoot i (some r)) i j := by
    intro r hr
    refine ⟨by simp [St.setRoot], ?_⟩
    simp only [St.setRoot, if_true]
    split
    · rfl
    · exact hr.symm
  rcases he with he | he <;> simp only [exec] at he <;> split at he
  · next hj => cases he; exact key _ hj
  · cases he
  · next hj => cases he; exact key _ hj
  · cases he

/-- and keep them as long as both variables live and are not assigned to, -/
theorem C93_stays {s cs s'} (h : Later s cs s') (i j : Nat) (hs : Shares s i j)
    (hc : ∀ c ∈ cs, LeavesVar i c ∧ LeavesVar j c) : Shares s' i j := by
  have stay : ∀ (s : St) (c : Cmd) (s' : St) (out : ReadOut) (i : Nat), exec s c = some (s', out) → LeavesVar i c →
      s.root i ≠ none → s'.root i = s.root i := by
    intro s c s' out i he hl hi
    cases c with
    | make a =>
      simp only [exec] at he
      split at he
      · next ha =>
        cases he
        have : i ≠ a := by rintro rfl; exact hi ha
        simp [St.setRoot, this]
      · cases he
    | load a f =>
      simp only [exec] at he
      split at he
      · next ha =>
        have : i ≠ a := by rintro rfl; exact hi ha
        split at he <;> cases he
        · simp [St.setRoot, this]
        · rfl
      · cases he
    | copy a b =>
      simp only [exec] at he
      split at he
      · next ha _ =>
        cases he
        have : i ≠ a := by rintro rfl; exact hi ha
        simp [St.setRoot, this]
      · cases he
    | assign a b =>
      have : i ≠ a := fun e => hl e.symm
      simp only [exec] at he
      split at he
      · cases he; simp [St.setRoot, this]
      · cases he
    | read a f =>
      simp only [exec] at he
      split at he
      · cases he
      · simp only [Option.map_eq_some_iff] at he
        obtain ⟨x, -, he⟩ := he
        cases he
        rfl
    | destroy a =>
      have : i ≠ a := fun e => hl e.symm
      simp only [exec] at he
      split at he
      · cases he
      · cases he; simp [St.setRoot, this]
  induction h with
  | nil => exact hs
  | @snoc cs s' c s'' out h he ih =>
    obtain ⟨h1, h2⟩ := ih fun c hc' => hc c (by simp [hc'])
    obtain ⟨h3, h4⟩ := hc c (by simp)
    have e1 := stay _ _ _ _ i he h3 h1
    have e2 := stay _ _ _ _ j he h4 (h2 ▸ h1)
    exact ⟨by rw [e1]; exact h1, by rw [e1, e2, h2]⟩

/-- so that both show the same tree, whatever is read through either of them. -/
theorem C93_one_tree (s : St) (i j : Nat) (hs : Shares s i j) (n : Node) : ShowsTree s i n ↔ ShowsTree s j n := by
  unfold ShowsTree
  rw [hs.2]

example : Shares exState 1 0 := by simp [Shares, exState]

/-- Reading through one of them changes the tree of the other, always if it changes the tree at all. -/
theorem C93_refuted_always {cs s} (h : Reach cs s) (i j : Nat) (n : Node) (hs : Shares s i j) (hj : ShowsTree s j n)
    (f : Load) :
    ∃ s', exec s (.read i f) = some (s', (Prop.readFile n f).2) ∧ ShowsTree s' j (Prop.readFile n f).1 ∧
      ((Prop.readFile n f).1 ≠ n → ¬ ShowsTree s' j n) := by
  obtain ⟨s', h1, h2, -⟩ := C92_read h i n ((C93_one_tree s i j hs n).2 hj) f
  have hs' : Shares s' i j := C93_stays (Later.snoc .nil h1) i j hs (by simp [LeavesVar])
  have h3 := (C93_one_tree s' i j hs' _).1 h2
  refine ⟨s', h1, h3, fun hne hn => hne ?_⟩
  obtain ⟨r, fp, hr, hh⟩ := h3
  obtain ⟨r', fp', hr', hh'⟩ := hn
  rw [hr] at hr'; cases hr'
  exact (hh.unique hh').2.1

theorem C93_refuted : ¬ C93_claim := by
  intro hc
  obtain ⟨s', h1, -, h3⟩ := C93_refuted_always exState_reach 0 1 exTree (by simp [Shares, exState]) exState_shows (.doc exDoc2)
  refine h3 ?_ (hc _ _ 0 1 exTree _ s' _ exState_reach (by decide) exState_shows h1)
  intro e
  have := congrArg Node.getKeys e
  revert this
  decide

/-- What is true of the claim: objects that were not made from each other are independent. -/
theorem C93_partial {cs s} (h : Reach cs s) (i j : Nat) (n : Node) (f : Load) (s' : St) (out : ReadOut)
    (hs : ¬ Shares s i j) (hj : ShowsTree s j n) (he : exec s (.read i f) = some (s', out)) : ShowsTree s' j n := by
  cases hr : s.root i with
  | none => simp [exec, hr] at he
  | some r =>
    obtain ⟨k, hk, -⟩ := C92_one_tree h i (by simp [hr])
    obtain ⟨s'', h1, -, h3⟩ := C92_read h i k hk f
    rw [he] at h1
    cases h1
    exact h3 j n hs hj

example : ∃ s, Reach [.make 0, .make 1] s ∧ ¬ Shares s 0 1 ∧ s.root 1 ≠ none := by
  have h1 := Reach.snoc (c := .make 0) Reach.init rfl
  have h2 := Reach.snoc (c := .make 1) h1 rfl
  exact ⟨_, h2, fun h => absurd h.2 (by decide), by decide⟩

/-! ## C94  The memory -/

/-- No node is ever given back: a program that reads documents without errors has in the end all the nodes it ever made. -/
theorem C94_count {cs s} (h : Reach cs s) (hr : ∀ c ∈ cs, ReadsReadable c) :
    s.mem.length = (cs.map nodesMade).sum := by
  induction h with
  | init => rfl
  | @snoc cs s c s' out h he ih =>
    have ih := ih fun c hc => hr c (by simp [hc])
    have hc := hr c (by simp)
    have g := reach_good h
    simp only [List.map_append, List.map_cons, List.map_nil, List.sum_append, List.sum_cons, List.sum_nil, ← ih]
    cases c with
    | make i =>
      simp only [exec] at he
      split at he
      · cases he; simp [St.setRoot, length_alloc, nodesMade]
      · cases he
    | load i f =>
      obtain ⟨m', h1, -⟩ := load_spec s f
      have hm : m'.length = s.mem.length + nodesMade (.load i f) := by
        cases f with
        | badFile w => simp [readFile] at h1; simp [← h1.1, nodesMade, length_alloc]
        | otherError => simp [readFile] at h1; simp [← h1.1, nodesMade, length_alloc]
        | doc y =>
          rw [(C62_normal_iff _ y).2 hc] at h1
          obtain ⟨y', e, h2⟩ := readFile_count _ _ _ _ h1
          cases e
          rw [h2, length_alloc, nodesMade]
          omega
      cases ho : (Prop.readFile newTree f).2 <;> rw [ho] at h1 <;> simp only [exec, h1] at he <;> split at he <;> cases he <;>
        simp [St.setRoot, hm]
    | copy i j =>
      simp only [exec] at he
      split at he
      · cases he; simp [St.setRoot, nodesMade]
      · cases he
    | assign i j =>
      simp only [exec] at he
      split at he
      · cases he; simp [St.setRoot, nodesMade]
      · cases he
    | read i f =>
      cases hi : s.root i with
      | none => simp [exec, hi] at he
      | some r =>
        obtain ⟨n, fp, hh⟩ := g.tree i r hi
        obtain ⟨m', h1, -⟩ := readFile_spec f hh
        simp only [exec, hi, h1, Option.map_some, Option.some.injEq, Prod.mk.injEq] at he
        obtain ⟨rfl, -⟩ := he
        cases f with
        | badFile w => simp [readFile] at h1; simp [← h1.1, nodesMade]
        | otherError => simp [readFile] at h1; simp [← h1.1, nodesMade]
        | doc y =>
          rw [(C62_normal_iff _ y).2 hc] at h1
          obtain ⟨y', e, h2⟩ := readFile_count _ _ _ _ h1
          cases e
          simp [h2, nodesMade]
    | destroy i =>
      simp only [exec] at he
      split at he
      · cases he
      · cases he; simp [St.setRoot, nodesMade]

example : (∀ c ∈ exProg, ReadsReadable c) ∧ (exProg.map nodesMade).sum = 3 := by
  refine ⟨?_, rfl⟩
  simp [exProg, ReadsReadable, exDoc, Readable, ReadableEntries, ReadableEntry]

/-- The nodes a variable leads to are as many as its tree has. -/
theorem C94_used (s : St) (i : Nat) (n : Node) (h : ShowsTree s i n) :
    ∃ r fp, s.root i = some r ∧ Holds s.mem none r n fp ∧ fp.Nodup ∧ fp.length = size n := by
  obtain ⟨r, fp, hr, hh⟩ := h
  exact ⟨r, fp, hr, hh, hh.nodup, hh.size⟩

/-- When the last variable is gone, nothing leads to the nodes any more; they are all still there. -/
theorem C94_all_lost {cs s} (h : Reach cs s) (hr : ∀ c ∈ cs, ReadsReadable c) (hv : ∀ i, s.root i = none) :
    (∀ p, ¬ Reachable s p) ∧ s.mem.length = (cs.map nodesMade).sum := by
  refine ⟨?_, C94_count h hr⟩
  rintro p ⟨i, r, n, fp, hi, -⟩
  simp [hv i] at hi

example : ∃ s, Reach (exProg ++ [.destroy 0] ++ [.destroy 1]) s ∧ (∀ i, s.root i = none) ∧ s.mem.length = 3 := by
  have h1 := Reach.snoc (c := .destroy 0) exState_reach rfl
  have h2 := Reach.snoc (c := .destroy 1) h1 rfl
  refine ⟨_, h2, ?_, rfl⟩
  intro i
  simp only [St.setRoot, exState]
  split
  · rfl
  · split
    · rfl
    · simp [*]

/-- Reading a file again that is already in the tree leaves the tree as it is, but needs as much memory as the first time:
after `k` times, `k` times as many nodes as the document has, while the variable leads to a fixed number of nodes. -/
theorem C94_read_again {cs s} (h : Reach cs s) (i : Nat) (n : Node) (hi : ShowsTree s i n) (y : Y) (hy : Readable y)
    (hn : (Prop.readFile n (.doc y)).1 = n) (k : Nat) :
    ∃ s', Reach (cs ++ List.replicate k (.read i (.doc y))) s' ∧ ShowsTree s' i n ∧
      s'.mem.length = s.mem.length + k * nodesOf y := by
  induction k with
  | zero => exact ⟨s, by simpa using h, hi, by simp⟩
  | succ k ih =>
    obtain ⟨s', h1, h2, h3⟩ := ih
    obtain ⟨r, fp, hr, hh⟩ := h2
    obtain ⟨m', h4, h5⟩ := readFile_spec (.doc y) hh
    obtain ⟨fp', h6, -⟩ := h5.holds
    rw [(C62_normal_iff _ y).2 hy] at h4
    obtain ⟨y', e, h7⟩ := readFile_count _ _ _ _ h4
    cases e
    rw [hn] at h6
    have he : exec s' (.read i (.doc y)) = some ({ s' with mem := m' }, .normal) := by simp [exec, hr, h4]
    refine ⟨{ s' with mem := m' }, ?_, ⟨r, fp', hr, h6⟩, ?_⟩
    · have := Reach.snoc h1 he
      rwa [List.append_assoc, ← List.replicate_succ'] at this
    · rw [Nat.succ_mul]; simp only; omega

example : (Prop.readFile exTree (.doc exDoc)).1 = exTree ∧ nodesOf exDoc = 2 ∧ size exTree = 3 := ⟨rfl, rfl, rfl⟩

end SoDa.PropMem
