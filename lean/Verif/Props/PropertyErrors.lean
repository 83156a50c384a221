import Verif.Proof.PropertyErrors
import Verif.Props.PropertyHeap
/-!
Property C124: files with mistakes.
-/
namespace SoDa.PropMem
open SoDa.Prop Spec

/-! ## C124  Files with mistakes -/

/-- `{a: {b: x, [u]: y}, c: z}`: the key of `y` is a sequence. -/
def exBadKey : Y := .map [(.scalar "a".toList, .map [(.scalar "b".toList, .scalar "x".toList),
  (.seq [.scalar "u".toList], .scalar "y".toList)]), (.scalar "c".toList, .scalar "z".toList)]

theorem exBadKey_before : Before .badConversion exDoc exBadKey :=
  .map (.inMap _ _ (.after _ ⟨_, rfl⟩ (.keyOfScalar _ _ _ (by simp) rfl)))

/-- `{c: y, l: [u, [v], w], d: z}`: a sequence in a sequence. -/
def exBadSeq : Y := .map [(.scalar "c".toList, .scalar "y".toList),
  (.scalar "l".toList, .seq [.scalar "u".toList, .seq [.scalar "v".toList], .scalar "w".toList]),
  (.scalar "d".toList, .scalar "z".toList)]

theorem exBadSeq_before : Before .invalidNode (.map [(.scalar "c".toList, .scalar "y".toList),
    (.scalar "l".toList, .seq [.scalar "u".toList, .null])]) exBadSeq :=
  .map (.after _ ⟨_, rfl⟩ (.inSeq _ _ (.after _ trivial (.inside _ (.sequence _ _ rfl)))))

/-- A document has a first mistake exactly if it cannot be read; the mistake and what stands before it are determined, and
what stands before it can be read. -/
theorem C124_mistake (y : Y) :
    (¬ Readable y ↔ ∃ e y', Before e y' y) ∧
      ∀ e y', Before e y' y → Readable y' ∧ ∀ e₂ y₂, Before e₂ y₂ y → e₂ = e ∧ y₂ = y' := by
  refine ⟨⟨before_exists y, fun ⟨e, y', h⟩ => (before_readable h).2⟩, fun e y' h => ⟨(before_readable h).1, fun e₂ y₂ h₂ => ?_⟩⟩
  exact before_unique h₂ h

/-- Reading a document with a mistake throws the exception of its first mistake, and the tree is the one that what stands
before the mistake gives: nothing of that is lost and nothing behind it is taken. -/
theorem C124_tree (n : Node) (y y' : Y) (e : YErr) (h : Before e y' y) :
    Prop.readFile n (.doc y) = ((Prop.readFile n (.doc y')).1, .yaml e) ∧ (Prop.readFile n (.doc y')).2 = .normal := by
  have h1 := fill_before h n
  have h2 := fill_ok (before_readable h).1 n
  simp only [Prop.readFile, h1]
  rcases hq : Prop.fill y' n with ⟨n', o⟩
  rw [hq] at h2
  simp only at h2
  subst h2
  exact ⟨rfl, rfl⟩

example : Prop.readFile newTree (.doc exBadKey) = (exTree, .yaml .badConversion) := by
  rw [(C124_tree newTree _ _ _ exBadKey_before).1]; rfl

/-- In memory: so it is for the object, the other objects stay as they are, and a node without a key is left over if the
mistake is a key. -/
theorem C124_memory {cs s} (h : Reach cs s) (i : Nat) (n : Node) (hi : ShowsTree s i n) (y y' : Y) (e : YErr)
    (hy : Before e y' y) :
    ∃ s', exec s (.read i (.doc y)) = some (s', .yaml e) ∧ s'.root = s.root ∧
      ShowsTree s' i (Prop.readFile n (.doc y')).1 ∧ (∀ j k, ¬ Shares s i j → ShowsTree s j k → ShowsTree s' j k) ∧
      s'.mem.length = s.mem.length + nodesOf y' + if e = .badConversion then 1 else 0 := by
  obtain ⟨r, fp, hr, hh⟩ := hi
  obtain ⟨m', h1, h2⟩ := exec_read hr hh (.doc y)
  rw [(C124_tree n y y' e hy).1] at h1 h2
  obtain ⟨fp', h3, -⟩ := h2.holds
  refine ⟨_, h1, rfl, ⟨r, fp', hr, h3⟩, ?_, ?_⟩
  · rintro j k hs ⟨q, fq, hq, hk⟩
    exact ⟨q, fq, hq, h2.other hk ((reach_good h).apart i j r q n k fp fq hr hq
      (fun e => hs ⟨by simp [hr], by rw [hr, hq, e]⟩) hh hk r (Holds_root_mem hh))⟩
  · obtain ⟨m'', h4, -⟩ := fill_spec y hh
    have h5 := (fill_before hy n)
    rw [h5] at h4
    have h6 : m'' = m' := by
      simp only [exec, hr, readFile, h4, Option.map_some, Option.some.injEq, Prod.mk.injEq, St.mk.injEq] at h1
      exact h1.1.1
    subst h6
    have := fill_before_count hy r s.mem m'' _ h4
    rw [this]
    cases e <;> simp [lostBy]

/-- How many nodes the reading of a file creates. -/
theorem nodesFor_readFile (f : Load) (m : Mem) (p : Ptr) (m' : Mem) (out : ReadOut)
    (hf : readFile p m f = some (m', out)) : ∃ k, NodesFor f k ∧ m'.length = m.length + k := by
  cases f with
  | badFile w => simp [readFile] at hf; exact ⟨0, .badFile w, by simp [← hf.1]⟩
  | otherError => simp [readFile] at hf; exact ⟨0, .otherError, by simp [← hf.1]⟩
  | doc y =>
    rcases hq : fill y p m with _ | ⟨m1, _ | e⟩ <;> simp [readFile, hq] at hf
    · obtain ⟨rfl, -⟩ := hf
      have hy : Readable y := by
        by_contra hn
        exact fill_bad hn p m m1 hq
      exact ⟨_, .readable hy, fill_count y p m m1 hq⟩
    · obtain ⟨rfl, -⟩ := hf
      have hy : ¬ Readable y := fun hy => fill_fine hy p m m1 e hq
      obtain ⟨e', y', hb⟩ := before_exists y hy
      have := fill_before_count hb p m m1 _ hq
      cases e' with
      | badConversion => exact ⟨_, .key hb, by simpa [lostBy, Nat.add_assoc] using this⟩
      | invalidNode => exact ⟨_, .sequence hb, by simpa [lostBy] using this⟩

/-- All programs: the nodes in memory are those that the statements have made. -/
theorem C124_count {cs s} (h : Reach cs s) : ∃ ks, List.Forall₂ Makes cs ks ∧ s.mem.length = ks.sum := by
  induction h with
  | init => exact ⟨[], .nil, rfl⟩
  | @snoc cs s c s' out h he ih =>
    obtain ⟨ks, h1, h2⟩ := ih
    have g := reach_good h
    suffices hs : ∃ k, Makes c k ∧ s'.mem.length = s.mem.length + k by
      obtain ⟨k, h3, h4⟩ := hs
      exact ⟨ks ++ [k], List.rel_append h1 (.cons h3 .nil), by simp [h4, h2]⟩
    cases c with
    | make i =>
      simp only [exec] at he
      split at he <;> cases he
      exact ⟨1, .make i, by simp [St.setRoot, length_alloc]⟩
    | load i f =>
      obtain ⟨m', h3, -⟩ := load_spec s f
      obtain ⟨k, h4, h5⟩ := nodesFor_readFile f _ _ m' _ h3
      refine ⟨1 + k, .load i h4, ?_⟩
      rw [length_alloc] at h5
      simp only [exec] at he
      split at he
      · rw [h3] at he
        cases ho : (Prop.readFile newTree f).2 <;> rw [ho] at he <;> simp only at he <;> cases he <;>
          simp [St.setRoot, h5] <;> omega
      · cases he
    | copy i j => simp only [exec] at he; split at he <;> cases he; exact ⟨0, .copy i j, by simp [St.setRoot]⟩
    | assign i j => simp only [exec] at he; split at he <;> cases he; exact ⟨0, .assign i j, by simp [St.setRoot]⟩
    | read i f =>
      cases hi : s.root i with
      | none => simp [exec, hi] at he
      | some r =>
        obtain ⟨n, fp, hh⟩ := g.tree i r hi
        obtain ⟨m', h3, -⟩ := readFile_spec f hh
        obtain ⟨k, h4, h5⟩ := nodesFor_readFile f _ _ m' _ h3
        simp only [exec, hi, h3, Option.map_some, Option.some.injEq, Prod.mk.injEq] at he
        obtain ⟨rfl, -⟩ := he
        exact ⟨k, .read i h4, h5⟩
    | destroy i => simp only [exec] at he; split at he <;> cases he; exact ⟨0, .destroy i, by simp [St.setRoot]⟩

/-- A program that reads a file with a mistake. -/
example : ∃ s, Reach [.make 0, .read 0 (.doc exBadKey)] s ∧ ShowsTree s 0 exTree ∧ s.mem.length = 4 ∧
    List.Forall₂ Makes [.make 0, .read 0 (.doc exBadKey)] [1, 3] := by
  have h1 : Reach [.make 0] _ := Reach.snoc (c := .make 0) Reach.init rfl
  have h2 := Reach.snoc (c := .read 0 (.doc exBadKey)) h1 rfl
  refine ⟨_, h2, ?_, rfl, .cons (.make 0) (.cons (.read 0 (.key exBadKey_before)) .nil)⟩
  exact ⟨0, [0, 1, 2], rfl,
    .mk rfl .nil (.cons (.mk rfl .nil (.cons (.mk rfl .nil .nil (by decide)) .nil) (by decide)) .nil) (by decide)⟩

end SoDa.PropMem
