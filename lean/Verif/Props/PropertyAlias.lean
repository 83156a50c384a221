import Verif.Proof.PropertyAlias
/-!
Property C125: documents with aliases.
-/
namespace SoDa.Prop.Graph
open Spec

/-! ## C125  Documents with aliases -/

/-- `{base: &b {x: u}, l: [*b, *b], copy: *b}`: nodes 1 (`base`), 2 (the map with anchor `b`), ... -/
def exAlias : Graph
  | 0 => .map [(1, 2), (5, 6), (7, 2)]
  | 1 => .scalar "base".toList
  | 2 => .map [(3, 4)]
  | 3 => .scalar "x".toList
  | 4 => .scalar "u".toList
  | 5 => .scalar "l".toList
  | 6 => .seq [2, 2]
  | 7 => .scalar "copy".toList
  | _ => .null

/-- `&a {x: u, b: *a}`. -/
def exCycle : Graph
  | 0 => .map [(1, 2), (3, 0)]
  | 1 => .scalar "x".toList
  | 2 => .scalar "u".toList
  | 3 => .scalar "b".toList
  | _ => .null

/-- `&a {x: u, l: [[v], *a]}`: the cycle comes after a mistake. -/
def exCycleAfter : Graph
  | 0 => .map [(1, 2), (3, 4)]
  | 1 => .scalar "x".toList
  | 2 => .scalar "u".toList
  | 3 => .scalar "l".toList
  | 4 => .seq [5, 0]
  | 5 => .seq [2]
  | _ => .null

/-- Every file is read, or an exception is thrown. -/
def C125_claim : Prop := ∀ (g : Graph) (N : Nat), NodesBelow g N → ∀ (top : Nat) (n : Node), ∃ calls r,
  g.readFile calls top n = some r

theorem readFile_some {g : Graph} {calls top : Nat} {n : Node} :
    (∃ r, g.readFile calls top n = some r) ↔ ∃ r, g.fill calls top n = some r := by
  unfold readFile
  constructor
  · rintro ⟨r, h⟩
    obtain ⟨a, h1, -⟩ := Option.map_eq_some_iff.1 h
    exact ⟨a, h1⟩
  · rintro ⟨r, h⟩
    exact ⟨_, by rw [h]; rfl⟩

/-- Exactly when the reading of a file ends: unless a node is inside itself with no mistake before it.  The calls are then
nested at most one deeper than the document has nodes. -/
theorem C125_exact (g : Graph) (N : Nat) (hN : NodesBelow g N) (top : Nat) (n : Node) :
    ((∃ calls r, g.readFile calls top n = some r) ↔ ¬ Circular g top) ∧
      (¬ Circular g top → ∃ r, g.readFile (N + 1) top n = some r) := by
  have key : ¬ Circular g top → ∃ r, g.readFile (N + 1) top n = some r := by
    intro h
    rw [readFile_some]
    by_contra hc
    apply h
    refine none_circular hN (n := n) ?_
    cases hr : g.fill (N + 1) top n with
    | none => rfl
    | some r => exact absurd ⟨r, hr⟩ hc
  refine ⟨⟨?_, fun h => ⟨_, key h⟩⟩, key⟩
  rintro ⟨calls, h⟩ hc
  obtain ⟨r, hr⟩ := readFile_some.1 h
  rw [circular_none hc] at hr
  cases hr

/-- It ends without an exception exactly if everything in the document is fine, and that does not depend on how many nested
calls are allowed. -/
theorem C125_normal (g : Graph) (N : Nat) (hN : NodesBelow g N) (top : Nat) (n : Node) :
    (∃ calls n', g.readFile calls top n = some (n', .normal)) ↔ Fine g top := by
  constructor
  · rintro ⟨calls, n', h⟩
    unfold readFile at h
    obtain ⟨⟨a, e⟩, h1, h2⟩ := Option.map_eq_some_iff.1 h
    cases e with
    | none => exact fill_fine' _ _ _ _ h1
    | some e => cases h2
  · intro hf
    have hn : ¬ Circular g top := by
      rintro ⟨x, h1, h2⟩
      have hfx : Fine g x := by
        clear h2
        induction h1 with
        | refl => exact hf
        | tail _ h ih => exact fine_inside h ih
      exact fine_no_cycle hfx h2
    obtain ⟨r, hr⟩ := readFile_some.1 ((C125_exact g N hN top n).2 hn)
    rcases r with ⟨n', e⟩
    obtain rfl := fill_no_error hf _ _ _ _ hr
    exact ⟨_, n', by unfold readFile; rw [hr]; rfl⟩

/-- What is read does not depend on the number of nested calls that are allowed. -/
theorem C125_same (g : Graph) (c c' top : Nat) (n : Node) (r r' : Node × ReadOut) (h : g.readFile c top n = some r)
    (h' : g.readFile c' top n = some r') : r = r' := by
  unfold readFile at h h'
  obtain ⟨a, h1, rfl⟩ := Option.map_eq_some_iff.1 h
  obtain ⟨a', h1', rfl⟩ := Option.map_eq_some_iff.1 h'
  have h2 := fill_le (Nat.le_max_left c c') h1
  rw [fill_le (Nat.le_max_right c c') h1'] at h2
  cases h2
  rfl

/-- A document without circular aliases is read as if every alias were replaced by what it stands for. -/
theorem C125_tree_partial (g : Graph) (top : Nat) (y : Y) (h : Unfolds g top y) (n : Node) :
    ∃ calls, g.readFile calls top n = some (Prop.readFile n (.doc y)) := by
  obtain ⟨c, hc⟩ := fill_unfolds h n
  refine ⟨c, ?_⟩
  unfold readFile
  rw [hc]
  simp only [Prop.readFile, Option.map_some, Option.some.injEq]
  rcases Prop.fill y n with ⟨a, _ | e⟩ <;> rfl

/-- The reading of `&a {x: u, b: *a}` never ends. -/
theorem exCycle_circular : Circular exCycle 0 := by
  refine ⟨0, .refl, .single (.value (es := [(1, 2)]) (k := 3) (es' := []) rfl ?_ ⟨_, rfl⟩ rfl)⟩
  simp only [List.mem_singleton, forall_eq]
  exact ⟨fun _ => ⟨_, rfl⟩, by simp [exCycle], by simp [exCycle]⟩

theorem C125_refuted : ¬ C125_claim := by
  intro h
  have hN : NodesBelow exCycle 4 := by
    intro i hi
    obtain ⟨j, rfl⟩ : ∃ j, i = j + 4 := ⟨i - 4, by omega⟩
    rfl
  exact (C125_exact exCycle 4 hN 0 newTree).1.1 (h exCycle 4 hN 0 newTree) exCycle_circular

/-- Aliases that are not circular; what comes of them; a circular alias behind a mistake. -/
example : Unfolds exAlias 2 (.map [(.scalar "x".toList, .scalar "u".toList)]) :=
  .map rfl (.cons (.scalar rfl) (.scalar rfl) .nil)

example : exAlias.readFile 4 0 newTree = some (Prop.readFile newTree (.doc (.map [
    (.scalar "base".toList, .map [(.scalar "x".toList, .scalar "u".toList)]),
    (.scalar "l".toList, .seq [.map [(.scalar "x".toList, .scalar "u".toList)], .map [(.scalar "x".toList, .scalar "u".toList)]]),
    (.scalar "copy".toList, .map [(.scalar "x".toList, .scalar "u".toList)])]))) := rfl

example : (exCycleAfter.readFile 2 0 newTree).map Prod.snd = some (.yaml .invalidNode) := rfl

end SoDa.Prop.Graph
