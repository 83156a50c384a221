import Verif.Props.PropertyAlias
/-!
C125: what is read from a document in which an alias may refer to an enclosing node.
-/
namespace SoDa.Prop
open Spec Graph

variable {g : Graph}

theorem shows_null {d i : Nat} {y : Y} (h : AgreesTo g (d + 1) i y) (hi : g i = .null) : y = .null := by
  cases y <;> simp_all [AgreesTo]

theorem shows_scalar {d i : Nat} {y : Y} {s : Str} (h : AgreesTo g (d + 1) i y) (hi : g i = .scalar s) : y = .scalar s := by
  cases y <;> simp_all [AgreesTo]

theorem shows_seq {d i : Nat} {y : Y} {l : List Nat} (h : AgreesTo g (d + 1) i y) (hi : g i = .seq l) :
    ∃ ys, y = .seq ys ∧ List.Forall₂ (AgreesTo g d) l ys := by
  cases y <;> simp_all [AgreesTo]

theorem shows_map {d i : Nat} {y : Y} {es : List (Nat × Nat)} (h : AgreesTo g (d + 1) i y) (hi : g i = .map es) :
    ∃ ys, y = .map ys ∧ List.Forall₂ (fun e p => AgreesTo g d e.1 p.1 ∧ AgreesTo g d e.2 p.2) es ys := by
  cases y <;> simp_all [AgreesTo]

theorem shows_key {d k : Nat} {y : Y} (h : AgreesTo g (d + 1) k y) : g.keyStr k = Prop.keyStr y := by
  unfold Graph.keyStr
  cases hk : g k with
  | null => rw [shows_null h hk]; rfl
  | scalar s => rw [shows_scalar h hk]; rfl
  | seq l => obtain ⟨ys, rfl, -⟩ := shows_seq h hk; rfl
  | map es => obtain ⟨ys, rfl, -⟩ := shows_map h hk; rfl

/-- A call does with the node what is done with the tree. -/
def ReadsAs (g : Graph) (call : Nat → Node → Option (Node × Option YErr)) (d : Nat) : Prop :=
  ∀ i y n r, AgreesTo g d i y → call i n = some r → r = Prop.fill y n

theorem cut_list {call : Nat → Node → Option (Node × Option YErr)} {d : Nat} (hc : ReadsAs g call d) (l : List Nat) (ys : List Y) (n : Node) (r)
    (hs : List.Forall₂ (AgreesTo g d) l ys) (h : Graph.fillList call l n = some r) : r = Prop.fillList ys n := by
  induction hs generalizing n with
  | nil => cases h; rw [Prop.fillList]
  | @cons i y l ys hi _ ih =>
    rw [fillList_cons] at h
    rw [Prop.fillList]
    rcases hy : call i n with _ | ⟨n', _ | e⟩ <;> rw [hy] at h
    · cases h
    · rw [← hc i y n _ hi hy]; exact ih n' h
    · rw [← hc i y n _ hi hy]; cases h; rfl

theorem cut_entry {call : Nat → Node → Option (Node × Option YErr)} {d : Nat} (hc : ReadsAs g call d) (hc' : ReadsAs g call (d + 1))
    (k v : Nat) (a b : Y) (n : Node) (r)
    (hk : AgreesTo g (d + 1) k a) (hv : AgreesTo g (d + 1) v b) (h : g.fillEntry call k v n = some r) : r = Prop.fillEntry (a, b) n := by
  unfold Graph.fillEntry at h
  rw [shows_key hk] at h
  split at h
  · rename_i hg
    rw [shows_null hv hg, Prop.fillEntry]
    cases h; rfl
  · rename_i es hg
    obtain ⟨ys, rfl, hl⟩ := shows_map hv hg
    rw [Prop.fillEntry]
    split at h
    · rename_i he; rw [he]; cases h; rfl
    · rename_i ks he
      rw [he]
      obtain ⟨x, hx, rfl⟩ := Option.map_eq_some_iff.1 h
      have := hc' v _ _ _ hv hx
      rw [Prop.fill] at this
      rw [← this]
  · rename_i s hg
    rw [shows_scalar hv hg, Prop.fillEntry]
    split at h
    · rename_i he; rw [he]; cases h; rfl
    · rename_i ks he; rw [he]; cases h; rfl
  · rename_i l hg
    obtain ⟨ys, rfl, hl⟩ := shows_seq hv hg
    rw [Prop.fillEntry]
    exact cut_list hc l ys n r hl h

theorem cut_entries {call : Nat → Node → Option (Node × Option YErr)} {d : Nat} (hc : ReadsAs g call d) (hc' : ReadsAs g call (d + 1))
    (es : List (Nat × Nat)) (ys : List (Y × Y)) (n : Node) (r)
    (hs : List.Forall₂ (fun e p => AgreesTo g (d + 1) e.1 p.1 ∧ AgreesTo g (d + 1) e.2 p.2) es ys) (h : g.fillEntries call es n = some r) :
    r = Prop.fillEntries ys n := by
  induction hs generalizing n with
  | nil => cases h; rw [Prop.fillEntries]
  | @cons e p es ys hi _ ih =>
    obtain ⟨a, b⟩ := p
    rw [fillEntries_cons] at h
    rw [Prop.fillEntries]
    rcases hy : g.fillEntry call e.1 e.2 n with _ | ⟨n', _ | x⟩ <;> rw [hy] at h
    · cases h
    · rw [← cut_entry hc hc' _ _ a b n _ hi.1 hi.2 hy]; exact ih n' h
    · rw [← cut_entry hc hc' _ _ a b n _ hi.1 hi.2 hy]; cases h; rfl

theorem cut_fill (c : Nat) : ∀ d, 2 * c ≤ d → ReadsAs g (g.fill c) d := by
  induction c with
  | zero => intro d _ i y n r _ h; cases h
  | succ c ih =>
    intro d hd i y n r hs h
    obtain ⟨d, rfl⟩ : ∃ e, d = e + 2 := ⟨d - 2, by omega⟩
    rw [Graph.fill] at h
    split at h
    · rename_i hg; rw [shows_null hs hg, Prop.fill]; cases h; rfl
    · rename_i s hg; rw [shows_scalar hs hg, Prop.fill]; cases h; rfl
    · rename_i hg
      obtain ⟨ys, rfl, hl⟩ := shows_seq hs hg
      cases hl
      rw [Prop.fill]; cases h; rfl
    · rename_i hg
      obtain ⟨ys, rfl, hl⟩ := shows_seq hs hg
      cases hl
      rw [Prop.fill]; cases h; rfl
    · rename_i es hg
      obtain ⟨ys, rfl, hl⟩ := shows_map hs hg
      rw [Prop.fill]
      exact cut_entries (ih d (by omega)) (ih (d + 1) (by omega)) es ys n r hl h

/-- The tree down to some level, with nothing below. -/
def cutAt (g : Graph) : Nat → Nat → Y
  | 0, _ => .null
  | d + 1, i =>
    match g i with
    | .null => .null
    | .scalar s => .scalar s
    | .seq l => .seq (l.map (cutAt g d))
    | .map es => .map (es.map fun e => (cutAt g d e.1, cutAt g d e.2))

theorem shows_cutAt (d : Nat) : ∀ i, AgreesTo g d i (cutAt g d i) := by
  induction d with
  | zero => intro i; trivial
  | succ d ih =>
    intro i
    cases hg : g i with
    | null => simp only [AgreesTo, cutAt, hg]
    | scalar s => simp only [AgreesTo, cutAt, hg]
    | seq l =>
      simp only [AgreesTo, cutAt, hg]
      rw [List.forall₂_map_right_iff]
      exact List.forall₂_same.2 fun x _ => ih x
    | map es =>
      simp only [AgreesTo, cutAt, hg]
      rw [List.forall₂_map_right_iff]
      exact List.forall₂_same.2 fun x _ => ⟨ih _, ih _⟩

/-- What is read by at most `calls` nested calls is what is read from any tree that agrees with the document for twice as many levels, whatever
is further down. -/
theorem C125_read (g : Graph) (calls top : Nat) (n : Node) (r : Node × ReadOut) (h : g.readFile calls top n = some r) (y : Y)
    (hy : AgreesTo g (2 * calls) top y) : r = Prop.readFile n (.doc y) := by
  unfold Graph.readFile at h
  obtain ⟨x, h1, rfl⟩ := Option.map_eq_some_iff.1 h
  rw [Prop.readFile, ← cut_fill calls _ (Nat.le_refl _) top y n x hy h1]
  rcases x with ⟨a, _ | e⟩ <;> rfl

/-- Documents with aliases to enclosing nodes, whether there is a mistake before them or not: the reading ends exactly if no node is inside itself with
no mistake before it, and then it reads what is read from any tree that agrees with the document for twice as many levels as it has nodes and two more.
There are such trees. -/
theorem C125_tree (g : Graph) (N : Nat) (hN : NodesBelow g N) (top : Nat) (n : Node) :
    (∃ y, AgreesTo g (2 * N + 2) top y) ∧ ∀ y, AgreesTo g (2 * N + 2) top y → ∀ r : Node × ReadOut,
      (∃ calls, g.readFile calls top n = some r) ↔ ¬ Circular g top ∧ r = Prop.readFile n (.doc y) := by
  refine ⟨⟨_, shows_cutAt _ top⟩, fun y hy r => ?_⟩
  obtain ⟨h1, h2⟩ := C125_exact g N hN top n
  constructor
  · rintro ⟨calls, h⟩
    have hc := h1.1 ⟨calls, r, h⟩
    obtain ⟨r', h'⟩ := h2 hc
    rw [C125_same g calls (N + 1) top n r r' h h']
    exact ⟨hc, C125_read g (N + 1) top n r' h' y hy⟩
  · rintro ⟨hc, rfl⟩
    obtain ⟨r', h'⟩ := h2 hc
    exact ⟨N + 1, by rw [h', C125_read g (N + 1) top n r' h' y hy]⟩

/-! ### Example -/

/-- `&a {x: u, l: [[u], *a]}`: the mistake is before the alias to the enclosing node; the tree has `x` afterwards. -/
example : ∃ n', exCycleAfter.readFile 2 0 newTree = some (n', .yaml .invalidNode) ∧
    Prop.readFile newTree (.doc (cutAt exCycleAfter 4 0)) = (n', .yaml .invalidNode) ∧ (n'.dict.map (·.1)) = ["x".toList] := by
  refine ⟨_, rfl, ?_, ?_⟩
  · simp [cutAt, exCycleAfter, Prop.readFile, Prop.fill, Prop.fillEntries, Prop.fillEntry, Prop.fillList, Prop.keyStr]
  · rfl

end SoDa.Prop
