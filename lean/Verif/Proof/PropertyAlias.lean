import Verif.Spec.PropertyAlias
import Mathlib.Data.Fintype.Pigeonhole
/-!
Documents with aliases: helper lemmas.
-/
namespace SoDa.Prop.Graph
open Spec
variable {g : Graph}

abbrev Call := Nat → Node → Option (Node × Option YErr)

theorem fillList_cons {call : Call} {y : Nat} {ys : List Nat} {n : Node} : fillList call (y :: ys) n =
    match call y n with
    | none => none
    | some (n', some e) => some (n', some e)
    | some (n', none) => fillList call ys n' := rfl

theorem fillEntries_cons {call : Call} {e : Nat × Nat} {es : List (Nat × Nat)} {n : Node} :
    g.fillEntries call (e :: es) n =
    match g.fillEntry call e.1 e.2 n with
    | none => none
    | some (n', some e) => some (n', some e)
    | some (n', none) => g.fillEntries call es n' := rfl

/-! ### More nested calls give the same result -/

theorem fillList_mono {c c' : Call} (hc : ∀ i n r, c i n = some r → c' i n = some r) (l : List Nat) (n : Node)
    (r : Node × Option YErr) (h : fillList c l n = some r) : fillList c' l n = some r := by
  induction l generalizing n with
  | nil => exact h
  | cons y ys ih =>
    rw [fillList_cons] at h ⊢
    rcases hy : c y n with _ | ⟨n', _ | e⟩ <;> rw [hy] at h
    · cases h
    · rw [hc _ _ _ hy]; exact ih n' h
    · rw [hc _ _ _ hy]; exact h

theorem fillEntry_mono {c c' : Call} (hc : ∀ i n r, c i n = some r → c' i n = some r) (k v : Nat) (n : Node)
    (r : Node × Option YErr) (h : g.fillEntry c k v n = some r) : g.fillEntry c' k v n = some r := by
  unfold fillEntry at h ⊢
  split <;> rename_i hv <;> simp only [hv] at h
  · exact h
  · split <;> rename_i hk <;> simp only [hk] at h
    · exact h
    · rw [Option.map_eq_some_iff] at h ⊢
      obtain ⟨a, h1, h2⟩ := h
      exact ⟨a, hc _ _ _ h1, h2⟩
  · exact h
  · exact fillList_mono hc _ _ _ h

theorem fillEntries_mono {c c' : Call} (hc : ∀ i n r, c i n = some r → c' i n = some r) (es : List (Nat × Nat)) (n : Node)
    (r : Node × Option YErr) (h : g.fillEntries c es n = some r) : g.fillEntries c' es n = some r := by
  induction es generalizing n with
  | nil => exact h
  | cons e es ih =>
    rw [fillEntries_cons] at h ⊢
    rcases hy : g.fillEntry c e.1 e.2 n with _ | ⟨n', _ | x⟩ <;> rw [hy] at h
    · cases h
    · rw [fillEntry_mono hc _ _ _ _ hy]; exact ih n' h
    · rw [fillEntry_mono hc _ _ _ _ hy]; exact h

theorem fill_succ (c : Nat) : ∀ (i : Nat) (n : Node) (r : Node × Option YErr),
    g.fill c i n = some r → g.fill (c + 1) i n = some r := by
  induction c with
  | zero => intro i n r h; cases h
  | succ c ih =>
    intro i n r h
    rw [fill] at h ⊢
    split <;> rename_i hi <;> simp only [hi] at h
    · exact h
    · exact h
    · exact h
    · exact h
    · exact fillEntries_mono ih _ _ _ h

theorem fill_le {c c' : Nat} (hcc : c ≤ c') {i : Nat} {n : Node} {r : Node × Option YErr}
    (h : g.fill c i n = some r) : g.fill c' i n = some r := by
  induction hcc with
  | refl => exact h
  | step _ ih => exact fill_succ _ _ _ _ ih

/-! ### What is read without an exception -/

theorem fillList_fine {call : Call} (hc : ∀ i n n', call i n = some (n', none) → Fine g i) (l : List Nat) (n n' : Node)
    (h : fillList call l n = some (n', none)) : ∀ x ∈ l, Fine g x := by
  induction l generalizing n with
  | nil => simp
  | cons y ys ih =>
    rw [fillList_cons] at h
    rcases hy : call y n with _ | ⟨n1, _ | e⟩ <;> rw [hy] at h
    · cases h
    · intro x hx
      rcases List.mem_cons.1 hx with rfl | hx
      · exact hc _ _ _ hy
      · exact ih n1 h x hx
    · cases h

theorem keyStr_some {k : Nat} {s : Str} : g.keyStr k = some s ↔ g k = .scalar s := by
  unfold keyStr
  split
  · rename_i h; rw [h]; simp
  · rename_i h; constructor
    · intro e; cases e
    · intro e; exact absurd e (h s)

theorem keyStr_none' {k : Nat} : g.keyStr k = none ↔ ¬ ∃ s, g k = .scalar s := by
  unfold keyStr
  split
  · rename_i h; rw [h]; simp
  · rename_i h; simpa using fun s e => h s e

theorem fillEntry_fine {call : Call} (hc : ∀ i n n', call i n = some (n', none) → Fine g i) (k v : Nat) (n n' : Node)
    (h : g.fillEntry call k v n = some (n', none)) : FineEntry g k v := by
  unfold fillEntry at h
  split at h <;> rename_i hv
  · exact ⟨by simp [KeyFine, hv], by simp [hv], by simp [hv]⟩
  · split at h <;> rename_i hk
    · cases h
    · rw [Option.map_eq_some_iff] at h
      obtain ⟨⟨a, e⟩, h1, h2⟩ := h
      cases h2
      exact ⟨fun _ => ⟨_, keyStr_some.1 hk⟩, fun _ _ => hc _ _ _ h1, by simp [hv]⟩
  · split at h <;> rename_i hk
    · cases h
    · exact ⟨fun _ => ⟨_, keyStr_some.1 hk⟩, by simp [hv], by simp [hv]⟩
  · refine ⟨by simp [KeyFine, hv], by simp [hv], fun l hl => ?_⟩
    rw [hv] at hl
    cases hl
    exact fillList_fine hc _ _ _ h

theorem fillEntries_fine {call : Call} (hc : ∀ i n n', call i n = some (n', none) → Fine g i) (es : List (Nat × Nat))
    (n n' : Node) (h : g.fillEntries call es n = some (n', none)) : ∀ x ∈ es, FineEntry g x.1 x.2 := by
  induction es generalizing n with
  | nil => simp
  | cons y ys ih =>
    rw [fillEntries_cons] at h
    rcases hy : g.fillEntry call y.1 y.2 n with _ | ⟨n1, _ | e⟩ <;> rw [hy] at h
    · cases h
    · intro x hx
      rcases List.mem_cons.1 hx with rfl | hx
      · exact fillEntry_fine hc _ _ _ _ hy
      · exact ih n1 h x hx
    · cases h

theorem fine_map {i : Nat} {es : List (Nat × Nat)} (h : g i = .map es) : Fine g i ↔ ∀ x ∈ es, FineEntry g x.1 x.2 := by
  constructor
  · rintro (h1 | h1 | h1 | ⟨h1, hk, hm, hs⟩)
    · rw [h] at h1; cases h1
    · rw [h] at h1; cases h1
    · rw [h] at h1; cases h1
    · rw [h] at h1; cases h1
      rintro ⟨k, v⟩ hx
      exact ⟨hk k v hx, fun l hl => hm k v l hx hl, fun l hl x hxl => hs k v l x hx hl hxl⟩
  · intro hf
    exact .map h (fun k v hx => (hf _ hx).1) (fun k v l hx => (hf _ hx).2.1 l) (fun k v l x hx hl => (hf _ hx).2.2 l hl x)

theorem fill_fine' (c : Nat) : ∀ (i : Nat) (n n' : Node), g.fill c i n = some (n', none) → Fine g i := by
  induction c with
  | zero => intro i n n' h; cases h
  | succ c ih =>
    intro i n n' h
    rw [fill] at h
    split at h <;> rename_i hi
    · exact .null hi
    · exact .scalar hi
    · exact .empty hi
    · cases h
    · exact (fine_map hi).2 (fillEntries_fine ih _ _ _ h)

theorem fillList_no_error {call : Call} (l : List Nat) (hc : ∀ i ∈ l, ∀ n n' e, call i n = some (n', e) → e = none)
    (n n' : Node) (e : Option YErr) (h : fillList call l n = some (n', e)) : e = none := by
  induction l generalizing n with
  | nil => cases h; rfl
  | cons y ys ih =>
    rw [fillList_cons] at h
    rcases hy : call y n with _ | ⟨n1, _ | x⟩ <;> rw [hy] at h
    · cases h
    · exact ih (fun i hi => hc i (List.mem_cons_of_mem _ hi)) n1 h
    · cases hc y List.mem_cons_self _ _ _ hy

theorem fillEntries_no_error {call : Call} (es : List (Nat × Nat))
    (hc : ∀ x ∈ es, ∀ n n' e, g.fillEntry call x.1 x.2 n = some (n', e) → e = none)
    (n n' : Node) (e : Option YErr) (h : g.fillEntries call es n = some (n', e)) : e = none := by
  induction es generalizing n with
  | nil => cases h; rfl
  | cons y ys ih =>
    rw [fillEntries_cons] at h
    rcases hy : g.fillEntry call y.1 y.2 n with _ | ⟨n1, _ | x⟩ <;> rw [hy] at h
    · cases h
    · exact ih (fun i hi => hc i (List.mem_cons_of_mem _ hi)) n1 h
    · cases hc y List.mem_cons_self _ _ _ hy

theorem fillEntry_no_error {call : Call} (k v : Nat) (hk : KeyFine g k v)
    (hm : ∀ l, g v = .map l → ∀ n n' e, call v n = some (n', e) → e = none)
    (hs : ∀ l, g v = .seq l → ∀ x ∈ l, ∀ n n' e, call x n = some (n', e) → e = none)
    (n n' : Node) (e : Option YErr) (h : g.fillEntry call k v n = some (n', e)) : e = none := by
  unfold fillEntry at h
  split at h <;> rename_i hv
  · cases h; rfl
  · split at h <;> rename_i hk'
    · exact absurd (hk (.inr ⟨_, hv⟩)) (keyStr_none'.1 hk')
    · rw [Option.map_eq_some_iff] at h
      obtain ⟨⟨a, e'⟩, h1, h2⟩ := h
      cases h2
      exact hm _ hv _ _ _ h1
  · split at h <;> rename_i hk'
    · exact absurd (hk (.inl ⟨_, hv⟩)) (keyStr_none'.1 hk')
    · cases h; rfl
  · exact fillList_no_error _ (hs _ hv) _ _ _ h

theorem fill_no_error {i : Nat} (hf : Fine g i) : ∀ (c : Nat) (n n' : Node) (e : Option YErr),
    g.fill c i n = some (n', e) → e = none := by
  induction hf with
  | null h => intro c n n' e he; cases c <;> simp [fill, h] at he; exact he.2.symm
  | scalar h => intro c n n' e he; cases c <;> simp [fill, h] at he; exact he.2.symm
  | empty h => intro c n n' e he; cases c <;> simp [fill, h] at he; exact he.2.symm
  | @map i es h hk hm hs ihm ihs =>
    intro c n n' e he
    cases c with
    | zero => cases he
    | succ c =>
      rw [fill] at he
      simp only [h] at he
      refine fillEntries_no_error es ?_ _ _ _ he
      rintro ⟨k, v⟩ hx n n' e he
      exact fillEntry_no_error k v (hk k v hx) (fun l hl => ihm k v l hx hl c) (fun l hl x hxl => ihs k v l x hx hl hxl c)
        _ _ _ he

/-! ### Nested calls -/

theorem fillList_none {call : Call} (hc : ∀ i n n', call i n = some (n', none) → Fine g i) (l : List Nat) (n : Node)
    (h : fillList call l n = none) :
    ∃ l1 x l2 m, l = l1 ++ x :: l2 ∧ (∀ y ∈ l1, Fine g y) ∧ call x m = none := by
  induction l generalizing n with
  | nil => cases h
  | cons y ys ih =>
    rw [fillList_cons] at h
    rcases hy : call y n with _ | ⟨n1, _ | e⟩ <;> rw [hy] at h
    · exact ⟨[], y, ys, n, rfl, by simp, hy⟩
    · obtain ⟨l1, x, l2, m, rfl, h1, h2⟩ := ih n1 h
      refine ⟨y :: l1, x, l2, m, rfl, ?_, h2⟩
      intro z hz
      rcases List.mem_cons.1 hz with rfl | hz
      · exact hc _ _ _ hy
      · exact h1 z hz
    · cases h

theorem fillEntries_none {call : Call} (hc : ∀ i n n', call i n = some (n', none) → Fine g i) (es : List (Nat × Nat)) (n : Node)
    (h : g.fillEntries call es n = none) :
    ∃ l1 k v l2 m, es = l1 ++ (k, v) :: l2 ∧ (∀ x ∈ l1, FineEntry g x.1 x.2) ∧ g.fillEntry call k v m = none := by
  induction es generalizing n with
  | nil => cases h
  | cons y ys ih =>
    rw [fillEntries_cons] at h
    rcases hy : g.fillEntry call y.1 y.2 n with _ | ⟨n1, _ | e⟩ <;> rw [hy] at h
    · exact ⟨[], y.1, y.2, ys, n, rfl, by simp, hy⟩
    · obtain ⟨l1, k, v, l2, m, rfl, h1, h2⟩ := ih n1 h
      refine ⟨y :: l1, k, v, l2, m, rfl, ?_, h2⟩
      intro z hz
      rcases List.mem_cons.1 hz with rfl | hz
      · exact fillEntry_fine hc _ _ _ _ hy
      · exact h1 z hz
    · cases h

/-- If the nested calls were too many, one of the calls of this call had too many. -/
theorem fill_none {c i : Nat} {n : Node} (h : g.fill (c + 1) i n = none) :
    ∃ j m, Inside g j i ∧ g.fill c j m = none := by
  rw [fill] at h
  split at h <;> rename_i hi
  · cases h
  · cases h
  · cases h
  · cases h
  · obtain ⟨l1, k, v, l2, m, rfl, h1, h2⟩ := fillEntries_none (fill_fine' c) _ _ h
    unfold fillEntry at h2
    split at h2 <;> rename_i hv
    · cases h2
    · split at h2 <;> rename_i hk
      · cases h2
      · rw [Option.map_eq_none_iff] at h2
        exact ⟨v, _, .value hi h1 ⟨_, keyStr_some.1 hk⟩ hv, h2⟩
    · split at h2 <;> cases h2
    · obtain ⟨l1', x, l2', m', rfl, h3, h4⟩ := fillList_none (fill_fine' c) _ _ h2
      exact ⟨x, m', .element hi h1 hv h3, h4⟩

theorem fillList_some {call : Call} {l1 : List Nat} (hc : ∀ y ∈ l1, ∀ n n' e, call y n = some (n', e) → e = none) (x : Nat)
    (l2 : List Nat) (n : Node) (r : Node × Option YErr) (h : fillList call (l1 ++ x :: l2) n = some r) :
    ∃ m r', call x m = some r' := by
  induction l1 generalizing n with
  | nil =>
    rw [List.nil_append, fillList_cons] at h
    rcases hy : call x n with _ | r'
    · rw [hy] at h; cases h
    · exact ⟨n, r', hy⟩
  | cons y ys ih =>
    rw [List.cons_append, fillList_cons] at h
    rcases hy : call y n with _ | ⟨n1, _ | e⟩ <;> rw [hy] at h
    · cases h
    · exact ih (fun z hz => hc z (List.mem_cons_of_mem _ hz)) n1 h
    · cases hc y List.mem_cons_self _ _ _ hy

theorem fillEntries_some {call : Call} {l1 : List (Nat × Nat)}
    (hc : ∀ y ∈ l1, ∀ n n' e, g.fillEntry call y.1 y.2 n = some (n', e) → e = none) (x : Nat × Nat)
    (l2 : List (Nat × Nat)) (n : Node) (r : Node × Option YErr) (h : g.fillEntries call (l1 ++ x :: l2) n = some r) :
    ∃ m r', g.fillEntry call x.1 x.2 m = some r' := by
  induction l1 generalizing n with
  | nil =>
    rw [List.nil_append, fillEntries_cons] at h
    rcases hy : g.fillEntry call x.1 x.2 n with _ | r'
    · rw [hy] at h; cases h
    · exact ⟨n, r', hy⟩
  | cons y ys ih =>
    rw [List.cons_append, fillEntries_cons] at h
    rcases hy : g.fillEntry call y.1 y.2 n with _ | ⟨n1, _ | e⟩ <;> rw [hy] at h
    · cases h
    · exact ih (fun z hz => hc z (List.mem_cons_of_mem _ hz)) n1 h
    · cases hc y List.mem_cons_self _ _ _ hy

theorem fineEntry_no_error {c k v : Nat} (hf : FineEntry g k v) (n n' : Node) (e : Option YErr)
    (h : g.fillEntry (g.fill c) k v n = some (n', e)) : e = none :=
  fillEntry_no_error k v hf.1 (fun l hl => fill_no_error (hf.2.1 l hl) c)
    (fun l hl x hx => fill_no_error (hf.2.2 l hl x hx) c) _ _ _ h

/-- If the call ends, so do the calls inside. -/
theorem inside_some {c i j : Nat} {n : Node} {r : Node × Option YErr} (hj : Inside g j i) (h : g.fill c i n = some r) :
    ∃ c' m r', c' < c ∧ g.fill c' j m = some r' := by
  cases c with
  | zero => cases h
  | succ c =>
    rw [fill] at h
    rcases hj with ⟨hi, he, ⟨s, hk⟩, hv⟩ | ⟨hi, he, hv, hl⟩
    · simp only [hi] at h
      obtain ⟨m, r', h1⟩ := fillEntries_some (fun y hy => fineEntry_no_error (he y hy)) _ _ _ _ h
      unfold fillEntry at h1
      simp only [hv, keyStr_some.2 hk, Option.map_eq_some_iff] at h1
      obtain ⟨a, h2, -⟩ := h1
      exact ⟨c, _, a, Nat.lt_succ_self _, h2⟩
    · simp only [hi] at h
      obtain ⟨m, r', h1⟩ := fillEntries_some (fun y hy => fineEntry_no_error (he y hy)) _ _ _ _ h
      unfold fillEntry at h1
      simp only [hv] at h1
      obtain ⟨m', r'', h2⟩ := fillList_some (fun y hy => fill_no_error (hl y hy) c) _ _ _ _ h1
      exact ⟨c, m', r'', Nat.lt_succ_self _, h2⟩

theorem trans_some {i j : Nat} (hj : Relation.TransGen (fun a b => Inside g b a) i j) : ∀ {c : Nat} {n : Node}
    {r : Node × Option YErr}, g.fill c i n = some r → ∃ c' m r', c' < c ∧ g.fill c' j m = some r' := by
  induction hj with
  | single h => intro c n r hr; exact inside_some h hr
  | tail _ h ih =>
    intro c n r hr
    obtain ⟨c', m, r', h1, h2⟩ := ih hr
    obtain ⟨c'', m', r'', h3, h4⟩ := inside_some h h2
    exact ⟨c'', m', r'', h3.trans h1, h4⟩

theorem cycle_none {x : Nat} (hx : Relation.TransGen (fun a b => Inside g b a) x x) (c : Nat) : ∀ n, g.fill c x n = none := by
  induction c using Nat.strongRecOn with
  | ind c ih =>
    intro n
    by_contra hn
    obtain ⟨r, hr⟩ := Option.ne_none_iff_exists'.1 hn
    obtain ⟨c', m, r', h1, h2⟩ := trans_some hx hr
    rw [ih c' h1] at h2
    cases h2

theorem circular_none {i : Nat} (h : Circular g i) (c : Nat) (n : Node) : g.fill c i n = none := by
  obtain ⟨x, h1, h2⟩ := h
  by_contra hn
  obtain ⟨r, hr⟩ := Option.ne_none_iff_exists'.1 hn
  rcases Relation.reflTransGen_iff_eq_or_transGen.1 h1 with rfl | h1
  · rw [cycle_none h2] at hr; cases hr
  · obtain ⟨c', m, r', -, h3⟩ := trans_some h1 hr
    rw [cycle_none h2] at h3; cases h3

/-- Too many nested calls: a chain of nodes. -/
theorem none_chain (c : Nat) : ∀ (i : Nat) (n : Node), g.fill c i n = none →
    ∃ p : Nat → Nat, p 0 = i ∧ ∀ k < c, Inside g (p (k + 1)) (p k) := by
  induction c with
  | zero => intro i n _; exact ⟨fun _ => i, rfl, by simp⟩
  | succ c ih =>
    intro i n h
    obtain ⟨j, m, h1, h2⟩ := fill_none h
    obtain ⟨p, h3, h4⟩ := ih j m h2
    refine ⟨fun k => match k with | 0 => i | k + 1 => p k, rfl, ?_⟩
    intro k hk
    cases k with
    | zero => simpa [h3] using h1
    | succ k => exact h4 k (by omega)

theorem inside_lt {N i j : Nat} (hN : NodesBelow g N) (h : Inside g j i) : i < N := by
  by_contra hc
  have := hN i (by omega)
  rcases h with ⟨hi, -, -, -⟩ | ⟨hi, -, -, -⟩ <;> rw [this] at hi <;> cases hi

theorem chain_trans {p : Nat → Nat} {c : Nat} (hp : ∀ k < c, Inside g (p (k + 1)) (p k)) (a d : Nat) (h : a + d + 1 ≤ c) :
    Relation.TransGen (fun a b => Inside g b a) (p a) (p (a + d + 1)) := by
  induction d with
  | zero => exact .single (hp a (by omega))
  | succ d ih => exact (ih (by omega)).tail (hp (a + d + 1) (by omega))

theorem none_circular {N i : Nat} {n : Node} (hN : NodesBelow g N) (h : g.fill (N + 1) i n = none) : Circular g i := by
  obtain ⟨p, rfl, hp⟩ := none_chain _ _ _ h
  have hlt : ∀ k : Fin (N + 1), p k < N := fun k => inside_lt hN (hp k k.2)
  obtain ⟨a, b, hab, he⟩ := Fintype.exists_ne_map_eq_of_card_lt (fun k : Fin (N + 1) => (⟨p k, hlt k⟩ : Fin N)) (by simp)
  have key : ∀ a b : Nat, a < b → b < N + 1 → p a = p b → Circular g (p 0) := by
    intro a b h1 h2 h3
    refine ⟨p a, ?_, ?_⟩
    · cases a with
      | zero => exact .refl
      | succ a =>
        have := chain_trans hp 0 a (by omega)
        rw [Nat.zero_add] at this
        exact this.to_reflTransGen
    · obtain ⟨d, rfl⟩ : ∃ d, b = a + d + 1 := ⟨b - a - 1, by omega⟩
      have := chain_trans hp a d (by omega)
      rwa [← h3] at this
  have he : p a = p b := congrArg Fin.val he
  rcases Nat.lt_trichotomy a.1 b.1 with h1 | h1 | h1
  · exact key _ _ h1 b.2 he
  · exact absurd (Fin.ext h1) hab
  · exact key _ _ h1 a.2 he.symm

/-! ### Fine documents are not circular -/

theorem fine_inside {i j : Nat} (hj : Inside g j i) (hf : Fine g i) : Fine g j := by
  rcases hj with ⟨hi, -, -, hv⟩ | ⟨hi, -, hv, -⟩
  · exact ((fine_map hi).1 hf (_, j) (List.mem_append_right _ List.mem_cons_self)).2.1 _ hv
  · exact ((fine_map hi).1 hf (_, _) (List.mem_append_right _ List.mem_cons_self)).2.2 _ hv j (by simp)

theorem inside_map {i j : Nat} (hj : Inside g j i) : ∃ es, g i = .map es := by
  rcases hj with ⟨hi, -, -, -⟩ | ⟨hi, -, -, -⟩ <;> exact ⟨_, hi⟩

/-- Every way down in a fine document ends. -/
theorem fine_acc {i : Nat} (hf : Fine g i) : Acc (fun a b => Inside g a b) i := by
  induction hf with
  | null h => exact ⟨_, fun j hj => by obtain ⟨es, he⟩ := inside_map hj; rw [h] at he; cases he⟩
  | scalar h => exact ⟨_, fun j hj => by obtain ⟨es, he⟩ := inside_map hj; rw [h] at he; cases he⟩
  | empty h => exact ⟨_, fun j hj => by obtain ⟨es, he⟩ := inside_map hj; rw [h] at he; cases he⟩
  | @map i es h hk hm hs ihm ihs =>
    refine ⟨_, fun j hj => ?_⟩
    rcases hj with ⟨hi, -, -, hv⟩ | ⟨hi, -, hv, -⟩
    · rw [h] at hi; cases hi
      exact ihm _ j _ (List.mem_append_right _ List.mem_cons_self) hv
    · rw [h] at hi; cases hi
      exact ihs _ _ _ j (List.mem_append_right _ List.mem_cons_self) hv (by simp)

theorem fine_no_cycle {x : Nat} (hf : Fine g x) : ¬ Relation.TransGen (fun a b => Inside g b a) x x := by
  intro h
  have h' : Relation.TransGen (fun a b => Inside g a b) x x := Relation.transGen_swap.1 h
  have hacc := (fine_acc hf).transGen
  clear h
  induction hacc with
  | intro x _ ih => exact ih x h' (by exact hf) h'

/-! ### The tree a document stands for -/

mutual
theorem fill_unfolds {i : Nat} {y : Y} (h : Unfolds g i y) (n : Node) : ∃ c, g.fill c i n = some (Prop.fill y n) := by
  cases h with
  | null h => exact ⟨1, by simp [fill, h, Prop.fill]⟩
  | scalar h => exact ⟨1, by simp [fill, h, Prop.fill]⟩
  | seq h hl =>
    cases hl with
    | nil => exact ⟨1, by simp [fill, h, Prop.fill]⟩
    | cons _ _ => exact ⟨1, by simp [fill, h, Prop.fill]⟩
  | map h hl =>
    obtain ⟨c, hc⟩ := entries_unfolds hl n
    exact ⟨c + 1, by simp only [fill, h, Prop.fill]; exact hc⟩
termination_by sizeOf y
theorem list_unfolds {l : List Nat} {ys : List Y} (h : UnfoldsList g l ys) (n : Node) :
    ∃ c, fillList (g.fill c) l n = some (Prop.fillList ys n) := by
  cases h with
  | nil => exact ⟨0, rfl⟩
  | @cons i l y ys h hl =>
    obtain ⟨c, hc⟩ := fill_unfolds h n
    rcases hr : Prop.fill y n with ⟨n', _ | e⟩
    · obtain ⟨c', hc'⟩ := list_unfolds hl n'
      refine ⟨max c c', ?_⟩
      rw [fillList_cons, fill_le (Nat.le_max_left _ _) hc, hr]
      simp only [Prop.fillList, hr]
      exact fillList_mono (fun i n r h => fill_le (Nat.le_max_right _ _) h) _ _ _ hc'
    · refine ⟨c, ?_⟩
      rw [fillList_cons, hc, hr]
      simp only [Prop.fillList, hr]
termination_by sizeOf ys
theorem entries_unfolds {es : List (Nat × Nat)} {ys : List (Y × Y)} (h : UnfoldsEntries g es ys) (n : Node) :
    ∃ c, g.fillEntries (g.fill c) es n = some (Prop.fillEntries ys n) := by
  cases h with
  | nil => exact ⟨0, rfl⟩
  | @cons k v es a b ys hk hv hl =>
    have hkey : g.keyStr k = Prop.keyStr a := by
      cases hk <;> rename_i h <;> simp [keyStr, h, Prop.keyStr]
    have he : ∃ c, g.fillEntry (g.fill c) k v n = some (Prop.fillEntry (a, b) n) := by
      cases hv with
      | null h => exact ⟨0, by simp [fillEntry, h, Prop.fillEntry]⟩
      | scalar h =>
        refine ⟨0, ?_⟩
        simp only [fillEntry, h, Prop.fillEntry, hkey]
        cases Prop.keyStr a <;> rfl
      | seq h hl =>
        obtain ⟨c, hc⟩ := list_unfolds hl n
        exact ⟨c, by simp only [fillEntry, h, Prop.fillEntry]; exact hc⟩
      | map h hl =>
        obtain ⟨c, hc⟩ := entries_unfolds hl (Node.new [] false)
        refine ⟨c + 1, ?_⟩
        simp only [fillEntry, h, Prop.fillEntry, hkey]
        cases Prop.keyStr a with
        | none => rfl
        | some ks => simp only [fill, h]; rw [hc]; rfl
    obtain ⟨c, hc⟩ := he
    rcases hr : Prop.fillEntry (a, b) n with ⟨n', _ | e⟩
    · obtain ⟨c', hc'⟩ := entries_unfolds hl n'
      refine ⟨max c c', ?_⟩
      rw [fillEntries_cons, fillEntry_mono (fun i n r h => fill_le (Nat.le_max_left _ _) h) _ _ _ _ hc, hr]
      simp only [Prop.fillEntries, hr]
      exact fillEntries_mono (fun i n r h => fill_le (Nat.le_max_right _ _) h) _ _ _ hc'
    · refine ⟨c, ?_⟩
      rw [fillEntries_cons, hc, hr]
      simp only [Prop.fillEntries, hr]
termination_by sizeOf ys
end

end SoDa.Prop.Graph
