import Verif.Props.OStream
import Verif.Props.PropertyDepth
/-!
C132, exceptions for `failbit` alone: what the text of a tree ends with.
-/
namespace SoDa
open Spec OStream

/-- A node that prints nothing. -/
def PrintsNothing (n : Prop.Node) : Prop := n.terminal = false ∧ n.list = [] ∧ n.dict = []

/-- What the text of a tree ends with, as far as it is inserted at once: a newline; or the line that introduces a list, if all elements of it
print nothing. -/
inductive DumpEnds : Prop.Node → Str → Prop
  | value {n} (h : n.terminal = true) : DumpEnds n "\n".toList
  | entry {n es k v} (h : n.terminal = false) (hd : n.dict = es ++ [(k, v)]) (hv : v.terminal = true ∨ PrintsNothing v) : DumpEnds n "\n".toList
  | nested {n es k v t} (h : n.terminal = false) (hd : n.dict = es ++ [(k, v)]) (hv : v.terminal = false) (ht : DumpEnds v t) : DumpEnds n t
  | element {n l v l' t} (h : n.terminal = false) (hd : n.dict = []) (hl : n.list = l ++ v :: l') (hn : ∀ x ∈ l', PrintsNothing x)
      (ht : DumpEnds v t) : DumpEnds n t
  | bare {n} (h : n.terminal = false) (hd : n.dict = []) (hl : n.list ≠ []) (hn : ∀ x ∈ n.list, PrintsNothing x) :
      DumpEnds n "<<<PROPLIST>>>\n".toList

/-- The pieces end with `t`, or there are none. -/
def LastIs (ps : List Str) (t : Str) : Prop := ∃ q, ps = q ++ [t]

theorem LastIs.append {ps : List Str} {t : Str} (h : LastIs ps t) (a : List Str) : LastIs (a ++ ps) t := by
  obtain ⟨q, rfl⟩ := h; exact ⟨a ++ q, by simp⟩

theorem LastIs.cons {ps : List Str} {t : Str} (h : LastIs ps t) (a : Str) : LastIs (a :: ps) t := h.append [a]

theorem dumpPieces_inner {n : Prop.Node} (h : n.terminal = false) (ind : Str) : Prop.dumpPieces n ind =
    (if n.list.isEmpty then [] else "<<<PROPLIST>>>\n".toList :: Prop.dumpListPieces n.list ind) ++
    (if n.dict.isEmpty then [] else "<<<DICTIONARY>>>\n".toList :: Prop.dumpDictPieces n.dict ind) := by
  obtain ⟨val, t, list, dict⟩ := n
  cases h
  rw [Prop.dumpPieces]
  rfl

theorem dumpPieces_value {n : Prop.Node} (h : n.terminal = true) (ind : Str) : Prop.dumpPieces n ind = [ind, n.val, "\n".toList] := by
  obtain ⟨val, t, list, dict⟩ := n
  cases h
  rw [Prop.dumpPieces]
  rfl

theorem dumpListPieces_append (a b : List Prop.Node) (ind : Str) :
    Prop.dumpListPieces (a ++ b) ind = Prop.dumpListPieces a ind ++ Prop.dumpListPieces b ind := by
  induction a with
  | nil => simp [Prop.dumpListPieces]
  | cons v a ih => rw [List.cons_append, Prop.dumpListPieces, Prop.dumpListPieces, ih, List.append_assoc]

theorem dumpDictPieces_append (a b : List (Str × Prop.Node)) (ind : Str) :
    Prop.dumpDictPieces (a ++ b) ind = Prop.dumpDictPieces a ind ++ Prop.dumpDictPieces b ind := by
  induction a with
  | nil => simp [Prop.dumpDictPieces]
  | cons v a ih =>
    obtain ⟨k, v⟩ := v
    rw [List.cons_append, Prop.dumpDictPieces, Prop.dumpDictPieces, ih]
    simp only [List.append_assoc]

theorem PrintsNothing.pieces {n : Prop.Node} (h : PrintsNothing n) (ind : Str) : Prop.dumpPieces n ind = [] := by
  rw [dumpPieces_inner h.1, h.2.1, h.2.2]; rfl

theorem printsNothing_of {n : Prop.Node} {ind : Str} (h : Prop.dumpPieces n ind = []) : PrintsNothing n := by
  cases ht : n.terminal with
  | true => rw [dumpPieces_value ht] at h; cases h
  | false =>
    rw [dumpPieces_inner ht, List.append_eq_nil_iff] at h
    refine ⟨ht, ?_, ?_⟩
    · by_contra hc
      have : n.list.isEmpty = false := by simpa using hc
      rw [this] at h; cases h.1
    · by_contra hc
      have : n.dict.isEmpty = false := by simpa using hc
      rw [this] at h; cases h.2

theorem dumpListPieces_nothing {l : List Prop.Node} (h : ∀ x ∈ l, PrintsNothing x) (ind : Str) : Prop.dumpListPieces l ind = [] := by
  induction l with
  | nil => rw [Prop.dumpListPieces]
  | cons v l ih =>
    have hv := h v List.mem_cons_self
    rw [Prop.dumpListPieces, ih fun x hx => h x (List.mem_cons_of_mem _ hx), hv.1, hv.pieces]
    rfl

theorem dumpEnds_last {n : Prop.Node} {t : Str} (h : DumpEnds n t) : ∀ ind, LastIs (Prop.dumpPieces n ind) t := by
  induction h with
  | value h => intro ind; rw [dumpPieces_value h]; exact ⟨[ind, _], rfl⟩
  | @entry n es k v h hd hv =>
    intro ind
    rw [dumpPieces_inner h]
    refine LastIs.append ?_ _
    rw [hd]
    simp only [List.isEmpty_iff, List.append_eq_nil_iff, List.cons_ne_self, and_false, if_false]
    rw [dumpDictPieces_append, Prop.dumpDictPieces, Prop.dumpDictPieces]
    refine LastIs.cons (LastIs.append ?_ _) _
    rw [List.append_nil]
    refine LastIs.append ?_ _
    rcases hv with hv | hv
    · rw [hv]; exact ⟨[_], rfl⟩
    · rw [hv.1, hv.pieces]; exact ⟨[], rfl⟩
  | @nested n es k v t h hd hv _ ih =>
    intro ind
    rw [dumpPieces_inner h]
    refine LastIs.append ?_ _
    rw [hd]
    simp only [List.isEmpty_iff, List.append_eq_nil_iff, List.cons_ne_self, and_false, if_false]
    rw [dumpDictPieces_append, Prop.dumpDictPieces, Prop.dumpDictPieces]
    refine LastIs.cons (LastIs.append ?_ _) _
    rw [List.append_nil, hv]
    exact LastIs.append (LastIs.cons (ih _) _) _
  | @element n l v l' t h hd hl hn _ ih =>
    intro ind
    rw [dumpPieces_inner h, hd, hl]
    have : (l ++ v :: l').isEmpty = false := by simp
    rw [this, dumpListPieces_append, Prop.dumpListPieces, dumpListPieces_nothing hn]
    simp only [List.isEmpty_nil, if_true, List.append_nil, Bool.false_eq_true, if_false]
    refine LastIs.cons (LastIs.append ?_ _) _
    cases hv : v.terminal with
    | true =>
      have := ih ind
      rw [dumpPieces_value hv] at this
      exact this
    | false => exact ih _
  | @bare n h hd hl hn =>
    intro ind
    rw [dumpPieces_inner h, hd, dumpListPieces_nothing hn]
    have : n.list.isEmpty = false := by simpa using hl
    rw [this]
    exact ⟨[], rfl⟩

theorem last_nonblank (l : List Prop.Node) : (∀ x ∈ l, PrintsNothing x) ∨
    ∃ a v b, l = a ++ v :: b ∧ ¬ PrintsNothing v ∧ ∀ x ∈ b, PrintsNothing x := by
  induction l with
  | nil => exact .inl (by simp)
  | cons x l ih =>
    rcases ih with h | ⟨a, v, b, rfl, h1, h2⟩
    · by_cases hx : PrintsNothing x
      · exact .inl (by simpa [hx] using h)
      · exact .inr ⟨[], x, l, rfl, hx, h⟩
    · exact .inr ⟨x :: a, v, b, rfl, h1, h2⟩

theorem dumpEnds_total : ∀ (k : Nat) (n : Prop.Node), sizeOf n < k → ¬ PrintsNothing n → ∃ t, DumpEnds n t
  | 0, _, h, _ => absurd h (Nat.not_lt_zero _)
  | k + 1, n, hk, hn => by
    cases ht : n.terminal with
    | true => exact ⟨_, .value ht⟩
    | false =>
      rcases List.eq_nil_or_concat n.dict with hd | ⟨es, ⟨q, v⟩, hd⟩
      · rcases last_nonblank n.list with h | ⟨a, v, b, hl, h1, h2⟩
        · exact ⟨_, .bare ht hd (fun hc => hn ⟨ht, hc, hd⟩) h⟩
        · have : sizeOf v < k := by
            have h1 : sizeOf n.list < sizeOf n := by obtain ⟨_, _, _, _⟩ := n; simp [Prop.Node.list]; omega
            have h2 : sizeOf v < sizeOf n.list := List.sizeOf_lt_of_mem (by rw [hl]; simp)
            omega
          obtain ⟨t, h'⟩ := dumpEnds_total k v this h1
          exact ⟨t, .element ht hd hl h2 h'⟩
      · rw [List.concat_eq_append] at hd
        by_cases hb : v.terminal = true ∨ PrintsNothing v
        · exact ⟨_, .entry ht hd hb⟩
        · simp only [not_or] at hb
          have : sizeOf v < k := by
            have h1 : sizeOf n.dict < sizeOf n := by obtain ⟨_, _, _, _⟩ := n; simp [Prop.Node.dict]
            have h2 : sizeOf (q, v) < sizeOf n.dict := List.sizeOf_lt_of_mem (by rw [hd]; simp)
            have h3 : sizeOf (q, v) = 1 + sizeOf q + sizeOf v := rfl
            omega
          obtain ⟨t, h'⟩ := dumpEnds_total k v this hb.2
          exact ⟨t, .nested ht hd (by simpa using hb.1) h'⟩

/-- A tree in a stream without errors: exactly when `std::ios_base::failure` is thrown, whatever exceptions were asked for.  For `failbit` alone that
is if something before the last insertion is missing. -/
theorem C132_dump_throws (n : Prop.Node) (s : OStream) (h : Healthy s) (hn : n.dump [] ≠ []) :
    ∃ first rest last, DumpBegins n first ∧ DumpEnds n last ∧ n.dump [] = first ++ rest ∧
      ((∃ mid, rest = mid ++ last ∧ ((Prop.dumpOn n s).2 = true ↔ ¬ Fits s.room (padded s.width s.fill s.left first ++ rest) ∧
          (s.excBad = true ∨ s.excFail = true ∧ ¬ Fits s.room (padded s.width s.fill s.left first ++ mid)))) ∨
        (rest = [] ∧ last = first ∧ ((Prop.dumpOn n s).2 = true ↔ s.excBad = true ∧ ¬ Fits s.room (padded s.width s.fill s.left first)))) := by
  obtain ⟨first, hb, hd⟩ := dumpPieces_begins n
  have hfl := dumpPieces_flatten n []
  rcases hd with ⟨-, h2⟩ | ⟨ps, h1⟩
  · exact absurd h2 hn
  · obtain ⟨last, hl⟩ := dumpEnds_total (sizeOf n + 1) n (by omega) fun hc => by rw [hc.pieces] at h1; cases h1
    obtain ⟨q, hq⟩ := dumpEnds_last hl []
    obtain ⟨-, -, i3⟩ := insertAll_eq h first ps
    refine ⟨first, ps.flatten, last, hb, hl, by rw [← hfl, h1]; rfl, ?_⟩
    unfold Prop.dumpOn
    rw [h1] at hq ⊢
    rw [i3]
    cases q with
    | nil =>
      cases hq
      refine .inr ⟨rfl, rfl, ?_⟩
      simp [and_comm]
    | cons a q =>
      cases hq
      refine .inl ⟨q.flatten, by simp, ?_⟩
      simp

/-- All lists in the tree have nothing but values. -/
inductive FlatLists : Prop.Node → Prop
  | mk {n} (hl : ∀ v ∈ n.list, v.terminal = true) (hd : ∀ k v, (k, v) ∈ n.dict → FlatLists v) : FlatLists n

theorem dumpEnds_flat {n : Prop.Node} {t : Str} (h : DumpEnds n t) (hf : FlatLists n) : t = "\n".toList := by
  induction h with
  | value | entry => rfl
  | @nested n es k v t h hd hv _ ih =>
    cases hf with
    | mk hl hd' => exact ih (hd' k v (by rw [hd]; simp))
  | @element n l v l' t h hd hl hn ht ih =>
    cases hf with
    | mk hl' _ =>
      have hv := hl' v (by rw [hl]; simp)
      cases ht with
      | value => rfl
      | entry => rfl
      | nested h => rw [hv] at h; cases h
      | element h => rw [hv] at h; cases h
      | bare h => rw [hv] at h; cases h
  | @bare n h hd hl hn =>
    cases hf with
    | mk hl' _ =>
      obtain ⟨a, l, e⟩ := List.exists_cons_of_ne_nil hl
      have h1 := hl' a (by rw [e]; simp)
      have h2 := (hn a (by rw [e]; simp)).1
      rw [h1] at h2
      cases h2

section read
open SoDa.Prop SoDa.Prop.Graph
variable {g : Graph}

theorem FlatLists.push {n : Node} (h : FlatLists n) (s : Str) : FlatLists (n.push (Node.new s true)) := by
  obtain ⟨hl, hd⟩ := h
  refine ⟨fun v hv => ?_, hd⟩
  rcases List.mem_append.1 hv with hv | hv
  · exact hl v hv
  · rw [List.mem_singleton.1 hv]; rfl

theorem FlatLists.set {n p : Node} (h : FlatLists n) (hp : FlatLists p) (s : Str) : FlatLists (n.set s p) := by
  obtain ⟨hl, hd⟩ := h
  refine ⟨hl, fun k v hv => ?_⟩
  rcases mem_mapSet_or _ _ _ _ hv with hv | hv
  · simp only at hv; rw [hv]; exact hp
  · exact hd k v hv

theorem FlatLists.new (s : Str) (b : Bool) : FlatLists (Node.new s b) := ⟨fun v hv => (by cases hv), fun k v hv => (by cases hv)⟩

theorem flat_list {call : Nat → Node → Option (Node × Option YErr)} (hc : ∀ i n r, call i n = some r → FlatLists n → FlatLists r.1)
    (l : List Nat) (n : Node) (r) (h : Graph.fillList call l n = some r) (hn : FlatLists n) : FlatLists r.1 := by
  induction l generalizing n with
  | nil => cases h; exact hn
  | cons y ys ih =>
    rw [fillList_cons] at h
    rcases hy : call y n with _ | ⟨n', _ | e⟩ <;> rw [hy] at h
    · cases h
    · exact ih n' h (hc _ _ _ hy hn)
    · cases h; exact hc _ _ _ hy hn

theorem flat_entry {call : Nat → Node → Option (Node × Option YErr)} (hc : ∀ i n r, call i n = some r → FlatLists n → FlatLists r.1)
    (a v : Nat) (n : Node) (r) (h : g.fillEntry call a v n = some r) (hn : FlatLists n) : FlatLists r.1 := by
  unfold Graph.fillEntry at h
  split at h
  · cases h; exact hn
  · split at h
    · cases h; exact hn
    · obtain ⟨x, hx, rfl⟩ := Option.map_eq_some_iff.1 h
      exact hn.set (hc _ _ _ hx (.new _ _)) _
  · split at h
    · cases h; exact hn
    · cases h; exact hn.set (.new _ _) _
  · exact flat_list hc _ _ _ h hn

theorem flat_entries {call : Nat → Node → Option (Node × Option YErr)} (hc : ∀ i n r, call i n = some r → FlatLists n → FlatLists r.1)
    (es : List (Nat × Nat)) (n : Node) (r) (h : g.fillEntries call es n = some r) (hn : FlatLists n) : FlatLists r.1 := by
  induction es generalizing n with
  | nil => cases h; exact hn
  | cons e es ih =>
    rw [fillEntries_cons] at h
    rcases hy : g.fillEntry call e.1 e.2 n with _ | ⟨n', _ | x⟩ <;> rw [hy] at h
    · cases h
    · exact ih n' h (flat_entry hc _ _ _ _ hy hn)
    · cases h; exact flat_entry hc _ _ _ _ hy hn

theorem flat_fill (c : Nat) : ∀ i n r, g.fill c i n = some r → FlatLists n → FlatLists r.1 := by
  induction c with
  | zero => intro i n r h; cases h
  | succ c ih =>
    intro i n r h hn
    rw [Graph.fill] at h
    split at h
    · cases h; exact hn
    · cases h; exact hn.push _
    · cases h; exact hn
    · cases h; exact hn
    · exact flat_entries ih _ _ _ h hn

/-- What has been read has only values in its lists, whatever the documents (with aliases and mistakes). -/
theorem C132_read_flat (g : Graph) (calls top : Nat) (n n' : Node) (o : ReadOut) (h : g.readFile calls top n = some (n', o)) (hn : FlatLists n) :
    FlatLists n' := by
  obtain ⟨⟨a, e⟩, h1, h2⟩ := Option.map_eq_some_iff.1 h
  have ha : a = n' := by cases e <;> (cases h2; rfl)
  exact ha ▸ flat_fill calls top n _ h1 hn

end read

/-- A tree that has been read, in a stream without errors and without a pending width: `std::ios_base::failure` is thrown in the same cases as for a
help text. -/
theorem C132_dump_read (n : Prop.Node) (hf : FlatLists n) (s : OStream) (h : Healthy s) (hw : s.width = 0) :
    (Prop.dumpOn n s).2 = true ↔ ¬ Fits s.room (n.dump []) ∧ (s.excBad = true ∨ s.excFail = true ∧ ¬ Fits s.room (n.dump []).dropLast) := by
  by_cases hn : n.dump [] = []
  · obtain ⟨first, rest, -, -, -, h4⟩ := C132_dump n s h
    rw [h4 hn, hn]
    simp [Fits]
  · obtain ⟨first, rest, last, h1, h2, h3, h4⟩ := C132_dump_throws n s h hn
    have hl := dumpEnds_flat h2 hf
    subst hl
    rw [hw, padded_of_le (Nat.zero_le _)] at h4
    rcases h4 with ⟨mid, rfl, h4⟩ | ⟨-, he, -⟩
    · rw [h4, h3]
      have : (first ++ (mid ++ "\n".toList)).dropLast = first ++ mid := by rw [← List.append_assoc]; exact List.dropLast_concat
      rw [this]
    · exfalso
      subst he
      generalize ht : "\n".toList = t at h1
      cases h1 <;> exact absurd ht (by decide)

/-! ### Examples -/

/-- A list whose elements print nothing is one insertion: it may be missing without an exception for `failbit`; with a value before the end it may not. -/
example : let bare : Prop.Node := .mk [] false [.mk [] false [] []] []
    let s : OStream := { smallStream with room := some 3 }
    DumpEnds bare "<<<PROPLIST>>>\n".toList ∧ (Prop.dumpOn bare s).2 = false ∧ (Prop.dumpOn listNode s).2 = true := by
  refine ⟨.bare rfl rfl (by simp [Prop.Node.list]) fun x hx => ?_, by decide +kernel, by decide +kernel⟩
  rw [List.mem_singleton.1 hx]
  exact ⟨rfl, rfl, rfl⟩

example : FlatLists listNode ∧ (Prop.dumpOn listNode { smallStream with room := some 16 }).2 = false ∧
    (Prop.dumpOn listNode { smallStream with room := some 15 }).2 = true := by
  refine ⟨⟨fun v hv => ?_, fun k v hv => by cases hv⟩, by decide +kernel, by decide +kernel⟩
  rw [List.mem_singleton.1 hv]
  rfl

end SoDa
