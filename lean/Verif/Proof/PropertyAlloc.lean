import Verif.Model.PropertyAlloc
import Verif.Spec.PropertyAlloc
import Verif.Proof.PropertyHeap
import Verif.Proof.PropertyTreeAll
import Verif.Spec.PropertyHeap
import Mathlib.Data.List.Nodup
/-!
Proofs for property trees and `std::bad_alloc`: a filling that is interrupted has done what the filling with the beginning of
the document does, and has at most one node more.
-/
namespace SoDa.PropAlloc
open SoDa.Prop SoDa.PropMem Spec

/-- The same nodes, or one more that nothing points to yet. -/
def OneMore (m m' : Mem) : Prop := m' = m ∨ ∃ par s b, m' = m.alloc par s b

/-- What a filling with limited memory does, in terms of the one without limits: `full` is that filling, `part` are the
fillings with beginnings of the document. -/
def Cuts (full : Option (Mem × Option YErr)) (part : Option (Mem × Option YErr) → Prop) : Ret → Prop
  | none => part none
  | some (m', .ok _) => full = some (m', none)
  | some (m', .error (.yaml e)) => full = some (m', some e)
  | some (m', .error .badAlloc) => ∃ m'', part (some (m'', none)) ∧ OneMore m'' m'

theorem OneMore.refl (m : Mem) : OneMore m m := .inl rfl
theorem OneMore.alloc (m : Mem) (par s b) : OneMore m (m.alloc par s b) := .inr ⟨par, s, b, rfl⟩

theorem cuts_ask {full part m left next} (h0 : ∃ m'', part (some (m'', none)) ∧ OneMore m'' m)
    (h : ∀ left, Cuts full part (next left)) : Cuts full part (ask m left next) := by
  cases left with
  | zero => exact h0
  | succ left => exact h left

mutual
theorem fill_cut (y : Y) (p : Nat) (m : Mem) (left : Nat) :
    Cuts (PropMem.fill y p m) (fun r => ∃ y', Initial y' y ∧ PropMem.fill y' p m = r) (fill y p m left) := by
  cases y with
  | null => simp [fill, Cuts, PropMem.fill]
  | scalar s =>
    have h0 : ∀ m', OneMore m m' →
        ∃ m'', (∃ y', Initial y' (.scalar s) ∧ PropMem.fill y' p m = some (m'', none)) ∧ OneMore m'' m' :=
      fun m' h => ⟨m, ⟨.null, .nothing _, by simp [PropMem.fill]⟩, h⟩
    unfold fill
    refine cuts_ask (h0 _ (.refl _)) fun left => cuts_ask (h0 _ (.alloc ..)) fun left => ?_
    cases hp : (m.alloc (some p) s true).push p m.length with
    | none => exact ⟨_, .whole _, by simp [PropMem.fill, hp]⟩
    | some m' => simp [Cuts, PropMem.fill, hp]
  | seq l => cases l <;> simp [fill, Cuts, PropMem.fill]
  | map es =>
    unfold fill
    have := fillEntries_cut es p m left
    revert this
    rcases fillEntries es p m left with _ | ⟨m', (_ | _) | _⟩
    · rintro ⟨es', h1, h2⟩
      exact ⟨.map es', .map h1, by simpa [PropMem.fill] using h2⟩
    · intro h; simpa [Cuts, PropMem.fill] using h
    · rintro ⟨m'', ⟨es', h1, h2⟩, h3⟩
      exact ⟨m'', ⟨.map es', .map h1, by simpa [PropMem.fill] using h2⟩, h3⟩
    · intro h; simpa [Cuts, PropMem.fill] using h
theorem fillEntries_cut (es : List (Y × Y)) (p : Nat) (m : Mem) (left : Nat) :
    Cuts (PropMem.fillEntries es p m) (fun r => ∃ es', InitialEntries es' es ∧ PropMem.fillEntries es' p m = r)
      (fillEntries es p m left) := by
  have h0 : ∃ m'', (∃ es', InitialEntries es' es ∧ PropMem.fillEntries es' p m = some (m'', none)) ∧ OneMore m'' m :=
    ⟨m, ⟨[], .stop _, by simp [PropMem.fillEntries]⟩, .refl _⟩
  cases es with
  | nil =>
    unfold fillEntries
    exact cuts_ask h0 fun left => by simp [Cuts, PropMem.fillEntries]
  | cons e es =>
    unfold fillEntries
    refine cuts_ask h0 fun left => ?_
    have h1 := fillEntry_cut e p m left
    revert h1
    rcases fillEntry e p m left with _ | ⟨m1, (_ | _) | left⟩
    · rintro ⟨es', h1, h2⟩; exact ⟨es', h1 es, h2⟩
    · intro h; simp only [Cuts] at h ⊢; simp [PropMem.fillEntries, h]
    · rintro ⟨m'', ⟨es', h1, h2⟩, h3⟩; exact ⟨m'', ⟨es', h1 es, h2⟩, h3⟩
    · intro h
      simp only [Cuts] at h
      have h2 := fillEntries_cut es p m1 left
      revert h2
      simp only [PropMem.fillEntries, h]
      rcases fillEntries es p m1 left with _ | ⟨m2, (_ | _) | left⟩
      · rintro ⟨es', h2, h3⟩; exact ⟨e :: es', .keep e h2, by simp [PropMem.fillEntries, h, h3]⟩
      · exact id
      · rintro ⟨m'', ⟨es', h2, h3⟩, h4⟩; exact ⟨m'', ⟨e :: es', .keep e h2, by simp [PropMem.fillEntries, h, h3]⟩, h4⟩
      · exact id
theorem fillEntry_cut (e : Y × Y) (p : Nat) (m : Mem) (left : Nat) :
    Cuts (PropMem.fillEntry e p m) (fun r => ∃ es', (∀ es, InitialEntries es' (e :: es)) ∧ PropMem.fillEntries es' p m = r)
      (fillEntry e p m left) := by
  have h0 : ∀ m', OneMore m m' →
      ∃ m'', (∃ es', (∀ es, InitialEntries es' (e :: es)) ∧ PropMem.fillEntries es' p m = some (m'', none)) ∧ OneMore m'' m' :=
    fun m' h => ⟨m, ⟨[], fun _ => .stop _, by simp [PropMem.fillEntries]⟩, h⟩
  obtain ⟨k, v⟩ := e
  cases v with
  | null => simp [fillEntry, Cuts, PropMem.fillEntry]
  | scalar s =>
    unfold fillEntry
    refine cuts_ask (h0 _ (.refl _)) fun left => cuts_ask (h0 _ (.alloc ..)) fun left => ?_
    cases hk : keyStr k with
    | none => simp [Cuts, PropMem.fillEntry, hk]
    | some ks =>
      refine cuts_ask (h0 _ (.alloc ..)) fun left => ?_
      cases hp : (m.alloc (some p) s true).setKey p ks m.length with
      | none => exact ⟨[(k, .scalar s)], fun _ => .keep _ (.stop _), by simp [PropMem.fillEntries, PropMem.fillEntry, hk, hp]⟩
      | some m' => simp [Cuts, PropMem.fillEntry, hk, hp]
  | map es =>
    unfold fillEntry
    refine cuts_ask (h0 _ (.refl _)) fun left => cuts_ask (h0 _ (.alloc ..)) fun left => ?_
    cases hk : keyStr k with
    | none => simp [Cuts, PropMem.fillEntry, hk]
    | some ks =>
      refine cuts_ask (h0 _ (.alloc ..)) fun left => ?_
      cases hp : (m.alloc (some p) [] false).setKey p ks m.length with
      | none => exact ⟨[(k, .map es)], fun _ => .keep _ (.stop _), by simp [PropMem.fillEntries, PropMem.fillEntry, hk, hp]⟩
      | some m' =>
        have h2 := fillEntries_cut es m.length m' left
        revert h2
        dsimp only
        have hf : ∀ es', PropMem.fillEntry (k, .map es') p m = PropMem.fillEntries es' m.length m' := fun es' => by
          simp [PropMem.fillEntry, hk, hp]
        have hf' : ∀ es' r, PropMem.fillEntries es' m.length m' = r → (∀ e m, r ≠ some (m, some e)) →
            PropMem.fillEntries [(k, .map es')] p m = r := fun es' r h hr => by
          simp only [PropMem.fillEntries, hf, h]
          rcases r with _ | ⟨m, _ | _⟩
          · rfl
          · rfl
          · exact absurd rfl (hr _ _)
        rcases fillEntries es m.length m' left with _ | ⟨m2, (_ | _) | left⟩
        · rintro ⟨es', h2, h3⟩; exact ⟨_, fun _ => .inMap _ _ h2, hf' _ _ h3 (by simp)⟩
        · intro h; simp only [Cuts] at h ⊢; rw [hf, h]
        · rintro ⟨m'', ⟨es', h2, h3⟩, h4⟩; exact ⟨m'', ⟨_, fun _ => .inMap _ _ h2, hf' _ _ h3 (by simp)⟩, h4⟩
        · intro h; simp only [Cuts] at h ⊢; rw [hf, h]
  | seq l =>
    unfold fillEntry
    have h2 := fillList_cut l p m left
    revert h2
    have hf : ∀ l', PropMem.fillEntry (k, .seq l') p m = PropMem.fillList l' p m := fun l' => by simp [PropMem.fillEntry]
    have hf' : ∀ l' r, PropMem.fillList l' p m = r → (∀ e m, r ≠ some (m, some e)) →
        PropMem.fillEntries [(k, .seq l')] p m = r := fun l' r h hr => by
      simp only [PropMem.fillEntries, hf, h]
      rcases r with _ | ⟨m, _ | _⟩
      · rfl
      · rfl
      · exact absurd rfl (hr _ _)
    rcases fillList l p m left with _ | ⟨m2, (_ | _) | left⟩
    · rintro ⟨es', h2, h3⟩; exact ⟨_, fun _ => .inSeq _ _ h2, hf' _ _ h3 (by simp)⟩
    · intro h; simp only [Cuts] at h ⊢; rw [hf, h]
    · rintro ⟨m'', ⟨es', h2, h3⟩, h4⟩; exact ⟨m'', ⟨_, fun _ => .inSeq _ _ h2, hf' _ _ h3 (by simp)⟩, h4⟩
    · intro h; simp only [Cuts] at h ⊢; rw [hf, h]
theorem fillList_cut (l : List Y) (p : Nat) (m : Mem) (left : Nat) :
    Cuts (PropMem.fillList l p m) (fun r => ∃ l', InitialList l' l ∧ PropMem.fillList l' p m = r) (fillList l p m left) := by
  have h0 : ∃ m'', (∃ es', InitialList es' l ∧ PropMem.fillList es' p m = some (m'', none)) ∧ OneMore m'' m :=
    ⟨m, ⟨[], .stop _, by simp [PropMem.fillList]⟩, .refl _⟩
  cases l with
  | nil =>
    unfold fillList
    exact cuts_ask h0 fun left => by simp [Cuts, PropMem.fillList]
  | cons y ys =>
    unfold fillList
    refine cuts_ask h0 fun left => ?_
    have h1 := fill_cut y p m left
    revert h1
    have one : ∀ y' r, PropMem.fill y' p m = r → (∀ e m, r ≠ some (m, some e)) → PropMem.fillList [y'] p m = r :=
      fun y' r h hr => by
        simp only [PropMem.fillList, h]
        rcases r with _ | ⟨m, _ | _⟩
        · rfl
        · rfl
        · exact absurd rfl (hr _ _)
    rcases fill y p m left with _ | ⟨m1, (_ | _) | left⟩
    · rintro ⟨y', h1, h2⟩; exact ⟨[y'], .inside _ h1, one _ _ h2 (by simp)⟩
    · intro h; simp only [Cuts] at h ⊢; simp [PropMem.fillList, h]
    · rintro ⟨m'', ⟨y', h1, h2⟩, h3⟩; exact ⟨m'', ⟨[y'], .inside _ h1, one _ _ h2 (by simp)⟩, h3⟩
    · intro h
      simp only [Cuts] at h
      have h2 := fillList_cut ys p m1 left
      revert h2
      simp only [PropMem.fillList, h]
      rcases fillList ys p m1 left with _ | ⟨m2, (_ | _) | left⟩
      · rintro ⟨es', h2, h3⟩; exact ⟨y :: es', .keep y h2, by simp [PropMem.fillList, h, h3]⟩
      · exact id
      · rintro ⟨m'', ⟨es', h2, h3⟩, h4⟩; exact ⟨m'', ⟨y :: es', .keep y h2, by simp [PropMem.fillList, h, h3]⟩, h4⟩
      · exact id
end

/-! ### Enough memory -/

/-- With fewer than a certain number of requests the filling is interrupted, with that number it is not. -/
def Threshold (f : Nat → Ret) (full : Option (Mem × Option YErr)) : Prop :=
  ∃ N, ∀ left, (left < N → ∃ m', f left = some (m', .error .badAlloc)) ∧
    (N ≤ left → f left = match full with
      | none => none
      | some (m', some e) => some (m', .error (.yaml e))
      | some (m', none) => some (m', .ok (left - N)))

theorem threshold_ask {m : Mem} {next full} (h : Threshold next full) : Threshold (fun left => ask m left next) full := by
  obtain ⟨N, h⟩ := h
  refine ⟨N + 1, fun left => ?_⟩
  cases left with
  | zero => exact ⟨fun _ => ⟨m, rfl⟩, fun h => by omega⟩
  | succ left => simpa [ask, Nat.add_sub_add_right] using h left

theorem threshold_const {full : Option (Mem × Option YErr)} : Threshold (fun left => match full with
      | none => none
      | some (m', some e) => some (m', .error (.yaml e))
      | some (m', none) => some (m', .ok left)) full :=
  ⟨0, fun left => ⟨fun h => by omega, fun _ => by simp⟩⟩

theorem threshold_seq {f : Nat → Ret} {g : Mem → Nat → Ret} {ff : Option (Mem × Option YErr)}
    {gf : Mem → Option (Mem × Option YErr)} (h : Threshold f ff)
    (hg : ∀ m', ff = some (m', none) → Threshold (g m') (gf m')) :
    Threshold (fun left => match f left with
        | none => none
        | some (m', .error e) => some (m', .error e)
        | some (m', .ok left) => g m' left)
      (match (generalizing := false) ff with
        | none => none
        | some (m', some e) => some (m', some e)
        | some (m', none) => gf m') := by
  obtain ⟨N, h⟩ := h
  rcases ff with _ | ⟨m1, _ | e⟩
  · refine ⟨N, fun left => ⟨fun hl => ?_, fun hl => ?_⟩⟩
    · obtain ⟨m', h'⟩ := (h left).1 hl; exact ⟨m', by simp [h']⟩
    · simp [(h left).2 hl]
  · obtain ⟨M, hM⟩ := hg m1 rfl
    refine ⟨N + M, fun left => ⟨fun hl => ?_, fun hl => ?_⟩⟩
    · by_cases hN : left < N
      · obtain ⟨m', h'⟩ := (h left).1 hN; exact ⟨m', by simp [h']⟩
      · obtain ⟨m', h'⟩ := (hM (left - N)).1 (by omega)
        exact ⟨m', by simp only [(h left).2 (by omega), h']⟩
    · simp only [(h left).2 (by omega), (hM (left - N)).2 (by omega), Nat.sub_sub]
  · refine ⟨N, fun left => ⟨fun hl => ?_, fun hl => ?_⟩⟩
    · obtain ⟨m', h'⟩ := (h left).1 hl; exact ⟨m', by simp [h']⟩
    · simp [(h left).2 hl]

mutual
theorem fill_threshold (y : Y) (p : Nat) (m : Mem) : Threshold (fill y p m) (PropMem.fill y p m) := by
  cases y with
  | null => simpa only [fill, PropMem.fill] using threshold_const (full := some (m, none))
  | scalar s =>
    show Threshold (fun left => fill (.scalar s) p m left) _
    unfold fill PropMem.fill
    refine threshold_ask (threshold_ask ?_)
    cases hp : (m.alloc (some p) s true).push p m.length with
    | none => exact threshold_const (full := none)
    | some m' => exact threshold_const (full := some (m', none))
  | seq l =>
    cases l with
    | nil => simpa only [fill, PropMem.fill] using threshold_const (full := some (m, none))
    | cons a l => simpa only [fill, PropMem.fill] using threshold_const (full := some (m, some .invalidNode))
  | map es => simpa only [fill, PropMem.fill] using fillEntries_threshold es p m
theorem fillEntries_threshold (es : List (Y × Y)) (p : Nat) (m : Mem) :
    Threshold (fillEntries es p m) (PropMem.fillEntries es p m) := by
  cases es with
  | nil => exact threshold_ask (threshold_const (full := some (m, none)))
  | cons e es =>
    show Threshold (fun left => fillEntries (e :: es) p m left) _
    unfold fillEntries PropMem.fillEntries
    exact threshold_ask (threshold_seq (fillEntry_threshold e p m) fun m' _ => fillEntries_threshold es p m')
theorem fillEntry_threshold (e : Y × Y) (p : Nat) (m : Mem) :
    Threshold (fillEntry e p m) (PropMem.fillEntry e p m) := by
  obtain ⟨k, v⟩ := e
  cases v with
  | null => simpa only [fillEntry, PropMem.fillEntry] using threshold_const (full := some (m, none))
  | scalar s =>
    show Threshold (fun left => fillEntry (k, .scalar s) p m left) _
    unfold fillEntry PropMem.fillEntry
    refine threshold_ask (threshold_ask ?_)
    cases hk : keyStr k with
    | none => exact threshold_const (full := some (_, some .badConversion))
    | some ks =>
      refine threshold_ask ?_
      dsimp only
      cases hp : (m.alloc (some p) s true).setKey p ks m.length with
      | none => exact threshold_const (full := none)
      | some m' => exact threshold_const (full := some (m', none))
  | map es =>
    show Threshold (fun left => fillEntry (k, .map es) p m left) _
    unfold fillEntry PropMem.fillEntry
    refine threshold_ask (threshold_ask ?_)
    cases hk : keyStr k with
    | none => exact threshold_const (full := some (_, some .badConversion))
    | some ks =>
      refine threshold_ask ?_
      dsimp only
      cases hp : (m.alloc (some p) [] false).setKey p ks m.length with
      | none => exact threshold_const (full := none)
      | some m' => exact fillEntries_threshold es m.length m'
  | seq l => simpa only [fillEntry, PropMem.fillEntry] using fillList_threshold l p m
theorem fillList_threshold (l : List Y) (p : Nat) (m : Mem) : Threshold (fillList l p m) (PropMem.fillList l p m) := by
  cases l with
  | nil => exact threshold_ask (threshold_const (full := some (m, none)))
  | cons y ys =>
    show Threshold (fun left => fillList (y :: ys) p m left) _
    unfold fillList PropMem.fillList
    exact threshold_ask (threshold_seq (fill_threshold y p m) fun m' _ => fillList_threshold ys p m')
end

/-! ### The tree -/

mutual
/-- Filling an ordered node gives an ordered one, whatever happens. -/
theorem fill_ordered (y : Y) (n : Node) (h : n.Ordered) : (Prop.fill y n).1.Ordered := by
  cases y with
  | null => simpa [Prop.fill] using h
  | scalar s => simp only [Prop.fill]; exact h
  | seq l => cases l <;> simpa [Prop.fill] using h
  | map es => simpa only [Prop.fill] using fillEntries_ordered es n h
theorem fillEntries_ordered (es : List (Y × Y)) (n : Node) (h : n.Ordered) : (Prop.fillEntries es n).1.Ordered := by
  cases es with
  | nil => simpa [Prop.fillEntries] using h
  | cons e es =>
    have h1 := fillEntry_ordered e n h
    revert h1
    simp only [Prop.fillEntries]
    rcases Prop.fillEntry e n with ⟨n', _ | _⟩ <;> intro h1
    · exact fillEntries_ordered es n' h1
    · exact h1
theorem fillEntry_ordered (e : Y × Y) (n : Node) (h : n.Ordered) : (Prop.fillEntry e n).1.Ordered := by
  obtain ⟨k, v⟩ := e
  cases v with
  | null => simpa [Prop.fillEntry] using h
  | scalar s =>
    cases hk : keyStr k with
    | none => simpa [Prop.fillEntry, hk] using h
    | some ks => simpa [Prop.fillEntry, hk] using h.set _ _
  | map es =>
    cases hk : keyStr k with
    | none => simpa [Prop.fillEntry, hk] using h
    | some ks => simpa [Prop.fillEntry, hk] using h.set _ _
  | seq l => simpa only [Prop.fillEntry] using fillList_ordered l n h
theorem fillList_ordered (l : List Y) (n : Node) (h : n.Ordered) : (Prop.fillList l n).1.Ordered := by
  cases l with
  | nil => simpa [Prop.fillList] using h
  | cons y ys =>
    have h1 := fill_ordered y n h
    revert h1
    simp only [Prop.fillList]
    rcases Prop.fill y n with ⟨n', _ | _⟩ <;> intro h1
    · exact fillList_ordered ys n' h1
    · exact h1
end

/-- Ordered nodes are equal if they have the same value, list and children. -/
theorem node_ext {a b : Node} (ha : a.Ordered) (hb : b.Ordered) (hv : a.val = b.val) (ht : a.terminal = b.terminal)
    (hl : a.list = b.list) (hc : ∀ k, childAt a k = childAt b k) : a = b := by
  obtain ⟨v, t, l, d⟩ := a
  obtain ⟨v', t', l', d'⟩ := b
  simp only [Node.val, Node.terminal, Node.list] at hv ht hl
  subst hv ht hl
  congr
  simp only [Node.Ordered, Node.dict] at ha hb
  have nd : ∀ {d : List (Str × Node)}, Sorted strLess d → d.Nodup := fun h =>
    List.Pairwise.imp (fun {x y} h e => by subst e; simp [strLess_irrefl] at h) h
  have hp : d.Perm d' := (List.perm_ext_iff_of_nodup (nd ha) (nd hb)).2 fun ⟨k, n⟩ => by
    rw [← mapFind_mem strLess_order k n d ha, ← mapFind_mem strLess_order k n d' hb]
    have := hc k
    rw [childAt_eq, childAt_eq] at this
    simp only [Node.dict] at this
    rw [this]
  refine hp.eq_of_pairwise (fun a b _ _ h1 h2 => ?_) ha hb
  have := strLess_order.trans h1 h2
  simp [strLess_irrefl] at this

/-- `readFile` with limited memory. -/
theorem readFile_cut (f : Load) {m : Mem} {par p n fp} (h : Holds m par p n fp) (left : Nat) :
    ∃ m' out, readFile p m left f = some (m', out) ∧
      ((out = .done (Prop.readFile n f).2 ∧ Filled m par p fp m' (Prop.readFile n f).1) ∨
        (out = .badAlloc ∧ ∃ y y', f = .doc y ∧ Initial y' y ∧ Readable y' ∧ Filled m par p fp m' (Prop.fill y' n).1 ∧
          ∃ lost ≤ 1, m'.length = m.length + nodesOf y' + lost)) := by
  cases f with
  | badFile w => exact ⟨m, _, rfl, .inl ⟨rfl, Filled.refl h⟩⟩
  | otherError => exact ⟨m, _, rfl, .inl ⟨rfl, Filled.refl h⟩⟩
  | doc y =>
    have hc := fill_cut y p m left
    obtain ⟨mf, h1, h2⟩ := fill_spec y h
    simp only [readFile, Prop.readFile]
    rcases hr : fill y p m left with _ | ⟨m', (e | _) | left'⟩ <;> rw [hr] at hc <;> simp only [Cuts] at hc
    · obtain ⟨y', -, h3⟩ := hc
      obtain ⟨m'', h4, -⟩ := fill_spec y' h
      rw [h3] at h4; cases h4
    · rw [h1] at hc
      obtain ⟨rfl, he⟩ : mf = m' ∧ (Prop.fill y n).2 = some e := by simpa using hc
      refine ⟨mf, _, rfl, .inl ?_⟩
      rcases hE : Prop.fill y n with ⟨n', _ | err⟩ <;> rw [hE] at h2 he
      · cases he
      · cases he; exact ⟨rfl, h2⟩
    · obtain ⟨m'', ⟨y', h3, h4⟩, h5⟩ := hc
      obtain ⟨m3, h6, h7⟩ := fill_spec y' h
      rw [h4] at h6
      obtain ⟨rfl, he⟩ : m'' = m3 ∧ none = (Prop.fill y' n).2 := by simpa using h6
      refine ⟨m', _, rfl, .inr ⟨rfl, y, y', rfl, h3, ?_, ?_, ?_⟩⟩
      · by_contra hn
        exact (fill_does y' n).2 hn he.symm
      · rcases h5 with rfl | ⟨q, s, b, rfl⟩
        · exact h7
        · exact h7.trans fun fp' h' => filled_alloc _ _ _ h'
      · have hl := fill_count y' p m m'' h4
        rcases h5 with rfl | ⟨q, s, b, rfl⟩
        · exact ⟨0, by omega, by omega⟩
        · exact ⟨1, by omega, by rw [length_alloc]; omega⟩
    · rw [h1] at hc
      obtain ⟨rfl, he⟩ : mf = m' ∧ (Prop.fill y n).2 = none := by simpa using hc
      refine ⟨mf, _, rfl, .inl ?_⟩
      rcases hE : Prop.fill y n with ⟨n', _ | err⟩ <;> rw [hE] at h2 he
      · exact ⟨rfl, h2⟩
      · cases he

/-! ### Reading again -/

mutual
/-- The beginning of a document has no other keys. -/
theorem initial_keys {a b : Y} (h : Initial a b) (k : Str) (v : Y) (hv : Contrib.entry k v ∈ contents a) :
    ∃ v', Contrib.entry k v' ∈ contents b := by
  cases h with
  | nothing => simp [contents] at hv
  | whole => exact ⟨v, hv⟩
  | map h => simp only [contents] at hv ⊢; exact initialEntries_keys h k v hv
theorem initialEntries_keys {as bs : List (Y × Y)} (h : InitialEntries as bs) (k : Str) (v : Y)
    (hv : Contrib.entry k v ∈ contentsEntries as) : ∃ v', Contrib.entry k v' ∈ contentsEntries bs := by
  cases h with
  | stop => simp [contentsEntries] at hv
  | keep e h =>
    simp only [contentsEntries, List.mem_append] at hv ⊢
    rcases hv with hv | hv
    · exact ⟨v, .inl hv⟩
    · obtain ⟨v', h'⟩ := initialEntries_keys h k v hv
      exact ⟨v', .inr h'⟩
  | @inMap as' bs' k' es h =>
    simp only [contentsEntries, List.mem_append, List.append_nil] at hv ⊢
    cases k' with
    | scalar ks =>
      simp only [contentsEntry, List.mem_singleton, Contrib.entry.injEq] at hv
      obtain ⟨rfl, -⟩ := hv
      exact ⟨.map bs', .inl (by simp [contentsEntry])⟩
    | _ => simp [contentsEntry] at hv
  | inSeq k' es h =>
    simp only [contentsEntries, List.mem_append, List.append_nil, contentsEntry] at hv ⊢
    obtain ⟨v', h'⟩ := initialList_keys h k v hv
    exact ⟨v', .inl h'⟩
theorem initialList_keys {as bs : List Y} (h : InitialList as bs) (k : Str) (v : Y)
    (hv : Contrib.entry k v ∈ contentsList as) : ∃ v', Contrib.entry k v' ∈ contentsList bs := by
  cases h with
  | stop => simp [contentsList] at hv
  | keep y h =>
    simp only [contentsList, List.mem_append] at hv ⊢
    rcases hv with hv | hv
    · exact ⟨v, .inl hv⟩
    · obtain ⟨v', h'⟩ := initialList_keys h k v hv
      exact ⟨v', .inr h'⟩
  | inside ys h =>
    simp only [contentsList, List.mem_append, List.append_nil] at hv ⊢
    obtain ⟨v', h'⟩ := initial_keys h k v hv
    exact ⟨v', .inl h'⟩
end

/-- Filling with the beginning of a document, then with the document. -/
theorem fill_again {a b : Y} (h : Initial a b) (ha : Readable a) (hb : Readable b) (n : Node) :
    (∀ k, childAt (Prop.fill b (Prop.fill a n).1).1 k = childAt (Prop.fill b n).1 k) ∧
      (Prop.fill b (Prop.fill a n).1).1.list = n.list ++ (items (contents a)).map leaf ++ (items (contents b)).map leaf ∧
      (Prop.fill b n).1.list = n.list ++ (items (contents b)).map leaf := by
  have f1 := ((fill_does a n).1 ha).2
  have f2 := ((fill_does b (Prop.fill a n).1).1 hb).2
  have f := ((fill_does b n).1 hb).2
  refine ⟨fun k => ?_, by rw [f2.list, f1.list], f.list⟩
  rw [f2.child, f.child]
  cases hk : lastEntry (contents b) k with
  | some v => rfl
  | none =>
    simp only
    rw [f1.child]
    cases hk' : lastEntry (contents a) k with
    | none => rfl
    | some v =>
      have := (lastEntry_isSome (contents b) k).2 (initial_keys h k v (lastEntry_mem hk'))
      simp [hk] at this

/-! ### Programs -/

/-- The trees are as they should be, and their dictionaries are sorted. -/
structure Fit (s : St) : Prop extends Good s where
  sorted : ∀ i n, ShowsTree s i n → n.Ordered

theorem _root_.SoDa.Spec.Initial.readFile_fst (y : Y) (n : Node) : (Prop.readFile n (.doc y)).1 = (Prop.fill y n).1 := by
  simp only [Prop.readFile]
  rcases Prop.fill y n with ⟨_, _ | _⟩ <;> rfl

theorem readFile_ordered (f : Load) (n : Node) (h : n.Ordered) : (Prop.readFile n f).1.Ordered := by
  cases f with
  | badFile w => exact h
  | otherError => exact h
  | doc y => rw [Initial.readFile_fst]; exact fill_ordered y n h

theorem ordered_root : newTree.Ordered := by simp [newTree, Node.new, Node.Ordered, Node.dict, Sorted]

/-- A reading, complete or not. -/
theorem Fit.read {s : St} (g : Fit s) {i r n fp m' n'} (hr : s.root i = some r) (h : Holds s.mem none r n fp)
    (hf : Filled s.mem none r fp m' n') (ho : n'.Ordered) : Fit { s with mem := m' } := by
  refine ⟨g.toGood.read hr h hf, ?_⟩
  rintro j k ⟨q, fq, hq, hk⟩
  change s.root j = some q at hq
  by_cases e : q = r
  · subst e
    obtain ⟨fp', h', -⟩ := hf.holds
    obtain ⟨-, rfl, -⟩ := h'.unique hk
    exact ho
  · obtain ⟨k0, fq0, h0⟩ := g.tree j q hq
    have h1 := hf.other h0 (g.apart i j r q n k0 fp fq0 hr hq (Ne.symm e) h h0 r (Holds_root_mem h))
    obtain ⟨-, rfl, -⟩ := h1.unique hk
    exact g.sorted j _ ⟨q, fq0, hq, h0⟩

/-- New nodes beside the others, and perhaps a new variable for them. -/
theorem Fit.add {s : St} (g : Fit s) {m' : Mem} (hs : ∀ q < s.mem.length, m'[q]? = s.mem[q]?) :
    Fit { s with mem := m' } ∧
    ∀ i n fp, Holds m' none s.mem.length n fp → (∀ x ∈ fp, s.mem.length ≤ x) → n.Ordered →
      Fit (({ s with mem := m' } : St).setRoot i (some s.mem.length)) := by
  obtain ⟨h1, h2⟩ := g.toGood.add hs
  have old : ∀ j q k fq, s.root j = some q → Holds m' none q k fq → k.Ordered := by
    intro j q k fq hj hk
    obtain ⟨k0, fq0, h0⟩ := g.tree j q hj
    obtain ⟨-, rfl, -⟩ := (h0.frame (m' := m') fun x hx => hs x (h0.valid x hx)).unique hk
    exact g.sorted j _ ⟨q, fq0, hj, h0⟩
  refine ⟨⟨h1, fun j k ⟨q, fq, hq, hk⟩ => old j q k fq hq hk⟩, fun i n fp hh hn ho => ⟨h2 i n fp hh hn, ?_⟩⟩
  rintro j k ⟨q, fq, hq, hk⟩
  simp only [St.setRoot] at hq
  split at hq
  · cases hq
    obtain ⟨-, rfl, -⟩ := hh.unique hk
    exact ho
  · exact old j q k fq hq hk

theorem Fit.setRoot {s : St} (g : Fit s) (i : Nat) (o : Option Nat) (ho : ∀ r, o = some r → ∃ j, s.root j = some r) :
    Fit (s.setRoot i o) := by
  refine ⟨g.toGood.setRoot i o ho, ?_⟩
  rintro j k ⟨q, fq, hq, hk⟩
  simp only [St.setRoot] at hq
  split at hq
  · obtain ⟨j', h'⟩ := ho q hq
    exact g.sorted j' k ⟨q, fq, h', hk⟩
  · exact g.sorted j k ⟨q, fq, hq, hk⟩

/-- The construction with a file. -/
theorem load_cut (s : St) (f : Load) (left : Nat) :
    ∃ m' out, readFile s.mem.length (s.mem.alloc none "root".toList false) left f = some (m', out) ∧
      (∀ q < s.mem.length, m'[q]? = s.mem[q]?) ∧
      ((out = .done (Prop.readFile newTree f).2 ∧
        ∃ fp, Holds m' none s.mem.length (Prop.readFile newTree f).1 fp ∧ ∀ x ∈ fp, s.mem.length ≤ x) ∨ out = .badAlloc) := by
  obtain ⟨m', out, h1, h2⟩ := readFile_cut f (holds_root s.mem) left
  have key : ∀ n', Filled (s.mem.alloc none "root".toList false) none s.mem.length [s.mem.length] m' n' →
      (∀ q < s.mem.length, m'[q]? = s.mem[q]?) ∧ ∃ fp, Holds m' none s.mem.length n' fp ∧ ∀ x ∈ fp, s.mem.length ≤ x := by
    rintro n' ⟨-, hs, fp, h3, h4⟩
    rw [length_alloc] at hs h4
    refine ⟨fun q hq => ?_, fp, h3, fun x hx => ?_⟩
    · rw [hs q (by omega) (by omega)]; exact getElem?_alloc_lt _ _ _ _ hq
    · rcases h4 x hx with hx | hx
      · simp at hx; omega
      · omega
  rcases h2 with ⟨h2, h3⟩ | ⟨h2, y, y', -, -, -, h3, -⟩
  · exact ⟨m', out, h1, (key _ h3).1, .inl ⟨h2, (key _ h3).2⟩⟩
  · exact ⟨m', out, h1, (key _ h3).1, .inr h2⟩

theorem exec_fit {s : St} (g : Fit s) {c left s' out} (he : exec s left c = some (s', out)) : Fit s' := by
  cases c with
  | make i =>
    simp only [exec] at he
    split at he
    · split at he
      · cases he; exact g
      · cases he
        exact (g.add fun q hq => getElem?_alloc_lt _ _ _ _ hq).2 i _ _ (holds_root _) (by simp) ordered_root
    · cases he
  | load i f =>
    simp only [exec] at he
    split at he
    · split at he
      · cases he; exact g
      · next left =>
        obtain ⟨m', out', h1, h2, h3⟩ := load_cut s f left
        rw [h1] at he
        rcases h3 with ⟨rfl, fp, h3, h4⟩ | rfl
        · cases ho : (Prop.readFile newTree f).2 <;> rw [ho] at he <;> simp only at he <;> cases he
          · exact (g.add h2).2 i _ _ h3 h4 (readFile_ordered f _ ordered_root)
          all_goals exact (g.add h2).1
        · cases he; exact (g.add h2).1
    · cases he
  | copy i j =>
    simp only [exec, PropMem.exec] at he
    split at he
    · next r _ hj => cases he; exact g.setRoot i _ fun r' e => ⟨j, by rw [hj, e]⟩
    · cases he
  | assign i j =>
    simp only [exec, PropMem.exec] at he
    split at he
    · next r _ hj => cases he; exact g.setRoot i _ fun r' e => ⟨j, by rw [hj, e]⟩
    · cases he
  | read i f =>
    cases hr : s.root i with
    | none => simp [exec, hr] at he
    | some r =>
      obtain ⟨n, fp, h⟩ := g.tree i r hr
      obtain ⟨m', out', h1, h2⟩ := readFile_cut f h left
      simp only [exec, hr, h1, Option.map_some, Option.some.injEq, Prod.mk.injEq] at he
      obtain ⟨rfl, rfl⟩ := he
      have ho := g.sorted i n ⟨r, fp, hr, h⟩
      rcases h2 with ⟨-, h2⟩ | ⟨-, y, y', -, -, -, h2, -⟩
      · exact g.read hr h h2 (readFile_ordered f n ho)
      · exact g.read hr h h2 (fill_ordered y' n ho)
  | destroy i =>
    simp only [exec, PropMem.exec] at he
    split at he
    · cases he
    · cases he; exact g.setRoot i none (by simp)

theorem reach_fit {cs s} (h : Reach cs s) : Fit s := by
  induction h with
  | init =>
    exact ⟨⟨fun i r h => by simp [St.init] at h, fun i j r r' n n' fp fp' h => by simp [St.init] at h⟩,
      fun i n ⟨r, fp, h, _⟩ => by simp [St.init] at h⟩
  | snoc h he ih => exact exec_fit ih he

end SoDa.PropAlloc
