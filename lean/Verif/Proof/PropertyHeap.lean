import Verif.Spec.PropertyHeap
import Verif.Proof.PropertyTree
import Mathlib.Data.List.Nodup
import Mathlib.Data.List.Perm.Subperm
/-!
Proofs about property trees in memory.
-/
namespace SoDa.PropMem
open SoDa.Prop Spec

/-! ### Frames -/

mutual
theorem _root_.SoDa.Spec.Holds.frame {m m' : Mem} {par p n fp} (h : Holds m par p n fp) (hm : ∀ q ∈ fp, m'[q]? = m[q]?) :
    Holds m' par p n fp := by
  cases h with
  | @mk _ _ v t lp dp l d fl fd hc hl hd hn =>
    exact .mk (by rw [hm _ (by simp)]; exact hc) (hl.frame fun q hq => hm q (by simp [hq]))
      (hd.frame fun q hq => hm q (by simp [hq])) hn
theorem _root_.SoDa.Spec.HoldsList.frame {m m' : Mem} {p ps ns fp} (h : HoldsList m p ps ns fp) (hm : ∀ q ∈ fp, m'[q]? = m[q]?) :
    HoldsList m' p ps ns fp := by
  cases h with
  | nil => exact .nil
  | cons h ht => exact .cons (h.frame fun q hq => hm q (by simp [hq])) (ht.frame fun q hq => hm q (by simp [hq]))
theorem _root_.SoDa.Spec.HoldsDict.frame {m m' : Mem} {p ps ns fp} (h : HoldsDict m p ps ns fp) (hm : ∀ q ∈ fp, m'[q]? = m[q]?) :
    HoldsDict m' p ps ns fp := by
  cases h with
  | nil => exact .nil
  | cons h ht => exact .cons (h.frame fun q hq => hm q (by simp [hq])) (ht.frame fun q hq => hm q (by simp [hq]))
end

mutual
theorem _root_.SoDa.Spec.Holds.valid {m : Mem} {par p n fp} (h : Holds m par p n fp) : ∀ q ∈ fp, q < m.length := by
  cases h with
  | @mk _ _ v t lp dp l d fl fd hc hl hd hn =>
    intro q hq
    rcases List.mem_cons.1 hq with hq | hq
    · subst hq; exact (List.getElem?_eq_some_iff.1 hc).1
    · rcases List.mem_append.1 hq with hq | hq
      · exact hl.valid q hq
      · exact hd.valid q hq
theorem _root_.SoDa.Spec.HoldsList.valid {m : Mem} {p ps ns fp} (h : HoldsList m p ps ns fp) : ∀ q ∈ fp, q < m.length := by
  cases h with
  | nil => simp
  | cons h ht =>
    intro q hq
    rcases List.mem_append.1 hq with hq | hq
    · exact h.valid q hq
    · exact ht.valid q hq
theorem _root_.SoDa.Spec.HoldsDict.valid {m : Mem} {p ps ns fp} (h : HoldsDict m p ps ns fp) : ∀ q ∈ fp, q < m.length := by
  cases h with
  | nil => simp
  | cons h ht =>
    intro q hq
    rcases List.mem_append.1 hq with hq | hq
    · exact h.valid q hq
    · exact ht.valid q hq
end

mutual
/-- At most one tree is stored at a pointer. -/
theorem _root_.SoDa.Spec.Holds.unique {m : Mem} {par par' p n n' fp fp'} (h : Holds m par p n fp) (h' : Holds m par' p n' fp') :
    par = par' ∧ n = n' ∧ fp = fp' := by
  cases h with
  | mk hc hl hd hn =>
    cases h' with
    | mk hc' hl' hd' hn' =>
      rw [hc] at hc'
      cases hc'
      obtain ⟨rfl, rfl⟩ := hl.unique hl'
      obtain ⟨rfl, rfl⟩ := hd.unique hd'
      exact ⟨rfl, rfl, rfl⟩
theorem _root_.SoDa.Spec.HoldsList.unique {m : Mem} {p ps ns ns' fp fp'} (h : HoldsList m p ps ns fp) (h' : HoldsList m p ps ns' fp') :
    ns = ns' ∧ fp = fp' := by
  cases h with
  | nil => cases h'; exact ⟨rfl, rfl⟩
  | cons h ht =>
    cases h' with
    | cons h' ht' =>
      obtain ⟨-, rfl, rfl⟩ := h.unique h'
      obtain ⟨rfl, rfl⟩ := ht.unique ht'
      exact ⟨rfl, rfl⟩
theorem _root_.SoDa.Spec.HoldsDict.unique {m : Mem} {p ps ns ns' fp fp'} (h : HoldsDict m p ps ns fp) (h' : HoldsDict m p ps ns' fp') :
    ns = ns' ∧ fp = fp' := by
  cases h with
  | nil => cases h'; exact ⟨rfl, rfl⟩
  | cons h ht =>
    cases h' with
    | cons h' ht' =>
      obtain ⟨-, rfl, rfl⟩ := h.unique h'
      obtain ⟨rfl, rfl⟩ := ht.unique ht'
      exact ⟨rfl, rfl⟩
end

theorem _root_.SoDa.Spec.HoldsList.snoc {m : Mem} {p ps ns fp q n f} (h : HoldsList m p ps ns fp) (hq : Holds m (some p) q n f) :
    HoldsList m p (ps ++ [q]) (ns ++ [n]) (fp ++ f) := by
  induction ps generalizing ns fp with
  | nil => cases h; simpa using HoldsList.cons hq .nil
  | cons a as ih =>
    cases h with
    | cons h ht =>
      rw [List.cons_append, List.cons_append, List.append_assoc]
      exact .cons h (ih ht)

/-- Assigning to a dictionary. -/
theorem _root_.SoDa.Spec.HoldsDict.set {m : Mem} {p k q n f} (hq : Holds m (some p) q n f) : ∀ {ps ns fp}, HoldsDict m p ps ns fp →
    (fp ++ f).Nodup → ∃ fp', HoldsDict m p (mapSet strLess k q ps) (mapSet strLess k n ns) fp' ∧ fp'.Nodup ∧
      ∀ x ∈ fp', x ∈ fp ∨ x ∈ f := by
  intro ps
  induction ps with
  | nil =>
    intro ns fp h hn
    cases h
    exact ⟨f ++ [], .cons hq .nil, by simpa using hn, by simp⟩
  | cons a as ih =>
    intro ns fp h hn
    cases h with
    | @cons _ k' q' _ n' ns fp fps h ht =>
      simp only [mapSet]
      rw [List.append_assoc, List.nodup_append] at hn
      obtain ⟨hn1, hn2, hn3⟩ := hn
      split
      · refine ⟨f ++ (fp ++ fps), .cons hq (.cons h ht), ?_, by simp; tauto⟩
        rw [List.nodup_append] at hn2
        rw [List.nodup_append, List.nodup_append]
        refine ⟨hn2.2.1, ⟨hn1, hn2.1, fun a ha b hb => hn3 a ha b (by simp [hb])⟩, ?_⟩
        intro a ha b hb hab
        subst hab
        rcases List.mem_append.1 hb with hb | hb
        · exact hn3 a hb a (by simp [ha]) rfl
        · exact hn2.2.2 a hb a ha rfl
      · split
        · obtain ⟨fp', h1, h2, h3⟩ := ih ht hn2
          refine ⟨fp ++ fp', .cons h h1, ?_, ?_⟩
          · rw [List.nodup_append]
            refine ⟨hn1, h2, fun a ha b hb => hn3 a ha b ?_⟩
            rw [List.mem_append]; exact h3 b hb
          · intro x hx
            rcases List.mem_append.1 hx with hx | hx
            · simp [hx]
            · rcases h3 x hx with hx | hx <;> simp [hx]
        · refine ⟨f ++ fps, .cons hq ht, ?_, by simp; tauto⟩
          rw [List.nodup_append] at hn2 ⊢
          exact ⟨hn2.2.1, hn2.1, fun a ha b hb hab => hn2.2.2 b hb a ha hab.symm⟩

/-! ### Filling -/

/-- What `fill` at `p` does: the tree at `p` becomes `n'`, using new nodes only; no other old node is touched. -/
structure Filled (m : Mem) (par : Option Ptr) (p : Ptr) (fp : List Ptr) (m' : Mem) (n' : Node) : Prop where
  grows : m.length ≤ m'.length
  same : ∀ q, q < m.length → q ≠ p → m'[q]? = m[q]?
  holds : ∃ fp', Holds m' par p n' fp' ∧ ∀ x ∈ fp', x ∈ fp ∨ m.length ≤ x

theorem Filled.refl {m par p n fp} (h : Holds m par p n fp) : Filled m par p fp m n :=
  ⟨Nat.le_refl _, fun _ _ _ => rfl, fp, h, fun _ hx => .inl hx⟩

theorem Filled.trans {m par p fp m' n' m'' n''} (h : Filled m par p fp m' n')
    (h2 : ∀ fp', Holds m' par p n' fp' → Filled m' par p fp' m'' n'') : Filled m par p fp m'' n'' := by
  obtain ⟨h3, h4, fp', h5, h6⟩ := h
  obtain ⟨h7, h8, fp'', h9, h10⟩ := h2 fp' h5
  refine ⟨by omega, fun q hq hqp => by rw [h8 q (by omega) hqp, h4 q hq hqp], fp'', h9, ?_⟩
  intro x hx
  rcases h10 x hx with hx | hx
  · exact h6 x hx
  · exact .inr (by omega)

theorem getElem?_alloc_lt (m : Mem) (par v t) {q : Ptr} (hq : q < m.length) : (m.alloc par v t)[q]? = m[q]? := by
  unfold Mem.alloc
  rw [List.getElem?_append_left hq]

theorem getElem?_alloc_new (m : Mem) (par v t) : (m.alloc par v t)[m.length]? = some ⟨par, v, t, [], []⟩ := by
  unfold Mem.alloc
  simp

theorem length_alloc (m : Mem) (par v t) : (m.alloc par v t).length = m.length + 1 := by
  simp [Mem.alloc]

/-- A new node is a tree of its own. -/
theorem holds_new {m : Mem} {par v t q} (h : m[q]? = some ⟨par, v, t, [], []⟩) : Holds m par q (Node.new v t) [q] :=
  .mk h .nil .nil (by simp)

/-- `push` of a new leaf. -/
theorem filled_push {m : Mem} {par p n fp} (s : Str) (h : Holds m par p n fp) :
    ∃ m', (m.alloc (some p) s true).push p m.length = some m' ∧ Filled m par p fp m' (n.push (Node.new s true)) ∧
      m'.length = m.length + 1 := by
  have hv := h.valid
  cases h with
  | @mk _ _ v t lp dp l d fl fd hc hl hd hn =>
    have hp : p < m.length := hv p (by simp)
    have hc1 : (m.alloc (some p) s true)[p]? = some ⟨par, v, t, lp, dp⟩ := by rw [getElem?_alloc_lt _ _ _ _ hp, hc]
    refine ⟨_, by unfold Mem.push; rw [hc1]; rfl, ?_, by simp [length_alloc]⟩
    have hlen : p < (m.alloc (some p) s true).length := by rw [length_alloc]; omega
    have hsame : ∀ q, q < m.length → q ≠ p →
        ((m.alloc (some p) s true).set p ⟨par, v, t, lp ++ [m.length], dp⟩)[q]? = m[q]? := by
      intro q hq hqp
      rw [List.getElem?_set_ne (Ne.symm hqp), getElem?_alloc_lt _ _ _ _ hq]
    rw [List.nodup_cons] at hn
    obtain ⟨hn1, hn2⟩ := hn
    have hfl : HoldsList ((m.alloc (some p) s true).set p ⟨par, v, t, lp ++ [m.length], dp⟩) p lp l fl :=
      hl.frame fun q hq => hsame q (hl.valid q hq) (by rintro rfl; exact hn1 (by simp [hq]))
    have hfd : HoldsDict ((m.alloc (some p) s true).set p ⟨par, v, t, lp ++ [m.length], dp⟩) p dp d fd :=
      hd.frame fun q hq => hsame q (hd.valid q hq) (by rintro rfl; exact hn1 (by simp [hq]))
    have hnew : Holds ((m.alloc (some p) s true).set p ⟨par, v, t, lp ++ [m.length], dp⟩) (some p) m.length
        (Node.new s true) [m.length] := by
      refine holds_new ?_
      rw [List.getElem?_set_ne (by omega), getElem?_alloc_new]
    refine ⟨by simp [length_alloc], hsame, _, .mk ?_ (hfl.snoc hnew) hfd ?_, ?_⟩
    · rw [List.getElem?_set_self hlen]; rfl
    · have hnf : ∀ x ∈ fl ++ fd, x ≠ m.length := by
        intro x hx
        have := hv x (by simp at hx ⊢; tauto)
        omega
      have hperm : (fl ++ [m.length] ++ fd).Perm (m.length :: (fl ++ fd)) := by
        rw [List.append_assoc]
        exact List.perm_middle
      rw [List.nodup_cons, hperm.mem_iff, hperm.nodup_iff, List.nodup_cons]
      refine ⟨?_, fun hx => hnf _ hx rfl, hn2⟩
      intro hx
      rcases List.mem_cons.1 hx with hx | hx
      · omega
      · exact hn1 hx
    · intro x hx
      simp at hx ⊢
      rcases hx with hx | hx | hx | hx
      · tauto
      · tauto
      · right; omega
      · tauto

/-- Putting a new node under a key, and then filling it. -/
theorem filled_set {m : Mem} {par p n fp} (ks s : Str) (b : Bool) (h : Holds m par p n fp) :
    ∃ m', (m.alloc (some p) s b).setKey p ks m.length = some m' ∧ m'.length = m.length + 1 ∧
      Holds m' (some p) m.length (Node.new s b) [m.length] ∧
      ∀ m'' c, Filled m' (some p) m.length [m.length] m'' c → Filled m par p fp m'' (n.set ks c) := by
  have hv := h.valid
  cases h with
  | @mk _ _ v t lp dp l d fl fd hc hl hd hn =>
    have hp : p < m.length := hv p (by simp)
    have hc1 : (m.alloc (some p) s b)[p]? = some ⟨par, v, t, lp, dp⟩ := by rw [getElem?_alloc_lt _ _ _ _ hp, hc]
    have hlen : p < (m.alloc (some p) s b).length := by rw [length_alloc]; omega
    refine ⟨_, by unfold Mem.setKey; rw [hc1]; rfl, by simp [length_alloc], ?_, ?_⟩
    · refine holds_new ?_
      rw [List.getElem?_set_ne (by omega), getElem?_alloc_new]
    · intro m'' c hf
      obtain ⟨h1, h2, fp', h3, h4⟩ := hf
      simp only [List.length_set, length_alloc] at h1 h2 h4
      have hsame : ∀ q, q < m.length → q ≠ p → m''[q]? = m[q]? := by
        intro q hq hqp
        rw [h2 q (by omega) (by omega)]
        rw [List.getElem?_set_ne (Ne.symm hqp), getElem?_alloc_lt _ _ _ _ hq]
      rw [List.nodup_cons] at hn
      obtain ⟨hn1, hn2⟩ := hn
      have hfl : HoldsList m'' p lp l fl :=
        hl.frame fun q hq => hsame q (hl.valid q hq) (by rintro rfl; exact hn1 (by simp [hq]))
      have hfd : HoldsDict m'' p dp d fd :=
        hd.frame fun q hq => hsame q (hd.valid q hq) (by rintro rfl; exact hn1 (by simp [hq]))
      have hge : ∀ x ∈ fp', m.length ≤ x := by
        intro x hx
        rcases h4 x hx with hx | hx
        · simp at hx; omega
        · omega
      have hold : ∀ x ∈ fl ++ fd, x < m.length := fun x hx => hv x (List.mem_cons_of_mem _ hx)
      have hnf : fp'.Nodup := by cases h3; assumption
      rw [List.nodup_append] at hn2
      have hnd : (fd ++ fp').Nodup := by
        rw [List.nodup_append]
        refine ⟨hn2.2.1, hnf, ?_⟩
        intro a ha b hb hab
        have := hold a (by simp [ha])
        have := hge b hb
        omega
      obtain ⟨fd', h5, h6, h7⟩ := HoldsDict.set (k := ks) h3 hfd hnd
      refine ⟨by omega, hsame, _, .mk ?_ hfl h5 ?_, ?_⟩
      · rw [h2 p (by omega) (by omega)]
        rw [List.getElem?_set_self hlen]; rfl
      · rw [List.nodup_cons, List.nodup_append]
        refine ⟨?_, hn2.1, h6, ?_⟩
        · intro hx
          rcases List.mem_append.1 hx with hx | hx
          · exact hn1 (by simp [hx])
          · rcases h7 p hx with hx | hx
            · exact hn1 (by simp [hx])
            · have := hge p hx; omega
        · intro a ha b hb hab
          rcases h7 b hb with hb | hb
          · exact hn2.2.2 a ha b hb hab
          · have := hge b hb
            have := hold a (by simp [ha])
            omega
      · intro x hx
        rcases List.mem_cons.1 hx with hx | hx
        · exact .inl (by simp [hx])
        · rcases List.mem_append.1 hx with hx | hx
          · exact .inl (by simp [hx])
          · rcases h7 x hx with hx | hx
            · exact .inl (by simp [hx])
            · exact .inr (hge x hx)

/-- A node that nobody points to. -/
theorem filled_alloc {m : Mem} {par p n fp} (q s b) (h : Holds m par p n fp) :
    Filled m par p fp (m.alloc q s b) n :=
  ⟨by rw [length_alloc]; omega, fun x hx _ => getElem?_alloc_lt _ _ _ _ hx, fp,
    h.frame fun x hx => getElem?_alloc_lt _ _ _ _ (h.valid x hx), fun _ hx => .inl hx⟩

theorem _root_.SoDa.Spec.Holds.lt {m : Mem} {par p n fp} (h : Holds m par p n fp) : p < m.length := by
  have := h.valid
  cases h
  exact this p (by simp)

mutual
theorem fill_spec (y : Y) {m : Mem} {par p n fp} (h : Holds m par p n fp) :
    ∃ m', fill y p m = some (m', (Prop.fill y n).2) ∧ Filled m par p fp m' (Prop.fill y n).1 := by
  cases y with
  | null => exact ⟨m, by simp [fill, Prop.fill], by simpa [Prop.fill] using Filled.refl h⟩
  | scalar s =>
    obtain ⟨m', h1, h2, -⟩ := filled_push s h
    exact ⟨m', by simp [fill, Prop.fill, h1], by simpa [Prop.fill] using h2⟩
  | seq l =>
    cases l with
    | nil => exact ⟨m, by simp [fill, Prop.fill], by simpa [Prop.fill] using Filled.refl h⟩
    | cons a as => exact ⟨m, by simp [fill, Prop.fill], by simpa [Prop.fill] using Filled.refl h⟩
  | map es =>
    obtain ⟨m', h1, h2⟩ := fillEntries_spec es h
    exact ⟨m', by simpa [fill, Prop.fill] using h1, by simpa [Prop.fill] using h2⟩
theorem fillEntries_spec (es : List (Y × Y)) {m : Mem} {par p n fp} (h : Holds m par p n fp) :
    ∃ m', fillEntries es p m = some (m', (Prop.fillEntries es n).2) ∧ Filled m par p fp m' (Prop.fillEntries es n).1 := by
  cases es with
  | nil => exact ⟨m, by simp [fillEntries, Prop.fillEntries], by simpa [Prop.fillEntries] using Filled.refl h⟩
  | cons e es =>
    obtain ⟨m', h1, h2⟩ := fillEntry_spec e h
    simp only [fillEntries, Prop.fillEntries, h1]
    rcases hE : Prop.fillEntry e n with ⟨n', _ | err⟩
    · rw [hE] at h2
      obtain ⟨fp', h3, h4⟩ := h2.holds
      obtain ⟨m'', h5, h6⟩ := fillEntries_spec es h3
      refine ⟨m'', h5, h2.trans (fun fp'' h7 => ?_)⟩
      obtain ⟨-, -, rfl⟩ := h7.unique h3
      exact h6
    · rw [hE] at h2
      exact ⟨m', rfl, h2⟩
theorem fillEntry_spec (e : Y × Y) {m : Mem} {par p n fp} (h : Holds m par p n fp) :
    ∃ m', fillEntry e p m = some (m', (Prop.fillEntry e n).2) ∧ Filled m par p fp m' (Prop.fillEntry e n).1 := by
  obtain ⟨k, v⟩ := e
  cases v with
  | null => exact ⟨m, by simp [fillEntry, Prop.fillEntry], by simpa [Prop.fillEntry] using Filled.refl h⟩
  | scalar s =>
    cases hk : keyStr k with
    | none => exact ⟨_, by simp [fillEntry, Prop.fillEntry, hk]; rfl, by
        simpa [Prop.fillEntry, hk] using filled_alloc _ _ _ h⟩
    | some ks =>
      obtain ⟨m', h1, h2, h3, h4⟩ := filled_set ks s true h
      exact ⟨m', by simp [fillEntry, Prop.fillEntry, hk, h1], by
        simpa [Prop.fillEntry, hk] using h4 m' _ (Filled.refl h3)⟩
  | map es =>
    cases hk : keyStr k with
    | none => exact ⟨_, by simp [fillEntry, Prop.fillEntry, hk]; rfl, by
        simpa [Prop.fillEntry, hk] using filled_alloc _ _ _ h⟩
    | some ks =>
      obtain ⟨m', h1, h2, h3, h4⟩ := filled_set ks [] false h
      obtain ⟨m'', h5, h6⟩ := fillEntries_spec es h3
      exact ⟨m'', by simpa [fillEntry, Prop.fillEntry, hk, h1] using h5, by
        simpa [Prop.fillEntry, hk] using h4 m'' _ h6⟩
  | seq l =>
    obtain ⟨m', h1, h2⟩ := fillList_spec l h
    exact ⟨m', by simpa [fillEntry, Prop.fillEntry] using h1, by simpa [Prop.fillEntry] using h2⟩
theorem fillList_spec (l : List Y) {m : Mem} {par p n fp} (h : Holds m par p n fp) :
    ∃ m', fillList l p m = some (m', (Prop.fillList l n).2) ∧ Filled m par p fp m' (Prop.fillList l n).1 := by
  cases l with
  | nil => exact ⟨m, by simp [fillList, Prop.fillList], by simpa [Prop.fillList] using Filled.refl h⟩
  | cons y ys =>
    obtain ⟨m', h1, h2⟩ := fill_spec y h
    simp only [fillList, Prop.fillList, h1]
    rcases hE : Prop.fill y n with ⟨n', _ | err⟩
    · rw [hE] at h2
      obtain ⟨fp', h3, h4⟩ := h2.holds
      obtain ⟨m'', h5, h6⟩ := fillList_spec ys h3
      refine ⟨m'', h5, h2.trans (fun fp'' h7 => ?_)⟩
      obtain ⟨-, -, rfl⟩ := h7.unique h3
      exact h6
    · rw [hE] at h2
      exact ⟨m', rfl, h2⟩
end

theorem readFile_spec (f : Load) {m : Mem} {par p n fp} (h : Holds m par p n fp) :
    ∃ m', readFile p m f = some (m', (Prop.readFile n f).2) ∧ Filled m par p fp m' (Prop.readFile n f).1 := by
  cases f with
  | badFile w => exact ⟨m, rfl, Filled.refl h⟩
  | otherError => exact ⟨m, rfl, Filled.refl h⟩
  | doc y =>
    obtain ⟨m', h1, h2⟩ := fill_spec y h
    simp only [readFile, Prop.readFile, h1]
    rcases hE : Prop.fill y n with ⟨n', _ | err⟩ <;> rw [hE] at h2 <;> exact ⟨m', rfl, h2⟩

/-! ### Looking at trees -/

theorem _root_.SoDa.Spec.HoldsList.get {m : Mem} {p ps ns fp} (h : HoldsList m p ps ns fp) : ∀ {i : Nat} {q n},
    ps[i]? = some q → ns[i]? = some n → ∃ f, Holds m (some p) q n f ∧ ∀ x ∈ f, x ∈ fp := by
  induction ps generalizing ns fp with
  | nil => intro i q n hq; simp at hq
  | cons a as ih =>
    cases h with
    | cons h ht =>
      intro i q n hq hn
      cases i with
      | zero => simp at hq hn; subst hq hn; exact ⟨_, h, by simp; tauto⟩
      | succ i =>
        simp at hq hn
        obtain ⟨f, h1, h2⟩ := ih ht hq hn
        exact ⟨f, h1, fun x hx => by simp [h2 x hx]⟩

theorem _root_.SoDa.Spec.HoldsDict.get {m : Mem} {p ps ns fp} (h : HoldsDict m p ps ns fp) : ∀ {i : Nat} {k q n},
    ps[i]? = some (k, q) → ns[i]? = some (k, n) → ∃ f, Holds m (some p) q n f ∧ ∀ x ∈ f, x ∈ fp := by
  induction ps generalizing ns fp with
  | nil => intro i k q n hq; simp at hq
  | cons a as ih =>
    cases h with
    | cons h ht =>
      intro i k q n hq hn
      cases i with
      | zero => simp at hq hn; obtain ⟨rfl, rfl⟩ := hq; obtain ⟨-, rfl⟩ := hn; exact ⟨_, h, by simp; tauto⟩
      | succ i =>
        simp at hq hn
        obtain ⟨f, h1, h2⟩ := ih ht hq hn
        exact ⟨f, h1, fun x hx => by simp [h2 x hx]⟩

theorem _root_.SoDa.Spec.HoldsList.length {m : Mem} {p ps ns fp} (h : HoldsList m p ps ns fp) : ps.length = ns.length := by
  induction ps generalizing ns fp with
  | nil => cases h; rfl
  | cons a as ih => cases h with | cons h ht => simp [ih ht]

theorem _root_.SoDa.Spec.HoldsDict.keys {m : Mem} {p ps ns fp} (h : HoldsDict m p ps ns fp) :
    ps.map (·.1) = ns.map (·.1) := by
  induction ps generalizing ns fp with
  | nil => cases h; rfl
  | cons a as ih => cases h with | cons h ht => simp [ih ht]

theorem _root_.SoDa.Spec.HoldsDict.find {m : Mem} {p ps ns fp} (h : HoldsDict m p ps ns fp) (k : Str) :
    (mapFind strLess k ps).isSome = (mapFind strLess k ns).isSome := by
  induction ps generalizing ns fp with
  | nil => cases h; rfl
  | cons a as ih =>
    cases h with
    | cons h ht =>
      simp only [mapFind]
      split
      · rfl
      · exact ih ht

/-- What is stored at a pointer to a node of a tree, and its path name. -/
theorem below_holds {m : Mem} {p n fp q r} (hp : Holds m none p n fp) (h : Below m p n q r) :
    (∃ par f, Holds m par q r.node f ∧ ∀ x ∈ f, x ∈ fp) ∧
      ∀ calls, r.above.length + 1 ≤ calls → getPathName m calls q = some r.getPathName := by
  induction h with
  | root =>
    refine ⟨⟨none, fp, hp, fun _ hx => hx⟩, ?_⟩
    intro calls hcalls
    cases hp with
    | mk hc hl hd hn =>
      obtain ⟨calls, rfl⟩ : ∃ k, calls = k + 1 := ⟨calls - 1, by omega⟩
      simp [getPathName, hc, Ref.root, Ref.getPathName]
  | @list q r c i q' n' h hc hq hn ih =>
    obtain ⟨⟨par, f, h1, h2⟩, h3⟩ := ih
    rcases hr : r.node with ⟨v, t, l, d⟩
    rw [hr] at h1 hn
    cases h1 with
    | mk hc' hl hd hn' =>
      rw [hc] at hc'; cases hc'
      obtain ⟨f', h4, h5⟩ := hl.get hq hn
      refine ⟨⟨_, f', h4, fun x hx => h2 x (by simp [h5 x hx])⟩, ?_⟩
      intro calls hcalls
      simp only [Ref.child, List.length_append, List.length_cons, List.length_nil] at hcalls
      obtain ⟨calls, rfl⟩ : ∃ k, calls = k + 1 := ⟨calls - 1, by omega⟩
      cases h4 with
      | mk hc4 hl4 hd4 hn4 =>
        simp [getPathName, hc4, h3 calls (by omega), Ref.child, Ref.getPathName, Node.val]
  | @dict q r c i k q' n' h hc hq hn ih =>
    obtain ⟨⟨par, f, h1, h2⟩, h3⟩ := ih
    rcases hr : r.node with ⟨v, t, l, d⟩
    rw [hr] at h1 hn
    cases h1 with
    | mk hc' hl hd hn' =>
      rw [hc] at hc'; cases hc'
      obtain ⟨f', h4, h5⟩ := hd.get hq hn
      refine ⟨⟨_, f', h4, fun x hx => h2 x (by simp [h5 x hx])⟩, ?_⟩
      intro calls hcalls
      simp only [Ref.child, List.length_append, List.length_cons, List.length_nil] at hcalls
      obtain ⟨calls, rfl⟩ : ∃ k, calls = k + 1 := ⟨calls - 1, by omega⟩
      cases h4 with
      | mk hc4 hl4 hd4 hn4 =>
        simp [getPathName, hc4, h3 calls (by omega), Ref.child, Ref.getPathName, Node.val]

theorem getPropRecursive_spec {m : Mem} {par q f} (r : Ref) (h : Holds m par q r.node f) (orig : Str) (b : Bool)
    (ks : List Str) :
    getPropRecursive m q orig b ks = (Prop.getPropRecursive r orig b ks).map fun o => o.map fun _ => q := by
  induction ks with
  | nil => rfl
  | cons k ks ih =>
    rcases hr : r.node with ⟨v, t, l, d⟩
    rw [hr] at h
    cases h with
    | mk hc hl hd hn =>
      have hk := hd.find k
      simp only [getPropRecursive, Prop.getPropRecursive, hc, hr, Node.dict, hk]
      split
      · rw [ih]
      · split <;> rfl

/-- The node that `getProp` finds is always the one it began at. -/
theorem getPropRecursive_self (r : Ref) (orig : Str) (b : Bool) (ks : List Str) :
    ∀ r', Prop.getPropRecursive r orig b ks = .ok (some r') → r' = r := by
  induction ks with
  | nil => intro r' h; cases h; rfl
  | cons k ks ih =>
    intro r' h
    simp only [Prop.getPropRecursive] at h
    split at h
    · exact ih r' h
    · split at h <;> cases h

theorem getProp_spec {m : Mem} {par q f} (r : Ref) (h : Holds m par q r.node f) (path : Str) (b : Bool) :
    getProp m q path b = (Prop.getProp r path b).map fun o => o.map fun _ => q := by
  unfold getProp Prop.getProp
  cases hl : split path ":".toList with
  | ok l => simp only [getPropRecursive_spec r h]
  | throw e => rfl
  | ub => rfl

theorem getProp_self (r : Ref) (path : Str) (b : Bool) (r' : Ref) (h : Prop.getProp r path b = .ok (some r')) :
    r' = r := by
  unfold Prop.getProp at h
  split at h
  · exact getPropRecursive_self r _ _ _ r' h
  · cases h

theorem nodeGet_spec {V : Type} (T : Ty V) {m : Mem} {par q f} (r : Ref) (h : Holds m par q r.node f) (calls : Nat)
    (hp : getPathName m calls q = some r.getPathName) (b : Bool) :
    nodeGet T calls m q b = r.get T b := by
  rcases hr : r.node with ⟨v, t, l, d⟩
  rw [hr] at h
  cases h with
  | mk hc hl hd hn =>
    simp only [nodeGet, Ref.get, hc, hr, Node.val, hp]
    cases T.read v <;> rfl

mutual
theorem dump_spec {m : Mem} {par p n fp} (h : Holds m par p n fp) (calls : Nat) (hc : fp.length ≤ calls) (indent : Str) :
    dump m calls p indent = some (n.dump indent) := by
  cases h with
  | @mk _ _ v t lp dp l d fl fd hcell hl hd hn =>
    simp only [List.length_cons, List.length_append] at hc
    obtain ⟨calls, rfl⟩ : ∃ k, calls = k + 1 := ⟨calls - 1, by omega⟩
    have h1 := dumpList_spec hl calls (by omega) indent
    have h2 := dumpDict_spec hd calls (by omega) indent
    have e1 : lp.isEmpty = l.isEmpty := by
      have := hl.length
      cases lp <;> cases l <;> simp_all
    have e2 : dp.isEmpty = d.isEmpty := by
      have := congrArg List.length hd.keys
      cases dp <;> cases d <;> simp_all
    cases t <;> simp only [dump, hcell, Node.dump, h1, h2, e1, e2, if_true, Bool.false_eq_true, if_false, Option.bind_eq_bind,
      Option.bind_some]
theorem dumpList_spec {m : Mem} {p ps ns fp} (h : HoldsList m p ps ns fp) (calls : Nat) (hc : fp.length ≤ calls)
    (indent : Str) : dumpList m calls ps indent = some (Prop.dumpList ns indent) := by
  cases h with
  | nil => simp [dumpList, Prop.dumpList]
  | @cons _ q qs n ns f fps h ht =>
    simp only [List.length_append] at hc
    have h1 := dump_spec h calls (by omega) (indent ++ "  ".toList)
    have h2 := dumpList_spec ht calls (by omega) indent
    cases h with
    | @mk _ _ v t lp dp l d fl fd hcell hl hd hn =>
      cases t <;> simp only [dumpList, hcell, Prop.dumpList, Node.terminal, Node.val, h1, h2, if_true, Bool.false_eq_true, if_false,
        Option.bind_eq_bind, Option.bind_some]
theorem dumpDict_spec {m : Mem} {p ps ns fp} (h : HoldsDict m p ps ns fp) (calls : Nat) (hc : fp.length ≤ calls)
    (indent : Str) : dumpDict m calls ps indent = some (Prop.dumpDict ns indent) := by
  cases h with
  | nil => simp [dumpDict, Prop.dumpDict]
  | @cons _ k q qs n ns f fps h ht =>
    simp only [List.length_append] at hc
    have h1 := dump_spec h calls (by omega) (indent ++ "  ".toList)
    have h2 := dumpDict_spec ht calls (by omega) indent
    cases h with
    | @mk _ _ v t lp dp l d fl fd hcell hl hd hn =>
      cases t <;> simp only [dumpDict, hcell, Prop.dumpDict, Node.terminal, Node.val, h1, h2, if_true, Bool.false_eq_true, if_false,
        Option.bind_eq_bind, Option.bind_some, Option.map_some]
end

theorem _root_.SoDa.Spec.Holds.nodup {m : Mem} {par p n fp} (h : Holds m par p n fp) : fp.Nodup := by
  cases h; assumption

theorem _root_.SoDa.Spec.Holds.length_le {m : Mem} {par p n fp} (h : Holds m par p n fp) : fp.length ≤ m.length := by
  have : fp ⊆ List.range m.length := fun x hx => List.mem_range.2 (h.valid x hx)
  simpa using (h.nodup.subperm this).length_le

/-! ### How many nodes -/

mutual
theorem _root_.SoDa.Spec.Holds.size {m : Mem} {par p n fp} (h : Holds m par p n fp) : fp.length = Spec.size n := by
  cases h with
  | mk hc hl hd hn => simp [Spec.size, hl.size, hd.size]; omega
theorem _root_.SoDa.Spec.HoldsList.size {m : Mem} {p ps ns fp} (h : HoldsList m p ps ns fp) : fp.length = sizeList ns := by
  cases h with
  | nil => rfl
  | cons h ht => simp [sizeList, h.size, ht.size]
theorem _root_.SoDa.Spec.HoldsDict.size {m : Mem} {p ps ns fp} (h : HoldsDict m p ps ns fp) : fp.length = sizeDict ns := by
  cases h with
  | nil => rfl
  | cons h ht => simp [sizeDict, h.size, ht.size]
end

mutual
theorem fill_count (y : Y) (p : Ptr) (m m' : Mem) (h : fill y p m = some (m', none)) : m'.length = m.length + nodesOf y := by
  cases y with
  | null => simp [fill] at h; simp [h, nodesOf]
  | scalar s =>
    simp [fill, Mem.push] at h
    obtain ⟨c, -, rfl⟩ := h
    simp [nodesOf, length_alloc]
  | seq l => cases l <;> simp [fill] at h; simp [h, nodesOf]
  | map es => simp only [fill] at h; rw [nodesOf]; exact fillEntries_count es p m m' h
theorem fillEntries_count (es : List (Y × Y)) (p : Ptr) (m m' : Mem) (h : fillEntries es p m = some (m', none)) :
    m'.length = m.length + nodesOfEntries es := by
  cases es with
  | nil => simp [fillEntries] at h; simp [h, nodesOfEntries]
  | cons e es =>
    simp only [fillEntries] at h
    split at h
    · cases h
    · cases h
    · next m1 h1 =>
      have := fillEntry_count e p m m1 h1
      have := fillEntries_count es p m1 m' h
      rw [nodesOfEntries]; omega
theorem fillEntry_count (e : Y × Y) (p : Ptr) (m m' : Mem) (h : fillEntry e p m = some (m', none)) :
    m'.length = m.length + nodesOfEntry e := by
  obtain ⟨k, v⟩ := e
  cases v with
  | null => simp [fillEntry] at h; simp [h, nodesOfEntry]
  | scalar s =>
    simp only [fillEntry] at h
    split at h
    · cases h
    · simp [Mem.setKey] at h
      obtain ⟨c, -, rfl⟩ := h
      simp [nodesOfEntry, length_alloc]
  | map es =>
    simp only [fillEntry] at h
    split at h
    · cases h
    · split at h
      · cases h
      · next m1 h1 =>
        simp [Mem.setKey] at h1
        obtain ⟨c, -, rfl⟩ := h1
        have := fillEntries_count es _ _ m' h
        simp only [List.length_set, length_alloc] at this
        rw [nodesOfEntry]; omega
  | seq l => simp only [fillEntry] at h; rw [nodesOfEntry]; exact fillList_count l p m m' h
theorem fillList_count (l : List Y) (p : Ptr) (m m' : Mem) (h : fillList l p m = some (m', none)) :
    m'.length = m.length + nodesOfList l := by
  cases l with
  | nil => simp [fillList] at h; simp [h, nodesOfList]
  | cons y ys =>
    simp only [fillList] at h
    split at h
    · cases h
    · cases h
    · next m1 h1 =>
      have := fill_count y p m m1 h1
      have := fillList_count ys p m1 m' h
      rw [nodesOfList]; omega
end

theorem readFile_count (f : Load) (p : Ptr) (m m' : Mem) (h : readFile p m f = some (m', .normal)) :
    ∃ y, f = .doc y ∧ m'.length = m.length + nodesOf y := by
  cases f with
  | badFile w => simp [readFile] at h
  | otherError => simp [readFile] at h
  | doc y =>
    rcases h1 : fill y p m with _ | ⟨m1, _ | e⟩ <;> simp [readFile, h1] at h
    subst h
    exact ⟨y, rfl, fill_count y p m _ h1⟩

/-! ### Programs -/

/-- Every variable has a tree, and different roots have different nodes. -/
structure Good (s : St) : Prop where
  tree : ∀ i r, s.root i = some r → ∃ n fp, Holds s.mem none r n fp
  apart : ∀ i j r r' n n' fp fp', s.root i = some r → s.root j = some r' → r ≠ r' → Holds s.mem none r n fp →
    Holds s.mem none r' n' fp' → ∀ x ∈ fp, x ∉ fp'

theorem Good.setRoot {s : St} (g : Good s) (i : Nat) (o : Option Ptr) (ho : ∀ r, o = some r → ∃ j, s.root j = some r) :
    Good (s.setRoot i o) := by
  have back : ∀ j r, (s.setRoot i o).root j = some r → ∃ j', s.root j' = some r := by
    intro j r hj
    simp only [St.setRoot] at hj
    split at hj
    · exact ho r hj
    · exact ⟨j, hj⟩
  refine ⟨fun j r hj => ?_, fun j k r r' n n' fp fp' hj hk => ?_⟩
  · obtain ⟨j', h'⟩ := back j r hj
    exact g.tree j' r h'
  · obtain ⟨j', hj'⟩ := back j r hj
    obtain ⟨k', hk'⟩ := back k r' hk
    exact g.apart j' k' r r' n n' fp fp' hj' hk'

theorem Holds_root_mem {m : Mem} {par p n fp} (h : Holds m par p n fp) : p ∈ fp := by cases h; simp

/-- The nodes of a tree after a reading of another one. -/
theorem Filled.other {m : Mem} {par p fp m' n'} (h : Filled m par p fp m' n') {par' q k fq} (hq : Holds m par' q k fq)
    (hp : p ∉ fq) : Holds m' par' q k fq :=
  hq.frame fun x hx => h.same x (hq.valid x hx) fun e => hp (e ▸ hx)

theorem exec_read {s : St} {i r n fp} (hr : s.root i = some r) (h : Holds s.mem none r n fp) (f : Load) :
    ∃ m', exec s (.read i f) = some ({ s with mem := m' }, (Prop.readFile n f).2) ∧
      Filled s.mem none r fp m' (Prop.readFile n f).1 := by
  obtain ⟨m', h1, h2⟩ := readFile_spec f h
  exact ⟨m', by simp [exec, hr, h1], h2⟩

theorem Good.read {s : St} (g : Good s) {i r n fp m' n'} (hr : s.root i = some r) (h : Holds s.mem none r n fp)
    (hf : Filled s.mem none r fp m' n') : Good { s with mem := m' } := by
  obtain ⟨hg, hs, fp', h', hn⟩ := hf
  have hf : Filled s.mem none r fp m' n' := ⟨hg, hs, fp', h', hn⟩
  have key : ∀ j q k fq, s.root j = some q → Holds m' none q k fq →
      (q = r ∧ fq = fp') ∨ (q ≠ r ∧ Holds s.mem none q k fq ∧ ∀ x ∈ fp, x ∉ fq) := by
    intro j q k fq hj hq
    by_cases e : q = r
    · subst e; exact .inl ⟨rfl, (hq.unique h').2.2⟩
    · obtain ⟨k0, fq0, h0⟩ := g.tree j q hj
      have ap := g.apart i j r q n k0 fp fq0 hr hj (Ne.symm e) h h0
      have h1 := hf.other h0 (ap r (Holds_root_mem h))
      obtain ⟨-, rfl, rfl⟩ := h1.unique hq
      exact .inr ⟨e, h0, ap⟩
  refine ⟨fun j q hj => ?_, fun j k q q' a b fa fb hj hk hne ha hb x hxa hxb => ?_⟩
  · by_cases e : q = r
    · subst e; exact ⟨n', fp', h'⟩
    · obtain ⟨k0, fq0, h0⟩ := g.tree j q hj
      exact ⟨k0, fq0, hf.other h0 (g.apart i j r q n k0 fp fq0 hr hj (Ne.symm e) h h0 r (Holds_root_mem h))⟩
  · rcases key j q a fa hj ha with ⟨rfl, rfl⟩ | ⟨h1, h2, h3⟩ <;> rcases key k q' b fb hk hb with ⟨rfl, rfl⟩ | ⟨h4, h5, h6⟩
    · exact hne rfl
    · rcases hn x hxa with hx | hx
      · exact h6 x hx hxb
      · have := h5.valid x hxb; omega
    · rcases hn x hxb with hx | hx
      · exact h3 x hx hxa
      · have := h2.valid x hxa; omega
    · exact g.apart j k q q' a b fa fb hj hk hne h2 h5 x hxa hxb

theorem holds_root (m : Mem) : Holds (m.alloc none "root".toList false) none m.length newTree [m.length] :=
  holds_new (by simp [Mem.alloc])

/-- A tree with new nodes only joins the others. -/
theorem Good.add {s : St} (g : Good s) {m' : Mem} (hs : ∀ q < s.mem.length, m'[q]? = s.mem[q]?) :
    Good { s with mem := m' } ∧
    ∀ i n fp, Holds m' none s.mem.length n fp → (∀ x ∈ fp, s.mem.length ≤ x) →
      Good (({ s with mem := m' } : St).setRoot i (some s.mem.length)) := by
  have fwd : ∀ q k fq, Holds s.mem none q k fq → Holds m' none q k fq :=
    fun q k fq h => h.frame fun x hx => hs x (h.valid x hx)
  have bwd : ∀ j q k fq, s.root j = some q → Holds m' none q k fq → Holds s.mem none q k fq := by
    intro j q k fq hj hq
    obtain ⟨k0, fq0, h0⟩ := g.tree j q hj
    obtain ⟨-, rfl, rfl⟩ := (fwd _ _ _ h0).unique hq
    exact h0
  constructor
  · refine ⟨fun j q hj => ?_, fun j k q q' a b fa fb hj hk hne ha hb => ?_⟩
    · obtain ⟨k0, fq0, h0⟩ := g.tree j q hj
      exact ⟨k0, fq0, fwd _ _ _ h0⟩
    · exact g.apart j k q q' a b fa fb hj hk hne (bwd j q a fa hj ha) (bwd k q' b fb hk hb)
  · intro i n fp hh hnew
    have cs : ∀ j q, (({ s with mem := m' } : St).setRoot i (some s.mem.length)).root j = some q →
        q = s.mem.length ∨ s.root j = some q := by
      intro j q hj
      simp only [St.setRoot] at hj
      split at hj
      · exact .inl (by simpa using hj.symm)
      · exact .inr hj
    refine ⟨fun j q hj => ?_, fun j k q q' a b fa fb hj hk hne ha hb x hxa hxb => ?_⟩
    · rcases cs j q hj with rfl | h
      · exact ⟨n, fp, hh⟩
      · obtain ⟨k0, fq0, h0⟩ := g.tree j q h
        exact ⟨k0, fq0, fwd _ _ _ h0⟩
    · change Holds m' none _ _ _ at ha hb
      rcases cs j q hj with rfl | h1 <;> rcases cs k q' hk with rfl | h2
      · exact hne rfl
      · obtain ⟨-, rfl, rfl⟩ := ha.unique hh
        have := hnew x hxa
        have := (bwd k q' b fb h2 hb).valid x hxb
        omega
      · obtain ⟨-, rfl, rfl⟩ := hb.unique hh
        have := hnew x hxb
        have := (bwd j q a fa h1 ha).valid x hxa
        omega
      · exact g.apart j k q q' a b fa fb h1 h2 hne (bwd j q a fa h1 ha) (bwd k q' b fb h2 hb) x hxa hxb

/-- The construction of a tree with a file. -/
theorem load_spec (s : St) (f : Load) :
    ∃ m', readFile s.mem.length (s.mem.alloc none "root".toList false) f = some (m', (Prop.readFile newTree f).2) ∧
      s.mem.length ≤ m'.length ∧ (∀ q < s.mem.length, m'[q]? = s.mem[q]?) ∧
      ∃ fp, Holds m' none s.mem.length (Prop.readFile newTree f).1 fp ∧ ∀ x ∈ fp, s.mem.length ≤ x := by
  obtain ⟨m', h1, hg, hs, fp, h2, h3⟩ := readFile_spec f (holds_root s.mem)
  rw [length_alloc] at hg hs h3
  refine ⟨m', h1, by omega, fun q hq => ?_, fp, h2, fun x hx => ?_⟩
  · rw [hs q (by omega) (by omega)]; exact getElem?_alloc_lt _ _ _ _ hq
  · rcases h3 x hx with hx | hx
    · simp at hx; omega
    · omega

theorem exec_good {s : St} (g : Good s) {c s' out} (he : exec s c = some (s', out)) : Good s' := by
  cases c with
  | make i =>
    simp only [exec] at he
    split at he
    · cases he
      exact (g.add fun q hq => getElem?_alloc_lt _ _ _ _ hq).2 i _ _ (holds_root _) (by simp)
    · cases he
  | load i f =>
    obtain ⟨m', h1, h2, h3, fp, h4, h5⟩ := load_spec s f
    cases ho : (Prop.readFile newTree f).2 <;> rw [ho] at h1 <;> simp only [exec, h1] at he <;> split at he <;> cases he
    · exact (g.add h3).2 i _ _ h4 h5
    all_goals exact (g.add h3).1
  | copy i j =>
    simp only [exec] at he
    split at he
    · next r _ hj => cases he; exact g.setRoot i _ fun r' e => ⟨j, by rw [hj, e]⟩
    · cases he
  | assign i j =>
    simp only [exec] at he
    split at he
    · next r _ hj => cases he; exact g.setRoot i _ fun r' e => ⟨j, by rw [hj, e]⟩
    · cases he
  | read i f =>
    cases hr : s.root i with
    | none => simp [exec, hr] at he
    | some r =>
      obtain ⟨n, fp, h⟩ := g.tree i r hr
      obtain ⟨m', h1, h2⟩ := exec_read hr h f
      rw [h1] at he
      cases he
      exact g.read hr h h2
  | destroy i =>
    simp only [exec] at he
    split at he
    · cases he
    · cases he; exact g.setRoot i none (by simp)

theorem reach_good {cs s} (h : Reach cs s) : Good s := by
  induction h with
  | init => exact ⟨fun i r h => by simp [St.init] at h, fun i j r r' n n' fp fp' h => by simp [St.init] at h⟩
  | snoc h he ih => exact exec_good ih he

end SoDa.PropMem
