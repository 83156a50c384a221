import Verif.Spec.FormatAlloc
import Verif.Props.Format
/-!
Property C114: `Format` objects when memory runs out.
-/
namespace SoDa
open Spec

/-! ### Calls tried again -/

/-- A program that tries every call again until it succeeds. -/
def Fmt.tryAll (f : Fmt) : List (FOp × List Nat) → Fmt
  | [] => f
  | (op, fails) :: rest => (f.tryCall op fails).tryAll rest

/-- The segments after `fillA`, filled by a further attempt. -/
theorem fillA_again (cur : Nat) (s : Str) (segs : List Seg) : ∀ fail : Option Nat,
    ((fillA cur s segs fail).1.map fun seg => match seg with
      | .fld idx => if idx = cur then .lit s else .fld idx
      | .lit v => .lit v) =
    (segs.map fun seg => match seg with
      | .fld idx => if idx = cur then Seg.lit s else .fld idx
      | .lit v => .lit v) := by
  induction segs with
  | nil => intro fail; rfl
  | cons a rest ih =>
    intro fail
    cases a with
    | lit v => simp only [fillA, List.map_cons, ih]
    | fld idx =>
      unfold fillA
      by_cases h1 : idx = cur
      · subst h1
        by_cases h2 : asksMemory s = true
        · rcases fail with _ | _ | k
          · simp [h2, ih]
          · simp [h2]
          · simp [h2, ih]
        · simp [h2, ih]
      · simp [h1, ih]

theorem fillA_ok (cur : Nat) (s : Str) (segs : List Seg) : ∀ fail : Option Nat, (fillA cur s segs fail).2 = true →
    (fillA cur s segs fail).1 = segs.map fun seg => match seg with
      | .fld idx => if idx = cur then Seg.lit s else .fld idx
      | .lit v => .lit v := by
  induction segs with
  | nil => intro fail _; rfl
  | cons a rest ih =>
    intro fail h
    cases a with
    | lit v =>
      simp only [fillA] at h ⊢
      simp only [List.map_cons, ih fail h]
    | fld idx =>
      unfold fillA at h ⊢
      by_cases h1 : idx = cur
      · subst h1
        by_cases h2 : asksMemory s = true
        · rcases fail with _ | _ | k
          · simp only [h2, if_true] at h ⊢; simp [ih none h]
          · simp [h2] at h
          · simp only [h2, if_true] at h ⊢; simp [ih (some k) h]
        · simp only [h2, if_true] at h ⊢; simp [ih fail h]
      · simp only [h1, if_false] at h ⊢; simp [h1, ih fail h]

/-- One attempt, whatever it leaves, changes nothing of what a further one does; and one that succeeds does what the call does. -/
theorem callA_again (f : Fmt) (op : FOp) (k : Nat) :
    ((f.callA op (some k)).2 = true → (f.callA op (some k)).1 = (f.callA op none).1) ∧
    ((f.callA op (some k)).2 = false → ((f.callA op (some k)).1.callA op none).1 = (f.callA op none).1) := by
  cases op with
  | add s =>
    cases k with
    | zero => simp [Fmt.callA]
    | succ k =>
      simp only [Fmt.callA]
      cases h : (fillA f.cur s f.segs (some k)).2 with
      | true =>
        simp only [if_true]
        refine ⟨fun _ => ?_, by simp⟩
        exact congrArg (fun x => Fmt.mk f.orig x ((f.cur + 1) % u32)) (fillA_ok f.cur s f.segs (some k) h)
      | false =>
        refine ⟨by simp, fun _ => ?_⟩
        simp only [Bool.false_eq_true, if_false]
        exact congrArg (fun x => Fmt.mk f.orig x ((f.cur + 1) % u32)) (fillA_again f.cur s f.segs (some k))
  | str => cases k <;> simp [Fmt.callA]
  | reset =>
    simp only [Fmt.callA]
    split
    · refine ⟨by simp, fun _ => rfl⟩
    · simp

theorem tryCall_eq (op : FOp) (fails : List Nat) : ∀ f : Fmt, f.tryCall op fails = (f.callA op none).1 := by
  induction fails with
  | nil => intro f; rfl
  | cons k ks ih =>
    intro f
    simp only [Fmt.tryCall]
    cases h : (f.callA op (some k)).2 with
    | true => simp only [if_true]; exact (callA_again f op k).1 h
    | false =>
      simp only [Bool.false_eq_true, if_false]
      rw [ih]
      exact (callA_again f op k).2 h

theorem tryAll_eq (s : Str) (l : List (FOp × List Nat)) : ∀ acc : List Str,
    (acc.foldl Fmt.insertField (Fmt.mk' s)).tryAll l = (textsOf acc (l.map Prod.fst)).foldl Fmt.insertField (Fmt.mk' s) := by
  induction l with
  | nil => intro acc; rfl
  | cons x l ih =>
    obtain ⟨op, fails⟩ := x
    intro acc
    simp only [Fmt.tryAll, tryCall_eq, List.map_cons]
    cases op with
    | add t =>
      simp only [textsOf]
      rw [← ih]
      simp [Fmt.callA, List.foldl_append]
    | str => simp only [textsOf, Fmt.callA]; exact ih acc
    | reset =>
      simp only [textsOf, Fmt.callA]
      rw [← ih []]
      rw [insert_all]
      rfl

/-- C114.  A program that tries every call again until it succeeds prints what it would print if memory had sufficed. -/
theorem C114_retried (s : Str) (l : List (FOp × List Nat)) (check : Bool) :
    ((Fmt.mk' s).tryAll l).str check = ((Fmt.mk' s).tryAll (l.map fun x => (x.1, []))).str check ∧
    ((Fmt.mk' s).tryAll l).str false = .ok (render (textsOf [] (l.map Prod.fst)) (template s)) := by
  have h1 := tryAll_eq s l []
  have h2 := tryAll_eq s (l.map fun x => (x.1, [])) []
  simp only [List.foldl_nil, List.map_map] at h1 h2
  rw [h1, h2]
  refine ⟨rfl, ?_⟩
  rw [insert_all]
  simp only [Fmt.str, Bool.false_and, (assemble_fill _ _).1, initialScan_flat]
  simp

/-- In particular a `reset` after a `reset` that failed. -/
theorem C114_reset_again (f : Fmt) (k : Nat) : (f.callA .reset (some k)).1.reset = f.reset := by
  simp only [Fmt.callA]
  split <;> rfl

/-! ### A call that fails -/

theorem renderPart_chrs (vals : List Str) (v : Str) (cs : Str) (items : List Item) (j : Nat) :
    renderPart vals v j (cs.map Item.chr ++ items) = cs ++ renderPart vals v j items := by
  induction cs with
  | nil => rfl
  | cons c cs ih => simp [renderPart, ih]

theorem holes_chrs (n : Nat) (cs : Str) (items : List Item) : holes n (cs.map Item.chr ++ items) = holes n items := by
  induction cs with
  | nil => rfl
  | cons c cs ih => simpa [holes] using ih

/-- With no placeholder reached, nothing is changed. -/
theorem renderPart_zero (vals : List Str) (v : Str) (items : List Item) : renderPart vals v 0 items = render vals items := by
  induction items with
  | nil => rfl
  | cons a rest ih =>
    cases a with
    | chr c => simpa [renderPart, render, renderItem] using ih
    | hole n =>
      simp only [renderPart]
      split
      · rename_i h
        have : vals[n]? = none := List.getElem?_eq_none_iff.mpr (by omega)
        simp [render, renderItem, this, List.flatMap_cons, ih]
      · simp [render, List.flatMap_cons, ih]

/-- The loop of `insertField` stops before the placeholder with number `k` among those to be filled, if there is one. -/
theorem fillA_fails (vals : List Str) (v : Str) (hv : 15 < v.length) (segs : List Seg) : ∀ k,
    ((fillA vals.length v (segs.map (fillSeg vals)) (some k)).2 = false ↔ k < holes vals.length (flatSegs segs)) ∧
    ((fillA vals.length v (segs.map (fillSeg vals)) (some k)).2 = false →
      (Fmt.assemble (fillA vals.length v (segs.map (fillSeg vals)) (some k)).1).1 = renderPart vals v k (flatSegs segs)) := by
  have hm : asksMemory v = true := by simpa [asksMemory] using hv
  induction segs with
  | nil => intro k; simp [fillA, holes, flatSegs]
  | cons a rest ih =>
    intro k
    cases a with
    | lit w =>
      obtain ⟨i1, i2⟩ := ih k
      simp only [List.map_cons, fillSeg, fillA, flatSegs, holes_chrs, renderPart_chrs]
      exact ⟨i1, fun h => by simp only [Fmt.assemble]; rw [i2 h]⟩
    | fld n =>
      simp only [List.map_cons, fillSeg, flatSegs]
      rcases Nat.lt_trichotomy n vals.length with h | h | h
      · obtain ⟨i1, i2⟩ := ih k
        have e : vals[n]? = some vals[n] := List.getElem?_eq_getElem h
        have hne : n ≠ vals.length := by omega
        simp only [e, fillA]
        refine ⟨?_, fun hf => ?_⟩
        · rw [i1]
          simp [holes, hne]
        · simp only [Fmt.assemble, renderPart, hne, if_false, renderItem, e]
          rw [i2 hf]
      · subst h
        have e : vals[vals.length]? = none := List.getElem?_eq_none_iff.mpr (le_refl _)
        simp only [e, fillA, if_true, hm]
        cases k with
        | zero =>
          refine ⟨by simp [holes], fun _ => ?_⟩
          simp only [Fmt.assemble, renderPart, if_true]
          rw [(assemble_fill vals rest).1, renderPart_zero]
          simp [Nat.toList_repr]
        | succ k =>
          obtain ⟨i1, i2⟩ := ih k
          refine ⟨?_, fun hf => ?_⟩
          · simp only [i1]
            simp [holes]
          · simp only [Fmt.assemble, renderPart, if_true]
            rw [i2 hf]
      · obtain ⟨i1, i2⟩ := ih k
        have e : vals[n]? = none := List.getElem?_eq_none_iff.mpr (by omega)
        have hne : n ≠ vals.length := by omega
        simp only [e, fillA, hne, if_false]
        refine ⟨?_, fun hf => ?_⟩
        · rw [i1]
          simp [holes, hne]
        · simp only [Fmt.assemble, renderPart, hne, if_false, renderItem, e]
          rw [i2 hf]
          simp [Nat.toList_repr]

theorem fillA_short (cur : Nat) (v : Str) (hv : ¬ 15 < v.length) (segs : List Seg) (fail : Option Nat) :
    (fillA cur v segs fail).2 = true := by
  have hm : asksMemory v = false := by simpa [asksMemory] using hv
  induction segs with
  | nil => rfl
  | cons a rest ih =>
    cases a with
    | lit w => simpa [fillA] using ih
    | fld n =>
      simp only [fillA, hm]
      split <;> simpa using ih

/-- The object of a program that tries every call again. -/
theorem tryAll_state (s : Str) (l : List (FOp × List Nat)) : (Fmt.mk' s).tryAll l =
    { orig := s, segs := (initialScan s).map (fillSeg (textsOf [] (l.map Prod.fst))), cur := (textsOf [] (l.map Prod.fst)).length % u32 } := by
  rw [← insert_all]
  exact tryAll_eq s l []

/-- C114.  Exactly when the insertion of a text fails: if there is no memory for its local variables (request 0); or if the text is
longer than 15 characters and the format string has more than `k` placeholders for it, where request `k + 1` fails. -/
theorem C114_fails (s : Str) (l : List (FOp × List Nat)) (v : Str) (k : Nat) (hl : (textsOf [] (l.map Prod.fst)).length < 2 ^ 32) :
    (((Fmt.mk' s).tryAll l).callA (.add v) (some k)).2 = false ↔
      k = 0 ∨ (15 < v.length ∧ k ≤ holes (textsOf [] (l.map Prod.fst)).length (template s)) := by
  cases k with
  | zero => simp [Fmt.callA]
  | succ k =>
    have hc : (textsOf [] (l.map Prod.fst)).length % u32 = (textsOf [] (l.map Prod.fst)).length := Nat.mod_eq_of_lt hl
    rw [tryAll_state]
    simp only [Fmt.callA, hc]
    by_cases hv : 15 < v.length
    · have := (fillA_fails (textsOf [] (l.map Prod.fst)) v hv (initialScan s) k).1
      rw [initialScan_flat] at this
      simp only [hv, true_and, Nat.add_one_ne_zero, false_or, Nat.add_one_le_iff, ← this]
      split <;> simp_all
    · rw [if_pos (fillA_short _ _ hv _ _)]
      simp [hv]

/-- C114.  What the object prints after an insertion that fails: the text stands at the first `k - 1` of its placeholders only. -/
theorem C114_after (s : Str) (l : List (FOp × List Nat)) (v : Str) (k : Nat) (f' : Fmt) (hl : (textsOf [] (l.map Prod.fst)).length < 2 ^ 32)
    (h : ((Fmt.mk' s).tryAll l).callA (.add v) (some k) = (f', false)) :
    f'.str false = .ok (renderPart (textsOf [] (l.map Prod.fst)) v (k - 1) (template s)) := by
  cases k with
  | zero =>
    simp only [Fmt.callA, Prod.mk.injEq, and_true] at h
    rw [← h, (C114_retried s l false).2, renderPart_zero]
  | succ k =>
    have hc : (textsOf [] (l.map Prod.fst)).length % u32 = (textsOf [] (l.map Prod.fst)).length := Nat.mod_eq_of_lt hl
    have h2 := congrArg Prod.snd h
    rw [C114_fails s l v _ hl] at h2
    have hv : 15 < v.length := by simpa using h2.resolve_left (by simp) |>.1
    rw [tryAll_state] at h
    simp only [Fmt.callA, hc] at h
    have F := (fillA_fails (textsOf [] (l.map Prod.fst)) v hv (initialScan s) k).2
    split at h
    · simp at h
    · rename_i hf
      simp only [Prod.mk.injEq, and_true] at h
      rw [← h]
      simp only [Fmt.str, Bool.false_and]
      rw [F (by simpa using hf), initialScan_flat]
      simp

theorem toString_short {n : Nat} (h : n < 2 ^ 32) : (toString n).toList.length ≤ 10 := by
  have := @Nat.length_toDigits_le_iff 10 n 10 (by decide) (by decide)
  simp only [Nat.toString_eq_repr, Nat.toList_repr]
  exact this.mpr (by omega)

/-- Every further placeholder reached makes the text longer. -/
theorem renderPart_length (vals : List Str) (v : Str) (hv : 15 < v.length) (hl : vals.length < 2 ^ 32) (items : List Item) : ∀ j,
    j ≤ holes vals.length items → (render vals items).length + j ≤ (renderPart vals v j items).length := by
  induction items with
  | nil => intro j hj; simp [holes] at hj; simp [hj, render]
  | cons a rest ih =>
    intro j hj
    cases a with
    | chr c =>
      have := ih j (by simpa [holes] using hj)
      simp only [render] at this
      simp only [renderPart, render, renderItem, List.flatMap_cons, List.length_append, List.length_cons, List.length_nil]
      omega
    | hole n =>
      by_cases h : n = vals.length
      · subst h
        cases j with
        | zero => rw [renderPart_zero]; simp
        | succ j =>
          have := ih j (by simpa [holes] using hj)
          have e : vals[vals.length]? = none := List.getElem?_eq_none_iff.mpr (le_refl _)
          have hs := toString_short hl
          simp only [render] at this
          simp only [renderPart, if_true, render, List.flatMap_cons, renderItem, e, List.length_append, List.length_cons]
          omega
      · have := ih j (by simpa [holes, h] using hj)
        simp only [render] at this
        simp only [renderPart, h, if_false, render, List.flatMap_cons, List.length_append]
        omega

/-- C114.  Exactly when an insertion that fails leaves the printed text as it was: if no placeholder had been filled. -/
theorem C114_exact (s : Str) (l : List (FOp × List Nat)) (v : Str) (k : Nat) (f' : Fmt) (hl : (textsOf [] (l.map Prod.fst)).length < 2 ^ 32)
    (h : ((Fmt.mk' s).tryAll l).callA (.add v) (some k) = (f', false)) :
    f'.str false = ((Fmt.mk' s).tryAll l).str false ↔ k ≤ 1 := by
  have A := C114_after s l v k f' hl h
  have R := (C114_retried s l false).2
  constructor
  · intro he
    by_contra hk
    have F := (C114_fails s l v k hl).mp (congrArg Prod.snd h)
    rcases F with rfl | ⟨hv, hj⟩
    · omega
    · have L := renderPart_length (textsOf [] (l.map Prod.fst)) v hv hl (template s) (k - 1) (by omega)
      rw [A, R] at he
      injection he with he
      rw [he] at L
      omega
  · intro hk
    have : k - 1 = 0 := by omega
    rw [A, R, this, renderPart_zero]

/-- The full statement: a call that fails leaves the object as it was. -/
def C114_claim : Prop := ∀ (s : Str) (l : List (FOp × List Nat)) (op : FOp) (k : Nat) (f' : Fmt),
  ((Fmt.mk' s).tryAll l).callA op (some k) = (f', false) → f'.str false = ((Fmt.mk' s).tryAll l).str false

/-- `Format("%0 %0")`, the second assignment of a text of 16 characters fails: the first placeholder is filled, the second not. -/
theorem C114_refuted : ¬ C114_claim := by
  intro h
  have := (C114_exact "%0 %0".toList [] (List.replicate 16 'x') 2
    { orig := "%0 %0".toList, segs := [.lit (List.replicate 16 'x'), .lit [' '], .fld 0], cur := 0 } (by decide) (by decide +kernel)).mp
    (h _ [] (.add (List.replicate 16 'x')) 2 _ (by decide +kernel))
  omega

/-- C114.  A call of `str` that fails changes nothing; nor does an insertion, if its number occurs at most once in the format string or
its text has at most 15 characters.  Missing: the other insertions (`C114_exact`), and `reset` (`C114_reset_refuted`). -/
theorem C114_unchanged_partial (s : Str) (l : List (FOp × List Nat)) (op : FOp) (k : Nat) (f' : Fmt)
    (hl : (textsOf [] (l.map Prod.fst)).length < 2 ^ 32)
    (ho : op = .str ∨ ∃ v, op = .add v ∧ (v.length ≤ 15 ∨ holes (textsOf [] (l.map Prod.fst)).length (template s) ≤ 1))
    (h : ((Fmt.mk' s).tryAll l).callA op (some k) = (f', false)) :
    f'.str false = ((Fmt.mk' s).tryAll l).str false := by
  rcases ho with rfl | ⟨v, rfl, hv⟩
  · cases k with
    | zero => simp only [Fmt.callA, Prod.mk.injEq, and_true] at h; rw [h]
    | succ k => simp [Fmt.callA] at h
  · have F := (C114_fails s l v k hl).mp (congrArg Prod.snd h)
    rw [C114_exact s l v k f' hl h]
    rcases hv with hv | hv <;> rcases F with F | ⟨F1, F2⟩ <;> omega

/-- After a `reset` that fails, the values inserted before are gone, and not all of the format string is back; the number of the next
value is still that of before.  Here the value `a` was inserted into `%0 %1`, memory runs out after three characters, then `b` is inserted. -/
theorem C114_reset_refuted : ∃ f' : Fmt,
    ((Fmt.mk' "%0 %1".toList).tryAll [(.add "a".toList, [])]).callA .reset (some 3) = (f', false) ∧
    f'.str false = .ok "%0".toList ∧ (f'.insertField "b".toList).str false = .ok "%0".toList := by
  refine ⟨_, rfl, ?_⟩
  decide +kernel

theorem scanStep_segs (c : Char) (x : Scan) : x.segs <+: (scanStep x c).segs := by
  unfold scanStep
  split
  · split <;> simp
  · split
    · dsimp only
      split <;> simp
    · split <;> simp
  · split
    · simp
    · split <;> simp

theorem scan_segs (r : Str) : ∀ x : Scan, x.segs <+: scanFinish (r.foldl scanStep x) := by
  induction r with
  | nil =>
    intro x
    simp only [List.foldl_nil]
    unfold scanFinish
    split
    · simp
    · split <;> simp
    · simp
  | cons c r ih => intro x; exact (scanStep_segs c x).trans (ih _)

theorem assemble_prefix (a b : List Seg) : (Fmt.assemble a).1 <+: (Fmt.assemble (a ++ b)).1 := by
  induction a with
  | nil => exact List.nil_prefix
  | cons x a ih =>
    cases x
    · simpa [Fmt.assemble, List.prefix_append_right_inj] using ih
    · simpa [Fmt.assemble, List.prefix_append_right_inj] using ih

/-- C114.  After a `reset` that fails, the object prints a beginning of what it would print without any value. -/
theorem C114_reset_after (s : Str) (l : List (FOp × List Nat)) (k : Nat) (f' : Fmt)
    (h : ((Fmt.mk' s).tryAll l).callA .reset (some k) = (f', false)) :
    ∃ t, f'.str false = .ok t ∧ t <+: render [] (template s) := by
  rw [tryAll_state] at h
  simp only [Fmt.callA] at h
  split at h
  · simp only [Prod.mk.injEq, and_true] at h
    rw [← h]
    refine ⟨_, by simp only [Fmt.str, Bool.false_and]; rfl, ?_⟩
    have h0 := (assemble_fill [] (initialScan s)).1
    have h1 : (initialScan s).map (fillSeg []) = initialScan s := by
      rw [List.map_congr_left (g := id)]
      · simp
      · intro a _; cases a <;> simp [fillSeg]
    rw [h1, initialScan_flat] at h0
    rw [← h0]
    have h2 := scan_segs (s.drop k) ((s.take k).foldl scanStep { segs := [], state := .norm, curStr := [], fldnum := 0 })
    rw [← List.foldl_append, List.take_append_drop] at h2
    obtain ⟨b, hb⟩ := h2
    have h3 := assemble_prefix (scanPart (s.take k)) b
    unfold initialScan
    rw [← hb]
    exact h3
  · simp at h

/-! Concrete cases: what the theorems speak of happens. -/

example : ((Fmt.mk' "%0 %0".toList).tryAll [(.add (List.replicate 16 'x'), [2, 0, 1]), (.reset, [1]), (.str, [0]), (.add "ab".toList, [0])]).str true
    = .ok "ab ab".toList := by decide +kernel

example : (((Fmt.mk' "%0 %0".toList).tryAll []).callA (.add (List.replicate 16 'x')) (some 2)).1.str false
    = .ok (List.replicate 16 'x' ++ " %0".toList) := by decide +kernel

example : renderPart [] "abc".toList 1 (template "%0,%0,%1%%".toList) = "abc,%0,%1%".toList := by decide +kernel

end SoDa
