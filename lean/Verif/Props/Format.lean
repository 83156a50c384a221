import Verif.Proof.Format
import Verif.Proof.FormatNum
/-!
Properties C05–C18: `SoDa::Format` without floating point.
-/
namespace SoDa
open Spec

/-! ### Vocabulary -/

/-- The object after inserting the texts `vals` one after the other, by `addS(v)` (width 0). -/
def addAll (f : Fmt) : List Str → Res Empty Fmt
  | [] => .ok f
  | v :: vs => (f.addS v 0).bind fun f' => addAll f' vs

/-- "This call inserts the text `t`": it leaves the object as `addS(t)` does. -/
def Inserts (f f' : Fmt) (t : Str) : Prop := f.addS t 0 = .ok f'

theorem addS_zero (f : Fmt) (t : Str) : f.addS t 0 = .ok (f.insertField t) := by
  simp [Fmt.addS, textS]

theorem inserts_insertField (f : Fmt) (t : Str) : Inserts f (f.insertField t) t := addS_zero f t

theorem addAll_eq (vals : List Str) : ∀ f : Fmt, addAll f vals = .ok (vals.foldl Fmt.insertField f) := by
  induction vals with
  | nil => simp [addAll]
  | cons v vs ih => intro f; simp [addAll, addS_zero, ih]

/-! ### C05: the k-th value fills exactly the `%k` placeholders -/

theorem C05_substitution (s : Str) (vals : List Str) :
    ∃ f, addAll (Fmt.mk' s) vals = .ok f ∧
      f.str false = .ok (render vals (template s)) ∧ f.stream = .ok (render vals (template s)) := by
  refine ⟨_, addAll_eq vals _, ?_⟩
  rw [insert_all]
  simp only [Fmt.str, Fmt.stream, Bool.false_and, (assemble_fill vals _).1, initialScan_flat]
  simp

example : render ["a".toList, "%0".toList] (template "%1-%0-%1 %2".toList) = "%0-a-%0 %2".toList := by
  simp [template, render, renderItem, Nat.ofDigitChars]
  decide

/-- The text a call inserts, if it is an insertion (texts themselves: C11–C18). -/
def Call.text : Call → Option Str
  | .addI v w sep fill => some (textI v w sep fill)
  | .addU v fmt w sep g => some (textU v fmt w sep g)
  | .addS v width => match textS v width with | .ok t => some t | _ => none
  | .addC c => some [c]
  | .addB b => some (if b then ['T'] else ['F'])
  | .str _ => none
  | .reset => none

/-- The texts inserted since the last `reset`, given those already inserted. -/
def textsSinceReset (acc : List Str) : List Call → List Str
  | [] => acc
  | .reset :: cs => textsSinceReset [] cs
  | c :: cs => textsSinceReset (acc ++ c.text.toList) cs

theorem calls_eq (s : Str) (cs : List Call) : ∀ (acc : List Str) (f : Fmt),
    (acc.foldl Fmt.insertField (Fmt.mk' s)).calls cs = .ok f →
    f = (textsSinceReset acc cs).foldl Fmt.insertField (Fmt.mk' s) := by
  induction cs with
  | nil => intro acc f h; simpa [Fmt.calls, textsSinceReset] using h.symm
  | cons c cs ih =>
    intro acc f h
    have key : ∀ t : Str, ((acc.foldl Fmt.insertField (Fmt.mk' s)).insertField t).calls cs = .ok f →
        f = (textsSinceReset (acc ++ [t]) cs).foldl Fmt.insertField (Fmt.mk' s) := by
      intro t ht
      apply ih
      simpa [List.foldl_append] using ht
    cases c with
    | addI v w sep fill => exact key _ (by simpa [Fmt.calls, Fmt.call, Fmt.addI] using h)
    | addU v fmt w sep g => exact key _ (by simpa [Fmt.calls, Fmt.call, Fmt.addU] using h)
    | addS v width =>
      simp only [Fmt.calls, Fmt.call, Fmt.addS] at h
      simp only [textsSinceReset, Call.text]
      cases ht : textS v width with
      | ok t => rw [ht] at h; exact key t (by simpa using h)
      | throw e => exact e.elim
      | ub => rw [ht] at h; simp at h
    | addC c => exact key _ (by simpa [Fmt.calls, Fmt.call, Fmt.addC] using h)
    | addB b => exact key _ (by simpa [Fmt.calls, Fmt.call, Fmt.addB] using h)
    | str _ => simp only [textsSinceReset, Call.text, Option.toList, List.append_nil]
               exact ih _ _ (by simpa [Fmt.calls, Fmt.call] using h)
    | reset =>
      apply ih
      simp only [Fmt.calls, Fmt.call, Res.bind_ok] at h
      rw [insert_all] at h
      simpa [Fmt.reset, Fmt.mk'] using h

/-- C05 for arbitrary histories of calls: what is printed depends only on the format string and on
the texts inserted since construction or the last `reset`. -/
theorem C05_any_history (s : Str) (cs : List Call) (f : Fmt) (h : (Fmt.mk' s).calls cs = .ok f) :
    f.str false = .ok (render (textsSinceReset [] cs) (template s)) := by
  rw [calls_eq s cs [] f h, insert_all]
  simp only [Fmt.str, Bool.false_and, (assemble_fill _ _).1, initialScan_flat]
  simp

example : ∃ f, (Fmt.mk' "%0 %1".toList).calls
    [.addS "x".toList 3, .reset, .addB true, .addI (-5) 4 nul '.'] = .ok f ∧
    f.str false = .ok "T ..-5".toList := by
  refine ⟨_, rfl, ?_⟩; decide

/-! ### C06: literal text -/

theorem template_escape (t rest : Str) : template (escape t ++ rest) = t.map Item.chr ++ template rest := by
  induction t with
  | nil => simp [escape]
  | cons c cs ih =>
    by_cases hc : c = '%'
    · subst hc; simp [escape, template_pc_pc, ih]
    · simp [escape, hc, template_chr, ih]

theorem render_chr (vals : List Str) (t : Str) : render vals (t.map Item.chr) = t := by
  induction t with
  | nil => rfl
  | cons c cs ih => simpa [render, renderItem, List.flatMap_cons] using ih

theorem C06_escaped_text (t : Str) (vals : List Str) (f : Fmt)
    (h : addAll (Fmt.mk' (escape t)) vals = .ok f) : f.str false = .ok t := by
  obtain ⟨f', h1, h2, _⟩ := C05_substitution (escape t) vals
  obtain rfl : f' = f := by rw [h1] at h; simpa using h
  have := template_escape t []
  rw [List.append_nil, template_nil, List.append_nil] at this
  rw [h2, this, render_chr]

example : escape "50% of %1".toList = "50%% of %%1".toList := by decide

theorem template_lone (s : Str) : (∀ a b, s = a ++ '%' :: b → ∀ c, b.head? = some c → c.isDigit = false ∧ c ≠ '%') →
    template s = s.map Item.chr := by
  fun_induction template s with
  | case1 => intro _; rfl
  | case2 c cs hc ih =>
    intro h
    rw [ih (fun a b hab => h (c :: a) b (by simp [hab]))]
    rfl
  | case3 c hc => intro _; simp_all
  | case4 c hc x xs hd =>
    intro h
    have := h [] (x :: xs) (by simp_all) x rfl
    simp_all
  | case5 c hc xs hd =>
    intro h
    have := h [] ('%' :: xs) (by simp_all) '%' rfl
    simp at this
  | case6 c hc x xs hd hx ih =>
    intro h
    rw [ih (fun a b hab => h (c :: x :: a) b (by simp [hab]))]
    simp_all

/-- A `%` at the end or in front of a character that is neither a digit nor `%` stays. -/
theorem C06_lone_percent (s : Str) (vals : List Str) (f : Fmt)
    (hs : ∀ a b, s = a ++ '%' :: b → ∀ c, b.head? = some c → c.isDigit = false ∧ c ≠ '%')
    (h : addAll (Fmt.mk' s) vals = .ok f) : f.str false = .ok s := by
  obtain ⟨f', h1, h2, _⟩ := C05_substitution s vals
  obtain rfl : f' = f := by rw [h1] at h; simpa using h
  rw [h2, template_lone s hs, render_chr]

example : ∃ f, addAll (Fmt.mk' "100% sure %x %".toList) ["v".toList] = .ok f ∧
    f.str false = .ok "100% sure %x %".toList := ⟨_, rfl, by decide⟩

/-! ### C07: placeholders round-trip -/

/-- Writing a list of text pieces and placeholders as a format string. -/
inductive Piece where
  | text (t : Str)
  | ph (n : Nat)
  deriving DecidableEq

def Piece.write : Piece → Str
  | .text t => escape t
  | .ph n => '%' :: (toString n).toList

def writePieces (ps : List Piece) : Str := ps.flatMap Piece.write

/-- What the pieces mean when values are supplied. -/
def Piece.meaning (vals : List Str) : Piece → Str
  | .text t => t
  | .ph n => match vals[n]? with
    | some v => v
    | none => '%' :: (toString n).toList

theorem takeWhile_digits (n : Nat) (rest : Str) (h : ∀ c, rest.head? = some c → c.isDigit = false) :
    (Nat.toDigits 10 n ++ rest).takeWhile Char.isDigit = Nat.toDigits 10 n ∧
    (Nat.toDigits 10 n ++ rest).dropWhile Char.isDigit = rest := by
  have hall := toDigits_isDigit n
  generalize Nat.toDigits 10 n = ds at hall
  induction ds with
  | nil =>
    cases rest with
    | nil => simp
    | cons c cs => have := h c rfl; simp [this]
  | cons d ds ih =>
    have := ih (fun c hc => hall c (List.mem_cons_of_mem _ hc))
    have hd := hall d List.mem_cons_self
    simp [hd, this]

theorem template_ph (n : Nat) (hn : n < 2 ^ 32) (rest : Str)
    (h : ∀ c, rest.head? = some c → c.isDigit = false) :
    template ('%' :: Nat.toDigits 10 n ++ rest) = .hole n :: template rest := by
  obtain ⟨h1, h2⟩ := takeWhile_digits n rest h
  have hne := @Nat.toDigits_ne_nil n 10
  obtain ⟨d, ds, hd⟩ := List.exists_cons_of_ne_nil hne
  have hdig : d.isDigit = true := toDigits_isDigit n d (by simp [hd])
  have hv := @Nat.ofDigitChars_ten_toDigits n
  rw [hd] at h1 h2 hv ⊢
  rw [ofDigitChars_cons'] at hv
  simp only [List.cons_append, List.takeWhile_cons, hdig, if_true, List.dropWhile_cons,
    List.cons.injEq, true_and] at h1 h2
  rw [List.cons_append, List.cons_append, template_pc_digit _ _ hdig, accItems, h1, h2]
  simp only [Nat.zero_mul, Nat.zero_add] at hv
  rw [hv, Nat.mod_eq_of_lt (show n < u32 from hn)]

theorem C07_pieces_roundtrip (ps : List Piece) (vals : List Str) (f : Fmt)
    (hnum : ∀ n, Piece.ph n ∈ ps → n < 2 ^ 32)
    (hsep : ∀ a n b, ps = a ++ .ph n :: b → ∀ c, (writePieces b).head? = some c → c.isDigit = false)
    (h : addAll (Fmt.mk' (writePieces ps)) vals = .ok f) :
    f.str false = .ok (ps.flatMap (Piece.meaning vals)) := by
  obtain ⟨f', h1, h2, h3⟩ := C05_substitution (writePieces ps) vals
  obtain rfl : f' = f := by rw [h1] at h; simpa using h
  rw [h2]
  congr 1
  clear h h1 h2 h3
  induction ps with
  | nil => simp [writePieces, template_nil, render]
  | cons p ps ih =>
    have ih := ih (fun n hn => hnum n (List.mem_cons_of_mem _ hn))
      (fun a n b hab => hsep (p :: a) n b (by simp [hab]))
    cases p with
    | text t =>
      simp only [writePieces, List.flatMap_cons, Piece.write, template_escape, render,
        List.flatMap_append, Piece.meaning] at ih ⊢
      rw [ih]
      congr 1
      exact render_chr vals t
    | ph n =>
      have hw : writePieces (.ph n :: ps) = '%' :: Nat.toDigits 10 n ++ writePieces ps := by
        simp [writePieces, List.flatMap_cons, Piece.write, Nat.toList_repr]
      rw [hw, template_ph n (hnum n List.mem_cons_self) _ (hsep [] n ps rfl)]
      simp only [render, List.flatMap_cons, Piece.meaning, renderItem] at ih ⊢
      rw [ih]
      cases vals[n]? <;> rfl

example : writePieces [.text "a%".toList, .ph 12, .ph 0, .text "!".toList] = "a%%%12%0!".toList := by
  decide

/-! ### C08: placeholder numbers wrap at 2^32 -/

theorem takeWhile_all (ds : Str) (h : ∀ c ∈ ds, c.isDigit = true) :
    ds.takeWhile Char.isDigit = ds ∧ ds.dropWhile Char.isDigit = [] := by
  induction ds with
  | nil => simp
  | cons d ds ih =>
    have := ih (fun c hc => h c (List.mem_cons_of_mem _ hc))
    simp [h d List.mem_cons_self, this]

/-- A placeholder written with any non-empty digit run prints the value numbered by the decimal
value of the run modulo 2^32. -/
theorem C08_number_mod (ds : Str) (hne : ds ≠ []) (hds : ∀ c ∈ ds, c.isDigit = true) (vals : List Str)
    (f : Fmt) (h : addAll (Fmt.mk' ('%' :: ds)) vals = .ok f) :
    f.str false = .ok (renderItem vals (.hole (Nat.ofDigitChars 10 ds 0 % 2 ^ 32))) := by
  obtain ⟨f', h1, h2, _⟩ := C05_substitution ('%' :: ds) vals
  obtain rfl : f' = f := by rw [h1] at h; simpa using h
  rw [h2]
  obtain ⟨d, ds, rfl⟩ := List.exists_cons_of_ne_nil hne
  have hd := hds d List.mem_cons_self
  have ht : ds.takeWhile Char.isDigit = ds := by
    simpa using (takeWhile_all ds (fun c hc => hds c (List.mem_cons_of_mem _ hc))).1
  have hdr : ds.dropWhile Char.isDigit = [] := by
    simpa using (takeWhile_all ds (fun c hc => hds c (List.mem_cons_of_mem _ hc))).2
  rw [template_pc_digit _ _ hd, accItems, ht, hdr, template_nil, ofDigitChars_cons']
  simp [render, List.flatMap_cons, u32]

theorem C08_leading_zeros_and_wrap (n k m : Nat) (vals : List Str) (f g : Fmt)
    (hf : addAll (Fmt.mk' ('%' :: (List.replicate k '0' ++ (toString (n + m * 2 ^ 32)).toList))) vals = .ok f)
    (hg : addAll (Fmt.mk' ('%' :: (toString n).toList)) vals = .ok g) :
    f.str false = g.str false := by
  have e1 : ∀ j : Nat, (toString j).toList = Nat.toDigits 10 j := by intro j; simp [Nat.toList_repr]
  have hz : ∀ (k : Nat) (t : Str), Nat.ofDigitChars 10 (List.replicate k '0' ++ t) 0 = Nat.ofDigitChars 10 t 0 := by
    intro k t
    induction k with
    | zero => simp
    | succ k ih => rw [List.replicate_succ, List.cons_append, ofDigitChars_cons', ← ih]; rfl
  rw [e1] at hf hg
  rw [C08_number_mod _ (by simp [Nat.toDigits_ne_nil]) ?_ vals f hf,
    C08_number_mod _ (Nat.toDigits_ne_nil) (toDigits_isDigit n) vals g hg]
  · rw [hz, Nat.ofDigitChars_ten_toDigits, Nat.ofDigitChars_ten_toDigits, Nat.add_mul_mod_self_right]
  · intro c hc
    rcases List.mem_append.mp hc with hc | hc
    · rw [List.eq_of_mem_replicate hc]; decide
    · exact toDigits_isDigit _ c hc

example : ∃ f, addAll (Fmt.mk' "%4294967296 %00000000001".toList) ["a".toList, "b".toList] = .ok f ∧
    f.str false = .ok "a b".toList := ⟨_, rfl, by decide⟩

/-! ### C09: `reset` -/

theorem C09_reset_as_new (s : Str) (before : List Call) (f : Fmt)
    (h : (Fmt.mk' s).calls before = .ok f) : f.reset = Fmt.mk' s := by
  rw [calls_eq s before [] f h, insert_all]
  rfl

/-- Observable form: every later history gives the same object, strings and exceptions. -/
theorem C09_reset_later (s : Str) (before after : List Call) (f : Fmt) (check : Bool)
    (h : (Fmt.mk' s).calls before = .ok f) :
    (f.reset.calls after).map (fun g => g.str check) =
      ((Fmt.mk' s).calls after).map (fun g => g.str check) := by
  rw [C09_reset_as_new s before f h]

example : ∃ f, (Fmt.mk' "%0%1".toList).calls [.addC 'x', .addC 'y', .addC 'z'] = .ok f ∧
    f ≠ Fmt.mk' "%0%1".toList ∧ f.reset = Fmt.mk' "%0%1".toList := ⟨_, rfl, by decide, by decide⟩

/-! ### C10: `str(true)` -/

theorem C10_str_check (s : Str) (cs : List Call) (f : Fmt) (h : (Fmt.mk' s).calls cs = .ok f) :
    ((∃ e, f.str true = .throw e) ↔
      ∃ n, Item.hole n ∈ template s ∧ (textsSinceReset [] cs).length ≤ n) ∧
    (f.str true = f.str false ∨ ∃ e, f.str true = .throw e ∧
      e.what = "Unfilled argument string [".toList ++ render (textsSinceReset [] cs) (template s) ++
        "] Format string was \n\"".toList ++ s ++ "\"\n".toList) ∧
    (∃ t, f.str false = .ok t) := by
  rw [calls_eq s cs [] f h, insert_all]
  have h1 := (assemble_fill (textsSinceReset [] cs) (initialScan s)).1
  have h2 := (assemble_fill (textsSinceReset [] cs) (initialScan s)).2
  rw [initialScan_flat] at h1 h2
  simp only [Fmt.str, h1]
  by_cases hz : (Fmt.assemble ((initialScan s).map (fillSeg (textsSinceReset [] cs)))).2 = 0
  · have hall := h2.mp hz
    simp only [hz]
    refine ⟨⟨by simp, ?_⟩, by simp, by simp⟩
    rintro ⟨n, hn, hle⟩
    have := hall n hn
    omega
  · simp only [ne_eq, hz, not_false_eq_true, decide_true, Bool.and_true, if_true]
    refine ⟨⟨?_, fun _ => ⟨_, rfl⟩⟩, Or.inr ⟨_, rfl, by simp⟩, by simp⟩
    intro _
    by_contra hcon
    apply hz
    rw [h2]
    intro n hn
    by_contra hlt
    exact hcon ⟨n, hn, by omega⟩

/-- `str` does not change the object: a call of it anywhere in a history is without effect. -/
theorem C10_str_pure (f : Fmt) (a b : List Call) (check : Bool) :
    f.calls (a ++ .str check :: b) = f.calls (a ++ b) := by
  induction a generalizing f with
  | nil => simp [Fmt.calls, Fmt.call]
  | cons c cs ih =>
    simp only [List.cons_append, Fmt.calls]
    cases f.call c <;> simp [ih]

example : ∃ f e, (Fmt.mk' "%0 %1".toList).calls [.addC 'x'] = .ok f ∧ f.str true = .throw e ∧
    f.str false = .ok "x %1".toList := ⟨_, _, rfl, rfl, by decide⟩

/-! ### C11, C12: `addI` -/

/-- No superfluous leading zeros (of the digits after a possible sign). -/
def NoLeadingZero (s : Str) : Prop := s = ['0'] ∨ (s ≠ [] ∧ s.head? ≠ some '0')

theorem showInt_eq (v : Int) : showInt v = (toString v).toList := by
  cases v with
  | ofNat n => simp [showInt, toString, Int.repr, Nat.toList_repr]
  | negSucc n => simp [showInt, toString, Int.repr, Nat.toList_repr]

theorem showInt_numeral (v : Int) : signedNumeral (showInt v) = some v := by
  cases v with
  | ofNat n =>
    simp only [showInt]
    have hne := @Nat.toDigits_ne_nil n 10
    obtain ⟨d, ds, hd⟩ := List.exists_cons_of_ne_nil hne
    have hdig := toDigits_isDigit n d (by simp [hd])
    have hm : d ≠ '-' := by rintro rfl; simp at hdig
    have := numeral_toDigits 10 (by omega) (by omega) n
    rw [hd] at this ⊢
    unfold signedNumeral
    split
    · rename_i heq; simp at heq; exact absurd heq.1 hm
    · simp [this]
  | negSucc n =>
    simp only [showInt, signedNumeral, numeral_toDigits 10 (by omega) (by omega)]
    simp [Int.negSucc_eq]

theorem toDigits_noLeadingZero (n : Nat) : NoLeadingZero (Nat.toDigits 10 n) := by
  by_cases h : n = 0
  · subst h; left; decide
  · right
    obtain ⟨d, t, h1, _, h3⟩ := head_toDigits 10 (by omega) (by omega) n h
    rw [h3]
    simpa using digitChar_ne_zero h1

/-- C11.  (`fill = '\000'` means the default, a space.) -/
theorem C11_addI (f : Fmt) (v : Int) (w : Nat) (fill : Char) (hw : w < 2 ^ 31) :
    ∃ digits : Str,
      Inserts f (f.addI v w nul fill)
        (List.replicate (w - digits.length) (if fill = nul then ' ' else fill) ++ digits) ∧
      signedNumeral digits = some v ∧
      (0 ≤ v → NoLeadingZero digits) ∧ (v < 0 → ∃ t, digits = '-' :: t ∧ NoLeadingZero t) := by
  refine ⟨showInt v, ?_, showInt_numeral v, ?_, ?_⟩
  · have : textI v w nul fill =
        List.replicate (w - (showInt v).length) (if fill = nul then ' ' else fill) ++ showInt v := by
      have hm : w % u32 = w := Nat.mod_eq_of_lt (by simp [u32]; omega)
      have hlt : w < 2147483648 := by omega
      simp only [textI, if_true, padLeft, setwWidth, hm, hlt]
      by_cases h0 : w = 0
      · simp [h0]
      · by_cases hf : fill = nul <;> simp [h0, hf]
    unfold Fmt.addI
    rw [this]
    exact inserts_insertField _ _
  · cases v with
    | ofNat n => exact fun _ => toDigits_noLeadingZero n
    | negSucc n => intro h; simp at h
  · cases v with
    | ofNat n => intro h; exact absurd h (by simp)
    | negSucc n => exact fun _ => ⟨_, rfl, toDigits_noLeadingZero _⟩

/-- Widths whose `int` value is negative do not pad. -/
theorem C11_addI_huge_width (f : Fmt) (v : Int) (w : Nat) (fill : Char) (hw : 2 ^ 31 ≤ w)
    (hw' : w < 2 ^ 32) : Inserts f (f.addI v w nul fill) (toString v).toList := by
  have hm : w % u32 = w := Nat.mod_eq_of_lt (by simp [u32]; omega)
  have hlt : ¬ w < 2147483648 := by omega
  have : textI v w nul fill = (toString v).toList := by
    simp only [textI, if_true, padLeft, setwWidth, hm, hlt, showInt_eq]
    by_cases h0 : w = 0 <;> simp [h0]
  unfold Fmt.addI
  rw [this]
  exact inserts_insertField _ _

example : ((Fmt.mk' "[%0]".toList).addI (-42) 6 nul '*').str false = .ok "[***-42]".toList := by decide

/-- The common part of `addI` with separators: the whole decimal text, sign included, is grouped. -/
theorem textI_sep (v : Int) (w : Nat) (sep fill : Char) (hsep : sep ≠ nul) (hw : w < 2 ^ 31) :
    ∃ out, Grouped 3 sep (showInt v) out ∧
      textI v w sep fill = List.replicate (w - out.length) (if fill = nul then ' ' else fill) ++ out := by
  refine ⟨_, sepI_grouped sep (showInt v), ?_⟩
  have hm : w % u32 = w := Nat.mod_eq_of_lt (by simp [u32]; omega)
  have hlt : w < 2147483648 := by omega
  simp only [textI, hsep, if_false, padLeft, setwWidth, hm, hlt]
  by_cases h0 : w = 0
  · simp [h0]
  · by_cases hf : fill = nul <;> simp [h0, hf]

/-- What C12 claims about the call `addI(v, w, sep, fill)`. -/
def C12_claim (v : Int) (w : Nat) (sep fill : Char) : Prop :=
  ∀ f : Fmt, ∃ digits out : Str,
    numeral 10 digits = some v.natAbs ∧ NoLeadingZero digits ∧ Grouped 3 sep digits out ∧
    (let signed := if v < 0 then '-' :: out else out
     Inserts f (f.addI v w sep fill)
      (List.replicate (w - signed.length) (if fill = nul then ' ' else fill) ++ signed))

/-- C12 for values that are not negative. -/
theorem C12_addI_nonneg (v : Int) (w : Nat) (sep fill : Char) (hsep : sep ≠ nul) (hw : w < 2 ^ 31)
    (hv : 0 ≤ v) : C12_claim v w sep fill := by
  intro f
  obtain ⟨out, h1, h2⟩ := textI_sep v w sep fill hsep hw
  cases v with
  | negSucc n => simp at hv
  | ofNat n =>
    refine ⟨Nat.toDigits 10 n, out, by simpa using numeral_toDigits 10 (by omega) (by omega) n,
      toDigits_noLeadingZero n, h1, ?_⟩
    have : ¬ (Int.ofNat n < 0) := by simp
    simp only [this, if_false, Fmt.addI, h2]
    exact inserts_insertField _ _

theorem intercalate_single (sep : Char) (ck : Str) : List.intercalate [sep] [ck] = ck := by
  simp [List.intercalate]

/-- C12 for negative values: true whenever the number of digits is not a multiple of three.
What is missing for the full claim is false, see `C12_refuted`. -/
theorem C12_addI_partial (v : Int) (w : Nat) (sep fill : Char) (hsep : sep ≠ nul) (hw : w < 2 ^ 31)
    (hv : 0 ≤ v ∨ (toString v.natAbs).length % 3 ≠ 0) : C12_claim v w sep fill := by
  by_cases hn : 0 ≤ v
  · exact C12_addI_nonneg v w sep fill hsep hw hn
  · have hv := hv.resolve_left hn
    intro f
    obtain ⟨out, ⟨chunks, c1, c2, c3, c4⟩, h2⟩ := textI_sep v w sep fill hsep hw
    cases v with
    | ofNat n => simp at hn
    | negSucc n =>
      have hlen : (Nat.toDigits 10 (n + 1)).length % 3 ≠ 0 := by
        have e : (toString (Int.negSucc n).natAbs).length = (Nat.toDigits 10 (n + 1)).length := by
          rw [← Nat.toList_repr, String.length_toList]; rfl
        rwa [e] at hv
      simp only [showInt] at c1
      have hfl : ∀ t : List Str, (∀ ck ∈ t, ck.length = 3) → t.flatten.length % 3 = 0 := by
        intro t ht
        induction t with
        | nil => rfl
        | cons a t ih =>
          have := ih (fun ck hk => ht ck (List.mem_cons_of_mem _ hk))
          have := ht a List.mem_cons_self
          simp only [List.flatten_cons, List.length_append]; omega
      cases chunks with
      | nil => simp at c1
      | cons ck t =>
        obtain ⟨l1, l2⟩ := c3 ck rfl
        cases ck with
        | nil => simp at l1
        | cons c ck =>
          simp only [List.flatten_cons, List.cons_append, List.cons.injEq] at c1
          obtain ⟨rfl, c1⟩ := c1
          have hck : ck ≠ [] := by
            rintro rfl
            apply hlen
            rw [← c1]
            exact hfl t c2
          refine ⟨Nat.toDigits 10 (n + 1), List.intercalate [sep] (ck :: t),
            by simpa using numeral_toDigits 10 (by omega) (by omega) (n + 1),
            toDigits_noLeadingZero _, ⟨ck :: t, by simpa using c1, c2, ?_, rfl⟩, ?_⟩
          · intro x hx
            simp only [List.head?_cons, Option.some.injEq] at hx
            subst hx
            have := List.length_pos_iff.mpr hck
            simp only [List.length_cons] at l2
            omega
          · have hneg : Int.negSucc n < 0 := by omega
            rw [intercalate_cons_head] at c4
            simp only [hneg, if_true, Fmt.addI, h2, c4]
            exact inserts_insertField _ _

/-- C12 is false of the code: `addI(-123, 0, ',')` prints `-,123`. -/
theorem C12_refuted : ((Fmt.mk' "%0".toList).addI (-123) 0 ',').str false = .ok "-,123".toList ∧
    ¬ C12_claim (-123) 0 ',' nul := by
  refine ⟨by decide, ?_⟩
  intro h
  obtain ⟨digits, out, hnum, -, ⟨chunks, h1, h2, h3, h4⟩, h5⟩ := h (Fmt.mk' "%0".toList)
  rw [if_pos (by decide)] at h5
  simp only [Inserts, addS_zero, Res.ok.injEq, List.nil_append, Nat.zero_sub,
    List.replicate_zero] at h5
  have h6 := congrArg (fun f => f.str false) h5
  have : ((Fmt.mk' "%0".toList).addI (-123) 0 ',' nul).str false = .ok "-,123".toList := by decide
  simp only [this] at h6
  have h7 : (Fmt.insertField (Fmt.mk' "%0".toList) ('-' :: out)).str false = .ok ('-' :: out) := by
    have : Fmt.mk' "%0".toList = ⟨"%0".toList, [.fld 0], 0⟩ := by decide
    rw [this]
    simp [Fmt.insertField, Fmt.str, Fmt.assemble]
  rw [h7] at h6
  have h8 : out = ",123".toList := by simpa using h6
  rw [h8] at h4
  cases chunks with
  | nil => simp [List.intercalate] at h4
  | cons ck t =>
    have hl := h3 ck rfl
    cases ck with
    | nil => simp at hl
    | cons c ck =>
      rw [intercalate_cons_head] at h4
      have hc : c = ',' := by simpa using (congrArg List.head? h4).symm
      subst hc
      rw [← h1] at hnum
      simp [numeral, valueFrom, digitValue] at hnum

/-- In the remaining case, a negative number whose digits fill their groups, a separator stands after the minus sign. -/
theorem C12_addI_extra_partial (f : Fmt) (v : Int) (w : Nat) (sep fill : Char) (hsep : sep ≠ nul) (hw : w < 2 ^ 31)
    (hv : v < 0) (hlen : (toString v.natAbs).length % 3 = 0) :
    ∃ digits out : Str, numeral 10 digits = some v.natAbs ∧ NoLeadingZero digits ∧ Grouped 3 sep digits out ∧
      Inserts f (f.addI v w sep fill)
        (List.replicate (w - (out.length + 2)) (if fill = nul then ' ' else fill) ++ '-' :: sep :: out) := by
  obtain ⟨out, ⟨chunks, c1, c2, c3, c4⟩, h2⟩ := textI_sep v w sep fill hsep hw
  cases v with
  | ofNat n => simp at hv; omega
  | negSucc n =>
    replace hlen : (Nat.toDigits 10 (n + 1)).length % 3 = 0 := by
      have e : (toString (Int.negSucc n).natAbs).length = (Nat.toDigits 10 (n + 1)).length := by
        rw [← Nat.toList_repr, String.length_toList]; rfl
      rwa [e] at hlen
    simp only [showInt] at c1
    have hfl : ∀ t : List Str, (∀ ck ∈ t, ck.length = 3) → t.flatten.length % 3 = 0 := by
      intro t ht
      induction t with
      | nil => rfl
      | cons a t ih =>
        have := ih (fun ck hk => ht ck (List.mem_cons_of_mem _ hk))
        have := ht a List.mem_cons_self
        simp only [List.flatten_cons, List.length_append]; omega
    cases chunks with
    | nil => simp at c1
    | cons ck t =>
      obtain ⟨l1, l2⟩ := c3 ck rfl
      cases ck with
      | nil => simp at l1
      | cons c ck =>
        simp only [List.flatten_cons, List.cons_append, List.cons.injEq] at c1
        obtain ⟨rfl, c1⟩ := c1
        have hck : ck = [] := by
          have e := congrArg List.length c1
          have := hfl t c2
          simp only [List.length_append, List.length_cons] at e l2
          exact List.length_eq_zero_iff.1 (by omega)
        subst hck
        rw [List.nil_append] at c1
        cases t with
        | nil => exact absurd c1.symm (by simp [Nat.toDigits_ne_nil])
        | cons ck t =>
          rw [intercalate_new_head] at c4
          refine ⟨Nat.toDigits 10 (n + 1), List.intercalate [sep] (ck :: t),
            by simpa using numeral_toDigits 10 (by omega) (by omega) (n + 1), toDigits_noLeadingZero _,
            ⟨ck :: t, c1, fun x hx => c2 x (List.mem_of_mem_tail hx), ?_, rfl⟩, ?_⟩
          · intro x hx
            simp only [List.head?_cons, Option.some.injEq] at hx
            subst hx
            have := c2 ck (by simp)
            omega
          · simp only [Fmt.addI, h2, c4, List.length_cons]
            exact inserts_insertField _ _

/-- Different texts inserted into `%0` are told apart. -/
theorem insert_hole_inj (a b : Str)
    (h : (Fmt.mk' "%0".toList).insertField a = (Fmt.mk' "%0".toList).insertField b) : a = b := by
  have h7 : ∀ t, (Fmt.insertField (Fmt.mk' "%0".toList) t).str false = .ok t := by
    intro t
    have : Fmt.mk' "%0".toList = ⟨"%0".toList, [.fld 0], 0⟩ := by decide
    rw [this]
    simp [Fmt.insertField, Fmt.str, Fmt.assemble]
  have := congrArg (fun f => f.str false) h
  simp only [h7, Res.ok.injEq] at this
  exact this

theorem replicate_dash_ne {k k' : Nat} {fc sep d : Char} {a b : Str} (hs : sep ≠ '-') (hsd : sep ≠ d) (hd : d ≠ '-')
    (h : List.replicate k fc ++ '-' :: sep :: a = List.replicate k' fc ++ '-' :: d :: b) : False := by
  induction k generalizing k' with
  | zero =>
    cases k' with
    | zero => simp at h; exact hsd h.1
    | succ k' =>
      simp only [List.replicate_succ, List.replicate_zero, List.nil_append, List.cons_append, List.cons.injEq] at h
      obtain ⟨rfl, h⟩ := h
      cases k' <;> simp [List.replicate_succ] at h <;> exact hs h.1
  | succ k ih =>
    cases k' with
    | zero =>
      simp only [List.replicate_succ, List.replicate_zero, List.nil_append, List.cons_append, List.cons.injEq] at h
      obtain ⟨rfl, h⟩ := h
      cases k <;> simp [List.replicate_succ] at h <;> exact hd h.1.symm
    | succ k' =>
      simp only [List.replicate_succ, List.cons_append, List.cons.injEq, true_and] at h
      exact ih h

/-- Exactly when C12 holds, for separators that are neither digits nor the minus sign. -/
theorem C12_exact (v : Int) (w : Nat) (sep fill : Char) (hsep : sep ≠ nul) (hw : w < 2 ^ 31) (hm : sep ≠ '-')
    (hdig : sep.isDigit = false) :
    C12_claim v w sep fill ↔ (0 ≤ v ∨ (toString v.natAbs).length % 3 ≠ 0) := by
  refine ⟨fun h => ?_, C12_addI_partial v w sep fill hsep hw⟩
  by_contra hc
  push Not at hc
  obtain ⟨digits, out, hn, -, ⟨chunks, c1, _, c3, c4⟩, hi⟩ := h (Fmt.mk' "%0".toList)
  obtain ⟨digits', out', _, _, _, hi'⟩ :=
    C12_addI_extra_partial (Fmt.mk' "%0".toList) v w sep fill hsep hw hc.1 hc.2
  simp only [Inserts, addS_zero, Res.ok.injEq, hc.1, if_true] at hi hi'
  have heq := insert_hole_inj _ _ (hi.trans hi'.symm)
  cases chunks with
  | nil => simp at c1; subst c1; simp [numeral] at hn
  | cons ck t =>
    have hl := (c3 ck rfl).1
    cases ck with
    | nil => simp at hl
    | cons c ck =>
      rw [intercalate_cons_head] at c4
      have hcd : c.isDigit = true := by
        rw [← c1] at hn
        simp only [List.flatten_cons, List.cons_append, numeral, reduceCtorEq, if_false, valueFrom] at hn
        cases hv : digitValue 10 c with
        | none => simp [hv] at hn
        | some x =>
          simp only [digitValue, Option.filter_eq_some_iff] at hv
          obtain ⟨h1, h2⟩ := hv
          split at h1
          · rename_i h; simp [Char.isDigit]; exact h
          · split at h1
            · simp at h1 h2; omega
            · split at h1
              · simp at h1 h2; omega
              · simp at h1
      rw [c4] at heq
      refine replicate_dash_ne hm ?_ ?_ heq.symm
      · rintro rfl; rw [hcd] at hdig; simp at hdig
      · rintro rfl; simp [Char.isDigit] at hcd

example : ¬ C12_claim (-123456) 0 ',' '*' := fun h =>
  absurd ((C12_exact _ _ _ _ (by decide) (by decide) (by decide) (by decide)).1 h) (by decide)

example : C12_claim (-1234567) 12 ',' '*' :=
  C12_addI_partial _ _ _ _ (by decide) (by decide) (by decide)

example : ((Fmt.mk' "%0".toList).addI (-1234567) 12 ',' '*').str false = .ok "**-1,234,567".toList := by
  decide

/-! ### C13–C15: `addU` without separator -/

theorem setwWidth_small {w : Nat} (hw : w < 2 ^ 31) : setwWidth w = w := by
  have hm : w % u32 = w := Nat.mod_eq_of_lt (by simp [u32]; omega)
  simp only [setwWidth, hm]
  rw [if_pos (by omega)]

theorem showHex_props (up : Bool) (v : Nat) :
    numeral 16 (showHex up v) = some v ∧ NoLeadingZero (showHex up v) ∧
    (∀ c ∈ showHex up v, c.isDigit = true ∨
      (if up then 'A' ≤ c ∧ c ≤ 'F' else 'a' ≤ c ∧ c ≤ 'f')) := by
  refine ⟨?_, ?_, ?_⟩
  · cases up
    · exact numeral_toDigits 16 (by omega) (by omega) v
    · exact numeral_toDigits_upper 16 (by omega) (by omega) v
  · by_cases h : v = 0
    · subst h; left; revert up; decide
    · right
      obtain ⟨d, t, h1, h2, h3⟩ := head_toDigits 16 (by omega) (by omega) v h
      have hup : ∀ d < 16, 0 < d → (Nat.digitChar d).toUpper ≠ '0' := by decide
      cases up
      · simp [showHex, h3, digitChar_ne_zero h1]
      · simp [showHex, h3, hup d h2 h1]
  · have hall : ∀ d < 16, ∀ up : Bool,
        (let c := if up then (Nat.digitChar d).toUpper else Nat.digitChar d
         c.isDigit = true ∨ (if up then 'A' ≤ c ∧ c ≤ 'F' else 'a' ≤ c ∧ c ≤ 'f')) := by decide
    intro c hc
    cases up
    · obtain ⟨d, hd, rfl⟩ := mem_toDigits 16 (by omega) v c (by simpa [showHex] using hc)
      exact hall d hd false
    · simp only [showHex, if_true, List.mem_map] at hc
      obtain ⟨a, ha, rfl⟩ := hc
      obtain ⟨d, hd, rfl⟩ := mem_toDigits 16 (by omega) v a ha
      exact hall d hd true

/-- C13: hexadecimal. -/
theorem C13_addU_hex (f : Fmt) (v w g : Nat) (fmt : Char) (hw : w < 2 ^ 31)
    (hfmt : fmt = 'x' ∨ fmt = 'X' ∨ fmt = 'h' ∨ fmt = 'H') :
    ∃ core digits : Str,
      Inserts f (f.addU v fmt w nul g) ("0x".toList ++ digits) ∧
      digits = List.replicate (w - core.length) '0' ++ core ∧ NoLeadingZero core ∧
      numeral 16 digits = some v ∧
      (∀ c ∈ digits, c.isDigit = true ∨
        (if fmt = 'X' ∨ fmt = 'H' then 'A' ≤ c ∧ c ≤ 'F' else 'a' ≤ c ∧ c ≤ 'f')) := by
  obtain ⟨p1, p2, p3⟩ := showHex_props (decide (fmt = 'X') || decide (fmt = 'H')) v
  have hne : showHex (decide (fmt = 'X') || decide (fmt = 'H')) v ≠ [] := by
    rcases p2 with h | h
    · simp [h]
    · exact h.1
  refine ⟨showHex (decide (fmt = 'X') || decide (fmt = 'H')) v, _, ?_, rfl, p2, ?_, ?_⟩
  · have : textU v fmt w nul g = "0x".toList ++ (List.replicate
        (w - (showHex (decide (fmt = 'X') || decide (fmt = 'H')) v).length) '0' ++
        showHex (decide (fmt = 'X') || decide (fmt = 'H')) v) := by
      simp only [textU, hfmt, if_true, toHex, padLeft, setwWidth_small hw]
    unfold Fmt.addU
    rw [this]
    exact inserts_insertField _ _
  · rw [numeral_zeros 16 (by omega) _ _ hne]; exact p1
  · intro c hc
    rcases List.mem_append.mp hc with hc | hc
    · left; rw [List.eq_of_mem_replicate hc]; decide
    · have := p3 c hc
      simpa using this

example : ((Fmt.mk' "%0".toList).addU 48879 'X' 6).str false = .ok "0x00BEEF".toList := by decide

/-- C14: octal. -/
theorem C14_addU_oct (f : Fmt) (v w g : Nat) (fmt : Char) (hw : w < 2 ^ 31) (hfmt : fmt = 'o' ∨ fmt = 'O') :
    ∃ core text : Str,
      Inserts f (f.addU v fmt w nul g) text ∧
      text = List.replicate (w - core.length) '0' ++ core ∧
      (v = 0 → core = ['0']) ∧ (v ≠ 0 → ∃ t, core = '0' :: t ∧ NoLeadingZero t) ∧
      text.head? = some '0' ∧ w ≤ text.length ∧ numeral 8 text = some v := by
  have hx : ¬ (fmt = 'x' ∨ fmt = 'X' ∨ fmt = 'h' ∨ fmt = 'H') := by
    rcases hfmt with rfl | rfl <;> decide
  have hh : ∃ t, showOctBase v = '0' :: t := by
    unfold showOctBase
    split
    · rename_i h; subst h; exact ⟨[], by decide⟩
    · exact ⟨_, rfl⟩
  obtain ⟨t, ht⟩ := hh
  refine ⟨showOctBase v, _, ?_, rfl, ?_, ?_, ?_, ?_, ?_⟩
  · have : textU v fmt w nul g = List.replicate (w - (showOctBase v).length) '0' ++ showOctBase v := by
      simp only [textU, hx, hfmt, if_true, if_false, toOct, padLeft, setwWidth_small hw]
    unfold Fmt.addU
    rw [this]
    exact inserts_insertField _ _
  · rintro rfl; decide
  · intro h
    refine ⟨Nat.toDigits 8 v, by simp [showOctBase, h], ?_⟩
    right
    obtain ⟨d, t, h1, _, h3⟩ := head_toDigits 8 (by omega) (by omega) v h
    rw [h3]
    simpa using digitChar_ne_zero h1
  · rw [ht]
    cases h : w - ('0' :: t : Str).length <;> simp [List.replicate_succ]
  · simp only [List.length_append, List.length_replicate]; omega
  · rw [numeral_zeros 8 (by omega) _ _ (by simp [ht])]
    unfold showOctBase
    split
    · exact numeral_toDigits 8 (by omega) (by omega) v
    · have := numeral_zeros 8 (by omega) 1 (Nat.toDigits 8 v) Nat.toDigits_ne_nil
      simp only [List.replicate_one, List.singleton_append] at this
      rw [this]
      exact numeral_toDigits 8 (by omega) (by omega) v

example : ((Fmt.mk' "%0|%1".toList).addU 8 'o' 5 |>.addU 0 'O' 0).str false = .ok "00010|0".toList := by
  decide

/-- C15: decimal, and every unknown format character. -/
theorem C15_addU_dec (f : Fmt) (v w g : Nat) (fmt : Char) (hw : w < 2 ^ 31)
    (hfmt : fmt ∉ ['x', 'X', 'h', 'H', 'o', 'O']) :
    ∃ digits : Str,
      Inserts f (f.addU v fmt w nul g) (List.replicate (w - digits.length) ' ' ++ digits) ∧
      NoLeadingZero digits ∧ numeral 10 digits = some v := by
  simp only [List.mem_cons, List.not_mem_nil, or_false, not_or] at hfmt
  refine ⟨Nat.toDigits 10 v, ?_, toDigits_noLeadingZero v, numeral_toDigits 10 (by omega) (by omega) v⟩
  have : textU v fmt w nul g = List.replicate (w - (Nat.toDigits 10 v).length) ' ' ++ Nat.toDigits 10 v := by
    simp only [textU, hfmt, or_self, if_true, if_false, padLeft, setwWidth_small hw]
    by_cases h : w = 0 <;> simp [h]
  unfold Fmt.addU
  rw [this]
  exact inserts_insertField _ _

example : ((Fmt.mk' "%0".toList).addU 1234 'q' 6).str false = .ok "  1234".toList := by decide

/-! ### C16: `addU` with separators -/

/-- The part of the text of a number that is never separated. -/
def unsignedPrefix (fmt : Char) : Str :=
  if fmt ∈ ['x', 'X', 'h', 'H'] then "0x".toList else if fmt ∈ ['o', 'O'] then "0".toList else []

theorem textU_nul_prefix (v w g : Nat) (fmt : Char) :
    ∃ body, textU v fmt w nul g = unsignedPrefix fmt ++ body := by
  by_cases hx : fmt = 'x' ∨ fmt = 'X' ∨ fmt = 'h' ∨ fmt = 'H'
  · refine ⟨padLeft '0' (setwWidth w) (showHex (decide (fmt = 'X') || decide (fmt = 'H')) v), ?_⟩
    simp only [textU, hx, if_true, toHex, unsignedPrefix, List.mem_cons, List.not_mem_nil, or_false]
  · by_cases ho : fmt = 'o' ∨ fmt = 'O'
    · have hh : ∃ t, toOct v w = '0' :: t := by
        have : ∃ t, showOctBase v = '0' :: t := by
          unfold showOctBase
          split
          · rename_i h; subst h; exact ⟨[], by decide⟩
          · exact ⟨_, rfl⟩
        obtain ⟨t, ht⟩ := this
        unfold toOct padLeft
        rw [ht]
        cases setwWidth w - ('0' :: t : Str).length with
        | zero => exact ⟨t, by simp⟩
        | succ k => exact ⟨List.replicate k '0' ++ '0' :: t, by simp [List.replicate_succ]⟩
      obtain ⟨t, ht⟩ := hh
      refine ⟨t, ?_⟩
      simp only [textU, hx, ho, if_true, if_false, ht, unsignedPrefix, List.mem_cons,
        List.not_mem_nil, or_false]
      simp
    · refine ⟨textU v fmt w nul g, ?_⟩
      simp only [unsignedPrefix, List.mem_cons, List.not_mem_nil, or_false, hx, ho, if_false]
      simp

theorem textU_sep_eq (v w g : Nat) (fmt sep : Char) (hsep : sep ≠ nul) (body : Str)
    (hb : textU v fmt w nul g = unsignedPrefix fmt ++ body) :
    textU v fmt w sep g =
      ((unsignedPrefix fmt ++ body).reverse.foldl (addUSepStep sep g (body.length : Int)) ([], 0, 0)).1 := by
  rw [← hb]
  have hlen : (body.length : Int) = ((textU v fmt w nul g).length : Int) -
      (unsignedPrefix fmt).length := by rw [hb, List.length_append]; omega
  rw [hlen]
  by_cases hx : fmt = 'x' ∨ fmt = 'X' ∨ fmt = 'h' ∨ fmt = 'H'
  · simp only [textU, hx, if_true, hsep, if_false, unsignedPrefix, List.mem_cons, List.not_mem_nil, or_false]
    rfl
  · by_cases ho : fmt = 'o' ∨ fmt = 'O'
    · simp only [textU, hx, ho, if_true, hsep, if_false, unsignedPrefix, List.mem_cons, List.not_mem_nil, or_false]
      rfl
    · simp only [textU, hx, ho, if_true, hsep, if_false, unsignedPrefix, List.mem_cons, List.not_mem_nil, or_false]
      rfl

/-- C16.  The text without separators is `pre ++ body`, with them it is `pre ++ out` where `out` is
`body` grouped; so deleting separators restores the text (up to characters equal to the separator). -/
theorem C16_addU_separators (f : Fmt) (v w g : Nat) (fmt sep : Char) (hsep : sep ≠ nul) (hg : 1 ≤ g) :
    ∃ body out : Str,
      Inserts f (f.addU v fmt w nul g) (unsignedPrefix fmt ++ body) ∧
      Inserts f (f.addU v fmt w sep g) (unsignedPrefix fmt ++ out) ∧
      Grouped g sep body out ∧
      (unsignedPrefix fmt ++ out).filter (· ≠ sep) = (unsignedPrefix fmt ++ body).filter (· ≠ sep) := by
  obtain ⟨body, hb⟩ := textU_nul_prefix v w g fmt
  obtain ⟨out, h1, h2⟩ := sepU_grouped sep g hg (unsignedPrefix fmt) body
  rw [← textU_sep_eq v w g fmt sep hsep body hb] at h2
  refine ⟨body, out, ?_, ?_, h1, ?_⟩
  · unfold Fmt.addU; rw [hb]; exact inserts_insertField _ _
  · unfold Fmt.addU; rw [h2]; exact inserts_insertField _ _
  · rw [List.filter_append, List.filter_append, grouped_filter h1]

theorem sepU_zero (sep : Char) (lim : Int) (r : Str) : ∀ (a : Str) (i cc : Nat), 0 < i →
    (r.foldl (addUSepStep sep 0 lim) (a, i, cc)).1 = r.reverse ++ a := by
  induction r with
  | nil => simp
  | cons c r ih =>
    intro a i cc h
    rw [List.foldl_cons]
    have : ¬ (i = 0) := by omega
    simp only [addUSepStep, this, false_and, if_false]
    rw [ih _ _ _ (by omega)]
    simp

/-- The excluded group size 0: one separator is appended at the right end. -/
theorem C16_addU_group_zero (f : Fmt) (v w : Nat) (fmt sep : Char) (hsep : sep ≠ nul) :
    ∃ body, Inserts f (f.addU v fmt w nul 0) (unsignedPrefix fmt ++ body) ∧
      (body ≠ [] → Inserts f (f.addU v fmt w sep 0) (unsignedPrefix fmt ++ body ++ [sep])) := by
  obtain ⟨body, hf⟩ := textU_nul_prefix v w 0 fmt
  refine ⟨body, by unfold Fmt.addU; rw [hf]; exact inserts_insertField _ _, fun hne => ?_⟩
  have h := textU_sep_eq v w 0 fmt sep hsep body hf
  have : ((unsignedPrefix fmt ++ body).reverse.foldl (addUSepStep sep 0 (body.length : Int)) ([], 0, 0)).1 =
      unsignedPrefix fmt ++ body ++ [sep] := by
    have hr : (unsignedPrefix fmt ++ body).reverse ≠ [] := by simp [hne]
    obtain ⟨c, t, ht⟩ := List.exists_cons_of_ne_nil hr
    have hl : 0 < body.length := List.length_pos_iff.mpr hne
    rw [ht, List.foldl_cons]
    have h0 : (0 : Int) < body.length := by omega
    simp only [addUSepStep, Nat.cast_zero, h0, and_self, if_true]
    rw [sepU_zero _ _ _ _ _ _ (by omega)]
    have : unsignedPrefix fmt ++ body = t.reverse ++ [c] := by
      rw [← List.reverse_reverse (unsignedPrefix fmt ++ body), ht, List.reverse_cons]
    rw [this]; simp
  rw [this] at h
  unfold Fmt.addU; rw [h]; exact inserts_insertField _ _

example : ((Fmt.mk' "%0 %1 %2".toList).addU 0xdeadbeef 'x' 9 '_' 4 |>.addU 1234567 'd' 0 ',' 3
    |>.addU 5349 'o' 0 '.' 2).str false = .ok "0x0_dead_beef 1,234,567 01.23.45".toList := by decide

/-! ### C17: `addS` -/

/-- What C17 claims about `addS(s, w)`. -/
def C17_claim (s : Str) (w : Int) : Prop :=
  ∀ f : Fmt, ∃ f', f.addS s w = .ok f' ∧
    Inserts f f' (if 0 ≤ w then List.replicate (w.natAbs - s.length) ' ' ++ s
      else s ++ List.replicate (w.natAbs - s.length) ' ')

/-- C17 for strings shorter than 2^31 characters and every `int` width but the smallest.
What is missing is false: `C17_refuted_width`, `C17_refuted_length`. -/
theorem C17_addS_partial (s : Str) (w : Int) (hs : s.length < 2 ^ 31) (hlo : -2 ^ 31 < w) (hhi : w < 2 ^ 31) :
    C17_claim s w := by
  intro f
  unfold Inserts
  simp only [addS_zero]
  simp only [Fmt.addS, textS]
  by_cases h1 : w < 0
  · rw [if_pos h1, if_neg (by omega), if_neg (by omega)]
    refine ⟨_, rfl, ?_⟩
    have : (toI32 (-w - s.length)).toNat = w.natAbs - s.length := by
      unfold toI32; omega
    rw [this]
  · rw [if_neg h1, if_pos (by omega : 0 ≤ w)]
    by_cases h2 : w > 0
    · rw [if_pos h2]
      refine ⟨_, rfl, ?_⟩
      have : (toI32 (w - s.length)).toNat = w.natAbs - s.length := by
        unfold toI32; omega
      rw [this]
    · rw [if_neg h2]
      have : w = 0 := by omega
      subst this
      exact ⟨_, rfl, by simp⟩

/-- The smallest `int` cannot be negated. -/
theorem C17_refuted_width (s : Str) : (∀ f : Fmt, f.addS s (-2 ^ 31) = .ub) ∧ ¬ C17_claim s (-2 ^ 31) := by
  have h : ∀ f : Fmt, f.addS s (-2 ^ 31) = .ub := by intro f; simp [Fmt.addS, textS]
  refine ⟨h, fun hc => ?_⟩
  obtain ⟨f', h', _⟩ := hc (Fmt.mk' [])
  rw [h] at h'
  simp at h'

/-- A string of 2^32 characters gets one space of padding for width 1. -/
theorem C17_refuted_length : ∃ s : Str,
    (∀ f : Fmt, ∃ f', f.addS s 1 = .ok f' ∧ Inserts f f' (' ' :: s)) ∧ ¬ C17_claim s 1 := by
  obtain ⟨s, hs⟩ : ∃ s : Str, s.length = 2 ^ 32 := ⟨List.replicate (2 ^ 32) 'a', List.length_replicate⟩
  have key : ∀ f : Fmt, f.addS s 1 = .ok (f.insertField (' ' :: s)) := by
    intro f
    simp [Fmt.addS, textS, hs, toI32]
  refine ⟨s, fun f => ⟨_, key f, addS_zero _ _⟩, fun hc => ?_⟩
  obtain ⟨f', h1, h2⟩ := hc (Fmt.mk' "%0".toList)
  rw [key] at h1
  simp only [Inserts, addS_zero, Res.ok.injEq] at h1 h2
  rw [← h1] at h2
  have := congrArg List.length (insert_hole_inj _ _ h2)
  rw [if_pos (by decide)] at this
  simp only [List.length_append, List.length_cons, List.length_replicate, hs] at this
  have h1 : (1 : Int).natAbs = 1 := rfl
  omega

/-- Exactly when C17 holds, for strings of any length: the width is not the smallest `int`, and the text is not so much
longer than the width that the difference wraps around to a positive `int`. -/
theorem C17_exact (s : Str) (w : Int) (hlo : -2 ^ 31 ≤ w) (hhi : w < 2 ^ 31) :
    C17_claim s w ↔ w ≠ -2 ^ 31 ∧
      (w = 0 ∨ s.length ≤ w.natAbs ∨ (s.length - w.natAbs) % 2 ^ 32 ≤ 2 ^ 31) := by
  by_cases hmin : w = -2 ^ 31
  · subst hmin
    simp only [ne_eq, not_true, false_and, iff_false]
    exact (C17_refuted_width s).2
  by_cases h0 : w = 0
  · subst h0
    refine ⟨fun _ => ⟨hmin, .inl rfl⟩, fun _ f => ⟨f.insertField s, by simp [Fmt.addS, textS, Res.map], ?_⟩⟩
    simp [Inserts, addS_zero]
  have key : ∀ f : Fmt, f.addS s w = .ok (f.insertField
      (if 0 ≤ w then List.replicate (toI32 ((w.natAbs : Int) - s.length)).toNat ' ' ++ s
        else s ++ List.replicate (toI32 ((w.natAbs : Int) - s.length)).toNat ' ')) := by
    intro f
    simp only [Fmt.addS, textS]
    by_cases h1 : w < 0
    · rw [if_pos h1, if_neg (by omega), if_neg (by omega), show ((w.natAbs : Int)) = -w by omega]; rfl
    · rw [if_neg h1, if_pos (by omega : w > 0), if_pos (by omega), show ((w.natAbs : Int)) = w by omega]; rfl
  have hnum : (toI32 ((w.natAbs : Int) - s.length)).toNat = w.natAbs - s.length ↔
      (s.length ≤ w.natAbs ∨ (s.length - w.natAbs) % 2 ^ 32 ≤ 2 ^ 31) := by
    unfold toI32; omega
  constructor
  · intro h
    refine ⟨hmin, .inr (hnum.1 ?_)⟩
    obtain ⟨f', h1, h2⟩ := h (Fmt.mk' "%0".toList)
    rw [key] at h1
    simp only [Inserts, addS_zero, Res.ok.injEq] at h1 h2
    rw [← h1] at h2
    have := congrArg List.length (insert_hole_inj _ _ h2)
    by_cases hw : 0 ≤ w <;> simp only [hw, if_true, if_false, List.length_append, List.length_replicate] at this <;> omega
  · rintro ⟨_, h⟩ f
    refine ⟨_, key f, ?_⟩
    rw [hnum.2 (h.resolve_left h0)]
    simp [Inserts, addS_zero]

example : C17_claim "abc".toList (-6) := C17_addS_partial _ _ (by decide) (by decide) (by decide)
example : (((Fmt.mk' "[%0]".toList).addS "abc".toList (-6)).map fun f => f.str false) =
    .ok (.ok "[abc   ]".toList) := by decide

/-! ### C18: `addC`, `addB` -/

theorem C18_addC (f : Fmt) (c : Char) : Inserts f (f.addC c) [c] := inserts_insertField _ _

theorem C18_addB (f : Fmt) (b : Bool) : Inserts f (f.addB b) (if b = true then "T".toList else "F".toList) :=
  inserts_insertField _ _

/-- Neighbouring fields are not affected, and do not matter: with `n` values before and any after,
the placeholder `%n` alone shows the character. -/
theorem C18_addC_anywhere (before after : List Str) (c : Char) (hb : before.length < 2 ^ 32) (f g h : Fmt)
    (h1 : addAll (Fmt.mk' ('%' :: (toString before.length).toList)) before = .ok f)
    (h2 : f.addC c = g) (h3 : addAll g after = .ok h) : h.str false = .ok [c] := by
  have e1 : (toString before.length).toList = Nat.toDigits 10 before.length := by simp [Nat.toList_repr]
  rw [e1] at h1
  have hall : addAll (Fmt.mk' ('%' :: Nat.toDigits 10 before.length)) (before ++ [[c]] ++ after) = .ok h := by
    rw [addAll_eq] at h1 h3 ⊢
    simp only [Res.ok.injEq] at h1 h3
    subst h1 h2 h3
    simp [List.foldl_append, Fmt.addC]
  rw [C08_number_mod _ Nat.toDigits_ne_nil (toDigits_isDigit _) _ h hall,
    Nat.ofDigitChars_ten_toDigits, Nat.mod_eq_of_lt hb]
  simp [renderItem]

example : ((Fmt.mk' "%1%0%1".toList).addC '%' |>.addB false).str true = .ok "F%F".toList := by decide

end SoDa
