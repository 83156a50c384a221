import Verif.Spec.Options
import Verif.Proof.StdMap
/-!
Auxiliary lemmas about the model of `Options`.
-/
namespace SoDa.Opts
open Spec

variable {V : Type}

/-! ### Switches -/

theorem isSwitch_short {c : Char} {r : Str} (hc : c ≠ '-') :
    Options.isSwitch false ('-' :: c :: r) = 1 := by
  simp [Options.isSwitch, hc]

theorem isSwitch_long {n : Str} (hn : n ≠ []) : Options.isSwitch false ('-' :: '-' :: n) = 2 := by
  cases n with
  | nil => exact absurd rfl hn
  | cons => simp [Options.isSwitch]; rw [if_neg (by omega), if_neg (by omega)]

theorem isSwitch_not {t : Str} (h : ¬ SwitchLike t) : Options.isSwitch false t = 0 := by
  match t with
  | [] => simp [Options.isSwitch]
  | [a] => simp [Options.isSwitch]
  | a :: b :: r =>
    by_cases ha : a = '-'
    · subst ha
      by_cases hb : b = '-'
      · subst hb
        cases r with
        | nil => simp [Options.isSwitch]
        | cons x xs => exact absurd (.inr ⟨_, rfl, by simp⟩) h
      · exact absurd (.inl ⟨_, _, rfl, hb⟩) h
    · simp [Options.isSwitch, ha]

theorem isSwitch_zero_iff (t : Str) : Options.isSwitch false t = 0 ↔ ¬ SwitchLike t := by
  constructor
  · rintro h (⟨c, r, rfl, hc⟩ | ⟨n, rfl, hn⟩)
    · rw [isSwitch_short hc] at h; simp at h
    · rw [isSwitch_long hn] at h; simp at h
  · exact isSwitch_not

theorem isSwitch_waiting (t : Str) : Options.isSwitch true t = 0 := rfl

theorem Denotes.switchLike {regs : List (Decl V)} {t i d} (h : Denotes regs t i d) : SwitchLike t := by
  cases h with
  | long hn _ => exact .inr ⟨_, rfl, hn⟩
  | short hc _ => exact .inl ⟨_, _, rfl, hc⟩

theorem HelpSwitch.switchLike {t} (h : HelpSwitch t) : SwitchLike t := by
  rcases h with rfl | ⟨r, rfl⟩
  · exact .inr ⟨_, rfl, by simp⟩
  · exact .inl ⟨_, _, rfl, by decide⟩

theorem isLast_unique {A : Type} {l : List A} {p : A → Prop} {i j : Nat} {d e : A}
    (h1 : IsLast l p i d) (h2 : IsLast l p j e) : i = j ∧ d = e := by
  have : i = j := by
    rcases Nat.lt_trichotomy i j with h | h | h
    · exact absurd h2.2.1 (h1.2.2 j e h h2.1)
    · exact h
    · exact absurd h1.2.1 (h2.2.2 i d h h1.1)
  subst this
  exact ⟨rfl, by have := h1.1.symm.trans h2.1; simpa using this⟩

theorem Denotes.unique {regs : List (Decl V)} {t i d j e} (h1 : Denotes regs t i d)
    (h2 : Denotes regs t j e) : i = j ∧ d = e := by
  cases h1 with
  | long hn h =>
    cases h2 with
    | long hn' h' => exact isLast_unique h h'
    | short hc _ => exact absurd rfl hc
  | short hc h =>
    cases h2 with
    | long _ _ => exact absurd rfl hc
    | short hc' h' => exact isLast_unique h h'

theorem isLast_append {A : Type} (l : List A) (x : A) (p : A → Prop) (i : Nat) (d : A) :
    IsLast (l ++ [x]) p i d ↔ (p x ∧ i = l.length ∧ d = x) ∨ (¬ p x ∧ IsLast l p i d) := by
  constructor
  · rintro ⟨h1, h2, h3⟩
    rcases Nat.lt_trichotomy i l.length with h | h | h
    · right
      rw [List.getElem?_append_left h] at h1
      refine ⟨h3 l.length x h (by simp), h1, h2, ?_⟩
      intro j e hj he
      have hjl : j < l.length := (List.getElem?_eq_some_iff.mp he).1
      exact h3 j e hj (by rw [List.getElem?_append_left hjl]; exact he)
    · left
      subst h
      simp at h1
      subst h1
      exact ⟨h2, rfl, rfl⟩
    · rw [List.getElem?_eq_none (by simp; omega)] at h1; simp at h1
  · rintro (⟨hp, rfl, rfl⟩ | ⟨hp, h1, h2, h3⟩)
    · refine ⟨by simp, hp, ?_⟩
      intro j e hj he
      rw [List.getElem?_eq_none (by simp; omega)] at he; simp at he
    · have hi : i < l.length := (List.getElem?_eq_some_iff.mp h1).1
      refine ⟨by rw [List.getElem?_append_left hi]; exact h1, h2, ?_⟩
      intro j e hj he
      by_cases hjl : j < l.length
      · exact h3 j e hj (by rw [List.getElem?_append_left hjl] at he; exact he)
      · by_cases hjl' : j = l.length
        · subst hjl'; simp at he; subst he; exact hp
        · rw [List.getElem?_eq_none (by simp; omega)] at he; simp at he

/-! ### The registration invariant -/

/-- What holds of the object after any sequence of public calls. -/
structure Options.Wf (o : Options V) : Prop where
  long : ∀ n i, o.findLong n = some i ↔ ∃ d, IsLast o.decls (fun d => d.long = n) i d
  ab : ∀ c i, o.findAb c = some i ↔ ∃ d, IsLast o.decls (fun d => d.ab = c) i d
  signed : ∀ d ∈ o.decls, d.kind ≠ .scalar → d.isSigned = false
  default : ∀ d ∈ o.decls, d.kind ≠ .scalar → d.hasDefault = true
  sorted : o.longMap.Pairwise (fun a b => strLess a.1 b.1 = true)

theorem Options.Wf.registerOpt {o : Options V} (h : o.Wf) (d : Decl V)
    (h1 : d.kind ≠ .scalar → d.isSigned = false) (h2 : d.kind ≠ .scalar → d.hasDefault = true) :
    (o.registerOpt d).Wf := by
  constructor
  · intro n i
    simp only [Options.registerOpt, Options.findLong, isLast_append]
    rw [mapFind_mapSet strLess_order]
    by_cases hn : n = d.long
    · subst hn; simp [eq_comm]
    · simp only [hn, if_false, Ne.symm hn, false_and, not_false_eq_true, true_and, false_or]
      exact h.long n i
  · intro c i
    simp only [Options.registerOpt, Options.findAb, isLast_append]
    rw [mapFind_mapSet charLess_order]
    by_cases hn : c = d.ab
    · subst hn; simp [eq_comm]
    · simp only [hn, if_false, Ne.symm hn, false_and, not_false_eq_true, true_and, false_or]
      exact h.ab c i
  · intro e he
    simp only [Options.registerOpt, List.mem_append, List.mem_singleton] at he
    rcases he with he | rfl
    · exact h.signed e he
    · exact h1
  · intro e he
    simp only [Options.registerOpt, List.mem_append, List.mem_singleton] at he
    rcases he with he | rfl
    · exact h.default e he
    · exact h2
  · exact (mapSet_sorted strLess_order _ _ _ h.sorted).1

theorem isLast_of_findLong {o : Options V} (h : o.Wf) {n : Str} {i : Nat} {d : Decl V}
    (hf : o.findLong n = some i) (hd : o.decls[i]? = some d) :
    IsLast o.decls (fun d => d.long = n) i d := by
  obtain ⟨e, he⟩ := (h.long n i).1 hf
  have : d = e := by have := hd.symm.trans he.1; simpa using this
  subst this; exact he

theorem isLast_of_findAb {o : Options V} (h : o.Wf) {c : Char} {i : Nat} {d : Decl V}
    (hf : o.findAb c = some i) (hd : o.decls[i]? = some d) :
    IsLast o.decls (fun d => d.ab = c) i d := by
  obtain ⟨e, he⟩ := (h.ab c i).1 hf
  have : d = e := by have := hd.symm.trans he.1; simpa using this
  subst this; exact he

/-! ### Steps of the parser -/

theorem found_long {o : Options V} (h : o.Wf) {n : Str} {i : Nat} {d : Decl V}
    (hl : IsLast o.decls (fun d => d.long = n) i d) :
    ((o.findLong n).bind fun p => (o.decls[p]?).map fun d => (p, d)) = some (i, d) := by
  rw [(h.long n i).2 ⟨d, hl⟩]; simp [hl.1]

theorem found_ab {o : Options V} (h : o.Wf) {c : Char} {i : Nat} {d : Decl V}
    (hl : IsLast o.decls (fun d => d.ab = c) i d) :
    ((o.findAb c).bind fun p => (o.decls[p]?).map fun d => (p, d)) = some (i, d) := by
  rw [(h.ab c i).2 ⟨d, hl⟩]; simp [hl.1]

/-- A registered switch, when no other switch is pending. -/
theorem parseLoop_switch {o : Options V} (h : o.Wf) (hw : o.waiting = false) {sw : Str} {i : Nat}
    {d : Decl V} (hd : Denotes o.decls sw i d) (hh : ¬ HelpSwitch sw) (ts : List Str) :
    o.parseLoop none (sw :: ts) =
      if d.kind = .presence then
        ((if d.isSigned then { o with waiting := true } else o).setPresent i d).parseLoop none ts
      else (if d.isSigned then { o with waiting := true } else o).parseLoop (some (i, d)) ts := by
  cases hd with
  | @long n _ _ hn hl =>
    have h1 : ¬ (('-' :: '-' :: n) = "--help".toList) := fun he => hh (.inl he)
    simp only [Options.parseLoop, hw, isSwitch_long hn]
    rw [if_neg (by simp), if_neg (by simp), if_neg (by simp only [h1]; simp)]
    simp only [List.drop_succ_cons, List.drop_zero, if_neg (show ¬ (2 : Nat) = 1 by decide),
      found_long h hl]
  | @short c r _ _ hc hl =>
    have h1 : c ≠ 'h' := by rintro rfl; exact hh (.inr ⟨r, rfl⟩)
    simp only [Options.parseLoop, hw, isSwitch_short hc]
    rw [if_neg (by simp), if_neg (by simp [h1]), if_neg (by simp)]
    simp only [List.getElem?_cons_succ, List.getElem?_cons_zero, if_true, Option.bind_some,
      found_ab h hl]

theorem parseLoop_help {o : Options V} (hw : o.waiting = false) {sw : Str}
    (hh : HelpSwitch sw) (ts : List Str) :
    o.parseLoop none (sw :: ts) = ({ o with cerr := o.cerr ++ [.help] }, false) := by
  rcases hh with rfl | ⟨r, rfl⟩
  · simp [Options.parseLoop, hw, Options.isSwitch]
  · simp [Options.parseLoop, hw, isSwitch_short (show ('h' : Char) ≠ '-' by decide)]

theorem findLong_none {o : Options V} (h : o.Wf) {n : Str}
    (hno : ∀ i d, ¬ IsLast o.decls (fun d => d.long = n) i d) : o.findLong n = none := by
  cases hf : o.findLong n with
  | none => rfl
  | some i => obtain ⟨d, hd⟩ := (h.long n i).1 hf; exact absurd hd (hno i d)

theorem findAb_none {o : Options V} (h : o.Wf) {c : Char}
    (hno : ∀ i d, ¬ IsLast o.decls (fun d => d.ab = c) i d) : o.findAb c = none := by
  cases hf : o.findAb c with
  | none => rfl
  | some i => obtain ⟨d, hd⟩ := (h.ab c i).1 hf; exact absurd hd (hno i d)

theorem parseLoop_unknown {o : Options V} (h : o.Wf) (hw : o.waiting = false) {sw : Str}
    (hs : SwitchLike sw) (hh : ¬ HelpSwitch sw) (hno : ∀ i d, ¬ Denotes o.decls sw i d)
    (ts : List Str) :
    o.parseLoop none (sw :: ts) = ({ o with cerr := o.cerr ++ [.badName sw, .help] }, false) := by
  rcases hs with ⟨c, r, rfl, hc⟩ | ⟨n, rfl, hn⟩
  · have h1 : c ≠ 'h' := by rintro rfl; exact hh (.inr ⟨r, rfl⟩)
    have h2 := findAb_none h (c := c) fun i d hd => hno i d (.short hc hd)
    simp only [Options.parseLoop, hw, isSwitch_short hc]
    rw [if_neg (by simp), if_neg (by simp [h1]), if_neg (by simp)]
    simp [h2]
  · have h1 : ¬ (('-' :: '-' :: n) = "--help".toList) := fun he => hh (.inl he)
    have h2 := findLong_none h (n := n) fun i d hd => hno i d (.long hn hd)
    simp only [Options.parseLoop, hw, isSwitch_long hn]
    rw [if_neg (by simp), if_neg (by simp), if_neg (by simp only [h1]; simp)]
    simp [h2]

theorem parseLoop_word {o : Options V} (hw : o.waiting = false) {w : Str} (hs : ¬ SwitchLike w)
    (ts : List Str) :
    o.parseLoop none (w :: ts) = { o with pos := o.pos ++ [w] }.parseLoop none ts := by
  simp only [Options.parseLoop, hw, isSwitch_not hs, if_true]

theorem parseLoop_value {o : Options V} {p : Nat} {d : Decl V} {txt : Str}
    (hv : d.hasDefault = false ∨ Options.isSwitch o.waiting txt = 0) (ts : List Str) :
    o.parseLoop (some (p, d)) (txt :: ts) =
      match o.setVal p d txt with
      | (o', true) => { o' with waiting := false }.parseLoop none ts
      | (o', false) => ({ o' with cerr := o'.cerr ++ [.badValue d.long txt d.err] }, false) := by
  rw [Options.parseLoop]
  rw [if_pos (by rcases hv with h | h <;> simp [h])]
  rcases o.setVal p d txt with ⟨o', b⟩
  cases b <;> rfl

theorem parseLoop_pending {o : Options V} (hw : o.waiting = false) {p : Nat} {d : Decl V}
    (hg : ¬ Greedy d) {t : Str} (hs : SwitchLike t) (ts : List Str) :
    o.parseLoop (some (p, d)) (t :: ts) = (o.setPresent p d).parseLoop none (t :: ts) := by
  simp only [Greedy, not_or, Bool.not_eq_true, Bool.not_eq_false] at hg
  have h0 : Options.isSwitch false t ≠ 0 := fun h => (isSwitch_zero_iff t).1 h hs
  have hw' : (o.setPresent p d).waiting = false := hw
  rw [Options.parseLoop, Options.parseLoop]
  generalize o.setPresent p d = o2 at hw' ⊢
  obtain ⟨decls, pres, lm, am, info, pos, kvp, w, sc, vec, cerr⟩ := o2
  simp only at hw'
  subst hw'
  simp only [hw, hg.1, hg.2, if_true, if_neg h0]

/-! ### The effect of a line -/

/-- The effect of one item. -/
def applyItem (o : Options V) : LineItem V → Options V
  | .word w => { o with pos := o.pos ++ [w] }
  | .flag _ i d => o.setPresent i d
  | .value _ i d _ v =>
    match d.kind with
    | .vector => { o with
        vec := update o.vec d.target (o.vec d.target ++ [v])
        pres := update o.pres i true }
    | _ => { o with sc := update o.sc d.target v, pres := update o.pres i true }
  | .bare _ i d => o.setPresent i d

/-- What a rejected value leaves in the memory. -/
def rejectVal (o : Options V) (d : Decl V) (txt : Str) : Nat → V :=
  if d.kind = .scalar then
    update o.sc d.target (match d.read txt with
      | some v => v
      | none => d.readFail txt (o.sc d.target))
  else o.sc

/-- The effect of the ending and the result of `parse`. -/
def finish (o : Options V) : Ending V → Options V × Bool
  | .done => (o, true)
  | .dangling _ _ d => ({ o with waiting := d.isSigned }, true)
  | .unknown sw => ({ o with cerr := o.cerr ++ [.badName sw, .help] }, false)
  | .help _ => ({ o with cerr := o.cerr ++ [.help] }, false)
  | .rejected _ _ d txt =>
    ({ o with sc := rejectVal o d txt, waiting := d.isSigned,
              cerr := o.cerr ++ [.badValue d.long txt d.err] }, false)

theorem Options.Wf.congr {o o' : Options V} (h : o.Wf) (h1 : o'.decls = o.decls)
    (h2 : o'.longMap = o.longMap) (h3 : o'.abMap = o.abMap) : o'.Wf := by
  constructor
  · intro n i; rw [h1, Options.findLong, h2]; exact h.long n i
  · intro n i; rw [h1, Options.findAb, h3]; exact h.ab n i
  · rw [h1]; exact h.signed
  · rw [h1]; exact h.default
  · rw [h2]; exact h.sorted

@[simp] theorem applyItem_decls (o : Options V) (it) : (applyItem o it).decls = o.decls := by
  cases it <;> simp only [applyItem, Options.setPresent]
  split <;> rfl
@[simp] theorem applyItem_longMap (o : Options V) (it) : (applyItem o it).longMap = o.longMap := by
  cases it <;> simp only [applyItem, Options.setPresent]
  split <;> rfl
@[simp] theorem applyItem_abMap (o : Options V) (it) : (applyItem o it).abMap = o.abMap := by
  cases it <;> simp only [applyItem, Options.setPresent]
  split <;> rfl
@[simp] theorem applyItem_waiting (o : Options V) (it) : (applyItem o it).waiting = o.waiting := by
  cases it <;> simp only [applyItem, Options.setPresent]
  split <;> rfl
@[simp] theorem applyItem_info (o : Options V) (it) : (applyItem o it).info = o.info := by
  cases it <;> simp only [applyItem, Options.setPresent]
  split <;> rfl
@[simp] theorem applyItem_isKvp (o : Options V) (it) : (applyItem o it).isKvp = o.isKvp := by
  cases it <;> simp only [applyItem, Options.setPresent]
  split <;> rfl
@[simp] theorem applyItem_cerr (o : Options V) (it) : (applyItem o it).cerr = o.cerr := by
  cases it <;> simp only [applyItem, Options.setPresent]
  split <;> rfl

theorem Options.Wf.applyItem {o : Options V} (h : o.Wf) (it : LineItem V) : (applyItem o it).Wf :=
  h.congr (by simp) (by simp) (by simp)

theorem setVal_accept {o : Options V} {i : Nat} {d : Decl V} {txt : Str} {v : V} (sw : Str)
    (hk : d.kind ≠ .presence) (ha : Accepts d txt v) :
    o.setVal i d txt = (applyItem o (.value sw i d txt v), true) := by
  cases hd : d.kind with
  | presence => exact absurd hd hk
  | scalar => simp [Options.setVal, applyItem, hd, ha.1, ha.2, Options.setPresent]
  | vector => simp [Options.setVal, applyItem, hd, ha.1, ha.2]

theorem setVal_reject {o : Options V} {i : Nat} {d : Decl V} {txt : Str}
    (hk : d.kind ≠ .presence) (ha : ∀ v, ¬ Accepts d txt v) :
    o.setVal i d txt = ({ o with sc := rejectVal o d txt }, false) := by
  cases hd : d.kind with
  | presence => exact absurd hd hk
  | scalar =>
    cases hr : d.read txt with
    | none => simp [Options.setVal, rejectVal, hd, hr]
    | some v =>
      have ht : d.test v = false := by
        cases ht : d.test v with
        | false => rfl
        | true => exact absurd ⟨hr, ht⟩ (ha v)
      simp [Options.setVal, rejectVal, hd, hr, ht]
  | vector =>
    cases hr : d.read txt with
    | none => simp [Options.setVal, rejectVal, hd, hr]
    | some v =>
      have ht : d.test v = false := by
        cases ht : d.test v with
        | false => rfl
        | true => exact absurd ⟨hr, ht⟩ (ha v)
      simp [Options.setVal, rejectVal, hd, hr, ht]

theorem greedy_or {d : Decl V} {txt : Str} (h : Greedy d ∨ ¬ SwitchLike txt) :
    d.hasDefault = false ∨ Options.isSwitch d.isSigned txt = 0 := by
  rcases h with (h | h) | h
  · right; rw [h]; rfl
  · left; exact h
  · right
    cases d.isSigned
    · exact isSwitch_not h
    · rfl

theorem signed_waiting (o : Options V) (hw : o.waiting = false) (d : Decl V) :
    (if d.isSigned then { o with waiting := true } else o) = { o with waiting := d.isSigned } := by
  cases o
  simp only at hw
  subst hw
  cases d.isSigned <;> simp

theorem applyItem_with_waiting (o : Options V) (it : LineItem V) (w : Bool) :
    applyItem { o with waiting := w } it = { applyItem o it with waiting := w } := by
  cases it <;> simp only [applyItem, Options.setPresent]
  split <;> rfl

theorem Denotes.mem {regs : List (Decl V)} {t i d} (h : Denotes regs t i d) : d ∈ regs := by
  cases h with
  | long _ hl => exact List.mem_of_getElem? hl.1
  | short _ hl => exact List.mem_of_getElem? hl.1

/-- `parse` does to the state what the items of the line say. -/
theorem parse_reads_aux {regs : List (Decl V)} {ts its e} (hr : Reads regs ts its e) :
    ∀ o : Options V, o.Wf → o.waiting = false → o.decls = regs →
      o.parseLoop none ts = finish (its.foldl applyItem o) e := by
  induction hr with
  | done => intro o _ _ _; simp [Options.parseLoop, finish]
  | word hs _ ih =>
    intro o h hw hd
    rw [parseLoop_word hw hs]
    exact ih _ (h.applyItem (.word _)) hw hd
  | @flag sw i d ts its e hden hh hk _ ih =>
    intro o h hw hd
    subst hd
    rw [parseLoop_switch h hw hden hh, if_pos hk, h.signed d (Denotes.mem hden) (by simp [hk])]
    exact ih _ (h.applyItem (.flag sw i d)) hw rfl
  | @value sw i d txt v ts its e hden hh hk hg ha _ ih =>
    intro o h hw hd
    subst hd
    rw [parseLoop_switch h hw hden hh, if_neg hk, signed_waiting o hw,
      parseLoop_value (greedy_or hg), setVal_accept sw hk ha]
    simp only [applyItem_with_waiting, List.foldl_cons]
    have he : ({ applyItem o (.value sw i d txt v) with waiting := false } : Options V) =
        applyItem o (.value sw i d txt v) := by
      rw [← hw, ← applyItem_waiting o (.value sw i d txt v)]
    rw [he]
    exact ih _ (h.applyItem _) (by simpa using hw) (by simp)
  | @bare sw i d t ts its e hden hh hk hg hs _ ih =>
    intro o h hw hd
    subst hd
    have hsg : d.isSigned = false := by
      cases hs : d.isSigned
      · rfl
      · exact absurd (.inl hs) hg
    rw [parseLoop_switch h hw hden hh, if_neg hk, hsg]
    simp only [Bool.false_eq_true, if_false]
    rw [parseLoop_pending hw hg hs]
    exact ih _ (h.applyItem (.bare sw i d)) hw rfl
  | @dangling sw i d hden hh hk =>
    intro o h hw hd
    subst hd
    rw [parseLoop_switch h hw hden hh, if_neg hk, signed_waiting o hw]
    simp [Options.parseLoop, finish]
  | unknown hs hh hno =>
    intro o h hw hd
    subst hd
    rw [parseLoop_unknown h hw hs hh hno]; rfl
  | help hh =>
    intro o h hw hd
    rw [parseLoop_help hw hh]; rfl
  | @rejected sw i d txt ts hden hh hk hg hno =>
    intro o h hw hd
    subst hd
    rw [parseLoop_switch h hw hden hh, if_neg hk, signed_waiting o hw,
      parseLoop_value (greedy_or hg), setVal_reject hk hno]
    simp [finish, rejectVal]

theorem parse_reads {o : Options V} {ts its e} (h : o.Wf) (hw : o.waiting = false)
    (hr : Reads o.decls ts its e) : o.parse ts = finish (its.foldl applyItem o) e :=
  parse_reads_aux hr o h hw rfl


/-! ### Every line reads in some way, and prefixes of lines -/

theorem reads_total (regs : List (Decl V)) :
    ∀ (k : Nat) (ts : List Str), ts.length ≤ k → ∃ its e, Reads regs ts its e := by
  intro k
  induction k with
  | zero =>
    intro ts h
    have : ts = [] := List.length_eq_zero_iff.mp (by omega)
    subst this
    exact ⟨_, _, .done⟩
  | succ k ih =>
    intro ts h
    cases ts with
    | nil => exact ⟨_, _, .done⟩
    | cons t ts =>
      simp only [List.length_cons] at h
      obtain ⟨its, e, hr⟩ := ih ts (by omega)
      by_cases hs : SwitchLike t
      · by_cases hh : HelpSwitch t
        · exact ⟨_, _, .help hh⟩
        · by_cases hd : ∃ i d, Denotes regs t i d
          · obtain ⟨i, d, hd⟩ := hd
            by_cases hk : d.kind = .presence
            · exact ⟨_, _, .flag hd hh hk hr⟩
            · cases ts with
              | nil => exact ⟨_, _, .dangling hd hh hk⟩
              | cons u us =>
                by_cases hg : Greedy d ∨ ¬ SwitchLike u
                · by_cases ha : ∃ v, Accepts d u v
                  · obtain ⟨v, ha⟩ := ha
                    simp only [List.length_cons] at h
                    obtain ⟨its', e', hr'⟩ := ih us (by omega)
                    exact ⟨_, _, .value hd hh hk hg ha hr'⟩
                  · exact ⟨_, _, .rejected hd hh hk hg (fun v hv => ha ⟨v, hv⟩)⟩
                · simp only [not_or, Classical.not_not] at hg
                  exact ⟨_, _, .bare hd hh hk hg.1 hg.2 hr⟩
          · exact ⟨_, _, .unknown hs hh (fun i d h' => hd ⟨i, d, h'⟩)⟩
      · exact ⟨_, _, .word hs hr⟩

/-- A line followed by another one that begins with a switch, when the first one is complete or
lacks only a value that may be left out. -/
theorem reads_append {regs : List (Decl V)} {pre its e} (hp : Reads regs pre its e) :
    ∀ {t ts its' e'}, SwitchLike t → Reads regs (t :: ts) its' e' →
      (e = .done → Reads regs (pre ++ t :: ts) (its ++ its') e') ∧
      (∀ sw i d, e = .dangling sw i d → ¬ Greedy d →
        Reads regs (pre ++ t :: ts) (its ++ .bare sw i d :: its') e') := by
  induction hp with
  | done => intro t ts its' e' hs hr; exact ⟨fun _ => hr, by intro _ _ _ h; simp at h⟩
  | word hw _ ih =>
    intro t ts its' e' hs hr
    exact ⟨fun h => .word hw ((ih hs hr).1 h), fun sw i d h hg => .word hw ((ih hs hr).2 sw i d h hg)⟩
  | flag h1 h2 h3 _ ih =>
    intro t ts its' e' hs hr
    exact ⟨fun h => .flag h1 h2 h3 ((ih hs hr).1 h),
      fun sw i d h hg => .flag h1 h2 h3 ((ih hs hr).2 sw i d h hg)⟩
  | value h1 h2 h3 h4 h5 _ ih =>
    intro t ts its' e' hs hr
    exact ⟨fun h => .value h1 h2 h3 h4 h5 ((ih hs hr).1 h),
      fun sw i d h hg => .value h1 h2 h3 h4 h5 ((ih hs hr).2 sw i d h hg)⟩
  | bare h1 h2 h3 h4 h5 _ ih =>
    intro t ts its' e' hs hr
    exact ⟨fun h => .bare h1 h2 h3 h4 h5 ((ih hs hr).1 h),
      fun sw i d h hg => .bare h1 h2 h3 h4 h5 ((ih hs hr).2 sw i d h hg)⟩
  | @dangling sw i d h1 h2 h3 =>
    intro t ts its' e' hs hr
    refine ⟨by intro h; simp at h, ?_⟩
    intro sw' i' d' h hg
    simp only [Ending.dangling.injEq] at h
    obtain ⟨rfl, rfl, rfl⟩ := h
    exact .bare h1 h2 h3 hg hs hr
  | unknown => intro t ts its' e' _ _; exact ⟨by intro h; simp at h, by intro _ _ _ h; simp at h⟩
  | help => intro t ts its' e' _ _; exact ⟨by intro h; simp at h, by intro _ _ _ h; simp at h⟩
  | rejected => intro t ts its' e' _ _; exact ⟨by intro h; simp at h, by intro _ _ _ h; simp at h⟩

/-- A complete line followed by any other one. -/
theorem reads_append_done {regs : List (Decl V)} {pre its e} (hp : Reads regs pre its e)
    (he : e = .done) {ts its' e'} (hr : Reads regs ts its' e') :
    Reads regs (pre ++ ts) (its ++ its') e' := by
  induction hp with
  | done => exact hr
  | word hw _ ih => exact .word hw (ih he)
  | flag h1 h2 h3 _ ih => exact .flag h1 h2 h3 (ih he)
  | value h1 h2 h3 h4 h5 _ ih => exact .value h1 h2 h3 h4 h5 (ih he)
  | bare h1 h2 h3 h4 h5 _ ih => exact .bare h1 h2 h3 h4 h5 (ih he)
  | dangling => simp at he
  | unknown => simp at he
  | help => simp at he
  | rejected => simp at he

theorem reads_wellFormed {regs : List (Decl V)} (its : List (LineItem V))
    (h : ∀ it ∈ its, it.WellFormed regs) : Reads regs (its.flatMap LineItem.tokens) its .done := by
  induction its with
  | nil => exact .done
  | cons it its ih =>
    have hi := ih fun x hx => h x (by simp [hx])
    have h1 := h it (by simp)
    cases it with
    | word w => exact .word h1 hi
    | flag sw i d => exact .flag h1.1 h1.2.1 h1.2.2 hi
    | value sw i d txt v => exact .value h1.1 h1.2.1 h1.2.2.1 h1.2.2.2.1 h1.2.2.2.2 hi
    | bare sw i d => exact h1.elim

/-- A line reads in only one way. -/
theorem reads_unique {regs : List (Decl V)} {ts its e} (h : Reads regs ts its e) :
    ∀ {its' e'}, Reads regs ts its' e' → its' = its ∧ e' = e := by
  induction h with
  | done => intro its' e' h'; cases h'; exact ⟨rfl, rfl⟩
  | word hw _ ih =>
    intro its' e' h'
    cases h' with
    | word _ h' => obtain ⟨rfl, rfl⟩ := ih h'; exact ⟨rfl, rfl⟩
    | flag hd => exact absurd (Denotes.switchLike hd) hw
    | value hd => exact absurd (Denotes.switchLike hd) hw
    | bare hd => exact absurd (Denotes.switchLike hd) hw
    | dangling hd => exact absurd (Denotes.switchLike hd) hw
    | unknown hs => exact absurd hs hw
    | help hh => exact absurd (HelpSwitch.switchLike hh) hw
    | rejected hd => exact absurd (Denotes.switchLike hd) hw
  | flag hd hh hk _ ih =>
    intro its' e' h'
    cases h' with
    | word hw => exact absurd (Denotes.switchLike hd) hw
    | flag hd' _ _ h' =>
      obtain ⟨rfl, rfl⟩ := Denotes.unique hd hd'
      obtain ⟨rfl, rfl⟩ := ih h'; exact ⟨rfl, rfl⟩
    | value hd' _ hk' => obtain ⟨rfl, rfl⟩ := Denotes.unique hd hd'; exact absurd hk hk'
    | bare hd' _ hk' => obtain ⟨rfl, rfl⟩ := Denotes.unique hd hd'; exact absurd hk hk'
    | dangling hd' _ hk' => obtain ⟨rfl, rfl⟩ := Denotes.unique hd hd'; exact absurd hk hk'
    | unknown _ _ hno => exact absurd hd (hno _ _)
    | help hh' => exact absurd hh' hh
    | rejected hd' _ hk' => obtain ⟨rfl, rfl⟩ := Denotes.unique hd hd'; exact absurd hk hk'
  | value hd hh hk hg ha _ ih =>
    intro its' e' h'
    cases h' with
    | word hw => exact absurd (Denotes.switchLike hd) hw
    | flag hd' _ hk' => obtain ⟨rfl, rfl⟩ := Denotes.unique hd hd'; exact absurd hk' hk
    | value hd' _ _ _ ha' h' =>
      obtain ⟨rfl, rfl⟩ := Denotes.unique hd hd'
      obtain ⟨rfl, rfl⟩ := ih h'
      have : some _ = some _ := ha.1.symm.trans ha'.1
      simp only [Option.some.injEq] at this
      subst this; exact ⟨rfl, rfl⟩
    | bare hd' _ _ hg' hs' =>
      obtain ⟨rfl, rfl⟩ := Denotes.unique hd hd'
      rcases hg with hg | hg
      · exact absurd hg hg'
      · exact absurd hs' hg
    | unknown _ _ hno => exact absurd hd (hno _ _)
    | help hh' => exact absurd hh' hh
    | rejected hd' _ _ _ hno => obtain ⟨rfl, rfl⟩ := Denotes.unique hd hd'; exact absurd ha (hno _)
  | bare hd hh hk hg hs _ ih =>
    intro its' e' h'
    cases h' with
    | word hw => exact absurd (Denotes.switchLike hd) hw
    | flag hd' _ hk' => obtain ⟨rfl, rfl⟩ := Denotes.unique hd hd'; exact absurd hk' hk
    | value hd' _ _ hg' =>
      obtain ⟨rfl, rfl⟩ := Denotes.unique hd hd'
      rcases hg' with hg' | hg'
      · exact absurd hg' hg
      · exact absurd hs hg'
    | bare hd' _ _ _ _ h' =>
      obtain ⟨rfl, rfl⟩ := Denotes.unique hd hd'
      obtain ⟨rfl, rfl⟩ := ih h'; exact ⟨rfl, rfl⟩
    | unknown _ _ hno => exact absurd hd (hno _ _)
    | help hh' => exact absurd hh' hh
    | rejected hd' _ _ hg' =>
      obtain ⟨rfl, rfl⟩ := Denotes.unique hd hd'
      rcases hg' with hg' | hg'
      · exact absurd hg' hg
      · exact absurd hs hg'
  | dangling hd hh hk =>
    intro its' e' h'
    cases h' with
    | word hw => exact absurd (Denotes.switchLike hd) hw
    | flag hd' _ hk' => obtain ⟨rfl, rfl⟩ := Denotes.unique hd hd'; exact absurd hk' hk
    | dangling hd' => obtain ⟨rfl, rfl⟩ := Denotes.unique hd hd'; exact ⟨rfl, rfl⟩
    | unknown _ _ hno => exact absurd hd (hno _ _)
    | help hh' => exact absurd hh' hh
  | unknown hs hh hno =>
    intro its' e' h'
    cases h' with
    | word hw => exact absurd hs hw
    | flag hd => exact absurd hd (hno _ _)
    | value hd => exact absurd hd (hno _ _)
    | bare hd => exact absurd hd (hno _ _)
    | dangling hd => exact absurd hd (hno _ _)
    | unknown => exact ⟨rfl, rfl⟩
    | help hh' => exact absurd hh' hh
    | rejected hd => exact absurd hd (hno _ _)
  | help hh =>
    intro its' e' h'
    cases h' with
    | word hw => exact absurd (HelpSwitch.switchLike hh) hw
    | flag _ hh' => exact absurd hh hh'
    | value _ hh' => exact absurd hh hh'
    | bare _ hh' => exact absurd hh hh'
    | dangling _ hh' => exact absurd hh hh'
    | unknown _ hh' => exact absurd hh hh'
    | help => exact ⟨rfl, rfl⟩
    | rejected _ hh' => exact absurd hh hh'
  | rejected hd hh hk hg hno =>
    intro its' e' h'
    cases h' with
    | word hw => exact absurd (Denotes.switchLike hd) hw
    | flag hd' _ hk' => obtain ⟨rfl, rfl⟩ := Denotes.unique hd hd'; exact absurd hk' hk
    | value hd' _ _ _ ha => obtain ⟨rfl, rfl⟩ := Denotes.unique hd hd'; exact absurd ha (hno _)
    | bare hd' _ _ hg' hs' =>
      obtain ⟨rfl, rfl⟩ := Denotes.unique hd hd'
      rcases hg with hg | hg
      · exact absurd hg hg'
      · exact absurd hs' hg
    | unknown _ _ hno => exact absurd hd (hno _ _)
    | help hh' => exact absurd hh' hh
    | rejected hd' => obtain ⟨rfl, rfl⟩ := Denotes.unique hd hd'; exact ⟨rfl, rfl⟩

/-! ### What the items leave -/

theorem items_pos (its : List (LineItem V)) : ∀ o : Options V,
    (its.foldl applyItem o).pos = o.pos ++ words' its := by
  induction its with
  | nil => intro o; simp [words']
  | cons it its ih =>
    intro o
    rw [List.foldl_cons, ih]
    cases it with
    | word w => simp [applyItem, words']
    | flag => simp [applyItem, words', Options.setPresent]
    | bare => simp [applyItem, words', Options.setPresent]
    | value sw i d txt v =>
      simp only [applyItem, words']
      split <;> rfl

theorem items_vec (its : List (LineItem V)) (a : Nat) :
    ∀ o : Options V, (its.foldl applyItem o).vec a = o.vec a ++ vectorValues a its := by
  induction its with
  | nil => intro o; simp [vectorValues]
  | cons it its ih =>
    intro o
    rw [List.foldl_cons, ih]
    cases it with
    | word w => simp [applyItem, vectorValues]
    | flag => simp [applyItem, vectorValues, Options.setPresent]
    | bare => simp [applyItem, vectorValues, Options.setPresent]
    | value sw i d txt v =>
      simp only [applyItem, vectorValues]
      cases hk : d.kind with
      | vector =>
        simp only [update]
        by_cases ha : a = d.target
        · subst ha; simp
        · simp [ha, Ne.symm ha]
      | scalar => simp
      | presence => simp

theorem getLastD_append_cons {A : Type} (l : List A) (x d : A) (m : List A) :
    (l ++ x :: m).getLast?.getD d = (m.getLast?).getD x := by
  rw [List.getLast?_append]
  simp [List.getLast?_cons]

theorem items_sc {regs : List (Decl V)} {ts its e} (hr : Reads regs ts its e) (a : Nat) :
    ∀ o : Options V,
      (its.foldl applyItem o).sc a = (scalarValues a its).getLast?.getD (o.sc a) := by
  induction hr with
  | done => intro o; simp [scalarValues]
  | word _ _ ih => intro o; rw [List.foldl_cons, ih]; simp [applyItem, scalarValues]
  | @flag sw i d ts its e _ _ hk _ ih =>
    intro o
    rw [List.foldl_cons, ih]
    simp only [applyItem, scalarValues, Options.setPresent, hk, if_true, update]
    by_cases ha : a = d.target
    · subst ha; simp [List.getLast?_cons]
    · simp [ha, Ne.symm ha]
  | @value sw i d txt v ts its e _ _ hk _ _ _ ih =>
    intro o
    rw [List.foldl_cons, ih]
    simp only [applyItem, scalarValues]
    cases hd : d.kind with
    | vector => simp
    | scalar =>
      simp only [update]
      by_cases ha : a = d.target
      · subst ha; simp [List.getLast?_cons]
      · simp [ha, Ne.symm ha]
    | presence => exact absurd hd hk
  | @bare sw i d t ts its e _ _ hk _ _ _ ih =>
    intro o
    rw [List.foldl_cons, ih]
    simp [applyItem, scalarValues, Options.setPresent, hk]
  | dangling => intro o; simp [scalarValues]
  | unknown => intro o; simp [scalarValues]
  | help => intro o; simp [scalarValues]
  | rejected => intro o; simp [scalarValues]

theorem applyItem_pres (o : Options V) (it : LineItem V) (i : Nat) :
    (applyItem o it).pres i = true ↔ o.pres i = true ∨ Appears i [it] := by
  simp only [Appears, List.mem_singleton, exists_eq_left]
  cases it with
  | word w => simp [applyItem]
  | flag sw j d =>
    simp only [applyItem, Options.setPresent, update]
    by_cases h : i = j
    · subst h; simp
    · simp [h, Ne.symm h]
  | bare sw j d =>
    simp only [applyItem, Options.setPresent, update]
    by_cases h : i = j
    · subst h; simp
    · simp [h, Ne.symm h]
  | value sw j d txt v =>
    have : (applyItem o (.value sw j d txt v)).pres = update o.pres j true := by
      simp only [applyItem]; split <;> rfl
    rw [this]
    simp only [update]
    by_cases h : i = j
    · subst h; simp
    · simp [h, Ne.symm h]

theorem items_pres (i : Nat) (its : List (LineItem V)) : ∀ o : Options V,
    (its.foldl applyItem o).pres i = true ↔ o.pres i = true ∨ Appears i its := by
  induction its with
  | nil => intro o; simp [Appears]
  | cons it its ih =>
    intro o
    rw [List.foldl_cons, ih, applyItem_pres]
    simp only [Appears, List.mem_cons, exists_eq_or_imp, or_assoc, List.not_mem_nil, false_and,
      exists_false, false_or]

theorem items_keep (its : List (LineItem V)) : ∀ o : Options V,
    (its.foldl applyItem o).decls = o.decls ∧ (its.foldl applyItem o).longMap = o.longMap ∧
    (its.foldl applyItem o).abMap = o.abMap ∧ (its.foldl applyItem o).waiting = o.waiting ∧
    (its.foldl applyItem o).info = o.info ∧ (its.foldl applyItem o).isKvp = o.isKvp ∧
    (its.foldl applyItem o).cerr = o.cerr := by
  induction its with
  | nil => intro o; simp
  | cons it its ih => intro o; rw [List.foldl_cons]; simpa using ih (applyItem o it)

/-! ### Histories of calls -/

theorem finish_keep (o : Options V) (e : Ending V) :
    (finish o e).1.decls = o.decls ∧ (finish o e).1.longMap = o.longMap ∧
    (finish o e).1.abMap = o.abMap ∧ (finish o e).1.info = o.info ∧
    (finish o e).1.isKvp = o.isKvp := by
  cases e <;> simp [finish]

theorem parseLoop_waiting (ts : List Str) : ∀ o : Options V, o.waiting = true →
    o.parseLoop none ts = ({ o with pos := o.pos ++ ts }, true) := by
  induction ts with
  | nil => intro o _; simp [Options.parseLoop]
  | cons t ts ih =>
    intro o hw
    rw [Options.parseLoop]
    simp only [hw, isSwitch_waiting, if_true]
    rw [ih _ rfl]
    simp

theorem parse_waiting {o : Options V} (hw : o.waiting = true) (ts : List Str) :
    o.parse ts = ({ o with pos := o.pos ++ ts }, true) := parseLoop_waiting ts o hw

theorem parse_keep {o : Options V} (h : o.Wf) (ts : List Str) :
    (o.parse ts).1.decls = o.decls ∧ (o.parse ts).1.longMap = o.longMap ∧
    (o.parse ts).1.abMap = o.abMap ∧ (o.parse ts).1.info = o.info ∧
    (o.parse ts).1.isKvp = o.isKvp := by
  cases hw : o.waiting with
  | true => rw [parse_waiting hw]; simp
  | false =>
    obtain ⟨its, e, hr⟩ := reads_total o.decls _ ts (Nat.le_refl _)
    rw [parse_reads h hw hr]
    obtain ⟨f1, f2, f3, f4, f5⟩ := finish_keep (its.foldl applyItem o) e
    obtain ⟨g1, g2, g3, _, g5, g6, _⟩ := items_keep its o
    rw [f1, f2, f3, f4, f5]
    exact ⟨g1, g2, g3, g5, g6⟩

theorem Options.Wf.parse {o : Options V} (h : o.Wf) (ts : List Str) : (o.parse ts).1.Wf :=
  have k := parse_keep h ts
  h.congr k.1 k.2.1 k.2.2.1

theorem wf_new (k : Bool) (sc : Nat → V) (vec : Nat → List V) : (Options.new k sc vec).Wf := by
  constructor
  · intro n i; simp [Options.new, Options.findLong, mapFind, IsLast]
  · intro n i; simp [Options.new, Options.findAb, mapFind, IsLast]
  · simp [Options.new]
  · simp [Options.new]
  · simp [Options.new]

/-- The state of an `Options` object after some sequence of public calls; `memory`: the program
may change its variables between the calls. -/
inductive Reachable : Options V → Prop
  | new (k sc vec) : Reachable (.new k sc vec)
  | memory {o} (sc vec) : Reachable o → Reachable { o with sc := sc, vec := vec }
  | addInfo {o} (s) : Reachable o → Reachable (o.addInfo s)
  | add {o} (T val long ab doc test err) : Reachable o →
      Reachable (o.add T val long ab doc test err)
  | addDef {o} (T val long ab dv doc test err) : Reachable o →
      Reachable (o.addDef T val long ab dv doc test err)
  | addP {o} (ff tt val long ab doc) : Reachable o → Reachable (o.addP ff tt val long ab doc)
  | addV {o} (T val long ab doc test err) : Reachable o →
      Reachable (o.addV T val long ab doc test err)
  | parse {o} (ts) : Reachable o → Reachable (o.parse ts).1

theorem Reachable.wf {o : Options V} (h : Reachable o) : o.Wf := by
  induction h with
  | new k sc vec => exact wf_new k sc vec
  | memory sc vec _ ih => exact ih.congr rfl rfl rfl
  | addInfo s _ ih => exact ih.congr rfl rfl rfl
  | add T val long ab doc test err _ ih =>
    refine Options.Wf.registerOpt ?_ _ ?_ ?_
    · exact ih.congr rfl rfl rfl
    · simp
    · simp
  | addDef T val long ab dv doc test err _ ih =>
    refine Options.Wf.registerOpt ?_ _ ?_ ?_
    · exact ih.congr rfl rfl rfl
    · simp
    · simp
  | addP ff tt val long ab doc _ ih =>
    refine Options.Wf.registerOpt ?_ _ ?_ ?_
    · exact ih.congr rfl rfl rfl
    · simp
    · simp
  | addV T val long ab doc test err _ ih =>
    refine Options.Wf.registerOpt ih _ ?_ ?_ <;> simp
  | parse ts _ ih => exact ih.parse ts

/-- As `Reachable`, but no earlier line ended within an option of a signed type (a switch without
its value at the end of the line, or a rejected value). -/
inductive Ready : Options V → Prop
  | new (k sc vec) : Ready (.new k sc vec)
  | memory {o} (sc vec) : Ready o → Ready { o with sc := sc, vec := vec }
  | addInfo {o} (s) : Ready o → Ready (o.addInfo s)
  | add {o} (T val long ab doc test err) : Ready o → Ready (o.add T val long ab doc test err)
  | addDef {o} (T val long ab dv doc test err) : Ready o →
      Ready (o.addDef T val long ab dv doc test err)
  | addP {o} (ff tt val long ab doc) : Ready o → Ready (o.addP ff tt val long ab doc)
  | addV {o} (T val long ab doc test err) : Ready o → Ready (o.addV T val long ab doc test err)
  | parse {o ts its e} : Ready o → Reads o.decls ts its e →
      (∀ sw i d, e = .dangling sw i d → d.isSigned = false) →
      (∀ sw i d txt, e = .rejected sw i d txt → d.isSigned = false) → Ready (o.parse ts).1

theorem Ready.reachable {o : Options V} (h : Ready o) : Reachable o := by
  induction h with
  | new k sc vec => exact .new k sc vec
  | memory sc vec _ ih => exact .memory sc vec ih
  | addInfo s _ ih => exact .addInfo s ih
  | add T val long ab doc test err _ ih => exact .add _ _ _ _ _ _ _ ih
  | addDef T val long ab dv doc test err _ ih => exact .addDef _ _ _ _ _ _ _ _ ih
  | addP ff tt val long ab doc _ ih => exact .addP _ _ _ _ _ _ ih
  | addV T val long ab doc test err _ ih => exact .addV _ _ _ _ _ _ _ ih
  | parse _ _ _ _ ih => exact .parse _ ih

theorem Ready.wf {o : Options V} (h : Ready o) : o.Wf := h.reachable.wf

theorem Ready.waiting {o : Options V} (h : Ready o) : o.waiting = false := by
  induction h with
  | new k sc vec => rfl
  | memory sc vec _ ih => exact ih
  | addInfo s _ ih => exact ih
  | add T val long ab doc test err _ ih => exact ih
  | addDef T val long ab dv doc test err _ ih => exact ih
  | addP ff tt val long ab doc _ ih => exact ih
  | addV T val long ab doc test err _ ih => exact ih
  | @parse o ts its e ho hr h1 h2 ih =>
    rw [parse_reads ho.wf ih hr]
    have hk := (items_keep its o).2.2.2.1
    cases e with
    | done => simpa [finish, hk] using ih
    | dangling sw i d => simpa [finish] using h1 sw i d rfl
    | unknown sw => simpa [finish, hk] using ih
    | help sw => simpa [finish, hk] using ih
    | rejected sw i d txt => simpa [finish] using h2 sw i d txt rfl

/-- Whatever the line, the flag is clear or everything is positional. -/
theorem denotes_of_item {regs : List (Decl V)} {ts its e} (hr : Reads regs ts its e) :
    (∀ it ∈ its, ∀ sw i d, (it = .flag sw i d ∨ (∃ txt v, it = .value sw i d txt v) ∨
      it = .bare sw i d) → sw ∈ ts ∧ Denotes regs sw i d) ∧
    (∀ sw i d, e = .dangling sw i d → sw ∈ ts ∧ Denotes regs sw i d) ∧
    (∀ sw i d txt, e = .rejected sw i d txt → sw ∈ ts ∧ Denotes regs sw i d) := by
  induction hr with
  | done => simp
  | @word w ts its e _ _ ih =>
    obtain ⟨i1, i2, i3⟩ := ih
    refine ⟨?_, fun sw i d h => ?_, fun sw i d txt h => ?_⟩
    · intro it hit sw i d h
      rcases List.mem_cons.mp hit with rfl | hit
      · simp at h
      · have := i1 it hit sw i d h; exact ⟨by simp [this.1], this.2⟩
    · have := i2 sw i d h; exact ⟨by simp [this.1], this.2⟩
    · have := i3 sw i d txt h; exact ⟨by simp [this.1], this.2⟩
  | @flag sw0 i0 d0 ts its e hd _ _ _ ih =>
    obtain ⟨i1, i2, i3⟩ := ih
    refine ⟨?_, fun sw i d h => ?_, fun sw i d txt h => ?_⟩
    · intro it hit sw i d h
      rcases List.mem_cons.mp hit with rfl | hit
      · simp at h; obtain ⟨rfl, rfl, rfl⟩ := h; exact ⟨by simp, hd⟩
      · have := i1 it hit sw i d h; exact ⟨by simp [this.1], this.2⟩
    · have := i2 sw i d h; exact ⟨by simp [this.1], this.2⟩
    · have := i3 sw i d txt h; exact ⟨by simp [this.1], this.2⟩
  | @value sw0 i0 d0 txt0 v0 ts its e hd _ _ _ _ _ ih =>
    obtain ⟨i1, i2, i3⟩ := ih
    refine ⟨?_, fun sw i d h => ?_, fun sw i d txt h => ?_⟩
    · intro it hit sw i d h
      rcases List.mem_cons.mp hit with rfl | hit
      · simp at h; obtain ⟨rfl, rfl, rfl⟩ := h; exact ⟨by simp, hd⟩
      · have := i1 it hit sw i d h; exact ⟨by simp [this.1], this.2⟩
    · have := i2 sw i d h; exact ⟨by simp [this.1], this.2⟩
    · have := i3 sw i d txt h; exact ⟨by simp [this.1], this.2⟩
  | @bare sw0 i0 d0 t ts its e hd _ _ _ _ _ ih =>
    obtain ⟨i1, i2, i3⟩ := ih
    refine ⟨?_, fun sw i d h => ?_, fun sw i d txt h => ?_⟩
    · intro it hit sw i d h
      rcases List.mem_cons.mp hit with rfl | hit
      · simp at h; obtain ⟨rfl, rfl, rfl⟩ := h; exact ⟨by simp, hd⟩
      · have := i1 it hit sw i d h
        exact ⟨List.mem_cons_of_mem _ this.1, this.2⟩
    · have := i2 sw i d h; exact ⟨List.mem_cons_of_mem _ this.1, this.2⟩
    · have := i3 sw i d txt h; exact ⟨List.mem_cons_of_mem _ this.1, this.2⟩
  | @dangling sw0 i0 d0 hd _ _ =>
    refine ⟨by simp, ?_, by simp⟩
    intro sw i d h; simp at h; obtain ⟨rfl, rfl, rfl⟩ := h; exact ⟨by simp, hd⟩
  | unknown => simp
  | help => simp
  | @rejected sw0 i0 d0 txt0 ts hd _ _ _ _ =>
    refine ⟨by simp, by simp, ?_⟩
    intro sw i d txt h; simp at h; obtain ⟨rfl, rfl, rfl, rfl⟩ := h; exact ⟨by simp, hd⟩

end SoDa.Opts
