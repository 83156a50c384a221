import Verif.Proof.Locale
import Verif.Proof.OptionsNum
import Verif.Proof.FormatNum
/-!
What is written in a locale is read in the same locale.
-/
namespace SoDa
open Spec Opts

namespace Locale
variable {L : Locale}

/-- The sizes of the groups of a number with `n` digits, from the last to the first. -/
def sizes : List Nat → Nat → List Nat
  | [], n => [n]
  | g :: gs, n => if _h : limited g = true ∧ g < n then g :: sizes (if gs.isEmpty then [g] else gs) (n - g) else [n]
termination_by _ n => n
decreasing_by
  have := limited_iff.mp _h.1
  omega

theorem sizes_ne (gs : List Nat) (n : Nat) : sizes gs n ≠ [] := by
  cases gs with
  | nil => simp [sizes]
  | cons g gs => rw [sizes]; split <;> simp

theorem verify_sizes (gs : List Nat) (n : Nat) : verify gs (sizes gs n) = true := by
  induction gs, n using sizes.induct with
  | case1 n => simp [sizes, verify]
  | case2 g gs n h ih =>
    simp only [dite_eq_ite] at ih
    rw [sizes, dif_pos h]
    cases hs : sizes (if gs.isEmpty then [g] else gs) (n - g) with
    | nil => exact absurd hs (sizes_ne _ _)
    | cons k ks =>
      rw [hs] at ih
      simp only [verify, beq_self_eq_true, Bool.true_and]
      exact ih
  | case3 g gs n h =>
    rw [sizes, dif_neg h]
    simp only [verify]
    by_cases hl : limited g = true
    · simp only [hl, Bool.not_true, Bool.false_or, decide_eq_true_eq]
      exact Nat.le_of_not_lt fun hh => h ⟨hl, hh⟩
    · simp [hl]

theorem digit_ne (h : Distinct L) {c : Char} (hc : c.isDigit = true) : c ≠ L.thousands ∧ c ≠ L.point := by
  constructor
  · rintro rfl; rw [h.thousands] at hc; cases hc
  · rintro rfl; rw [h.point] at hc; cases hc

/-! ### Integers -/

theorem digits_run (h : Distinct L) (b t : Str) (hb : ∀ c ∈ b, c.isDigit = true) : ∀ D F p,
    L.digits ⟨D, F, p, false⟩ (b ++ t) = L.digits ⟨D ++ b, F, p + b.length, false⟩ t := by
  induction b with
  | nil => intro D F p; simp
  | cons c b ih =>
    intro D F p
    have hc := hb c (by simp)
    rw [List.cons_append, digits, if_neg fun hh => (digit_ne h hc).1 hh.2, if_neg (digit_ne h hc).2, if_pos hc,
      ih fun x hx => hb x (by simp [hx])]
    simp only [List.append_assoc, List.singleton_append, List.length_cons]
    congr 2
    omega

theorem digits_grouped (h : Distinct L) (hu : L.useGrouping = true) (gs : List Nat) (rs : Str) : rs ≠ [] → (∀ c ∈ rs, c.isDigit = true) →
    ∃ F p, p ≠ 0 ∧ F ++ [p] = (sizes gs rs.length).reverse ∧
      ∀ t, L.digits ⟨[], [], 0, false⟩ ((groupRev L.thousands gs rs).reverse ++ t) = L.digits ⟨rs.reverse, F, p, false⟩ t := by
  have plain : ∀ rs : Str, rs ≠ [] → (∀ c ∈ rs, c.isDigit = true) → ∃ F p, p ≠ 0 ∧ F ++ [p] = [rs.length].reverse ∧
      ∀ t, L.digits ⟨[], [], 0, false⟩ (rs.reverse ++ t) = L.digits ⟨rs.reverse, F, p, false⟩ t := by
    intro rs hne hd
    refine ⟨[], rs.length, fun e => hne (List.length_eq_zero_iff.mp e), rfl, fun t => ?_⟩
    rw [digits_run h _ _ fun c hc => hd c (List.mem_reverse.mp hc)]
    simp
  induction gs, rs using groupRev.induct with
  | case1 rs =>
    intro hne hd
    rw [groupRev, sizes]
    exact plain rs hne hd
  | case2 g gs rs hh ih =>
    simp only [dite_eq_ite] at ih
    intro hne hd
    have hg := limited_iff.mp hh.1
    obtain ⟨F, p, hp, hF, ht⟩ := ih (by intro e; have := congrArg List.length e; simp at this; omega)
      fun c hc => hd c (List.mem_of_mem_drop hc)
    have hlen : (rs.take g).reverse.length = g := by simp; omega
    refine ⟨F ++ [p], g, by omega, ?_, fun t => ?_⟩
    · rw [sizes, dif_pos hh, List.reverse_cons, hF, List.length_drop]
    · rw [groupRev, dif_pos hh, List.reverse_append, List.reverse_cons, List.append_assoc, List.append_assoc, ht]
      rw [List.singleton_append, digits, if_pos ⟨hu, rfl⟩, if_neg hp]
      simp only
      rw [digits_run h _ _ fun c hc => hd c (List.mem_of_mem_take (List.mem_reverse.mp hc)), hlen, ← List.reverse_append,
        List.take_append_drop, Nat.zero_add]
  | case3 g gs rs hh =>
    intro hne hd
    rw [groupRev, dif_neg hh, sizes, dif_neg hh]
    exact plain rs hne hd

/-- Nothing that follows belongs to the number. -/
def Stops (L : Locale) (t : Str) : Prop := ∀ c, t.head? = some c → c ≠ L.thousands ∧ c.isDigit = false

theorem digits_stop {t : Str} (h : Stops L t) (x : Digits) : L.digits x t = x := by
  cases t with
  | nil => rfl
  | cons c t =>
    have := h c rfl
    rw [digits, if_neg fun hh => this.1 hh.2]
    by_cases hp : c = L.point
    · rw [if_pos hp]
    · rw [if_neg hp, if_neg (by simp [this.2])]

theorem head_group (L : Locale) (d : Char) (ds : Str) : ∃ r, L.group (d :: ds) = d :: r := by
  rw [L.group_spelled, spelled]
  split
  · exact ⟨_, rfl⟩
  · exact ⟨_, rfl⟩

/-- Without use of separators there are none. -/
theorem group_unused (hu : L.useGrouping = false) (ds : Str) : L.group ds = ds := by
  unfold group
  unfold useGrouping at hu
  cases hg : L.grouping with
  | nil => rw [groupRev, List.reverse_reverse]
  | cons g gs =>
    rw [hg] at hu
    simp only [List.head?_cons, Option.any_some] at hu
    rw [groupRev, dif_neg (by simp [hu]), List.reverse_reverse]

theorem digits_group (h : Distinct L) (ds t : Str) (hne : ds ≠ []) (hd : ∀ c ∈ ds, c.isDigit = true) (ht : Stops L t) :
    ∃ F p, L.digits ⟨[], [], 0, false⟩ (L.group ds ++ t) = ⟨ds, F, p, false⟩ ∧
      (F.isEmpty || verify L.grouping (F ++ [p]).reverse) = true := by
  cases hu : L.useGrouping with
  | false =>
    refine ⟨[], ds.length, ?_, rfl⟩
    rw [group_unused hu, digits_run h _ _ hd, digits_stop ht]
    simp
  | true =>
    obtain ⟨F, p, hp, hF, hh⟩ := digits_grouped h hu L.grouping ds.reverse (by simpa using hne) fun c hc => hd c (List.mem_reverse.mp hc)
    refine ⟨F, p, ?_, ?_⟩
    · unfold group
      rw [hh t, digits_stop ht, List.reverse_reverse]
    · rw [hF, List.reverse_reverse, verify_sizes, Bool.or_true]

/-- A grouped number, with or without sign, is read. -/
theorem scanInt_group (h : Distinct L) (neg : Bool) (ds t : Str) (hne : ds ≠ []) (hd : ∀ c ∈ ds, c.isDigit = true) (ht : Stops L t) :
    L.scanInt ((if neg then ['-'] else []) ++ L.group ds ++ t) = .num neg (digitsVal ds) true := by
  obtain ⟨F, p, h1, h2⟩ := digits_group h ds t hne hd ht
  obtain ⟨d, ds', rfl⟩ := List.exists_cons_of_ne_nil hne
  have hdd := hd d (by simp)
  obtain ⟨r, hr⟩ := head_group L d ds'
  unfold scanInt
  cases neg with
  | false =>
    simp only [Bool.false_eq_true, if_false, List.nil_append]
    rw [hr] at h1 ⊢
    have hs : (d :: r ++ t).dropWhile isSpace = d :: (r ++ t) := by
      rw [List.cons_append, List.dropWhile_cons, digit_not_space hdd]; rfl
    simp only [hs]
    have hsign : ¬ ((d = '-' ∨ d = '+') ∧ ¬(L.useGrouping = true ∧ d = L.thousands) ∧ d ≠ L.point) := by
      rintro ⟨h1 | h1, -⟩ <;> (subst h1; revert hdd; decide)
    rw [if_neg hsign, ← List.cons_append, h1]
    simp only [Bool.false_eq_true, false_or, List.cons_ne_nil, if_false, h2]
    congr 1
    simp only [decide_eq_false_iff_not]
    exact fun hh => hsign hh.1
  | true =>
    have hs : (['-'] ++ L.group (d :: ds') ++ t).dropWhile isSpace = '-' :: (L.group (d :: ds') ++ t) := by
      simp only [List.cons_append, List.nil_append, List.dropWhile_cons]
      rfl
    have hm1 : '-' ≠ L.thousands := fun e => h.thousands' (by simp [← e])
    have hm2 : '-' ≠ L.point := fun e => h.point' (by simp [← e])
    simp only [if_true, hs, hm1, hm2, and_false, not_false_eq_true, ne_eq, true_or, and_self, h1, Bool.false_eq_true, false_or,
      List.cons_ne_nil, if_false, h2, decide_true]

/-- Blocks with separators between them. -/
def joinRev (sep : Char) : List Str → Str
  | [] => []
  | [b] => b
  | b :: c :: bs => b ++ sep :: joinRev sep (c :: bs)

theorem joinRev_cons (sep c : Char) (b : Str) (bs : List Str) : joinRev sep ((c :: b) :: bs) = c :: joinRev sep (b :: bs) := by
  cases bs <;> rfl

/-- Blocks that pass the test are what is written. -/
theorem joinRev_verify (sep : Char) : ∀ (gs ks : List Nat) (bs : List Str), ks = bs.map List.length → gs ≠ [] →
    (∀ g ∈ gs, limited g = true) → (∀ b ∈ bs.tail, b ≠ []) → verify gs ks = true → joinRev sep bs = groupRev sep gs bs.flatten := by
  intro gs ks
  induction gs, ks using verify.induct with
  | case1 gs =>
    intro bs hb _ _ _ _
    have : bs = [] := by simpa using hb.symm
    subst this
    cases gs <;> simp [joinRev, groupRev]
  | case2 ks => intro bs _ h; exact absurd rfl h
  | case3 g gs k =>
    intro bs hb _ hl _ hv
    obtain ⟨b, rfl⟩ : ∃ b, bs = [b] := by
      rcases bs with _ | ⟨b, _ | ⟨c, bs⟩⟩
      · simp at hb
      · exact ⟨b, rfl⟩
      · simp at hb
    simp only [List.map_cons, List.map_nil, List.cons.injEq, and_true] at hb
    have hg := hl g (by simp)
    simp only [verify, hg, Bool.not_true, Bool.false_or, decide_eq_true_eq] at hv
    simp only [joinRev, List.flatten_cons, List.flatten_nil, List.append_nil]
    rw [groupRev, dif_neg (by omega)]
  | case4 g gs k ks hne ih =>
    intro bs hb _ hl hn hv
    rcases bs with _ | ⟨b, _ | ⟨c, bs⟩⟩
    · simp at hb
    · simp only [List.map_cons, List.map_nil, List.cons.injEq] at hb
      exact absurd hb.2 hne
    · simp only [List.map_cons, List.cons.injEq] at hb
      have hg := hl g (by simp)
      rw [verify] at hv
      · simp only [Bool.and_eq_true, beq_iff_eq] at hv
        have hc := hn c (by simp)
        have hcl : 0 < c.length := List.length_pos_iff.mpr hc
        have hbg : b.length = g := by rw [← hb.1, hv.1]
        have hlt : limited g = true ∧ g < ((b :: c :: bs).flatten).length := ⟨hg, by simp; omega⟩
        rw [joinRev, groupRev, dif_pos hlt, ih (c :: bs) (by simpa using hb.2) (by split <;> simp_all) (by
          intro x hx
          split at hx
          · simp at hx; rw [hx]; exact hg
          · exact hl x (by simp [hx])) (fun x hx => hn x (by simp at hx ⊢; right; exact hx)) hv.2]
        have h1 : (b :: c :: bs).flatten.take g = b := by
          rw [List.flatten_cons, ← hbg, List.take_left']; rfl
        have h2 : (b :: c :: bs).flatten.drop g = (c :: bs).flatten := by
          rw [List.flatten_cons, ← hbg, List.drop_left']; rfl
        rw [h1, h2]
      · exact hne

/-- What has been read: blocks of digits. -/
def Reading (L : Locale) (pre : Str) (x : Digits) : Prop := ∃ cur acc, pre.reverse = joinRev L.thousands (cur :: acc) ∧
  x.found = (acc.map List.length).reverse ∧ x.sepPos = cur.length ∧ x.ds.reverse = (cur :: acc).flatten ∧ ∀ b ∈ acc, b ≠ []

theorem digits_reading (h : Distinct L) (hu : L.useGrouping = true) (t : Str) :
    (∀ c ∈ t, c.isDigit = true ∨ c = L.thousands) → ∀ pre x, Reading L pre x → (L.digits x t).bad = false → x.bad = false →
    Reading L (pre ++ t) (L.digits x t) ∧ (L.digits x t).ds = x.ds ++ t.filter Char.isDigit := by
  induction t with
  | nil => intro _ pre x hx _ _; exact ⟨by rw [List.append_nil]; exact hx, by simp [digits]⟩
  | cons c t ih =>
    intro ht pre x hx hb hxb
    have ht' := fun y hy => ht y (List.mem_cons_of_mem _ hy)
    obtain ⟨cur, acc, h1, h2, h3, h4, h5⟩ := hx
    rw [digits] at hb ⊢
    by_cases hc : c = L.thousands
    · rw [if_pos ⟨hu, hc⟩] at hb ⊢
      by_cases h0 : x.sepPos = 0
      · rw [if_pos h0] at hb; cases hb
      · rw [if_neg h0] at hb ⊢
        have := ih ht' (pre ++ [c]) _ ⟨[], cur :: acc, ?_, ?_, rfl, ?_, ?_⟩ hb hxb
        · rw [List.append_assoc, List.singleton_append] at this
          refine ⟨this.1, ?_⟩
          rw [this.2, List.filter_cons_of_neg (by rw [hc, h.thousands]; simp)]
        · rw [List.reverse_append, h1, hc]; rfl
        · simp only; rw [h2, h3]; simp
        · simp only; rw [h4]; rfl
        · intro b hb'
          rcases List.mem_cons.mp hb' with rfl | hb'
          · intro e; rw [e] at h3; exact h0 h3
          · exact h5 b hb'
    · have hd : c.isDigit = true := (ht c (by simp)).resolve_right hc
      rw [if_neg fun hh => hc hh.2, if_neg (digit_ne h hd).2, if_pos hd] at hb ⊢
      have := ih ht' (pre ++ [c]) ⟨x.ds ++ [c], x.found, x.sepPos + 1, x.bad⟩ ⟨c :: cur, acc, ?_, h2, ?_, ?_, h5⟩ hb hxb
      · rw [List.append_assoc, List.singleton_append] at this
        refine ⟨this.1, ?_⟩
        rw [this.2, List.filter_cons_of_pos hd, List.append_assoc, List.singleton_append]
      · rw [List.reverse_append, h1, joinRev_cons]; rfl
      · simp only; rw [h3]; rfl
      · simp only; rw [List.reverse_append, h4]; rfl

/-- Digits and separators: what is accepted is what is written, with separators or without. -/
theorem digits_accepted (h : Distinct L) (hu : L.useGrouping = true) (hl : ∀ g ∈ L.grouping, limited g = true) (t : Str)
    (ht : ∀ c ∈ t, c.isDigit = true ∨ c = L.thousands) (hb : (L.digits ⟨[], [], 0, false⟩ t).bad = false) :
    let x := L.digits ⟨[], [], 0, false⟩ t
    x.ds = t.filter Char.isDigit ∧
    ((x.found.isEmpty || verify L.grouping (x.found ++ [x.sepPos]).reverse) = true →
      t = t.filter Char.isDigit ∨ t = L.group (t.filter Char.isDigit)) := by
  intro x
  obtain ⟨⟨cur, acc, h1, h2, h3, h4, h5⟩, hds⟩ := digits_reading h hu t ht [] ⟨[], [], 0, false⟩
    ⟨[], [], rfl, rfl, rfl, rfl, by simp⟩ hb rfl
  simp only [List.nil_append] at h1 hds
  refine ⟨hds, fun hv => ?_⟩
  have hdt : x.ds = t.filter Char.isDigit := hds
  simp only [Bool.or_eq_true, List.isEmpty_iff] at hv
  rcases hv with hv | hv
  · left
    have : acc = [] := by
      have e : (acc.map List.length).reverse = [] := by rw [← h2]; exact hv
      simpa using e
    subst this
    have e : t.reverse = x.ds.reverse := by rw [h1, h4]; simp [joinRev]
    rw [← hdt]
    exact List.reverse_injective e
  · right
    have hne : L.grouping ≠ [] := by
      intro e; unfold useGrouping at hu; rw [e] at hu; simp at hu
    have hv' : verify L.grouping ((cur :: acc).map List.length) = true := by
      rw [List.reverse_append] at hv
      have e2 : x.found.reverse = acc.map List.length := by
        rw [show x.found = (acc.map List.length).reverse from h2, List.reverse_reverse]
      rw [e2, show x.sepPos = cur.length from h3] at hv
      exact hv
    have e := joinRev_verify L.thousands L.grouping _ (cur :: acc) rfl hne hl (by simpa using h5) hv'
    have e3 : t.reverse = groupRev L.thousands L.grouping (t.filter Char.isDigit).reverse := by
      rw [h1, e, ← hdt, show x.ds.reverse = (cur :: acc).flatten from h4]
    unfold group
    rw [← e3, List.reverse_reverse]

/-! ### Floating point numbers -/

theorem floatChars_run (h : Distinct L) (b t : Str) (hb : ∀ c ∈ b, c.isDigit = true) : ∀ mant F p,
    L.floatChars mant false F p (b ++ t) =
      (L.floatChars (mant || !b.isEmpty) false F (p + b.length) t).map fun r => (b ++ r.1, r.2) := by
  induction b with
  | nil => intro mant F p; simp
  | cons c b ih =>
    intro mant F p
    have hc := hb c (by simp)
    rw [List.cons_append, floatChars, if_neg fun hh => (digit_ne h hc).1 hh.2, if_neg (digit_ne h hc).2, if_pos hc,
      ih fun x hx => hb x (by simp [hx])]
    simp only [Bool.true_or, List.isEmpty_cons, Bool.not_false, Bool.or_true, Option.map_map, List.length_cons]
    rw [show p + 1 + b.length = p + (b.length + 1) by omega]
    rfl

theorem floatChars_grouped (h : Distinct L) (hu : L.useGrouping = true) (gs : List Nat) (rs : Str) : rs ≠ [] →
    (∀ c ∈ rs, c.isDigit = true) →
    ∃ F p, p ≠ 0 ∧ F ++ [p] = (sizes gs rs.length).reverse ∧
      ∀ t, L.floatChars false false [] 0 ((groupRev L.thousands gs rs).reverse ++ t) =
        (L.floatChars true false F p t).map fun r => (rs.reverse ++ r.1, r.2) := by
  have plain : ∀ rs : Str, rs ≠ [] → (∀ c ∈ rs, c.isDigit = true) → ∃ F p, p ≠ 0 ∧ F ++ [p] = [rs.length].reverse ∧
      ∀ t, L.floatChars false false [] 0 (rs.reverse ++ t) =
        (L.floatChars true false F p t).map fun r => (rs.reverse ++ r.1, r.2) := by
    intro rs hne hd
    refine ⟨[], rs.length, fun e => hne (List.length_eq_zero_iff.mp e), rfl, fun t => ?_⟩
    rw [floatChars_run h _ _ fun c hc => hd c (List.mem_reverse.mp hc)]
    have he : rs.reverse.isEmpty = false := by simpa using hne
    simp [he]
  induction gs, rs using groupRev.induct with
  | case1 rs =>
    intro hne hd
    rw [groupRev, sizes]
    exact plain rs hne hd
  | case2 g gs rs hh ih =>
    simp only [dite_eq_ite] at ih
    intro hne hd
    have hg := limited_iff.mp hh.1
    obtain ⟨F, p, hp, hF, ht⟩ := ih (by intro e; have := congrArg List.length e; simp at this; omega)
      fun c hc => hd c (List.mem_of_mem_drop hc)
    have hlen : (rs.take g).reverse.length = g := by simp; omega
    refine ⟨F ++ [p], g, by omega, ?_, fun t => ?_⟩
    · rw [sizes, dif_pos hh, List.reverse_cons, hF, List.length_drop]
    · rw [groupRev, dif_pos hh, List.reverse_append, List.reverse_cons, List.append_assoc, List.append_assoc, ht]
      rw [List.singleton_append, floatChars, if_pos ⟨hu, rfl⟩, if_neg Bool.false_ne_true, if_neg hp,
        floatChars_run h _ _ fun c hc => hd c (List.mem_of_mem_take (List.mem_reverse.mp hc)), hlen, Option.map_map, Nat.zero_add,
        Bool.true_or]
      have : rs.reverse = (rs.drop g).reverse ++ (rs.take g).reverse := by rw [← List.reverse_append, List.take_append_drop]
      rw [this]
      simp only [List.append_assoc, Function.comp_def]
  | case3 g gs rs hh =>
    intro hne hd
    rw [groupRev, dif_neg hh, sizes, dif_neg hh]
    exact plain rs hne hd

theorem plain_e (h : Distinct L) {c : Char} (hc : c = 'e' ∨ c = 'E') : c ≠ L.thousands ∧ c ≠ L.point := by
  constructor
  · rintro rfl; exact h.thousands' (by rcases hc with e | e <;> simp [e])
  · rintro rfl; exact h.point' (by rcases hc with e | e <;> simp [e])

/-- After the point all locales read the same characters. -/
theorem floatChars_point (h : Distinct L) (t : Str) : ∀ mant F p,
    L.floatChars mant true F p t = some (Opts.floatChars mant true t, F) := by
  induction t with
  | nil => intro mant F p; simp [floatChars, Opts.floatChars]
  | cons c t ih =>
    intro mant F p
    rw [floatChars, Opts.floatChars]
    by_cases hd : c.isDigit = true
    · rw [if_neg fun hh => (digit_ne h hd).1 hh.2, if_neg (digit_ne h hd).2, if_pos hd, if_pos hd, ih]
      rfl
    rw [if_neg hd, if_neg (c := c = '.' ∧ _) (by simp)]
    by_cases he : c = 'e' ∨ c = 'E'
    · rw [if_neg fun hh => (plain_e h he).1 hh.2, if_neg (plain_e h he).2, if_neg hd]
      by_cases hm : mant = true
      · simp only [he, hm, and_self, if_true, Bool.or_true]
      · simp only [hm, Bool.false_eq_true, and_false, if_false, Bool.or_true, if_true]
    · rw [if_neg (c := (c = 'e' ∨ c = 'E') ∧ _) (fun hh => he hh.1), if_neg (c := (c = 'e' ∨ c = 'E') ∧ _) (fun hh => he hh.1)]
      simp [hd]

/-- Nothing that follows is a part of a number before its exponent. -/
def StopsF (L : Locale) (t : Str) : Prop := ∀ c, t.head? = some c → c ≠ L.thousands ∧ c ≠ L.point ∧ c.isDigit = false ∧ c ≠ '.'

theorem floatChars_stop {t : Str} (h : StopsF L t) (F : List Nat) (p : Nat) :
    L.floatChars true false F p t = some (Opts.floatChars true false t, if F.isEmpty then F else F ++ [p]) := by
  cases t with
  | nil => simp [floatChars, Opts.floatChars]
  | cons c t =>
    obtain ⟨h1, h2, h3, h4⟩ := h c rfl
    rw [floatChars, Opts.floatChars]
    by_cases he : c = 'e' ∨ c = 'E'
    · simp only [h1, h2, h3, h4, he, and_false, false_and, if_false, Bool.false_eq_true, and_self, if_true, Bool.or_false]
    · simp only [h1, h2, h3, h4, he, and_false, false_and, if_false, Bool.false_eq_true, Bool.or_false]

/-- A point and what follows, or something that cannot belong to the mantissa: as the locale writes it, and as "C" does. -/
inductive Tail (L : Locale) : Str → Str → Prop where
  | point (t : Str) : Tail L (L.point :: t) ('.' :: t)
  | none (t : Str) : StopsF L t → Tail L t t

theorem digits_then (mant : Bool) (b t : Str) (hb : ∀ c ∈ b, c.isDigit = true) :
    Opts.floatChars mant false (b ++ t) = b ++ Opts.floatChars (mant || !b.isEmpty) false t := by
  induction b generalizing mant with
  | nil => simp
  | cons c b ih =>
    rw [List.cons_append, Opts.floatChars, if_pos (hb c (by simp)), ih _ fun x hx => hb x (by simp [hx])]
    simp

theorem floatChars_group (h : Distinct L) {ds u t : Str} (hne : ds ≠ []) (hd : ∀ c ∈ ds, c.isDigit = true) (ht : Tail L u t)
    (hpt : L.useGrouping = true → L.point ≠ L.thousands) :
    ∃ F, L.floatChars false false [] 0 (L.group ds ++ u) = some (Opts.floatChars false false (ds ++ t), F) ∧
      (F.isEmpty || verify L.grouping F.reverse) = true := by
  have hb : (!ds.isEmpty) = true := by simpa using hne
  have rest : ∀ F p, L.floatChars true false F p u = some (Opts.floatChars true false t, if F.isEmpty then F else F ++ [p]) := by
    intro F p
    cases ht with
    | none _ hs => exact floatChars_stop hs F p
    | point t =>
      rw [floatChars, Opts.floatChars, if_neg fun hh => hpt hh.1 hh.2, if_pos rfl, if_neg Bool.false_ne_true, floatChars_point h,
        if_neg (show ¬ Char.isDigit '.' = true by decide), if_pos (show '.' = '.' ∧ false = false from ⟨rfl, rfl⟩)]
      rfl
  rw [digits_then _ _ _ hd, Bool.false_or, hb]
  cases hu : L.useGrouping with
  | false =>
    refine ⟨[], ?_, rfl⟩
    rw [group_unused hu, floatChars_run h _ _ hd, Bool.false_or, hb, rest]
    rfl
  | true =>
    obtain ⟨F, p, hp, hF, hh⟩ :=
      floatChars_grouped h hu L.grouping ds.reverse (by simpa using hne) fun c hc => hd c (List.mem_reverse.mp hc)
    refine ⟨if F.isEmpty then F else F ++ [p], ?_, ?_⟩
    · unfold group
      rw [hh u, rest, List.reverse_reverse]
      rfl
    · cases F with
      | nil => rfl
      | cons f F =>
        simp only [List.isEmpty_cons, Bool.false_eq_true, if_false]
        rw [hF, List.reverse_reverse, verify_sizes, Bool.or_true]

/-- A number in the way of the locale is read in the locale as the number in the way of "C" is read in "C". -/
theorem extractReal_group (h : Distinct L) (rnd : ℚ → Option ℚ) (neg : Bool) {ds u t : Str} (hne : ds ≠ [])
    (hd : ∀ c ∈ ds, c.isDigit = true) (ht : Tail L u t) (hpt : L.useGrouping = true → L.point ≠ L.thousands) :
    L.extractReal rnd ((if neg then ['-'] else []) ++ (L.group ds ++ u)) =
      (Opts.extractReal rnd ((if neg then ['-'] else []) ++ (ds ++ t)), true) := by
  obtain ⟨F, h1, h2⟩ := floatChars_group h hne hd ht hpt
  obtain ⟨d, ds', rfl⟩ := List.exists_cons_of_ne_nil hne
  have hdd := hd d (by simp)
  obtain ⟨r, hr⟩ := head_group L d ds'
  have hd1 : d ≠ '-' := by rintro rfl; revert hdd; decide
  have hd2 : d ≠ '+' := by rintro rfl; revert hdd; decide
  unfold extractReal Opts.extractReal
  cases neg with
  | false =>
    simp only [Bool.false_eq_true, if_false, List.nil_append]
    rw [hr] at h1 ⊢
    have hs : ∀ x : Str, (d :: x).dropWhile isSpace = d :: x := by
      intro x
      rw [List.dropWhile_cons, digit_not_space hdd]; rfl
    simp only [List.cons_append] at h1 ⊢
    simp only [hs, hd1, hd2, or_self, false_and, if_false, h1, h2, List.isEmpty_cons, Bool.false_eq_true, List.head?_cons,
      Option.some_beq_some, Bool.or_false, beq_eq_false_iff_ne.mpr hd1, beq_eq_false_iff_ne.mpr hd2, decide_false]
    rfl
  | true =>
    have hs : ∀ x : Str, (['-'] ++ x).dropWhile isSpace = '-' :: x := by
      intro x
      simp only [List.cons_append, List.nil_append, List.dropWhile_cons]
      rfl
    have hm1 : '-' ≠ L.thousands := fun e => h.thousands' (by simp [← e])
    have hm2 : '-' ≠ L.point := fun e => h.point' (by simp [← e])
    simp only [if_true, hs, hm1, hm2, and_false, not_false_eq_true, ne_eq, true_or, and_self, h1, h2, decide_true,
      List.isEmpty_cons, Bool.false_eq_true, if_false, List.head?_cons, Option.some_beq_some, BEq.rfl, Bool.true_or, List.drop_succ_cons,
      List.drop_zero]
    rfl

end Locale
end SoDa
