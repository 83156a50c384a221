import Verif.Proof.Options
import Verif.Proof.Split
import Verif.Proof.FormatNum
/-!
Auxiliary lemmas about the text side of `Options`: reading integers and booleans, tokenizing
strings, key=value lists, and the help text.
-/
namespace SoDa.Opts
open Spec

variable {V : Type}

/-! ### Integers -/

theorem isSpace_iff (c : Char) : isSpace c = true ↔ White c := by
  simp only [isSpace, White, Bool.or_eq_true, decide_eq_true_eq, List.mem_cons, List.not_mem_nil,
    or_false, or_assoc]

theorem isDigit_iff (c : Char) : c.isDigit = true ↔ '0' ≤ c ∧ c ≤ '9' := by
  simp [Char.isDigit, Char.le_def, UInt32.le_iff_toNat_le]

theorem digitValue_ten (c : Char) (d : Nat) :
    digitValue 10 c = some d ↔ c.isDigit = true ∧ d = c.toNat - 48 := by
  rw [isDigit_iff]
  unfold digitValue
  by_cases h : '0' ≤ c ∧ c ≤ '9'
  · have h9 : c.toNat ≤ 57 := by
      have := h.2; simp [Char.le_def, UInt32.le_iff_toNat_le] at this; exact this
    simp only [h, and_self, if_true, true_and]
    have : c.toNat - '0'.toNat < 10 := by
      have : ('0' : Char).toNat = 48 := rfl
      omega
    simp only [Option.filter, this, decide_true, if_true, Option.some.injEq]
    exact eq_comm
  · simp only [h, if_false, false_and, iff_false]
    by_cases h1 : 'a' ≤ c ∧ c ≤ 'z'
    · simp [h1, Option.filter]
    · by_cases h2 : 'A' ≤ c ∧ c ≤ 'Z'
      · simp [h1, h2, Option.filter]
      · simp [h1, h2, Option.filter]

theorem valueFrom_digits : ∀ (ds : Str) (acc m : Nat), valueFrom 10 acc ds = some m ↔
    (∀ c ∈ ds, c.isDigit = true) ∧ m = ds.foldl (fun n c => 10 * n + (c.toNat - 48)) acc := by
  intro ds
  induction ds with
  | nil => intro acc m; simp only [valueFrom, List.not_mem_nil, false_implies, implies_true, List.foldl_nil, true_and, Option.some.injEq]; exact eq_comm
  | cons c cs ih =>
    intro acc m
    simp only [valueFrom, List.mem_cons, forall_eq_or_imp, List.foldl_cons]
    cases hd : digitValue 10 c with
    | none =>
      have : ¬ c.isDigit = true := fun h => by
        have := (digitValue_ten c _).2 ⟨h, rfl⟩; rw [hd] at this; simp at this
      simp [this]
    | some d =>
      obtain ⟨h1, rfl⟩ := (digitValue_ten c d).1 hd
      simp only [Option.bind_some, ih, h1, true_and, Nat.mul_comm acc 10]

theorem numeral_ten (ds : Str) (m : Nat) : numeral 10 ds = some m ↔
    ds ≠ [] ∧ (∀ c ∈ ds, c.isDigit = true) ∧ m = digitsVal ds := by
  unfold numeral digitsVal
  by_cases h : ds = []
  · simp [h]
  · simp only [h, if_false, ne_eq, not_false_eq_true, true_and]
    exact valueFrom_digits ds 0 m

theorem dropWhile_append_all {A : Type} (p : A → Bool) (a b : List A) (h : ∀ x ∈ a, p x = true) :
    (a ++ b).dropWhile p = b.dropWhile p := by
  induction a with
  | nil => rfl
  | cons x xs ih =>
    simp only [List.cons_append, List.dropWhile_cons, h x (by simp), if_true]
    exact ih fun y hy => h y (by simp [hy])

theorem takeWhile_append_all {A : Type} (p : A → Bool) (a b : List A) (h : ∀ x ∈ a, p x = true)
    (hb : ∀ x, b.head? = some x → p x = false) : (a ++ b).takeWhile p = a := by
  induction a with
  | nil =>
    cases b with
    | nil => rfl
    | cons y ys => simp [hb y rfl]
  | cons x xs ih =>
    simp only [List.cons_append, List.takeWhile_cons, h x (by simp), if_true]
    rw [ih fun y hy => h y (by simp [hy])]

theorem digit_not_space {c : Char} (h : c.isDigit = true) : isSpace c = false := by
  cases hs : isSpace c with
  | false => rfl
  | true =>
    rw [isSpace_iff] at hs
    simp only [White, List.mem_cons, List.not_mem_nil, or_false] at hs
    rcases hs with rfl | rfl | rfl | rfl | rfl | rfl <;> simp [Char.isDigit] at h

theorem mem_takeWhile {A : Type} {p : A → Bool} {l : List A} {x : A} (h : x ∈ l.takeWhile p) :
    p x = true := by
  have := List.all_takeWhile (p := p) (l := l)
  rw [List.all_eq_true] at this
  exact this x h

/-- The text begins with an integer: what the extraction finds. -/
theorem extractInt_begins {s : Str} {n : Int} (h : BeginsWithInt s n) :
    extractInt s = if n > 2147483647 then .over 2147483647
      else if n < -2147483648 then .over (-2147483648) else .good n := by
  obtain ⟨ws, sg, ds, rest, m, rfl, hws, hsg, hm, hrest, rfl⟩ := h
  obtain ⟨hne, hds, rfl⟩ := (numeral_ten ds m).1 hm
  obtain ⟨d0, ds', rfl⟩ := List.exists_cons_of_ne_nil hne
  have hd0 := hds d0 (by simp)
  have hsp := digit_not_space hd0
  have hm0 : d0 ≠ '-' := by rintro rfl; simp [Char.isDigit] at hd0
  have hp0 : d0 ≠ '+' := by rintro rfl; simp [Char.isDigit] at hd0
  have hdrop : (ws ++ sg ++ (d0 :: ds') ++ rest).dropWhile isSpace = sg ++ (d0 :: ds') ++ rest := by
    rw [List.append_assoc, List.append_assoc,
      dropWhile_append_all _ _ _ fun x hx => (isSpace_iff x).2 (hws x hx)]
    rcases hsg with rfl | rfl | rfl
    · simp [hsp]
    · simp [isSpace]
    · simp [isSpace]
  have htake : ((d0 :: ds') ++ rest).takeWhile Char.isDigit = d0 :: ds' := by
    apply takeWhile_append_all _ _ _ hds
    intro x hx
    cases hx' : x.isDigit with
    | false => rfl
    | true => exact absurd ((isDigit_iff x).1 hx') (hrest x hx)
  simp only [extractInt, hdrop]
  rcases hsg with rfl | rfl | rfl
  · simp only [List.nil_append, List.cons_append, List.isEmpty_cons, List.head?_cons,
      Option.some_beq_some, beq_iff_eq, hm0, hp0, Bool.or_eq_true, or_self, if_false,
      Bool.false_eq_true] at htake ⊢
    rw [htake]
    simp
  · simp only [List.nil_append, List.cons_append, List.isEmpty_cons, List.head?_cons,
      Bool.false_eq_true, if_false, List.drop_succ_cons, List.drop_zero] at htake ⊢
    simp [htake]
  · simp only [List.nil_append, List.cons_append, List.isEmpty_cons, List.head?_cons,
      Bool.false_eq_true, if_false, List.drop_succ_cons, List.drop_zero] at htake ⊢
    simp [htake]

theorem begins_of_extract {s : Str} {n : Int} (h : extractInt s = .good n ∨ extractInt s = .over n) :
    ∃ m, BeginsWithInt s m := by
  have hs : s = s.takeWhile isSpace ++ s.dropWhile isSpace := (List.takeWhile_append_dropWhile).symm
  have hws : ∀ c ∈ s.takeWhile isSpace, White c := fun c hc =>
    (isSpace_iff c).1 (mem_takeWhile hc)
  generalize hs1 : s.dropWhile isSpace = s1 at hs
  generalize s.takeWhile isSpace = ws at hs hws
  simp only [extractInt, hs1] at h
  by_cases he : s1.isEmpty = true
  · simp [he] at h
  · simp only [he, if_false, Bool.false_eq_true] at h
    by_cases hsg : (s1.head? == some '-' || s1.head? == some '+') = true
    · simp only [hsg, if_true] at h
      obtain ⟨c, t, rfl⟩ : ∃ c t, s1 = c :: t := by
        cases s1 with
        | nil => simp at he
        | cons c t => exact ⟨c, t, rfl⟩
      have hc : c = '-' ∨ c = '+' := by simpa using hsg
      simp only [List.drop_succ_cons, List.drop_zero] at h
      by_cases hd : (t.takeWhile Char.isDigit).isEmpty = true
      · simp [hd] at h
      · refine ⟨_, ws, [c], t.takeWhile Char.isDigit, t.dropWhile Char.isDigit, _, ?_, hws, ?_,
          (numeral_ten _ _).2 ⟨?_, ?_, rfl⟩, ?_, rfl⟩
        · rw [hs]; simp
        · rcases hc with rfl | rfl <;> simp
        · simpa using hd
        · exact fun c hc => mem_takeWhile hc
        · intro x hx
          have := List.head?_dropWhile_not Char.isDigit t
          rw [hx] at this
          rw [← isDigit_iff]; simpa using this
    · simp only [hsg, if_false, Bool.false_eq_true] at h
      by_cases hd : (s1.takeWhile Char.isDigit).isEmpty = true
      · simp [hd] at h
      · refine ⟨_, ws, [], s1.takeWhile Char.isDigit, s1.dropWhile Char.isDigit, _, ?_, hws, .inl rfl,
          (numeral_ten _ _).2 ⟨?_, ?_, rfl⟩, ?_, rfl⟩
        · rw [hs]; simp
        · simpa using hd
        · exact fun c hc => mem_takeWhile hc
        · intro x hx
          have := List.head?_dropWhile_not Char.isDigit s1
          rw [hx] at this
          rw [← isDigit_iff]; simpa using this

theorem extractInt_good_iff (s : Str) (n : Int) :
    extractInt s = .good n ↔ BeginsWithInt s n ∧ -2147483648 ≤ n ∧ n ≤ 2147483647 := by
  constructor
  · intro h
    obtain ⟨m, hm⟩ := begins_of_extract (.inl h)
    have := extractInt_begins hm
    rw [h] at this
    split at this
    · simp at this
    · split at this
      · simp at this
      · simp only [Extract.good.injEq] at this; subst this
        exact ⟨hm, by omega, by omega⟩
  · rintro ⟨h, h1, h2⟩
    rw [extractInt_begins h, if_neg (by omega), if_neg (by omega)]

theorem intTy_read_iff (s : Str) (v : Val) : intTy.read s = some v ↔
    ∃ n, v = .int n ∧ BeginsWithInt s n ∧ -2147483648 ≤ n ∧ n ≤ 2147483647 := by
  simp only [intTy]
  constructor
  · intro h
    split at h
    · rename_i n hn; simp at h; exact ⟨n, h.symm, (extractInt_good_iff s n).1 hn⟩
    · simp at h
  · rintro ⟨n, rfl, h⟩
    rw [(extractInt_good_iff s n).2 h]

theorem toUpper_of_not_lower {c : Char} (h : ¬ ('a' ≤ c ∧ c ≤ 'z')) : c.toUpper = c := by
  unfold Char.toUpper
  rw [dif_neg]
  simpa [Char.le_def] using h

/-! ### Booleans -/

theorem lower_cases {c : Char} (h : 'a' ≤ c ∧ c ≤ 'z') : ∃ k : Fin 26, c = Char.ofNat (97 + k) := by
  have h1 : 97 ≤ c.toNat := by simpa [Char.le_def, UInt32.le_iff_toNat_le] using h.1
  have h2 : c.toNat ≤ 122 := by simpa [Char.le_def, UInt32.le_iff_toNat_le] using h.2
  refine ⟨⟨c.toNat - 97, by omega⟩, ?_⟩
  simp only
  rw [show 97 + (c.toNat - 97) = c.toNat by omega]
  simp

theorem toUpper_space (c : Char) : isSpace c.toUpper = isSpace c := by
  by_cases h : 'a' ≤ c ∧ c ≤ 'z'
  · obtain ⟨k, rfl⟩ := lower_cases h; revert k; decide
  · rw [toUpper_of_not_lower h]

theorem toUpper_digit (c : Char) : c.toUpper.isDigit = c.isDigit := by
  by_cases h : 'a' ≤ c ∧ c ≤ 'z'
  · obtain ⟨k, rfl⟩ := lower_cases h; revert k; decide
  · rw [toUpper_of_not_lower h]

theorem toUpper_eq_self_iff (x : Char) (hx : x = '-' ∨ x = '+') (c : Char) : c.toUpper = x ↔ c = x := by
  by_cases h : 'a' ≤ c ∧ c ≤ 'z'
  · obtain ⟨k, rfl⟩ := lower_cases h
    rcases hx with rfl | rfl
    · revert k; decide
    · revert k; decide
  · rw [toUpper_of_not_lower h]

theorem toUpper_letter (c : Char) : (c.toUpper = 'T' ↔ c = 'T' ∨ c = 't') ∧
    (c.toUpper = 'F' ↔ c = 'F' ∨ c = 'f') := by
  by_cases h : 'a' ≤ c ∧ c ≤ 'z'
  · obtain ⟨k, rfl⟩ := lower_cases h; revert k; decide
  · rw [toUpper_of_not_lower h]
    constructor
    · constructor
      · exact .inl
      · rintro (h' | rfl)
        · exact h'
        · exact absurd (by decide) h
    · constructor
      · exact .inl
      · rintro (h' | rfl)
        · exact h'
        · exact absurd (by decide) h

theorem map_toUpper_digits (ds : Str) (h : ∀ c ∈ ds, c.isDigit = true) : ds.map Char.toUpper = ds := by
  induction ds with
  | nil => rfl
  | cons c cs ih =>
    have hc : ¬ ('a' ≤ c ∧ c ≤ 'z') := by
      intro hl
      obtain ⟨k, rfl⟩ := lower_cases hl
      have := h _ (List.mem_cons_self)
      have key : ∀ k : Fin 26, (Char.ofNat (97 + k)).isDigit = false := by decide
      rw [key] at this; simp at this
    rw [List.map_cons, toUpper_of_not_lower hc, ih fun x hx => h x (by simp [hx])]

theorem extractInt_upper (s : Str) : extractInt (s.map Char.toUpper) = extractInt s := by
  have hsp : isSpace ∘ Char.toUpper = isSpace := funext toUpper_space
  have hdg : Char.isDigit ∘ Char.toUpper = Char.isDigit := funext toUpper_digit
  have hdrop : (s.map Char.toUpper).dropWhile isSpace = (s.dropWhile isSpace).map Char.toUpper := by
    rw [List.dropWhile_map, hsp]
  have htake : ∀ t : Str, (t.map Char.toUpper).takeWhile Char.isDigit = t.takeWhile Char.isDigit := by
    intro t
    rw [List.takeWhile_map, hdg, map_toUpper_digits _ fun c hc => mem_takeWhile hc]
  have hhead : ∀ (x : Char), (x = '-' ∨ x = '+') → ∀ t : Str,
      ((t.map Char.toUpper).head? == some x) = (t.head? == some x) := by
    intro x hx t
    cases t with
    | nil => rfl
    | cons c cs =>
      rw [Bool.eq_iff_iff]
      simp [toUpper_eq_self_iff x hx c]
  simp only [extractInt, hdrop, hhead '-' (.inl rfl), hhead '+' (.inr rfl)]
  generalize s.dropWhile isSpace = s1
  have hemp : (s1.map Char.toUpper).isEmpty = s1.isEmpty := by cases s1 <;> rfl
  have hif : ∀ b : Bool, (if b = true then (s1.map Char.toUpper).drop 1 else s1.map Char.toUpper) =
      (if b = true then s1.drop 1 else s1).map Char.toUpper := by
    intro b; cases b <;> simp
  rw [hemp, hif, htake]

theorem readBool_iff (s : Str) (b : Bool) : readBool s = some b ↔
    ((s.head? = some 'T' ∨ s.head? = some 't') ∧ b = true) ∨
    ((s.head? = some 'F' ∨ s.head? = some 'f') ∧ b = false) ∨
    (∃ n, BeginsWithInt s n ∧ -2147483648 ≤ n ∧ n ≤ 2147483647 ∧ b = decide (n ≠ 0)) := by
  have hnoint : ∀ c : Char, (c = 'T' ∨ c = 't' ∨ c = 'F' ∨ c = 'f') → ∀ n cs, ¬ BeginsWithInt (c :: cs) n := by
    intro c hc n cs h
    have := extractInt_begins h
    have h2 : extractInt (c :: cs) = .bad := by
      rcases hc with rfl | rfl | rfl | rfl <;> simp [extractInt, isSpace]
    rw [h2] at this
    split at this
    · simp at this
    · split at this <;> simp at this
  cases s with
  | nil =>
    have : ∀ n, ¬ BeginsWithInt [] n := by
      intro n h
      have := extractInt_begins h
      have h2 : extractInt [] = .blank := rfl
      rw [h2] at this
      split at this
      · simp at this
      · split at this <;> simp at this
    simp [readBool, extractInt, nul, this]
  | cons c cs =>
    have hT := (toUpper_letter c).1
    have hF := (toUpper_letter c).2
    simp only [readBool, List.map_cons, List.headD_cons, List.head?_cons, Option.some.injEq]
    by_cases h1 : c.toUpper = 'T'
    · have hc := hT.1 h1
      have hn : ∀ n, ¬ BeginsWithInt (c :: cs) n := fun n => hnoint c (by rcases hc with h | h <;> simp [h]) n cs
      have hf : ¬ (c = 'F' ∨ c = 'f') := by rcases hc with rfl | rfl <;> decide
      simp only [h1, or_true, if_true, Option.some.injEq, hc, true_and, hf, false_and, hn, exists_false, or_false]
      exact eq_comm
    · have hnt : ¬ (c.toUpper :: cs.map Char.toUpper = "TRUE".toList) := by
        intro h; exact h1 (by simpa using congrArg (fun l => l.headD 'x') h)
      have hc : ¬ (c = 'T' ∨ c = 't') := fun h => h1 (hT.2 h)
      by_cases h2 : c.toUpper = 'F'
      · have hcf := hF.1 h2
        have hn : ∀ n, ¬ BeginsWithInt (c :: cs) n := fun n => hnoint c (by rcases hcf with h | h <;> simp [h]) n cs
        rw [if_neg (by simp only [hnt, h1]; simp), if_pos (.inr h2)]
        simp only [Option.some.injEq, hc, hcf, true_and, false_and, hn, exists_false, or_false, false_or]
        exact eq_comm
      · have hnf : ¬ (c.toUpper :: cs.map Char.toUpper = "FALSE".toList) := by
          intro h; exact h2 (by simpa using congrArg (fun l => l.headD 'x') h)
        have hcf : ¬ (c = 'F' ∨ c = 'f') := fun h => h2 (hF.2 h)
        rw [if_neg (by simp only [hnt, h1]; simp), if_neg (by simp only [hnf, h2]; simp)]
        simp only [hc, hcf, false_and, false_or]
        rw [show c.toUpper :: cs.map Char.toUpper = (c :: cs).map Char.toUpper from rfl, extractInt_upper]
        constructor
        · intro h
          split at h
          · rename_i n hn
            simp only [Option.some.injEq] at h
            obtain ⟨a, b', c'⟩ := (extractInt_good_iff _ n).1 hn
            exact ⟨n, a, b', c', h.symm⟩
          · simp at h
        · rintro ⟨n, h3, h4, h5, rfl⟩
          rw [(extractInt_good_iff _ n).2 ⟨h3, h4, h5⟩]

/-! ### Command strings -/

theorem tokens_white (g : Str) (hg : ∀ c ∈ g, White c) (ret : List Str) (rest : Str) :
    tokensLoop ret [] false (g ++ rest) = tokensLoop ret [] false rest := by
  induction g with
  | nil => rfl
  | cons c cs ih =>
    have := (isSpace_iff c).2 (hg c (by simp))
    simp only [List.cons_append, tokensLoop, this, if_true, Bool.false_eq_true, if_false,
      List.length_nil, Nat.lt_irrefl]
    simpa using ih fun x hx => hg x (by simp [hx])

theorem tokens_plain (t : Str) (h1 : '"' ∉ t) (h2 : ∀ c ∈ t, ¬ White c) : ∀ (ret : List Str)
    (cur rest : Str), tokensLoop ret cur false (t ++ rest) = tokensLoop ret (cur ++ t) false rest := by
  induction t with
  | nil => intro ret cur rest; simp
  | cons c cs ih =>
    intro ret cur rest
    have hs : isSpace c = false := by
      have := h2 c (by simp); rw [← isSpace_iff] at this; simpa using this
    have hq : c ≠ '"' := by rintro rfl; simp at h1
    simp only [List.cons_append, tokensLoop, hs, Bool.false_eq_true, if_false, hq]
    rw [ih (fun h => h1 (by simp [h])) (fun x hx => h2 x (by simp [hx]))]
    simp

theorem tokens_quoted (t : Str) (h1 : '"' ∉ t) : ∀ (ret : List Str) (cur rest : Str),
    tokensLoop ret cur true (t ++ '"' :: rest) = tokensLoop (ret ++ [cur ++ t]) [] false rest := by
  induction t with
  | nil => intro ret cur rest; simp [tokensLoop, isSpace]
  | cons c cs ih =>
    intro ret cur rest
    have hq : c ≠ '"' := by rintro rfl; simp at h1
    have hi := ih (fun h => h1 (by simp [h])) ret (cur ++ [c]) rest
    simp only [List.cons_append, tokensLoop, hq, if_false, if_true, ite_self]
    rw [hi]; simp

theorem tokens_written (w : Written) (hv : w.Valid) (ret : List Str) (g : Str)
    (hg : ∀ c ∈ g, White c) (rest : Str) (h : g ≠ [] ∨ rest = []) :
    tokensLoop ret [] false (w.text ++ (g ++ rest)) =
      tokensLoop (ret ++ [w.token]) [] false rest := by
  cases w with
  | quoted t =>
    simp only [Written.text, Written.token, List.cons_append, List.append_assoc, List.nil_append]
    rw [tokensLoop]
    simp only [show isSpace '"' = false from rfl, Bool.false_eq_true, if_false, if_true]
    rw [tokens_quoted t hv, List.nil_append, tokens_white g hg]
  | plain t =>
    obtain ⟨h1, h2, h3⟩ := hv
    simp only [Written.text, Written.token]
    rw [tokens_plain t h2 h3, List.nil_append]
    have hlen : t.length > 0 := List.length_pos_iff.mpr h1
    cases g with
    | nil =>
      rcases h with h | h
      · exact absurd rfl h
      · subst h; simp [tokensLoop, hlen]
    | cons c cs =>
      have hs := (isSpace_iff c).2 (hg c (by simp))
      simp only [List.cons_append, tokensLoop, hs, if_true, Bool.false_eq_true, if_false, hlen]
      exact tokens_white cs (fun x hx => hg x (by simp [hx])) _ _

theorem tokensString_written {s : Str} {ws : List Written} (h : WrittenLine s ws) :
    ∀ ret, tokensLoop ret [] false s = ret ++ ws.map Written.token := by
  induction h with
  | @nil g hg =>
    intro ret
    have := tokens_white g hg ret []
    rw [List.append_nil] at this
    rw [this]; simp [tokensLoop]
  | @one g w g' hg hg' hv =>
    intro ret
    rw [List.append_assoc, tokens_white g hg]
    have := tokens_written w hv ret g' hg' [] (.inr rfl)
    rw [List.append_nil] at this
    rw [this]; simp [tokensLoop]
  | @cons g w g' s ws hg hne hg' hv _ _ ih =>
    intro ret
    rw [List.append_assoc, List.append_assoc, tokens_white g hg,
      tokens_written w hv ret g' hg' s (.inl hne), ih]
    simp

/-! ### Key=value lists -/

theorem sq_head (s : Str) : (sq s).head? = s.head? := by
  induction s with
  | nil => rfl
  | cons c cs ih =>
    simp only [sq]
    split
    · rename_i h; rw [ih, h.2, h.1]; rfl
    · rfl

theorem words_sq (s : Str) : words (sq s) = words s := by
  induction s with
  | nil => rfl
  | cons c cs ih =>
    simp only [sq]
    split
    · rename_i h; rw [ih, h.1, words_cons_space]
    · by_cases hc : c = ' '
      · subst hc; rw [words_cons_space, words_cons_space, ih]
      · rw [words_cons_nonspace hc, words_cons_nonspace hc]
        have hh := sq_head cs
        cases cs with
        | nil => rfl
        | cons x xs =>
          cases hq : sq (x :: xs) with
          | nil => rw [hq] at hh; simp at hh
          | cons y ys =>
            rw [hq] at hh ih
            simp only [List.head?_cons, Option.some.injEq] at hh
            subst hh
            rw [ih]

theorem fields_sq (p : Char → Bool) (hp : p ' ' = false) (s : Str) :
    fields p (sq s) = (fields p s).map sq := by
  induction s with
  | nil => rfl
  | cons a cs ih =>
    by_cases ha : p a = true
    · have hne : a ≠ ' ' := by rintro rfl; rw [hp] at ha; simp at ha
      rw [fields_cons_of p ha, List.map_cons]
      simp only [sq, hne, false_and, if_false]
      rw [fields_cons_of p ha, ih]
    · have ha' : p a = false := by simpa using ha
      obtain ⟨f, fs, hf⟩ := fields_eq_cons p cs
      rw [fields_cons_not p ha' hf, List.map_cons]
      rw [hf, List.map_cons] at ih
      have hhead : ∀ x, p x = false → (f.head? = some x ↔ cs.head? = some x) := by
        intro x hx
        cases cs with
        | nil => simp [fields] at hf; simp [← hf.1]
        | cons y ys =>
          by_cases hy : p y = true
          · rw [fields_cons_of p hy] at hf
            simp only [List.cons.injEq] at hf
            rw [← hf.1]
            simp only [List.head?_nil, List.head?_cons, Option.some.injEq, reduceCtorEq, false_iff]
            rintro rfl; rw [hy] at hx; simp at hx
          · obtain ⟨g, gs, hg⟩ := fields_eq_cons p ys
            rw [fields_cons_not p (by simpa using hy) hg] at hf
            simp only [List.cons.injEq] at hf
            rw [← hf.1]; simp
      simp only [sq, hhead ' ' hp]
      split
      · rename_i h; exact ih
      · exact fields_cons_not p ha' ih

theorem fields_append_space (p : Char → Bool) (hp : p ' ' = false) (s : Str) :
    (fields p (s ++ [' '])).map words = (fields p s).map words ∧
    ∃ f fs g gs, fields p s = f :: fs ∧ fields p (s ++ [' ']) = g :: gs ∧ (g = f ∨ g = f ++ [' ']) ∧
      gs.map words = fs.map words := by
  induction s with
  | nil =>
    have : fields p [' '] = [[' ']] := fields_free p [' '] (by simpa using hp)
    refine ⟨by rw [List.nil_append, this]; rfl, [], [], [' '], [], rfl, this, .inr rfl, rfl⟩
  | cons a cs ih =>
    obtain ⟨_, f, fs, g, gs, h1, h2, h3, h4⟩ := ih
    by_cases ha : p a = true
    · rw [List.cons_append, fields_cons_of p ha, fields_cons_of p ha]
      have : (fields p (cs ++ [' '])).map words = (fields p cs).map words := by
        rw [h1, h2]; simp only [List.map_cons, h4]
        rcases h3 with rfl | rfl
        · rfl
        · rw [words_append_space]
      exact ⟨by simp [this], [], _, [], _, rfl, rfl, .inl rfl, this⟩
    · have ha' : p a = false := by simpa using ha
      rw [List.cons_append, fields_cons_not p ha' h1, fields_cons_not p ha' h2]
      have h3' : a :: g = a :: f ∨ a :: g = (a :: f) ++ [' '] := by
        rcases h3 with rfl | rfl
        · exact .inl rfl
        · exact .inr rfl
      refine ⟨?_, a :: f, fs, a :: g, gs, rfl, rfl, h3', h4⟩
      simp only [List.map_cons, h4]
      rcases h3' with h | h
      · rw [h]
      · rw [h, words_append_space]

theorem trimFront_fields (p : Char → Bool) (hp : p ' ' = false) : ∀ s t : Str, trimFront s = .ok t →
    (fields p t).map words = (fields p s).map words
  | [], t, h => by simp [trimFront] at h
  | c :: cs, t, h => by
    by_cases hc : c = ' '
    · subst hc
      simp only [trimFront, if_true] at h
      rw [trimFront_fields p hp cs t h]
      obtain ⟨f, fs, hf⟩ := fields_eq_cons p cs
      rw [fields_cons_not p hp hf, hf]
      simp [words_cons_space]
    · simp only [trimFront, hc, if_false, Res.ok.injEq] at h
      rw [h]

theorem trimBack_fields (p : Char → Bool) (hp : p ' ' = false) (n : Nat) : ∀ s t : Str, s.length ≤ n →
    trimBack s = .ok t → (fields p t).map words = (fields p s).map words := by
  induction n with
  | zero =>
    intro s t h ht
    have : s = [] := List.length_eq_zero_iff.mp (by omega)
    subst this
    rw [trimBack] at ht; simp at ht
  | succ n ih =>
    intro s t h ht
    rw [trimBack] at ht
    split at ht
    · simp at ht
    · rename_i c hc
      obtain ⟨s', rfl⟩ : ∃ s', s = s' ++ [c] := by
        have := List.getLast?_eq_some_iff.mp hc
        exact this
      by_cases hsp : c = ' '
      · subst hsp
        simp only [if_true, List.dropLast_concat] at ht
        rw [ih s' t (by simp at h; omega) ht, (fields_append_space p hp s').1]
      · simp only [hsp, if_false, Res.ok.injEq] at ht
        rw [ht]

/-- Squashing spaces does not change the words of the fields. -/
theorem squash_fields (p : Char → Bool) (hp : p ' ' = false) {s r : Str} (h : squashSpaces s = .ok r) :
    (fields p r).map words = (fields p s).map words := by
  unfold squashSpaces at h
  cases h1 : trimFront s with
  | ub => rw [h1] at h; simp at h
  | throw e => exact e.elim
  | ok t =>
    rw [h1, Res.bind_ok] at h
    cases h2 : trimBack t with
    | ub => rw [h2] at h; simp at h
    | throw e => exact e.elim
    | ok u =>
      rw [h2, Res.bind_ok] at h
      simp only [Res.ok.injEq, squashLoop_zero] at h
      subst h
      rw [fields_sq p hp, List.map_map, ← trimFront_fields p hp s t h1,
        ← trimBack_fields p hp t.length t u (Nat.le_refl _) h2]
      apply List.map_congr_left
      intro x _
      exact words_sq x

theorem words_blank : ∀ s : Str, (∀ c ∈ s, c = ' ') → words s = []
  | [], _ => rfl
  | c :: cs, h => by
    rw [h c (by simp), words_cons_space]
    exact words_blank cs fun x hx => h x (by simp [hx])

theorem words_replicate (n : Nat) (s : Str) : words (List.replicate n ' ' ++ s) = words s := by
  induction n with
  | zero => rfl
  | succ n ih => rw [List.replicate_succ, List.cons_append, words_cons_space, ih]

theorem words_append_replicate (n : Nat) (s : Str) : words (s ++ List.replicate n ' ') = words s := by
  induction n with
  | zero => simp
  | succ n ih => rw [List.replicate_succ', ← List.append_assoc, words_append_space, ih]

/-- A pair without the spaces around it. -/
theorem pair_clean {p : Pair} (h : p.Clean) : Clean (p.key ++ '=' :: p.value) := by
  have := clean_join (c := '=') (by decide) [p.key, p.value] (by simp) (by simpa using h.1)
    (fun t ht => by
      have := h.2 t (by simpa using ht)
      exact this.2.2)
  simpa [join] using this

theorem pair_text_words (p : Pair) : words p.text = words (p.key ++ '=' :: p.value) := by
  rw [Pair.text, words_append_replicate, words_replicate]

theorem pair_split {p : Pair} (h : p.Clean) :
    split (p.key ++ '=' :: p.value) "=".toList = .ok [p.key, p.value] := by
  rw [split_of_squash false (squashSpaces_clean_fix (pair_clean h))]
  have := fields_join (fun x => "=".toList.contains x) '=' (by decide) [p.key, p.value] (by simp)
    (fun t ht x hx => by
      have h1 := (h.2 t (by simpa using ht)).2.1
      have : x ≠ '=' := by rintro rfl; exact h1 hx
      simpa using this)
  simp only [join, List.append_assoc, List.singleton_append] at this
  simp only [Bool.false_eq_true, if_false]
  rw [this, dropFinalEmpty_id _ (by simpa using h.1)]

theorem kvTokens_pairs : ∀ (ps : List Pair) (fs : List Str), (∀ p ∈ ps, p.Clean) →
    fs.map words = ps.map (fun p => words p.text) →
    Options.kvTokens fs = .ok (ps.flatMap fun p => ["--".toList ++ p.key, p.value])
  | [], fs, _, h => by
    have : fs = [] := by simpa using h
    subst this; rfl
  | p :: ps, fs, hp, h => by
    cases fs with
    | nil => simp at h
    | cons f fs =>
      simp only [List.map_cons, List.cons.injEq] at h
      have ih := kvTokens_pairs ps fs (fun q hq => hp q (by simp [hq])) h.2
      have hc := hp p (by simp)
      have hsq := squashSpaces_clean_fix (pair_clean hc)
      have hw : words f = words (p.key ++ '=' :: p.value) := by rw [h.1, pair_text_words]
      have hf : squashSpaces f = .ok (p.key ++ '=' :: p.value) := by
        rcases squashSpaces_cases (p.key ++ '=' :: p.value) with ⟨_, h2⟩ | ⟨h2, h3⟩
        · have := h2 '=' (by simp); simp at this
        · rw [hsq] at h2
          rcases squashSpaces_cases f with ⟨_, h4⟩ | ⟨h4, _⟩
          · exact absurd (words_blank f h4) (by rw [hw]; exact words_ne_nil _ h3)
          · rw [h4, hw, h2]
      simp only [Options.kvTokens, hf, Res.bind_ok, pair_split hc, List.head?_cons, ih]
      rfl

theorem split_pairs (ps : List Pair) (hne : ps ≠ []) (hp : ∀ p ∈ ps, p.Clean) :
    ∃ fs, split (join [','] (ps.map Pair.text)) ",".toList = .ok fs ∧
      fs.map words = ps.map (fun p => words p.text) ∧ fs ≠ [] := by
  have hfree : ∀ t ∈ ps.map Pair.text, ∀ x ∈ t, (fun c => ",".toList.contains c) x = false := by
    intro t ht x hx
    obtain ⟨p, hpm, rfl⟩ := List.mem_map.mp ht
    have h1 := (hp p hpm).2 p.key (by simp)
    have h2 := (hp p hpm).2 p.value (by simp)
    have : x ≠ ',' := by
      rintro rfl
      simp only [Pair.text, List.mem_append, List.mem_cons, List.mem_replicate] at hx
      rcases hx with (⟨_, hx⟩ | hx | hx | hx) | ⟨_, hx⟩
      · simp at hx
      · exact h1.1 hx
      · simp at hx
      · exact h2.1 hx
      · simp at hx
    simpa using this
  have hfields := fields_join (fun c => ",".toList.contains c) ',' (by decide) (ps.map Pair.text)
    (by simpa using hne) hfree
  have hnonblank : ∀ p ∈ ps, words p.text ≠ [] := by
    intro p _
    rw [pair_text_words]
    exact words_ne_nil _ ⟨'=', by simp, by decide⟩
  obtain ⟨p0, ps', rfl⟩ := List.exists_cons_of_ne_nil hne
  rcases squashSpaces_cases (join [','] ((p0 :: ps').map Pair.text)) with ⟨_, h⟩ | ⟨h, _⟩
  · have h0 : '=' ∈ join [','] ((p0 :: ps').map Pair.text) := by
      have : '=' ∈ p0.text := by simp [Pair.text]
      cases ps' with
      | nil => simpa [join] using this
      | cons q qs => simp only [List.map_cons, join, List.mem_append]; exact .inl (.inl this)
    exact absurd (h '=' h0) (by decide)
  · have hw := squash_fields (fun c => ",".toList.contains c) (by decide) h
    rw [hfields, List.map_map] at hw
    generalize join [' '] (words (join [','] ((p0 :: ps').map Pair.text))) = r at h hw
    have hlast : (fields (fun c => ",".toList.contains c) r).getLast? ≠ some [] := by
      intro hl
      have h1 : ((fields (fun c => ",".toList.contains c) r).map words).getLast? = some [] := by
        rw [List.getLast?_map, hl]; rfl
      rw [hw, List.getLast?_map] at h1
      obtain ⟨q, hq⟩ : ∃ q, (p0 :: ps').getLast? = some q := by
        rw [List.getLast?_cons]; exact ⟨_, rfl⟩
      rw [hq] at h1
      simp only [Option.map_some, Function.comp, Option.some.injEq] at h1
      exact hnonblank q (List.mem_of_getLast? hq) h1
    refine ⟨_, split_of_squash false h, ?_, ?_⟩
    · simp only [Bool.false_eq_true, if_false]
      rw [dropFinalEmpty_id _ hlast, hw]; rfl
    · simp only [Bool.false_eq_true, if_false]
      rw [dropFinalEmpty_id _ hlast]; exact fields_ne_nil _ _

/-! ### Help -/

theorem helpHead_text (d : Decl V) (h : d.long.length < 2 ^ 31) :
    Options.helpHead false d = .ok ("   --".toList ++ (d.long ++ List.replicate (20 - d.long.length) ' ') ++
      " -".toList ++ [d.ab] ++ "     ".toList) := by
  have hs : (Fmt.mk' "   --%0 -%1     ".toList).segs =
      [.lit "   --".toList, .fld 0, .lit " -".toList, .fld 1, .lit "     ".toList] := by decide
  have hpad : (toI32 (20 - (d.long.length : Int))).toNat = 20 - d.long.length := by
    unfold toI32
    have : (20 - (d.long.length : Int) + 2147483648) % 4294967296 =
        20 - (d.long.length : Int) + 2147483648 := Int.emod_eq_of_lt (by omega) (by omega)
    rw [this]; omega
  simp only [Options.helpHead, Bool.false_eq_true, if_false, Fmt.addS, textS]
  rw [if_pos (by decide), if_neg (by decide)]
  simp only [Res.map_ok, Int.neg_neg]
  rw [hpad]
  have hc : (Fmt.mk' "   --%0 -%1     ".toList).cur = 0 := rfl
  simp only [Fmt.addC, Fmt.stream, Fmt.str, Fmt.insertField, hs, hc, List.map_cons, List.map_nil]
  simp [Fmt.assemble, u32]

end SoDa.Opts
