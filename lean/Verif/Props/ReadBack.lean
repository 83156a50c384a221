import Verif.Props.LocaleRead
/-!
Property C143: integers written by `Format` and read as values of options (in the "C" locale).
-/
namespace SoDa
open Spec Opts

variable {V : Type}

/-- The number of characters of a number in decimal, with its sign. -/
def Spec.decimalChars (v : Int) : Nat := (Nat.toDigits 10 v.natAbs).length + if v < 0 then 1 else 0

/-- What `Format` writes for an integer is read by an option of a type that can hold it as that integer. -/
def C143_claim : Prop :=
  (∀ (bits : Nat) (v : Int) (w : Nat) (sep fill : Char), -2 ^ (bits - 1) ≤ v → v < 2 ^ (bits - 1) → extractSigned bits (textI v w sep fill) = .good v) ∧
  (∀ (bits v : Nat) (fmt : Char) (w : Nat) (sep : Char) (g : Nat), v < 2 ^ bits → extractUnsigned bits (textU v fmt w sep g) = .good v)

/-! ### Digits and what follows them -/

theorem scan_start {c : Char} {t : Str} (h : isSpace c = false) : scanInt (c :: t) =
    if ((if c = '-' ∨ c = '+' then t else c :: t).takeWhile Char.isDigit) = [] then .bad
    else .num (c == '-') (digitsVal ((if c = '-' ∨ c = '+' then t else c :: t).takeWhile Char.isDigit)) := by
  have : (c :: t).dropWhile isSpace = c :: t := by rw [List.dropWhile_cons, h]; rfl
  simp only [scanInt, this, List.isEmpty_cons, Bool.false_eq_true, if_false, List.head?_cons, Option.some_beq_some, Bool.or_eq_true,
    beq_iff_eq, List.drop_succ_cons, List.drop_zero, List.isEmpty_iff]

theorem scan_space {c : Char} {t : Str} (h : isSpace c = true) : scanInt (c :: t) = scanInt t := by
  have : (c :: t).dropWhile isSpace = t.dropWhile isSpace := by rw [List.dropWhile_cons, h]; rfl
  simp only [scanInt, this]

theorem scan_other {c : Char} {t : Str} (h : isSpace c = false) (hs : ¬ (c = '-' ∨ c = '+')) (hd : c.isDigit = false) :
    scanInt (c :: t) = .bad := by
  have : (c :: t).takeWhile Char.isDigit = [] := by rw [List.takeWhile_cons, hd]; rfl
  rw [scan_start h, if_neg hs, this, if_pos rfl]

theorem scan_sign {c : Char} {t : Str} (hd : c.isDigit = false) : scanInt ('-' :: c :: t) = .bad := by
  have : (c :: t).takeWhile Char.isDigit = [] := by rw [List.takeWhile_cons, hd]; rfl
  rw [scan_start (by decide), if_pos (Or.inl rfl), this, if_pos rfl]

theorem takeWhile_run (ds t : Str) (hd : ∀ c ∈ ds, c.isDigit = true) (ht : ∀ c, t.head? = some c → c.isDigit = false) :
    (ds ++ t).takeWhile Char.isDigit = ds := by
  induction ds with
  | nil =>
    cases t with
    | nil => rfl
    | cons c t => rw [List.nil_append, List.takeWhile_cons, ht c rfl]; rfl
  | cons c ds ih =>
    rw [List.cons_append, List.takeWhile_cons, hd c (by simp), if_pos rfl, ih fun x hx => hd x (by simp [hx])]

/-- Digits and what follows them, after an optional sign. -/
theorem scan_digits (neg : Bool) (ds t : Str) (hne : ds ≠ []) (hd : ∀ c ∈ ds, c.isDigit = true)
    (ht : ∀ c, t.head? = some c → c.isDigit = false) :
    scanInt ((if neg then ['-'] else []) ++ (ds ++ t)) = .num neg (digitsVal ds) := by
  obtain ⟨c, cs, rfl⟩ := List.exists_cons_of_ne_nil hne
  have hc := hd c (by simp)
  have h1 : c ≠ '-' := by rintro rfl; revert hc; decide
  have h2 : c ≠ '+' := by rintro rfl; revert hc; decide
  have hr := takeWhile_run (c :: cs) t hd ht
  cases neg with
  | false =>
    rw [if_neg Bool.false_ne_true, List.nil_append, List.cons_append, scan_start (digit_not_space hc), if_neg (show ¬ (c = '-' ∨ c = '+') by simp [h1, h2]),
      ← List.cons_append, hr, if_neg hne]
    congr 1
    simpa using h1
  | true =>
    rw [if_pos rfl, List.singleton_append, scan_start (by decide), if_pos (Or.inl rfl), hr, if_neg hne]
    rfl

theorem good_signed {bits : Nat} {s : Str} {v : Int} : extractSigned bits s = .good v ↔
    ∃ neg m, scanInt s = .num neg m ∧ v = (if neg then -(m : Int) else m) ∧ -2 ^ (bits - 1) ≤ v ∧ v < 2 ^ (bits - 1) := by
  unfold extractSigned
  cases hs : scanInt s with
  | blank => simp
  | bad => simp
  | num neg m =>
    simp only [IntScan.num.injEq]
    generalize hx : (if neg = true then -(m : Int) else m) = x
    constructor
    · intro h
      split at h
      · cases h
      · split at h
        · cases h
        · cases h
          exact ⟨neg, m, ⟨rfl, rfl⟩, hx.symm, by omega, by omega⟩
    · rintro ⟨_, _, ⟨rfl, rfl⟩, rfl, h1, h2⟩
      rw [hx] at h1 h2 ⊢
      rw [if_neg (by omega), if_neg (by omega)]

theorem showInt_cases (v : Int) : showInt v = (if decide (v < 0) then ['-'] else []) ++ Nat.toDigits 10 v.natAbs := by
  cases v with
  | ofNat n => simp [showInt]
  | negSucc n => simp [showInt]

theorem showInt_length (v : Int) : (showInt v).length = decimalChars v := by
  rw [showInt_cases, decimalChars]
  by_cases h : v < 0 <;> simp [h]

theorem signed_abs (v : Int) : (if decide (v < 0) = true then -(v.natAbs : Int) else v.natAbs) = v := by
  by_cases h0 : v < 0
  · rw [if_pos (by simpa using h0)]; omega
  · rw [if_neg (by simpa using h0)]; omega

theorem scan_showInt (v : Int) (t : Str) (ht : ∀ c, t.head? = some c → c.isDigit = false) :
    scanInt (showInt v ++ t) = .num (decide (v < 0)) v.natAbs := by
  rw [showInt_cases, List.append_assoc, scan_digits _ _ _ Nat.toDigits_ne_nil (toDigits_isDigit _) ht, digitsVal_toDigits]

theorem digitsVal_replicate (c : Char) (hc : c.isDigit = true) (k : Nat) : digitsVal (List.replicate (k + 1) c) = 0 ↔ c = '0' := by
  constructor
  · intro h
    rw [List.replicate_succ, ← List.singleton_append, digitsVal_append, Nat.add_eq_zero_iff] at h
    have h1 : digitsVal [c] = 0 := by
      rcases Nat.mul_eq_zero.1 h.1 with h | h
      · exact h
      · exact absurd h (by positivity)
    simp only [digitsVal, List.foldl_cons, List.foldl_nil, Nat.mul_zero, Nat.zero_add] at h1
    simp only [Char.isDigit, Bool.and_eq_true, decide_eq_true_eq] at hc
    have h48 : 48 ≤ c.toNat := hc.1
    apply Char.toNat_inj.1
    show c.toNat = 48
    omega
  · rintro rfl
    induction k with
    | zero => rfl
    | succ k ih =>
      rw [List.replicate_succ, ← List.singleton_append, digitsVal_append, ih]
      simp [digitsVal]

/-! ### addI -/

/-- `addI` without a separator: the number is read back exactly if it is not padded, or padded with white space, or (if it is not negative)
with zeros or a single plus sign, or is a zero padded with a single minus sign. -/
theorem C143_addI_exact (bits : Nat) (v : Int) (h1 : -2 ^ (bits - 1) ≤ v) (h2 : v < 2 ^ (bits - 1)) (w : Nat) (hw : w < 2 ^ 31) (fill : Char)
    (hf : fill ≠ nul) :
    extractSigned bits (textI v w nul fill) = .good v ↔
      w ≤ decimalChars v ∨ isSpace fill = true ∨ (fill = '0' ∧ 0 ≤ v) ∨
      (w = decimalChars v + 1 ∧ ((fill = '+' ∧ 0 ≤ v) ∨ (fill = '-' ∧ v = 0))) := by
  rw [← showInt_length]
  have hw' : (if w ≠ 0 then setwWidth w else 0) = w := by
    by_cases h0 : w = 0
    · simp [h0]
    · rw [if_pos h0, setwWidth, if_pos (by simp only [u32]; omega)]
      simp only [u32]; omega
  have htx : textI v w nul fill = List.replicate (w - (showInt v).length) fill ++ showInt v := by
    simp only [textI, if_true, padLeft, ne_eq, hf, not_false_eq_true] at hw' ⊢
    rw [hw']
  rw [htx, good_signed]
  have self : scanInt (showInt v) = .num (decide (v < 0)) v.natAbs := by
    have := scan_showInt v [] (by simp)
    rwa [List.append_nil] at this
  have hsv : ∀ c, (showInt v).head? = some c → c = '-' ∧ v < 0 ∨ c.isDigit = true ∧ 0 ≤ v := by
    intro c hc
    rw [showInt_cases] at hc
    by_cases h0 : v < 0
    · simp only [h0, decide_true, if_true, List.singleton_append, List.head?_cons, Option.some.injEq] at hc
      exact .inl ⟨hc.symm, h0⟩
    · simp only [h0, decide_false, Bool.false_eq_true, if_false, List.nil_append] at hc
      exact .inr ⟨toDigits_isDigit _ _ (List.mem_of_mem_head? hc), by omega⟩
  obtain ⟨k, hk⟩ : ∃ k, w - (showInt v).length = k := ⟨_, rfl⟩
  rw [hk]
  rcases k with _ | k
  · rw [List.replicate_zero, List.nil_append, self]
    refine iff_of_true ⟨_, _, rfl, (signed_abs v).symm, h1, h2⟩ (.inl (by omega))
  · have hle : ¬ w ≤ (showInt v).length := by omega
    simp only [hle, false_or]
    by_cases hsp : isSpace fill = true
    · have : ∀ k, scanInt (List.replicate k fill ++ showInt v) = scanInt (showInt v) := fun k => by
        induction k with
        | zero => rfl
        | succ k ih => rw [List.replicate_succ, List.cons_append, scan_space hsp, ih]
      rw [this, self]
      exact iff_of_true ⟨_, _, rfl, (signed_abs v).symm, h1, h2⟩ (.inl hsp)
    simp only [hsp, Bool.false_eq_true, false_or]
    have hsp' : isSpace fill = false := by simpa using hsp
    by_cases hdg : fill.isDigit = true
    · have hp : fill ≠ '+' := by rintro rfl; revert hdg; decide
      have hm : fill ≠ '-' := by rintro rfl; revert hdg; decide
      simp only [hp, hm, false_and, or_self, and_false, or_false]
      have hrep : ∀ c ∈ List.replicate (k + 1) fill, c.isDigit = true := fun c hc => by rw [List.eq_of_mem_replicate hc]; exact hdg
      by_cases h0 : v < 0
      · have := scan_digits false (List.replicate (k + 1) fill) (showInt v) (by simp) hrep
          (fun c hc => by rcases hsv c hc with ⟨rfl, -⟩ | h; exacts [by decide, by omega])
        rw [if_neg Bool.false_ne_true, List.nil_append] at this
        rw [this]
        refine iff_of_false ?_ (by omega)
        rintro ⟨_, _, h, he, -⟩
        cases h
        simp only [Bool.false_eq_true, if_false] at he
        omega
      · have hs : showInt v = Nat.toDigits 10 v.natAbs := by
          rw [showInt_cases]; simp [h0]
        have := scan_digits false (List.replicate (k + 1) fill ++ showInt v) [] (by simp)
          (fun c hc => by
            rcases List.mem_append.1 hc with hc | hc
            · exact hrep c hc
            · exact toDigits_isDigit _ _ (hs ▸ hc)) (by simp)
        rw [if_neg Bool.false_ne_true, List.nil_append, List.append_nil, digitsVal_append] at this
        rw [this, hs, digitsVal_toDigits]
        have hv : (v.natAbs : Int) = v := by omega
        constructor
        · rintro ⟨_, _, h, he, -⟩
          cases h
          simp only [Bool.false_eq_true, if_false] at he
          have hz : digitsVal (List.replicate (k + 1) fill) * 10 ^ (Nat.toDigits 10 v.natAbs).length = 0 := by omega
          rcases Nat.mul_eq_zero.1 hz with hz | hz
          · exact ⟨(digitsVal_replicate fill hdg k).1 hz, by omega⟩
          · exact absurd hz (by positivity)
        · rintro ⟨hz, -⟩
          rw [(digitsVal_replicate fill hdg k).2 hz, Nat.zero_mul, Nat.zero_add]
          exact ⟨_, _, rfl, by simp [hv], h1, h2⟩
    · have hz : fill ≠ '0' := by rintro rfl; exact hdg (by decide)
      simp only [hz, false_and, false_or]
      rw [List.replicate_succ, List.cons_append, scan_start hsp']
      by_cases hsg : fill = '-' ∨ fill = '+'
      · rw [if_pos hsg]
        rcases k with _ | k
        · rw [List.replicate_zero, List.nil_append]
          have hwk : w = (showInt v).length + 1 := by omega
          simp only [hwk, true_and]
          by_cases h0 : v < 0
          · have hnil : (showInt v).takeWhile Char.isDigit = [] := by
              rw [showInt_cases]
              simp [h0]
            rw [hnil, if_pos rfl]
            refine iff_of_false (by simp) (by omega)
          · have hs : showInt v = Nat.toDigits 10 v.natAbs := by
              rw [showInt_cases]; simp [h0]
            have hr := takeWhile_run (Nat.toDigits 10 v.natAbs) [] (toDigits_isDigit _) (by simp)
            rw [List.append_nil] at hr
            rw [hs, hr, if_neg Nat.toDigits_ne_nil, digitsVal_toDigits]
            have hv : (v.natAbs : Int) = v := by omega
            constructor
            · rintro ⟨_, _, h, he, -⟩
              cases h
              rcases hsg with rfl | rfl
              · simp only [BEq.rfl, if_true] at he
                exact .inr ⟨rfl, by omega⟩
              · exact .inl ⟨rfl, by omega⟩
            · rintro (⟨rfl, -⟩ | ⟨rfl, rfl⟩)
              · exact ⟨_, _, rfl, by simp [hv], h1, h2⟩
              · exact ⟨_, _, rfl, by simp, h1, h2⟩
        · have hwk : ¬ w = (showInt v).length + 1 := by omega
          have hnil : (List.replicate (k + 1) fill ++ showInt v).takeWhile Char.isDigit = [] := by
            rw [List.replicate_succ, List.cons_append, List.takeWhile_cons, if_neg hdg]
          rw [hnil, if_pos rfl]
          simp [hwk]
      · rw [if_neg hsg, List.takeWhile_cons, if_neg hdg, if_pos rfl]
        simp only [not_or] at hsg
        simp [hsg]

/-- Reading the first digits of a number as that number. -/
theorem first_digits {a b : Str} {m : Nat} (h : digitsVal (a ++ b) = m) (hb : b ≠ []) (he : digitsVal a = m) : m = 0 := by
  rw [digitsVal_append, he] at h
  have hp : 10 ≤ 10 ^ b.length := by
    calc 10 = 10 ^ 1 := rfl
    _ ≤ 10 ^ b.length := Nat.pow_le_pow_right (by omega) (List.length_pos_iff.2 hb)
  have : m * 10 ≤ m * 10 ^ b.length := Nat.mul_le_mul_left _ hp
  omega

/-- `addI` with a separator that is no digit, padded with blanks: the number is read back exactly if it has no separator (also the sign
counts, C12). -/
theorem C143_addI_sep_exact (bits : Nat) (v : Int) (h1 : -2 ^ (bits - 1) ≤ v) (h2 : v < 2 ^ (bits - 1)) (w : Nat) (sep : Char)
    (hsep : sep ≠ nul) (hd : sep.isDigit = false) :
    extractSigned bits (textI v w sep nul) = .good v ↔ decimalChars v ≤ 3 := by
  rw [← showInt_length]
  have htx : ∃ k, textI v w sep nul = List.replicate k ' ' ++ ((showInt v).reverse.foldl (addISepStep sep) ([], 0)).1 := by
    simp only [textI, hsep, if_false, padLeft]
    exact ⟨_, rfl⟩
  obtain ⟨k, htx⟩ := htx
  have hsp : ∀ (k : Nat) (s : Str), scanInt (List.replicate k ' ' ++ s) = scanInt s := fun k s => by
    induction k with
    | zero => rfl
    | succ k ih => rw [List.replicate_succ, List.cons_append, scan_space (by decide), ih]
  obtain ⟨chunks, g1, g2, g3, g4⟩ := sepI_grouped sep (showInt v)
  rw [htx, good_signed, hsp, g4]
  match chunks, g1, g2, g3 with
  | [], g1, _, _ =>
    exfalso
    have : showInt v ≠ [] := by
      rw [showInt_cases]
      simp
    exact this g1.symm
  | [a], g1, _, g3 =>
    have ha : a = showInt v := by simpa using g1
    subst ha
    have self : scanInt (showInt v) = .num (decide (v < 0)) v.natAbs := by
      have := scan_showInt v [] (by simp)
      rwa [List.append_nil] at this
    have hi : List.intercalate [sep] [showInt v] = showInt v := by simp [List.intercalate]
    rw [hi, self]
    exact iff_of_true ⟨_, _, rfl, (signed_abs v).symm, h1, h2⟩ (g3 _ rfl).2
  | a :: b :: cs, g1, g2, g3 =>
    have ha := (g3 a rfl).1
    have hb : b.length = 3 := g2 b (by simp)
    have hlen : ¬ (showInt v).length ≤ 3 := by
      rw [← g1]
      simp only [List.flatten_cons, List.length_append]
      omega
    refine iff_of_false ?_ hlen
    have hi : List.intercalate [sep] (a :: b :: cs) = a ++ sep :: List.intercalate [sep] (b :: cs) := by
      cases cs <;> simp [List.intercalate, List.intersperse]
    rw [hi]
    generalize List.intercalate [sep] (b :: cs) = t
    have hstop : ∀ c, (sep :: t).head? = some c → c.isDigit = false := fun c hc => by
      cases hc
      exact hd
    have hbne : b ++ cs.flatten ≠ [] := by
      intro h
      have := congrArg List.length h
      simp only [List.length_append, List.length_nil] at this
      omega
    rintro ⟨neg, m, hs, hv, -⟩
    have hne0 : v ≠ 0 := by
      rintro rfl
      exact hlen (by decide)
    by_cases h0 : v < 0
    · rw [showInt_cases] at g1
      simp only [h0, decide_true, if_true, List.singleton_append, List.flatten_cons] at g1
      obtain ⟨x, xs, rfl⟩ := List.exists_cons_of_ne_nil (List.length_pos_iff.1 ha)
      simp only [List.cons_append, List.cons.injEq] at g1
      obtain ⟨rfl, g1⟩ := g1
      have hxs : ∀ c ∈ xs, c.isDigit = true := fun c hc => toDigits_isDigit v.natAbs c (by rw [← g1]; simp [hc])
      by_cases hx : xs = []
      · subst hx
        rw [List.cons_append, List.nil_append, scan_sign hd] at hs
        cases hs
      · have := scan_digits true xs (sep :: t) hx hxs hstop
        rw [if_pos rfl, List.singleton_append] at this
        rw [List.cons_append, this] at hs
        cases hs
        simp only [if_true] at hv
        have := first_digits (m := v.natAbs) (by rw [g1, digitsVal_toDigits]) hbne (by omega)
        omega
    · rw [showInt_cases] at g1
      simp only [h0, decide_false, Bool.false_eq_true, if_false, List.nil_append, List.flatten_cons] at g1
      have hxs : ∀ c ∈ a, c.isDigit = true := fun c hc => toDigits_isDigit v.natAbs c (by rw [← g1]; simp [hc])
      have := scan_digits false a (sep :: t) (List.length_pos_iff.1 ha) hxs hstop
      rw [if_neg Bool.false_ne_true, List.nil_append] at this
      rw [this] at hs
      cases hs
      simp only [Bool.false_eq_true, if_false] at hv
      have := first_digits (m := v.natAbs) (by rw [g1, digitsVal_toDigits]) hbne (by omega)
      omega

/-! ### addU -/

theorem good_unsigned {bits : Nat} {s : Str} {m : Nat} (h : scanInt s = .num false m) (v : Int) : extractUnsigned bits s = .good v ↔
    v = m ∧ m < 2 ^ bits := by
  unfold extractUnsigned
  rw [h]
  simp only [Bool.false_eq_true, if_false]
  constructor
  · intro h
    split at h
    · cases h
    · cases h
      exact ⟨rfl, by omega⟩
  · rintro ⟨rfl, h⟩
    rw [if_neg (by omega)]

/-- The prefix stays in front whatever the separator and the size of the groups. -/
theorem textU_prefix (v w g : Nat) (fmt sep : Char) : ∃ out, textU v fmt w sep g = unsignedPrefix fmt ++ out := by
  obtain ⟨body, hb⟩ := textU_nul_prefix v w g fmt
  by_cases hsep : sep = nul
  · subst hsep
    exact ⟨body, hb⟩
  · rw [textU_sep_eq v w g fmt sep hsep body hb, List.reverse_append, List.foldl_append]
    generalize hx : List.foldl (addUSepStep sep g (body.length : Int)) ([], 0, 0) body.reverse = x
    obtain ⟨a, i, cc⟩ := x
    have hcc : ∀ (r : Str) (a : Str) (i cc : Nat), (r.foldl (addUSepStep sep g (body.length : Int)) (a, i, cc)).2.2 = cc + r.length := by
      intro r
      induction r with
      | nil => intro a i cc; rfl
      | cons c r ih =>
        intro a i cc
        rw [List.foldl_cons, List.length_cons]
        simp only [addUSepStep]
        rw [ih]
        omega
    have := hcc body.reverse [] 0 0
    rw [hx] at this
    rw [sepU_tail _ _ _ _ _ _ _ (by simp at this ⊢; omega), List.reverse_reverse]
    exact ⟨_, rfl⟩

/-- Hexadecimal: with any width, separator and size of groups, the text is read as 0. -/
theorem C143_hex (bits v w g : Nat) (fmt sep : Char) (hfmt : fmt ∈ ['x', 'X', 'h', 'H']) :
    extractUnsigned bits (textU v fmt w sep g) = .good 0 ∧
    (extractUnsigned bits (textU v fmt w sep g) = .good v ↔ v = 0) := by
  obtain ⟨out, h⟩ := textU_prefix v w g fmt sep
  have hp : unsignedPrefix fmt = ['0', 'x'] := by
    simp only [unsignedPrefix, if_pos hfmt]
    rfl
  have hs : scanInt (textU v fmt w sep g) = .num false 0 := by
    rw [h, hp]
    exact scan_digits false ['0'] ('x' :: out) (by simp) (by simp) (by simp)
  rw [good_unsigned hs, good_unsigned hs]
  have : 0 < 2 ^ bits := by positivity
  simp [this]

/-- An option of an unsigned type: the hexadecimal text of a number is accepted, and the value is 0. -/
theorem C143_hex_option (bits : Nat) (inj : Int → V) (o : Options V) (ho : Ready o) (sw : Str) (i : Nat)
    (d : Decl V) (hd : Denotes o.decls sw i d) (hh : ¬ HelpSwitch sw) (hk : d.kind = .scalar)
    (hr : d.read = (uintTy bits inj).read) (ht : ∀ v, d.test v = true)
    (v w g : Nat) (fmt sep : Char) (hfmt : fmt ∈ ['x', 'X', 'h', 'H']) :
    ∃ o', o.parse [sw, textU v fmt w sep g] = (o', true) ∧ o'.sc d.target = inj 0 := by
  obtain ⟨out, h⟩ := textU_prefix v w g fmt sep
  have hp : unsignedPrefix fmt = ['0', 'x'] := by
    simp only [unsignedPrefix, if_pos hfmt]
    rfl
  have hsw : ¬ SwitchLike (textU v fmt w sep g) := by
    rw [h, hp]
    rintro (⟨c, r, h, _⟩ | ⟨n, h, _⟩) <;> cases h
  have ha : Accepts d (textU v fmt w sep g) (inj 0) := by
    refine ⟨?_, ht _⟩
    rw [hr]
    simp only [uintTy, tyOf, (C143_hex bits v w g fmt sep hfmt).1]
  obtain ⟨o', e1, e2, _⟩ := parse_pair o ho hd hh (by simp [hk]) (.inr hsw) ha
  exact ⟨o', e1, e2 hk⟩

theorem octal_grows (v : Nat) : v ≤ digitsVal (Nat.toDigits 8 v) ∧ (digitsVal (Nat.toDigits 8 v) = v ↔ v < 8) := by
  induction v using Nat.strongRecOn with
  | _ v ih =>
    by_cases h8 : v < 8
    · interval_cases v <;> decide
    · have hlt : v / 8 < v := Nat.div_lt_self (by omega) (by omega)
      obtain ⟨i1, -⟩ := ih _ hlt
      have hdig : digitsVal [Nat.digitChar (v % 8)] = v % 8 := by
        have : v % 8 < 8 := Nat.mod_lt _ (by omega)
        generalize v % 8 = r at this
        interval_cases r <;> decide
      have he : digitsVal (Nat.toDigits 8 v) = digitsVal (Nat.toDigits 8 (v / 8)) * 10 + v % 8 := by
        rw [Nat.toDigits_of_base_le (by omega) (by omega), digitsVal_append, hdig]
        rfl
      rw [he]
      have := Nat.div_add_mod v 8
      have h1 : 1 ≤ v / 8 := by omega
      constructor
      · omega
      · constructor
        · intro _; omega
        · intro h; omega

/-- Octal without separators: the text is read in decimal; the number is read back exactly if it has one digit. -/
theorem C143_oct_exact (bits v w g : Nat) (fmt : Char) (hfmt : fmt = 'o' ∨ fmt = 'O') (hv : v < 2 ^ bits) :
    extractUnsigned bits (textU v fmt w nul g) = .good v ↔ v < 8 := by
  have htx : ∃ k, textU v fmt w nul g = List.replicate k '0' ++ Nat.toDigits 8 v := by
    have hx : ¬ (fmt = 'x' ∨ fmt = 'X' ∨ fmt = 'h' ∨ fmt = 'H') := by rcases hfmt with rfl | rfl <;> decide
    simp only [textU, hx, hfmt, if_true, if_false, toOct, padLeft, showOctBase]
    by_cases h0 : v = 0
    · rw [if_pos h0]
      exact ⟨_, rfl⟩
    · rw [if_neg h0]
      refine ⟨setwWidth w - ('0' :: Nat.toDigits 8 v).length + 1, ?_⟩
      rw [List.replicate_succ', List.append_assoc, List.singleton_append]
  obtain ⟨k, htx⟩ := htx
  have hdd : ∀ c ∈ Nat.toDigits 8 v, c.isDigit = true := fun c hc => by
    obtain ⟨d, hd, rfl⟩ := mem_toDigits 8 (by omega) v c hc
    exact digitChar_ten_isDigit (by omega)
  have hz : digitsVal (List.replicate k '0') = 0 := by
    cases k with
    | zero => rfl
    | succ k => exact (digitsVal_replicate '0' (by decide) k).2 rfl
  have hs : scanInt (textU v fmt w nul g) = .num false (digitsVal (Nat.toDigits 8 v)) := by
    have := scan_digits false (List.replicate k '0' ++ Nat.toDigits 8 v) [] (by simp [Nat.toDigits_ne_nil])
      (fun c hc => by
        rcases List.mem_append.1 hc with hc | hc
        · rw [List.eq_of_mem_replicate hc]; decide
        · exact hdd c hc) (by simp)
    rw [if_neg Bool.false_ne_true, List.nil_append, List.append_nil, digitsVal_append, hz, Nat.zero_mul, Nat.zero_add] at this
    rw [htx, this]
  rw [good_unsigned hs]
  have := (octal_grows v).2
  constructor
  · rintro ⟨h, -⟩
    exact this.1 (by exact_mod_cast h.symm)
  · intro h
    rw [this.2 h]
    exact ⟨rfl, hv⟩

/-- Decimal with a separator that is no digit, sign or white space: the padding gets separators too, and the number is read back exactly if
there are none at all. -/
theorem C143_dec_exact (bits v w g : Nat) (fmt sep : Char) (hfmt : fmt ∉ ['x', 'X', 'h', 'H', 'o', 'O']) (hv : v < 2 ^ bits)
    (hw : w < 2 ^ 31) (hg : 1 ≤ g) (hd : sep.isDigit = false) (hsgn : sep ≠ '-' ∧ sep ≠ '+') (hsp : isSpace sep = false) :
    extractUnsigned bits (textU v fmt w sep g) = .good v ↔ sep = nul ∨ max w (Nat.toDigits 10 v).length ≤ g := by
  simp only [List.mem_cons, List.not_mem_nil, or_false, not_or] at hfmt
  have hw' : (if w ≠ 0 then setwWidth w else 0) = w := by
    by_cases h0 : w = 0
    · simp [h0]
    · rw [if_pos h0, setwWidth, if_pos (by simp only [u32]; omega)]
      simp only [u32]; omega
  have hsps : ∀ (k : Nat) (s : Str), scanInt (List.replicate k ' ' ++ s) = scanInt s := fun k s => by
    induction k with
    | zero => rfl
    | succ k ih => rw [List.replicate_succ, List.cons_append, scan_space (by decide), ih]
  have htx : textU v fmt w nul g = List.replicate (w - (Nat.toDigits 10 v).length) ' ' ++ Nat.toDigits 10 v := by
    simp only [textU, padLeft, hfmt, or_self, if_false, if_true, hw']
  have hscan : ∀ k, scanInt (List.replicate k ' ' ++ Nat.toDigits 10 v) = .num false v := fun k => by
    have := scan_digits false (Nat.toDigits 10 v) [] Nat.toDigits_ne_nil (toDigits_isDigit _) (by simp)
    rw [if_neg Bool.false_ne_true, List.nil_append, List.append_nil, digitsVal_toDigits] at this
    rw [hsps, this]
  by_cases hsep : sep = nul
  · subst hsep
    rw [htx, good_unsigned (hscan _)]
    exact iff_of_true ⟨rfl, hv⟩ (.inl rfl)
  simp only [hsep, false_or]
  have hpre : unsignedPrefix fmt = [] := by
    simp only [unsignedPrefix, List.mem_cons, List.not_mem_nil, hfmt, or_self, if_false]
  obtain ⟨out, ⟨chunks, g1, g2, g3, g4⟩, e⟩ := sepU_grouped sep g hg (unsignedPrefix fmt) (textU v fmt w nul g)
  rw [← textU_sep_eq v w g fmt sep hsep _ (by rw [hpre]; rfl), hpre, List.nil_append, g4] at e
  rw [e]
  rw [htx] at g1
  have hlen : (List.replicate (w - (Nat.toDigits 10 v).length) ' ' ++ Nat.toDigits 10 v).length = max w (Nat.toDigits 10 v).length := by
    simp only [List.length_append, List.length_replicate]
    omega
  match chunks, g1, g2, g3 with
  | [], g1, _, _ =>
    exfalso
    have := congrArg List.length g1
    rw [hlen] at this
    have h0 : 0 < (Nat.toDigits 10 v).length := List.length_pos_iff.2 Nat.toDigits_ne_nil
    simp only [List.flatten_nil, List.length_nil] at this
    omega
  | [a], g1, _, g3 =>
    have ha : a = List.replicate (w - (Nat.toDigits 10 v).length) ' ' ++ Nat.toDigits 10 v := by simpa using g1
    have hi : List.intercalate [sep] [a] = a := by simp [List.intercalate]
    rw [hi, ha, good_unsigned (hscan _)]
    refine iff_of_true ⟨rfl, hv⟩ ?_
    rw [← hlen, ← ha]
    exact (g3 _ rfl).2
  | a :: b :: cs, g1, g2, g3 =>
    have hb : b.length = g := g2 b (by simp)
    have hl : ¬ max w (Nat.toDigits 10 v).length ≤ g := by
      rw [← hlen, ← g1]
      have := (g3 a rfl).1
      simp only [List.flatten_cons, List.length_append]
      omega
    refine iff_of_false ?_ hl
    have hi : List.intercalate [sep] (a :: b :: cs) = a ++ sep :: List.intercalate [sep] (b :: cs) := by
      cases cs <;> simp [List.intercalate, List.intersperse]
    rw [hi]
    generalize List.intercalate [sep] (b :: cs) = t
    have hbne : b ++ cs.flatten ≠ [] := by
      intro h
      have := congrArg List.length h
      simp only [List.length_append, List.length_nil] at this
      omega
    simp only [List.flatten_cons] at g1
    rcases List.append_eq_append_iff.1 g1 with ⟨x, hx, -⟩ | ⟨x, hx, hx'⟩
    · have har : a = List.replicate a.length ' ' := by
        refine List.eq_replicate_iff.2 ⟨rfl, fun c hc => ?_⟩
        exact List.eq_of_mem_replicate (hx ▸ List.mem_append_left x hc)
      have hs : scanInt (a ++ sep :: t) = .bad := by
        rw [har, hsps, scan_other hsp (by simp [hsgn]) hd]
      unfold extractUnsigned
      rw [hs]
      simp
    · subst hx
      by_cases hx0 : x = []
      · subst hx0
        have hs : scanInt (List.replicate (w - (Nat.toDigits 10 v).length) ' ' ++ [] ++ sep :: t) = .bad := by
          rw [List.append_nil, hsps, scan_other hsp (by simp [hsgn]) hd]
        unfold extractUnsigned
        rw [hs]
        simp
      · have hxs : ∀ c ∈ x, c.isDigit = true := fun c hc => toDigits_isDigit v c (by rw [hx']; simp [hc])
        have := scan_digits false x (sep :: t) hx0 hxs (fun c hc => by cases hc; exact hd)
        rw [if_neg Bool.false_ne_true, List.nil_append] at this
        have hs : scanInt (List.replicate (w - (Nat.toDigits 10 v).length) ' ' ++ x ++ sep :: t) = .num false (digitsVal x) := by
          rw [List.append_assoc, hsps, this]
        rw [good_unsigned hs]
        rintro ⟨he, -⟩
        have hz := first_digits (m := v) (by rw [← hx', digitsVal_toDigits]) hbne (by exact_mod_cast he.symm)
        subst hz
        have h1 := congrArg List.length hx'
        have h2 := List.length_pos_iff.2 hx0
        have h3 := List.length_pos_iff.2 hbne
        rw [List.length_append] at h1
        have : (Nat.toDigits 10 0).length = 1 := by decide
        omega

/-! ### Concrete cases -/

/-- Padding with zeros hides the sign, separators cut the number off, hexadecimal is 0 and octal is taken for decimal: all without a message;
only separators in the padding are noticed. -/
theorem C143_refuted : ¬ C143_claim ∧
    textI (-42) 6 nul '0' = "000-42".toList ∧ extractSigned 32 "000-42".toList = .good 0 ∧
    textI 1234567 0 ',' nul = "1,234,567".toList ∧ extractSigned 32 "1,234,567".toList = .good 1 ∧
    textI (-123) 0 ',' nul = "-,123".toList ∧ extractSigned 32 "-,123".toList = .bad ∧
    textU 255 'x' 4 nul 4 = "0x00ff".toList ∧ extractUnsigned 32 "0x00ff".toList = .good 0 ∧
    textU 493 'o' 0 nul 4 = "0755".toList ∧ extractUnsigned 32 "0755".toList = .good 755 ∧
    textU 5 'd' 8 ',' 4 = "    ,   5".toList ∧ extractUnsigned 32 "    ,   5".toList = .bad := by
  refine ⟨fun h => ?_, by decide +kernel, by decide +kernel, by decide +kernel, by decide +kernel, by decide +kernel, by decide +kernel,
    by decide +kernel, by decide +kernel, by decide +kernel, by decide +kernel, by decide +kernel, by decide +kernel⟩
  exact absurd (h.2 32 255 'x' 4 nul 4 (by norm_num)) (by decide +kernel)

/-- Zeros are read as they should if the number is not negative. -/
example : extractSigned 32 (textI 42 6 nul '0') = .good 42 :=
  (C143_addI_exact 32 42 (by norm_num) (by norm_num) 6 (by norm_num) '0' (by decide)).2 (.inr (.inr (.inl ⟨rfl, by norm_num⟩)))

example : extractSigned 32 (textI (-42) 6 nul '0') ≠ .good (-42) := fun h => by
  have := (C143_addI_exact 32 (-42) (by norm_num) (by norm_num) 6 (by norm_num) '0' (by decide)).1 h
  revert this
  decide +kernel

example : extractSigned 32 (textI (-99) 8 ',' nul) = .good (-99) :=
  (C143_addI_sep_exact 32 (-99) (by norm_num) (by norm_num) 8 ',' (by decide) (by decide)).2 (by decide +kernel)

example : extractUnsigned 32 (textU 1234 'd' 0 ',' 4) = .good 1234 :=
  (C143_dec_exact 32 1234 0 4 'd' ',' (by decide) (by norm_num) (by norm_num) (by norm_num) (by decide) (by decide) (by decide)).2
    (.inr (by decide +kernel))

example : extractUnsigned 32 (textU 7 'o' 5 nul 4) = .good 7 := (C143_oct_exact 32 7 5 4 'o' (.inl rfl) (by norm_num)).2 (by norm_num)

/-- `-c 0x000000ff` sets the option to 0. -/
example : ∃ o', intSample.parse ["-c".toList, textU 255 'x' 8 nul 4] = (o', true) ∧ o'.sc 1 = 0 :=
  C143_hex_option 32 id intSample intSample_ready _ 1 intSample.decls[1]
    (.short (c := 'c') (r := []) (by decide) (isLast_of_findAb intSample_ready.wf (by decide) rfl)) (not_help (by decide) (by decide))
    rfl rfl (fun _ => rfl) 255 8 4 'x' nul (by decide)

/-! ### Zeros before a number with separators (C130) -/

theorem spelled_mem {sep : Char} {p : Nat → Prop} {ds : Str} {c : Char} (h : c ∈ spelled sep p ds) : c ∈ ds ∨ c = sep := by
  induction ds with
  | nil => simp [spelled] at h
  | cons d ds ih =>
    rw [spelled] at h
    split at h
    · simp only [List.mem_cons] at h ⊢
      rcases h with h | h | h
      · exact .inl (.inl h)
      · exact .inr h
      · exact (ih h).imp .inr id
    · simp only [List.mem_cons] at h ⊢
      rcases h with h | h
      · exact .inl (.inl h)
      · exact (ih h).imp .inr id

theorem spelled_head {sep : Char} {p : Nat → Prop} {ds : Str} : (spelled sep p ds).head? = ds.head? := by
  cases ds with
  | nil => rfl
  | cons d ds => rw [spelled]; split <;> rfl

theorem spelled_only {sep : Char} (hsep : sep.isDigit = false) {p : Nat → Prop} {ds : Str} (hd : ∀ c ∈ ds, c.isDigit = true) :
    (spelled sep p ds).filter Char.isDigit = ds := by
  induction ds with
  | nil => rfl
  | cons d ds ih =>
    have ih := ih fun c hc => hd c (by simp [hc])
    have h1 := hd d (by simp)
    rw [spelled]
    split <;> simp [h1, hsep, ih]

theorem spelled_all {sep : Char} (hsep : sep.isDigit = false) {p : Nat → Prop} {ds : Str} :
    (∀ k, 0 < k → k < ds.length → ¬ p k) ∨ ¬ ∀ c ∈ spelled sep p ds, c.isDigit = true := by
  induction ds with
  | nil => left; intro k _ hk; simp at hk
  | cons d ds ih =>
    rw [spelled]
    by_cases hc : ds ≠ [] ∧ p ds.length
    · right
      rw [if_pos hc]
      intro h
      have := h sep (by simp)
      rw [hsep] at this
      cases this
    · rw [if_neg hc]
      rcases ih with ih | ih
      · left
        intro k h0 hk hp
        rw [List.length_cons] at hk
        by_cases he : k = ds.length
        · subst he
          exact hc ⟨List.length_pos_iff.1 h0, hp⟩
        · exact ih k h0 (by omega) hp
      · right
        exact fun h => ih fun c hc => h c (by simp [hc])

theorem spelled_zeros {sep : Char} (hsep : sep.isDigit = false) {p : Nat → Prop} {ds : Str} (hne : ds ≠ []) (hd : ∀ c ∈ ds, c.isDigit = true)
    (z : Nat) : spelled sep p (List.replicate z '0' ++ ds) = List.replicate z '0' ++ spelled sep p ds ↔
      ∀ k, ds.length ≤ k → k < ds.length + z → ¬ p k := by
  induction z with
  | zero => simp only [List.replicate_zero, List.nil_append, true_iff]; intro k h1 h2; omega
  | succ z ih =>
    rw [List.replicate_succ, List.cons_append, List.cons_append, spelled]
    have hne' : List.replicate z '0' ++ ds ≠ [] := by simp [hne]
    have hl : (List.replicate z '0' ++ ds).length = ds.length + z := by simp [Nat.add_comm]
    by_cases hc : p (ds.length + z)
    · rw [if_pos ⟨hne', hl ▸ hc⟩]
      refine iff_of_false (fun h => ?_) fun h => h _ (by omega) (by omega) hc
      simp only [List.cons.injEq, true_and] at h
      have h' := congrArg List.head? h
      rw [List.head?_cons] at h'
      have : sep.isDigit = true := by
        cases z with
        | zero =>
          rw [List.replicate_zero, List.nil_append, spelled_head] at h'
          exact hd sep (List.mem_of_mem_head? h'.symm)
        | succ z =>
          rw [List.replicate_succ, List.cons_append, List.head?_cons, Option.some.injEq] at h'
          rw [h']; rfl
      rw [hsep] at this
      cases this
    · rw [if_neg (fun h => hc (hl ▸ h.2)), List.cons.injEq, ih]
      constructor
      · rintro ⟨-, h⟩ k h1 h2
        by_cases he : k = ds.length + z
        · subst he; exact hc
        · exact h k h1 (by omega)
      · exact fun h => ⟨rfl, fun k h1 h2 => h k h1 (by omega)⟩

/-- `addI` with zeros as fill characters, numbers that are not negative: what is written in a locale is read back in it exactly if the
number has no separators, or the zeros need none. -/
theorem C130_zeros_exact {L : Locale} (h : Distinct L) (hg : L.grouping ≠ []) (hl : ∀ g ∈ L.grouping, 0 < g ∧ g < 127) (bits v : Nat)
    (hv : v < 2 ^ (bits - 1)) (w : Nat) (hw : w < 2 ^ 31) :
    L.extractSigned bits (L.textI v w nul '0') = .good v ↔
      (∀ k, 0 < k → k < (Nat.toDigits 10 v).length → ¬ IsCut L.grouping k) ∨
      (∀ k, (Nat.toDigits 10 v).length ≤ k →
        k < (Nat.toDigits 10 v).length + (w - (spelled L.thousands (IsCut L.grouping) (Nat.toDigits 10 v)).length) → ¬ IsCut L.grouping k) := by
  have hw' : (if w ≠ 0 then setwWidth w else 0) = w := by
    by_cases h0 : w = 0
    · simp [h0]
    · rw [if_pos h0, setwWidth, if_pos (by simp only [u32]; omega)]
      simp only [u32]; omega
  have hs : L.showInt v = spelled L.thousands (IsCut L.grouping) (Nat.toDigits 10 v) := by
    rw [Locale.showInt_eq, ← L.group_spelled]
    simp
  have htx : L.textI v w nul '0' =
      List.replicate (w - (spelled L.thousands (IsCut L.grouping) (Nat.toDigits 10 v)).length) '0' ++
        spelled L.thousands (IsCut L.grouping) (Nat.toDigits 10 v) := by
    simp only [Locale.textI, if_true, padLeft, hw', hs]
    rfl
  rw [htx]
  generalize w - (spelled L.thousands (IsCut L.grouping) (Nat.toDigits 10 v)).length = z
  have hdig := toDigits_isDigit v
  have hne : Nat.toDigits 10 v ≠ [] := Nat.toDigits_ne_nil
  have hzd : ∀ c ∈ List.replicate z '0' ++ Nat.toDigits 10 v, c.isDigit = true := fun c hc => by
    rcases List.mem_append.1 hc with hc | hc
    · rw [List.eq_of_mem_replicate hc]; decide
    · exact hdig c hc
  have hhead : ∀ c, (List.replicate z '0' ++ spelled L.thousands (IsCut L.grouping) (Nat.toDigits 10 v)).head? = some c → c.isDigit = true := by
    intro c hc
    cases z with
    | zero =>
      rw [List.replicate_zero, List.nil_append, spelled_head] at hc
      exact hdig c (List.mem_of_mem_head? hc)
    | succ z =>
      rw [List.replicate_succ, List.cons_append, List.head?_cons, Option.some.injEq] at hc
      rw [← hc]; rfl
  have key := (C130_grouped_exact h hg hl bits false (List.replicate z '0' ++ spelled L.thousands (IsCut L.grouping) (Nat.toDigits 10 v))
    (fun c hc => by
      rcases List.mem_append.1 hc with hc | hc
      · rw [List.eq_of_mem_replicate hc]; exact .inl (by decide)
      · exact (spelled_mem hc).imp (hdig c) id)
    (fun c hc => digit_not_space (hhead c hc)) v).1
  rw [if_neg Bool.false_ne_true, List.nil_append] at key
  rw [key]
  have hnum : numeral 10 (List.replicate z '0' ++ Nat.toDigits 10 v) = some v := by
    refine (numeral_ten _ _).2 ⟨by simp [hne], hzd, ?_⟩
    rw [digitsVal_append, digitsVal_toDigits]
    cases z with
    | zero => simp [digitsVal]
    | succ z => rw [(digitsVal_replicate '0' (by decide) z).2 rfl]; omega
  have hr1 : -2 ^ (bits - 1) ≤ (v : Int) := by
    have : (0 : Int) < 2 ^ (bits - 1) := by positivity
    omega
  have hr2 : (v : Int) < 2 ^ (bits - 1) := by exact_mod_cast hv
  constructor
  · rintro ⟨ds, m, hn, ht | ht, -⟩
    · left
      rcases spelled_all h.thousands (p := IsCut L.grouping) (ds := Nat.toDigits 10 v) with hh | hh
      · exact hh
      · exfalso
        refine hh fun c hc => ?_
        exact ((numeral_ten _ _).1 hn).2.1 c (ht ▸ List.mem_append_right _ hc)
    · right
      have hds := ((numeral_ten _ _).1 hn).2.1
      have he := congrArg (List.filter Char.isDigit) ht
      rw [List.filter_append, spelled_only h.thousands hdig, spelled_only h.thousands hds,
        List.filter_eq_self.2 (fun c hc => by rw [List.eq_of_mem_replicate hc]; decide)] at he
      rw [← he] at ht
      exact (spelled_zeros h.thousands hne hdig z).1 ht.symm
  · rintro (hh | hh)
    · refine ⟨_, v, hnum, .inl ?_, by simp, hr1, hr2⟩
      rw [spelled_none _ _ hh]
    · exact ⟨_, v, hnum, .inr ((spelled_zeros h.thousands hne hdig z).2 hh).symm, by simp, hr1, hr2⟩

/-- In an English locale 1234 is written as "0001,234" in a field of eight characters, which is refused; "001,234" is not. -/
example : english.textI 1234 8 nul '0' = "0001,234".toList ∧ english.extractSigned 32 "0001,234".toList = .over 1234 ∧
    english.extractSigned 32 (english.textI 1234 7 nul '0') = .good 1234 := by
  refine ⟨by decide +kernel, by decide +kernel, ?_⟩
  have hn : (Nat.toDigits 10 1234).length = 4 := by decide +kernel
  have hs : (spelled english.thousands (IsCut english.grouping) (Nat.toDigits 10 1234)).length = 5 := by
    rw [← Locale.group_spelled]; decide +kernel
  refine (C130_zeros_exact plain_english (by decide) (by decide) 32 1234 (by norm_num) 7 (by norm_num)).2 (.inr fun k h1 h2 => ?_)
  rw [hn] at h1 h2
  rw [hs] at h2
  rintro ⟨m, -, -, hm⟩
  have : ∀ j, groupSize [3] j = 3 := by intro j; cases j <;> simp [groupSize]
  rw [show english.grouping = [3] from rfl, show groupSize [3] = fun _ => 3 from funext this] at hm
  simp at hm
  omega

/-- Hexadecimal texts written in a locale are read in it as 0. -/
theorem C130_hex {L : Locale} (h : Distinct L) (hx : L.thousands ≠ 'x') (bits v w g : Nat) (fmt : Char)
    (hfmt : fmt ∈ ['x', 'X', 'h', 'H']) : L.extractUnsigned bits (L.textU v fmt w nul g) = .good 0 := by
  simp only [List.mem_cons, List.not_mem_nil, or_false] at hfmt
  have htx : L.textU v fmt w nul g =
      ['0'] ++ ('x' :: padLeft '0' (setwWidth w) (L.showHex (decide (fmt = 'X') || decide (fmt = 'H')) v)) := by
    simp only [Locale.textU, if_pos hfmt, if_true, Locale.toHex]
    rfl
  have hsc := Locale.scanInt_group h false ['0'] ('x' :: padLeft '0' (setwWidth w) (L.showHex (decide (fmt = 'X') || decide (fmt = 'H')) v))
    (by simp) (by simp) (by
      intro c hc
      cases hc
      exact ⟨hx.symm, by decide⟩)
  have hg : L.group ['0'] = ['0'] := by
    rw [L.group_spelled]
    simp [spelled]
  rw [hg, if_neg Bool.false_ne_true, List.nil_append, ← htx] at hsc
  simp only [Locale.extractUnsigned, hsc, show digitsVal ['0'] = 0 from rfl]
  have : 0 < 2 ^ bits := by positivity
  simp

example : indian.textU 305419896 'x' 0 nul 4 = "0x1,23,45,678".toList ∧ indian.extractUnsigned 32 (indian.textU 305419896 'x' 0 nul 4) = .good 0 :=
  ⟨by decide +kernel, C130_hex plain_indian (by decide) 32 _ _ _ 'x' (by decide)⟩

/-! ### Notation 'e' in a locale (C130) -/

theorem eng_chars {A : Arith} {fuel : Nat} {radix : Char} {neg : Bool} {q : ℚ} {w sig : Nat} {t : Str}
    (h : textF A fuel radix (.fin neg q) 'e' w sig = some (.ok t)) (c : Char) (hc : c ∈ t) :
    c.isDigit = true ∨ c ∈ ['-', '+', 'e', '.', ' '] ∨ q = 0 ∧ c = radix := by
  have hshow : ∀ (v : Int) (c : Char), c ∈ SoDa.showInt v → c.isDigit = true ∨ c ∈ ['-', '+', 'e', '.', ' '] := by
    intro v c hc
    rw [showInt_cases] at hc
    rcases List.mem_append.1 hc with hc | hc
    · split at hc
      · simp at hc; simp [hc]
      · simp at hc
    · exact .inl (toDigits_isDigit _ _ hc)
  simp only [textF, Char.reduceEq, if_false, if_true] at h
  by_cases h0 : q = 0
  · rw [if_pos h0] at h
    simp only [Option.some.injEq, Res.ok.injEq] at h
    subst h
    simp only [padRight, List.mem_append, List.mem_replicate, show "0".toList = ['0'] from rfl,
      show "e0".toList = ['e', '0'] from rfl, List.mem_cons, List.not_mem_nil, or_false] at hc
    rcases hc with ((rfl | rfl) | (rfl | ⟨-, rfl⟩)) | (rfl | rfl)
    · exact .inl (by decide)
    · exact .inr (.inr ⟨h0, rfl⟩)
    · exact .inl (by decide)
    · exact .inl (by decide)
    · exact .inr (.inl (by decide))
    · exact .inl (by decide)
  · rw [if_neg h0] at h
    cases hl : log1k A fuel q sig with
    | none => simp [hl] at h
    | some p =>
      cases hf : fractionate A fuel p.1 sig with
      | none => simp [hl, hf] at h
      | some r =>
        cases r with
        | ub => simp [hl, hf, Res.bind] at h
        | throw x => cases x
        | ok r =>
          simp only [hl, hf, Option.bind_some, Option.map_some, Res.bind, Option.some.injEq, Res.ok.injEq] at h
          subst h
          rw [← or_assoc]
          left
          simp only [engText, padRight, padLeft, List.mem_append] at hc
          rcases hc with ((((hc | hc | hc) | hc) | hc) | hc) | hc
          · rw [List.mem_singleton] at hc
            split at hc <;> simp [hc]
          · exact hshow _ _ hc
          · simp [List.eq_of_mem_replicate hc]
          · split at hc
            · simp only [List.mem_cons, List.mem_append] at hc
              rcases hc with rfl | hc | hc
              · simp
              · rw [List.eq_of_mem_replicate hc]; exact .inl (by decide)
              · exact hshow _ _ hc
            · simp at hc
          · rw [List.mem_singleton] at hc
            simp [hc]
          · split at hc <;>
            · simp only [List.mem_cons, List.mem_append] at hc
              rcases hc with rfl | hc | hc
              · simp
              · exact hshow _ _ hc
              · simp [List.eq_of_mem_replicate hc]
          · simp [List.eq_of_mem_replicate hc]

/-- Notation 'e', in a locale with the usual point whose separator is none of the other characters of the text: if there is nothing to
separate in the three numbers that the text is made of, what is written in the locale is read in it as what is written in the "C" locale is
read there. -/
theorem C130_engineering_partial {L : Locale} (h : Distinct L) (hp : L.point = '.') (A : Arith) (fuel : Nat) (radix : Char) (neg : Bool)
    (q : ℚ) (w sig : Nat) (ht : L.thousands ≠ '.' ∧ L.thousands ≠ ' ' ∧ L.thousands ≠ radix)
    (hn : ∀ m e r, q ≠ 0 → log1k A fuel q sig = some (m, e) → fractionate A fuel m sig = some (.ok r) →
      ∀ v ∈ [r.intPart, r.fracPart, e], ∀ k, 0 < k → k < (Nat.toDigits 10 v.natAbs).length → ¬ IsCut L.grouping k)
    (txt : Str) (htx : L.textF A fuel radix (.fin neg q) 'e' w sig = some (.ok txt)) (rnd : ℚ → Option ℚ) :
    textF A fuel radix (.fin neg q) 'e' w sig = some (.ok txt) ∧ L.extractReal rnd txt = (extractReal rnd txt, true) := by
  rw [C129_engineering_partial L A fuel radix neg q w sig hn] at htx
  refine ⟨htx, (C130_same_partial h txt (.inr fun hm => ?_)).2 (.inl hp) rnd⟩
  have h1 := h.thousands
  have h2 := h.thousands'
  rcases eng_chars htx _ hm with hc | hc | ⟨-, hc⟩
  · rw [h1] at hc; cases hc
  · simp only [List.mem_cons, List.not_mem_nil, or_false, not_or] at hc h2
    rcases hc with hc | hc | hc | hc | hc
    · exact h2.1 hc
    · exact h2.2.1 hc
    · exact h2.2.2.1 hc
    · exact ht.1 hc
    · exact ht.2.1 hc
  · exact ht.2.2 hc

/-- Three digits after the point do not need a separator; with six the English separator ends the number, and the exponent is lost: 1234567
is read as 1.234. -/
example : english.textF exactArith 100 '.' (.fin false 12345) 'e' 0 4 = some (.ok " 12.35e+3 ".toList) ∧
    english.extractReal some " 12.35e+3 ".toList = (.good (.fin false 12350), true) ∧
    english.textF exactArith 100 '.' (.fin false 1234567) 'e' 0 7 = some (.ok " 1.234,567e+6 ".toList) ∧
    english.extractReal some " 1.234,567e+6 ".toList = (.good (.fin false (1234 / 1000)), true) ∧
    extractReal some " 1.234567e+6 ".toList = .good (.fin false 1234567) :=
  ⟨by decide +kernel, by decide +kernel, by decide +kernel, by decide +kernel, by decide +kernel⟩

/-- The hypotheses of `C130_engineering_partial` are met: 12345 with four digits. -/
example : english.extractReal some " 12.35e+3 ".toList = (extractReal some " 12.35e+3 ".toList, true) := by
  refine (C130_engineering_partial plain_english rfl exactArith 100 '.' false 12345 0 4 ⟨by decide, by decide, by decide⟩ ?_
    " 12.35e+3 ".toList (by decide +kernel) some).2
  intro m e r _ hl hf v hv k h0 hk hc
  have h1 : log1k exactArith 100 12345 4 = some (some (247 / 20), 3) := by decide +kernel
  rw [h1] at hl
  cases hl
  have h2 : fractionate exactArith 100 (some (247 / 20)) 4 = some (.ok ⟨12, 35, 2, 2⟩) := by decide +kernel
  rw [h2] at hf
  cases hf
  obtain ⟨m, hm0, -, hm⟩ := hc
  have : ∀ j, groupSize [3] j = 3 := by intro j; cases j <;> simp [groupSize]
  rw [show english.grouping = [3] from rfl, show groupSize [3] = fun _ => 3 from funext this] at hm
  simp at hm
  simp only [List.mem_cons, List.not_mem_nil, or_false] at hv
  rcases hv with rfl | rfl | rfl <;> revert hk <;> simp [Nat.toDigits, Nat.toDigitsCore] <;> omega

end SoDa
