import Verif.Model.OptionsNum
import Verif.Proof.OptionsText
import Verif.Proof.Nearest
/-!
Auxiliary lemmas about option values: sized integers and `double`.
-/
namespace SoDa.Opts
open Spec

variable {V : Type}

/-! ### Integers -/

theorem scanInt_begins {s : Str} {ws sg ds rest : Str} (hs : s = ws ++ sg ++ ds ++ rest) (hws : ∀ c ∈ ws, White c)
    (hsg : sg = [] ∨ sg = ['+'] ∨ sg = ['-']) {m : Nat} (hm : numeral 10 ds = some m)
    (hrest : ∀ c, rest.head? = some c → ¬ ('0' ≤ c ∧ c ≤ '9')) :
    scanInt s = .num (decide (sg = ['-'])) m := by
  subst hs
  obtain ⟨hne, hds, rfl⟩ := (numeral_ten ds m).1 hm
  obtain ⟨d0, ds', rfl⟩ := List.exists_cons_of_ne_nil hne
  have hd0 := hds d0 (by simp)
  have hsp := digit_not_space hd0
  have hm0 : d0 ≠ '-' := by rintro rfl; simp [Char.isDigit] at hd0
  have hp0 : d0 ≠ '+' := by rintro rfl; simp [Char.isDigit] at hd0
  have hdrop : (ws ++ sg ++ (d0 :: ds') ++ rest).dropWhile isSpace = sg ++ (d0 :: ds') ++ rest := by
    rw [List.append_assoc, List.append_assoc,
      dropWhile_append_all _ _ _ fun x hx => (isSpace_iff x).2 (hws x hx)]
    rcases hsg with rfl | rfl | rfl
    · simp [hsp]
    · simp [isSpace]
    · simp [isSpace]
  have htake : ((d0 :: ds') ++ rest).takeWhile Char.isDigit = d0 :: ds' := by
    apply takeWhile_append_all _ _ _ hds
    intro x hx
    cases hx' : x.isDigit with
    | false => rfl
    | true => exact absurd ((isDigit_iff x).1 hx') (hrest x hx)
  simp only [scanInt, hdrop]
  rcases hsg with rfl | rfl | rfl
  · simp only [List.nil_append, List.cons_append, List.isEmpty_cons, List.head?_cons,
      Option.some_beq_some, beq_iff_eq, hm0, hp0, Bool.or_eq_true, or_self, if_false,
      Bool.false_eq_true] at htake ⊢
    rw [htake]
    simp [hm0]
  · simp only [List.nil_append, List.cons_append, List.isEmpty_cons, List.head?_cons,
      Bool.false_eq_true, if_false, List.drop_succ_cons, List.drop_zero] at htake ⊢
    simp [htake]
  · simp only [List.nil_append, List.cons_append, List.isEmpty_cons, List.head?_cons,
      Bool.false_eq_true, if_false, List.drop_succ_cons, List.drop_zero] at htake ⊢
    simp [htake]

/-- Splitting off the sign. -/
theorem sign_split (s1 : Str) : ∃ sg, (sg = [] ∨ sg = ['+'] ∨ sg = ['-']) ∧
    s1 = sg ++ (if s1.head? == some '-' || s1.head? == some '+' then s1.drop 1 else s1) ∧
    (s1.head? == some '-') = decide (sg = ['-']) := by
  cases s1 with
  | nil => exact ⟨[], .inl rfl, by simp, by simp⟩
  | cons c cs =>
    by_cases h1 : c = '-'
    · subst h1; exact ⟨['-'], .inr (.inr rfl), by simp, by simp⟩
    · by_cases h2 : c = '+'
      · subst h2; exact ⟨['+'], .inr (.inl rfl), by simp, by simp⟩
      · exact ⟨[], .inl rfl, by simp [h1, h2], by simp [h1]⟩

theorem head_dropWhile_digit (l : Str) : ∀ c, (l.dropWhile Char.isDigit).head? = some c → ¬ ('0' ≤ c ∧ c ≤ '9') := by
  intro c hc
  rw [← isDigit_iff]
  have hne : l.dropWhile Char.isDigit ≠ [] := by intro h; rw [h] at hc; simp at hc
  have := List.head_dropWhile_not (p := Char.isDigit) (l := l) hne
  rw [List.head?_eq_some_head hne] at hc
  rw [Option.some.inj hc] at this
  simpa using this

theorem scanInt_num {s : Str} {neg : Bool} {m : Nat} (h : scanInt s = .num neg m) :
    ∃ ws sg ds rest, s = ws ++ sg ++ ds ++ rest ∧ (∀ c ∈ ws, White c) ∧
      (sg = [] ∨ sg = ['+'] ∨ sg = ['-']) ∧ numeral 10 ds = some m ∧
      (∀ c, rest.head? = some c → ¬ ('0' ≤ c ∧ c ≤ '9')) ∧ neg = decide (sg = ['-']) := by
  have hs : s = s.takeWhile isSpace ++ s.dropWhile isSpace := (List.takeWhile_append_dropWhile).symm
  have hws : ∀ c ∈ s.takeWhile isSpace, White c := fun c hc => (isSpace_iff c).1 (mem_takeWhile hc)
  simp only [scanInt] at h
  generalize s.dropWhile isSpace = s1 at h hs
  by_cases he : s1.isEmpty
  · simp [he] at h
  rw [if_neg he] at h
  obtain ⟨sg, hsg, hsplit, hneg⟩ := sign_split s1
  generalize (if s1.head? == some '-' || s1.head? == some '+' then s1.drop 1 else s1) = s2 at h hsplit
  by_cases hds : (s2.takeWhile Char.isDigit).isEmpty
  · rw [if_pos hds] at h; simp at h
  rw [if_neg hds] at h
  simp only [IntScan.num.injEq] at h
  refine ⟨_, sg, s2.takeWhile Char.isDigit, s2.dropWhile Char.isDigit, ?_, hws, hsg, ?_, head_dropWhile_digit s2, ?_⟩
  · rw [List.append_assoc, List.takeWhile_append_dropWhile, List.append_assoc, ← hsplit]; exact hs
  · rw [numeral_ten]
    exact ⟨by simpa using hds, fun c hc => mem_takeWhile hc, h.2.symm⟩
  · rw [← h.1, hneg]

/-- The integer extraction finds a number exactly if the text begins with an integer. -/
theorem scanInt_iff (s : Str) (n : Int) :
    (∃ neg m, scanInt s = .num neg m ∧ n = if neg then -(m : Int) else m) ↔ BeginsWithInt s n := by
  constructor
  · rintro ⟨neg, m, h, rfl⟩
    obtain ⟨ws, sg, ds, rest, h1, h2, h3, h4, h5, h6⟩ := scanInt_num h
    exact ⟨ws, sg, ds, rest, m, h1, h2, h3, h4, h5, by rw [h6]; simp⟩
  · rintro ⟨ws, sg, ds, rest, m, h1, h2, h3, h4, h5, h6⟩
    exact ⟨_, m, scanInt_begins h1 h2 h3 h4 h5, by rw [h6]; simp⟩

theorem extractSigned_good_iff (bits : Nat) (s : Str) (n : Int) :
    extractSigned bits s = .good n ↔ BeginsWithInt s n ∧ -2 ^ (bits - 1) ≤ n ∧ n ≤ 2 ^ (bits - 1) - 1 := by
  rw [← scanInt_iff]
  unfold extractSigned
  cases h : scanInt s with
  | blank => simp
  | bad => simp
  | num neg m =>
    simp only [IntScan.num.injEq]
    constructor
    · intro he
      generalize hv : (if neg = true then -(m : Int) else (m : Int)) = v at he
      by_cases h1 : v > 2 ^ (bits - 1) - 1
      · rw [if_pos h1] at he; simp at he
      by_cases h2 : v < -2 ^ (bits - 1)
      · rw [if_neg h1, if_pos h2] at he; simp at he
      rw [if_neg h1, if_neg h2] at he
      simp only [Extract.good.injEq] at he
      subst hv
      exact ⟨⟨neg, m, ⟨rfl, rfl⟩, he.symm⟩, by omega, by omega⟩
    · rintro ⟨⟨neg', m', ⟨rfl, rfl⟩, hn⟩, h1, h2⟩
      rw [← hn, if_neg (by omega), if_neg (by omega)]

theorem extractUnsigned_good_iff (bits : Nat) (s : Str) (v : Int) :
    extractUnsigned bits s = .good v ↔ ∃ n : Int, BeginsWithInt s n ∧ n.natAbs < 2 ^ bits ∧ v = n % 2 ^ bits := by
  unfold extractUnsigned
  have hp : (0 : Int) < 2 ^ bits := by positivity
  cases h : scanInt s with
  | blank => simp [← scanInt_iff, h]
  | bad => simp [← scanInt_iff, h]
  | num neg m =>
    simp only [← scanInt_iff, h, IntScan.num.injEq]
    constructor
    · intro he
      split at he
      · simp at he
      rename_i hlt
      simp only [Extract.good.injEq] at he
      refine ⟨_, ⟨neg, m, ⟨rfl, rfl⟩, rfl⟩, ?_, ?_⟩
      · cases neg <;> simp <;> omega
      · rw [← he]
        cases neg with
        | true => simp
        | false =>
          simp only [Bool.false_eq_true, if_false]
          rw [Int.emod_eq_of_lt (by omega)]
          have : m < 2 ^ bits := by omega
          exact_mod_cast this
    · rintro ⟨n, ⟨neg', m', ⟨rfl, rfl⟩, hn⟩, h1, rfl⟩
      have hm : n.natAbs = m := by rw [hn]; cases neg <;> simp
      rw [hm] at h1
      rw [if_neg (by omega), hn]
      cases neg with
      | true => simp
      | false =>
        simp only [Bool.false_eq_true, if_false]
        rw [Int.emod_eq_of_lt (by omega)]
        exact_mod_cast h1

/-! ### Characters of a floating point number -/

theorem not_digit {c : Char} (h : ¬ ('0' ≤ c ∧ c ≤ '9')) : c.isDigit = false := by
  cases hd : c.isDigit with
  | false => rfl
  | true => exact absurd ((isDigit_iff c).1 hd) h

theorem floatChars_digits (mant dec : Bool) (ds r : Str) (h : ∀ c ∈ ds, c.isDigit = true) :
    floatChars mant dec (ds ++ r) = ds ++ floatChars (mant || !ds.isEmpty) dec r := by
  induction ds generalizing mant with
  | nil => simp
  | cons c cs ih =>
    have hc := h c (by simp)
    rw [List.cons_append, floatChars, if_pos hc, ih true fun x hx => h x (by simp [hx])]
    simp

/-- What is collected after the digits. -/
theorem floatChars_end (mant dec : Bool) (r : Str) (h1 : ∀ c, r.head? = some c → ¬ ('0' ≤ c ∧ c ≤ '9'))
    (h2 : dec = false → r.head? ≠ some '.') (h3 : mant = true → r.head? ≠ some 'e' ∧ r.head? ≠ some 'E') :
    floatChars mant dec r = [] := by
  cases r with
  | nil => rfl
  | cons c cs =>
    rw [floatChars, if_neg (by simp [not_digit (h1 c rfl)]), if_neg, if_neg]
    · rintro ⟨hc, hm⟩
      have := h3 hm
      rcases hc with rfl | rfl
      · exact this.1 rfl
      · exact this.2 rfl
    · rintro ⟨rfl, hd⟩
      exact h2 hd rfl

theorem floatChars_exp (dec : Bool) (c : Char) (hc : c = 'e' ∨ c = 'E') (cs : Str) :
    ∃ sg r, (sg = [] ∨ sg = ['+'] ∨ sg = ['-']) ∧ cs = sg ++ r ∧
      (sg = [] → r.head? ≠ some '+' ∧ r.head? ≠ some '-') ∧
      floatChars true dec (c :: cs) = 'e' :: (sg ++ r.takeWhile Char.isDigit) := by
  have hd : c.isDigit = false := by rcases hc with rfl | rfl <;> rfl
  have hp : c ≠ '.' := by rcases hc with rfl | rfl <;> decide
  have hstep : floatChars true dec (c :: cs) = 'e' :: expChars cs := by
    rw [floatChars, if_neg (by simp [hd]), if_neg (by simp [hp]), if_pos ⟨hc, rfl⟩]
  rw [hstep]
  cases cs with
  | nil => exact ⟨[], [], .inl rfl, rfl, by simp, rfl⟩
  | cons x xs =>
    by_cases h1 : x = '+'
    · subst h1
      exact ⟨['+'], xs, .inr (.inl rfl), rfl, by simp, by simp [expChars]⟩
    · by_cases h2 : x = '-'
      · subst h2
        exact ⟨['-'], xs, .inr (.inr rfl), rfl, by simp, by simp [expChars]⟩
      · exact ⟨[], x :: xs, .inl rfl, rfl, by simp [h1, h2], by simp [expChars, h1, h2]⟩

theorem floatExp_eval {sg ds : Str} (hsg : sg = [] ∨ sg = ['+'] ∨ sg = ['-']) (hds : ∀ c ∈ ds, c.isDigit = true) :
    floatExp ('e' :: (sg ++ ds)) =
      if ds = [] then none else some (if sg = ['-'] then -(digitsVal ds : Int) else (digitsVal ds : Int)) := by
  have hall : ds.all Char.isDigit = true := List.all_eq_true.2 hds
  have hhd : sg = [] → (ds.head? == some '-') = false ∧ (ds.head? == some '+') = false := by
    intro _
    cases ds with
    | nil => simp
    | cons c cs =>
      have := hds c (by simp)
      constructor
      · simp; rintro rfl; simp [Char.isDigit] at this
      · simp; rintro rfl; simp [Char.isDigit] at this
  unfold floatExp
  rcases hsg with rfl | rfl | rfl
  · obtain ⟨h1, h2⟩ := hhd rfl
    by_cases h : ds = []
    · simp [h]
    · simp [h1, h2, h, hall]
  · by_cases h : ds = []
    · simp [h]
    · simp [h]; exact hds
  · by_cases h : ds = []
    · simp [h]
    · simp [h]; exact hds

/-- What is collected from digits, point, digits. -/
theorem floatChars_mantissa {ip pt fp r : Str} (hpt : pt = [] ∧ fp = [] ∨ pt = '.' :: fp)
    (hip : ∀ c ∈ ip, c.isDigit = true) (hfp : ∀ c ∈ fp, c.isDigit = true) :
    floatChars false false (ip ++ pt ++ r) =
      ip ++ pt ++ floatChars (!(ip ++ fp).isEmpty) (!pt.isEmpty) r := by
  rw [List.append_assoc, floatChars_digits _ _ _ _ hip]
  rcases hpt with ⟨rfl, rfl⟩ | rfl
  · simp
  · rw [List.cons_append, floatChars, if_neg (by simp [Char.isDigit]), if_pos ⟨rfl, rfl⟩,
      floatChars_digits _ _ _ _ hfp]
    cases ip <;> simp

/-- The number `strtod` finds. -/
theorem floatMag_eval {ip pt fp t : Str} (hpt : pt = [] ∧ fp = [] ∨ pt = '.' :: fp)
    (hip : ∀ c ∈ ip, c.isDigit = true) (hfp : ∀ c ∈ fp, c.isDigit = true)
    (ht : t = [] ∨ ∃ t', t = 'e' :: t') :
    floatMag (ip ++ pt ++ t) = if ip ++ fp = [] then none
      else (floatExp t).map fun x => (digitsVal (ip ++ fp) : ℚ) / 10 ^ fp.length * 10 ^ x := by
  have hthd : ∀ x, t.head? = some x → Char.isDigit x = false := by
    intro x hx
    rcases ht with rfl | ⟨t', rfl⟩
    · simp at hx
    · simp at hx; subst hx; rfl
  have hptt : ∀ x, (pt ++ t).head? = some x → Char.isDigit x = false := by
    rcases hpt with ⟨rfl, _⟩ | rfl
    · simpa using hthd
    · intro x hx; simp at hx; subst hx; rfl
  have h1 : (ip ++ pt ++ t).takeWhile Char.isDigit = ip := by
    rw [List.append_assoc]; exact takeWhile_append_all _ _ _ hip hptt
  have h2 : (ip ++ pt ++ t).dropWhile Char.isDigit = pt ++ t := by
    have := List.takeWhile_append_dropWhile (p := Char.isDigit) (l := ip ++ pt ++ t)
    rw [h1, List.append_assoc] at this
    simpa using this
  unfold floatMag
  simp only [h1, h2]
  rcases hpt with ⟨rfl, rfl⟩ | rfl
  · have hne : ¬ (t.head? == some '.') = true := by
      rcases ht with rfl | ⟨t', rfl⟩ <;> simp
    simp only [List.nil_append, hne]
    simp
  · have h3 : (fp ++ t).takeWhile Char.isDigit = fp := takeWhile_append_all _ _ _ hfp hthd
    have h4 : (fp ++ t).dropWhile Char.isDigit = t := by
      have := List.takeWhile_append_dropWhile (p := Char.isDigit) (l := fp ++ t)
      rw [h3] at this
      simpa using this
    simp [h3, h4]

/-- The text begins with a decimal number: what the extraction finds. -/
theorem extractReal_begins (rnd : ℚ → Option ℚ) {s : Str} {neg : Bool} {q : ℚ} (h : BeginsWithReal s neg q) :
    extractReal rnd s = match rnd q with
      | some r => .good (.fin neg r)
      | none => .over neg := by
  obtain ⟨ws, sg, ip, pt, ex, rest, fp, n, x, rfl, hws, hsg, rfl, hpt, hn, hex, hrest, rfl⟩ := h
  obtain ⟨hne, hds, rfl⟩ := (numeral_ten _ _).1 hn
  have hip : ∀ c ∈ ip, c.isDigit = true := fun c hc => hds c (by simp [hc])
  have hfp : ∀ c ∈ fp, c.isDigit = true := fun c hc => hds c (by simp [hc])
  -- the first character of the number
  have hhead : ∃ c r, ip ++ pt ++ (ex ++ rest) = c :: r ∧ isSpace c = false ∧ c ≠ '-' ∧ c ≠ '+' := by
    cases ip with
    | cons c cs =>
      have := hip c (by simp)
      refine ⟨c, _, rfl, digit_not_space this, ?_, ?_⟩
      · rintro rfl; simp [Char.isDigit] at this
      · rintro rfl; simp [Char.isDigit] at this
    | nil =>
      rcases hpt with ⟨_, rfl⟩ | rfl
      · simp at hne
      · exact ⟨'.', _, rfl, by decide, by decide, by decide⟩
  obtain ⟨c0, r0, hcr, hsp, hm0, hp0⟩ := hhead
  have hdrop : (ws ++ sg ++ ip ++ pt ++ ex ++ rest).dropWhile isSpace = sg ++ (ip ++ pt ++ (ex ++ rest)) := by
    rw [show ws ++ sg ++ ip ++ pt ++ ex ++ rest = ws ++ (sg ++ (ip ++ pt ++ (ex ++ rest))) by simp,
      dropWhile_append_all _ _ _ fun x hx => (isSpace_iff x).2 (hws x hx), hcr]
    rcases hsg with rfl | rfl | rfl
    · simp [hsp]
    · simp [isSpace]
    · simp [isSpace]
  have hmag : floatMag (floatChars false false (ip ++ pt ++ (ex ++ rest))) =
      some ((digitsVal (ip ++ fp) : ℚ) / 10 ^ fp.length * 10 ^ x) := by
    rw [floatChars_mantissa hpt hip hfp]
    have hmant : (!(ip ++ fp).isEmpty) = true := by simpa using hne
    rw [hmant]
    rcases hex with ⟨c, sg', es, k, rfl, hc, hsg', hk, rfl⟩ | ⟨rfl, rfl, he1, he2, he3⟩
    · obtain ⟨hne', hes, rfl⟩ := (numeral_ten _ _).1 hk
      obtain ⟨sg2, r2, hsg2, hcs, hnosign, hfc⟩ := floatChars_exp (!pt.isEmpty) c hc (sg' ++ es ++ rest)
      have hsame : sg2 = sg' ∧ r2 = es ++ rest := by
        obtain ⟨e0, es', rfl⟩ := List.exists_cons_of_ne_nil hne'
        have he0 := hes e0 (by simp)
        have hem : e0 ≠ '-' := by rintro rfl; simp [Char.isDigit] at he0
        have hep : e0 ≠ '+' := by rintro rfl; simp [Char.isDigit] at he0
        clear hn hds hip hfp hcr hdrop hfc hne hmant hk hes hrest
        rcases hsg' with rfl | rfl | rfl <;> rcases hsg2 with rfl | rfl | rfl <;>
          simp only [List.nil_append, List.cons_append, List.cons.injEq, true_and, Char.reduceEq, false_and] at hcs
        · exact ⟨rfl, hcs.symm⟩
        · exact absurd hcs.1 hep
        · exact absurd hcs.1 hem
        · have := hnosign rfl; rw [← hcs] at this; simp at this
        · exact ⟨rfl, hcs.symm⟩
        · have := hnosign rfl; rw [← hcs] at this; simp at this
        · exact ⟨rfl, hcs.symm⟩
      obtain ⟨rfl, rfl⟩ := hsame
      rw [show c :: (sg2 ++ es) ++ rest = c :: (sg2 ++ es ++ rest) by simp, hfc,
        takeWhile_append_all _ _ _ hes fun x hx => not_digit (hrest x hx),
        floatMag_eval hpt hip hfp (.inr ⟨_, rfl⟩), if_neg hne, floatExp_eval hsg2 hes, if_neg hne']
      rfl
    · rw [List.nil_append, floatChars_end _ _ _ hrest (by simpa using he3) fun _ => ⟨he1, he2⟩,
        floatMag_eval hpt hip hfp (.inl rfl), if_neg hne]
      rfl
  have hs2 : (if (sg ++ (ip ++ pt ++ (ex ++ rest))).head? == some '-' ||
      (sg ++ (ip ++ pt ++ (ex ++ rest))).head? == some '+'
      then (sg ++ (ip ++ pt ++ (ex ++ rest))).drop 1 else sg ++ (ip ++ pt ++ (ex ++ rest))) =
      ip ++ pt ++ (ex ++ rest) := by
    rw [hcr]
    rcases hsg with rfl | rfl | rfl
    · simp [hm0, hp0]
    · simp
    · simp
  have hneg : ((sg ++ (ip ++ pt ++ (ex ++ rest))).head? == some '-') = decide (sg = ['-']) := by
    rw [hcr]
    rcases hsg with rfl | rfl | rfl
    · simp [hm0]
    · simp
    · simp
  have hemp : (sg ++ (ip ++ pt ++ (ex ++ rest))).isEmpty = false := by rw [hcr]; simp
  unfold extractReal
  dsimp only
  rw [hdrop, if_neg (by rw [hemp]; decide), hs2, hmag, hneg]
  dsimp only
  generalize rnd _ = z
  cases z <;> rfl

/-- If the extraction finds a number, the text begins with one. -/
theorem begins_of_extractReal {rnd : ℚ → Option ℚ} {s : Str}
    (h : (∃ y, extractReal rnd s = .good y) ∨ ∃ n, extractReal rnd s = .over n) :
    ∃ neg q, BeginsWithReal s neg q := by
  have hs : s = s.takeWhile isSpace ++ s.dropWhile isSpace := (List.takeWhile_append_dropWhile).symm
  have hws : ∀ c ∈ s.takeWhile isSpace, White c := fun c hc => (isSpace_iff c).1 (mem_takeWhile hc)
  simp only [extractReal] at h
  generalize s.dropWhile isSpace = s1 at h hs
  by_cases he : s1.isEmpty
  · simp [he] at h
  rw [if_neg he] at h
  obtain ⟨sg, hsg, hsplit, hneg⟩ := sign_split s1
  generalize (if s1.head? == some '-' || s1.head? == some '+' then s1.drop 1 else s1) = s2 at h hsplit
  cases hmag : floatMag (floatChars false false s2) with
  | none => rw [hmag] at h; simp at h
  | some q =>
    clear h
    -- the canonical decomposition
    have hdec : ∃ ip pt fp r, s2 = ip ++ pt ++ r ∧ (pt = [] ∧ fp = [] ∨ pt = '.' :: fp) ∧
        (∀ c ∈ ip, c.isDigit = true) ∧ (∀ c ∈ fp, c.isDigit = true) ∧
        (∀ c, r.head? = some c → ¬ ('0' ≤ c ∧ c ≤ '9')) ∧ (pt = [] → r.head? ≠ some '.') := by
      have h0 : s2 = s2.takeWhile Char.isDigit ++ s2.dropWhile Char.isDigit :=
        (List.takeWhile_append_dropWhile).symm
      by_cases hp : (s2.dropWhile Char.isDigit).head? = some '.'
      · obtain ⟨r, hr⟩ : ∃ r, s2.dropWhile Char.isDigit = '.' :: r := by
          cases hh : s2.dropWhile Char.isDigit with
          | nil => rw [hh] at hp; simp at hp
          | cons a b => rw [hh] at hp; simp at hp; exact ⟨b, by rw [hp]⟩
        refine ⟨s2.takeWhile Char.isDigit, '.' :: r.takeWhile Char.isDigit, r.takeWhile Char.isDigit,
          r.dropWhile Char.isDigit, ?_, .inr rfl, fun c hc => mem_takeWhile hc, fun c hc => mem_takeWhile hc,
          head_dropWhile_digit r, by simp⟩
        rw [hr] at h0
        rw [List.append_assoc, List.cons_append, List.takeWhile_append_dropWhile]
        exact h0
      · exact ⟨s2.takeWhile Char.isDigit, [], [], s2.dropWhile Char.isDigit, by simp, .inl ⟨rfl, rfl⟩,
          fun c hc => mem_takeWhile hc, by simp, head_dropWhile_digit s2, fun _ => hp⟩
    obtain ⟨ip, pt, fp, r, rfl, hpt, hip, hfp, hr, hrp⟩ := hdec
    rw [floatChars_mantissa hpt hip hfp] at hmag
    by_cases hne : ip ++ fp = []
    · exfalso
      have : floatChars (!(ip ++ fp).isEmpty) (!pt.isEmpty) r = [] :=
        floatChars_end _ _ _ hr (by simpa using hrp) (by simp [hne])
      rw [this, floatMag_eval hpt hip hfp (.inl rfl), if_pos hne] at hmag
      simp at hmag
    have hnum : numeral 10 (ip ++ fp) = some (digitsVal (ip ++ fp)) :=
      (numeral_ten _ _).2 ⟨hne, fun c hc => (List.mem_append.1 hc).elim (hip c) (hfp c), rfl⟩
    have hmant : (!(ip ++ fp).isEmpty) = true := by simpa using hne
    rw [hmant] at hmag
    by_cases hexp : r.head? = some 'e' ∨ r.head? = some 'E'
    · obtain ⟨c, cs, rfl, hc⟩ : ∃ c cs, r = c :: cs ∧ (c = 'e' ∨ c = 'E') := by
        cases r with
        | nil => simp at hexp
        | cons a b => simp at hexp; exact ⟨a, b, rfl, hexp⟩
      obtain ⟨sg2, r2, hsg2, rfl, _, hfc⟩ := floatChars_exp (!pt.isEmpty) c hc cs
      rw [hfc, floatMag_eval hpt hip hfp (.inr ⟨_, rfl⟩), if_neg hne,
        floatExp_eval hsg2 fun c hc => mem_takeWhile hc] at hmag
      by_cases hes : r2.takeWhile Char.isDigit = []
      · rw [if_pos hes] at hmag; simp at hmag
      refine ⟨_, _, s.takeWhile isSpace, sg, ip, pt, c :: (sg2 ++ r2.takeWhile Char.isDigit), r2.dropWhile Char.isDigit,
        fp, _, _, ?_, hws, hsg, rfl, hpt, hnum, .inl ⟨c, sg2, _, _, rfl, hc, hsg2,
          (numeral_ten _ _).2 ⟨hes, fun c hc => mem_takeWhile hc, rfl⟩, rfl⟩, head_dropWhile_digit r2, rfl⟩
      have h3 : r2.takeWhile Char.isDigit ++ r2.dropWhile Char.isDigit = r2 := List.takeWhile_append_dropWhile
      conv_lhs => rw [hs, hsplit, ← h3]
      simp
    · rw [not_or] at hexp
      refine ⟨_, _, s.takeWhile isSpace, sg, ip, pt, [], r, fp, _, 0, ?_, hws, hsg, rfl, hpt, hnum,
        .inr ⟨rfl, rfl, hexp.1, hexp.2, hrp⟩, hr, rfl⟩
      conv_lhs => rw [hs, hsplit]
      simp

theorem realTy_read_iff (rnd : ℚ → Option ℚ) (big : ℚ) (inj : Dbl → V) (s : Str) (v : V) : (realTy rnd big inj).read s = some v ↔
    ∃ neg q r, BeginsWithReal s neg q ∧ rnd q = some r ∧ v = inj (.fin neg r) := by
  simp only [realTy]
  constructor
  · intro h
    cases he : extractReal rnd s with
    | good y =>
      rw [he] at h
      simp at h
      obtain ⟨neg, q, hb⟩ := begins_of_extractReal (.inl ⟨y, he⟩)
      have := extractReal_begins rnd hb
      rw [he] at this
      cases hr : rnd q with
      | none => rw [hr] at this; simp at this
      | some r =>
        rw [hr] at this
        simp at this
        exact ⟨neg, q, r, hb, hr, by rw [← h, this]⟩
    | _ => rw [he] at h; simp at h
  · rintro ⟨neg, q, r, hb, hr, rfl⟩
    rw [extractReal_begins rnd hb, hr]

theorem doubleTy_read_iff (inj : Dbl → V) (s : Str) (v : V) : (doubleTy inj).read s = some v ↔
    ∃ neg q r, BeginsWithReal s neg q ∧ binary64.rnd q = some r ∧ v = inj (.fin neg r) :=
  realTy_read_iff _ _ inj s v

theorem floatTy_read_iff (inj : Dbl → V) (s : Str) (v : V) : (floatTy inj).read s = some v ↔
    ∃ neg q r, BeginsWithReal s neg q ∧ F32.rnd32 q = some r ∧ v = inj (.fin neg r) :=
  realTy_read_iff _ _ inj s v

end SoDa.Opts
