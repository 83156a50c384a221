import Verif.Props.OptionsFloat
/-!
C89: what a value that is not accepted leaves in the program's variable.  C76 for options with a default.
-/
namespace SoDa.Opts
open Spec

variable {V : Type}

theorem parse_rejected (o : Options V) (ho : Ready o) {sw txt : Str} {i : Nat} {d : Decl V}
    (hd : Denotes o.decls sw i d) (hh : ¬ HelpSwitch sw) (hk : d.kind = .scalar)
    (hg : Greedy d ∨ ¬ SwitchLike txt) (ha : ∀ v, ¬ Accepts d txt v) :
    (o.parse [sw, txt]).2 = false ∧ (o.parse [sw, txt]).1.sc d.target =
      (match d.read txt with
      | some v => v
      | none => d.readFail txt (o.sc d.target)) ∧
    ∀ a, a ≠ d.target → (o.parse [sw, txt]).1.sc a = o.sc a := by
  rw [parse_reads ho.wf ho.waiting (.rejected hd hh (by simp [hk]) hg ha)]
  refine ⟨rfl, ?_, ?_⟩
  · simp only [finish, rejectVal, hk, if_true, update, List.foldl_nil]
    rfl
  · intro a h
    simp only [finish, rejectVal, hk, if_true, update, List.foldl_nil, if_neg h]

/-- The value is not read. -/
theorem parse_unread (o : Options V) (ho : Ready o) {sw txt : Str} {i : Nat} {d : Decl V}
    (hd : Denotes o.decls sw i d) (hh : ¬ HelpSwitch sw) (hk : d.kind = .scalar)
    (hg : Greedy d ∨ ¬ SwitchLike txt) (hn : d.read txt = none) :
    (o.parse [sw, txt]).2 = false ∧ (o.parse [sw, txt]).1.sc d.target = d.readFail txt (o.sc d.target) ∧
    ∀ a, a ≠ d.target → (o.parse [sw, txt]).1.sc a = o.sc a := by
  have h := parse_rejected o ho hd hh hk hg (fun v h => by have := h.1; rw [hn] at this; simp at this)
  rw [hn] at h
  exact h

theorem scanInt_blank_iff (s : Str) : scanInt s = .blank ↔ ∀ c ∈ s, White c := by
  unfold scanInt
  by_cases h : (s.dropWhile isSpace).isEmpty
  · simp only [h, if_true, true_iff]
    rw [List.isEmpty_iff, List.dropWhile_eq_nil_iff] at h
    exact fun c hc => (isSpace_iff c).1 (h c hc)
  · simp only [h, if_false, Bool.false_eq_true]
    constructor
    · intro hx
      revert hx
      generalize (if (_ : Bool) = true then _ else _ : Str).takeWhile Char.isDigit = ds
      split <;> simp
    · intro hx
      refine absurd ?_ h
      rw [List.isEmpty_iff, List.dropWhile_eq_nil_iff]
      exact fun c hc => (isSpace_iff c).2 (hx c hc)

theorem scanInt_bad_iff (s : Str) : scanInt s = .bad ↔ (∃ c ∈ s, ¬ White c) ∧ ¬ ∃ n, BeginsWithInt s n := by
  have h1 := scanInt_blank_iff s
  have h2 := scanInt_iff s
  cases h : scanInt s with
  | blank =>
    simp only [reduceCtorEq, false_iff, not_and]
    rintro ⟨c, hc, hw⟩
    exact absurd (h1.1 h c hc) hw
  | bad =>
    simp only [true_iff]
    rw [h] at h1
    simp only [reduceCtorEq, false_iff, not_forall] at h1
    obtain ⟨c, hc, hw⟩ := h1
    refine ⟨⟨c, hc, hw⟩, ?_⟩
    rintro ⟨n, hn⟩
    obtain ⟨neg, m, hm, _⟩ := (h2 n).2 hn
    rw [h] at hm
    simp at hm
  | num neg m =>
    simp only [reduceCtorEq, false_iff, not_and, not_not]
    intro _
    exact ⟨_, (h2 _).1 ⟨neg, m, h, rfl⟩⟩

theorem beginsWithInt_unique {s : Str} {n m : Int} (h : BeginsWithInt s n) (h' : BeginsWithInt s m) : n = m := by
  obtain ⟨neg1, m1, e1, f1⟩ := (scanInt_iff _ _).2 h
  obtain ⟨neg2, m2, e2, f2⟩ := (scanInt_iff _ _).2 h'
  rw [e1] at e2
  simp only [IntScan.num.injEq] at e2
  rw [f1, f2, e2.1, e2.2]

/-! ## C89 -/

theorem tyOf_rejected (sg : Bool) (ext : Str → Extract) (inj : Int → V) (o : Options V) (ho : Ready o) {sw txt : Str}
    {i : Nat} {d : Decl V} (hd : Denotes o.decls sw i d) (hh : ¬ HelpSwitch sw) (hk : d.kind = .scalar)
    (hr : d.read = (tyOf sg ext inj).read) (hf : d.readFail = (tyOf sg ext inj).readFail)
    (hg : Greedy d ∨ ¬ SwitchLike txt) :
    (∀ v, ext txt = .over v →
      (o.parse [sw, txt]).2 = false ∧ (o.parse [sw, txt]).1.sc d.target = inj v) ∧
    (ext txt = .bad → (o.parse [sw, txt]).2 = false ∧ (o.parse [sw, txt]).1.sc d.target = inj 0) ∧
    (ext txt = .blank → (o.parse [sw, txt]).2 = false ∧ (o.parse [sw, txt]).1.sc d.target = o.sc d.target) := by
  refine ⟨fun v he => ?_, fun he => ?_, fun he => ?_⟩ <;>
  · obtain ⟨g1, g2, _⟩ := parse_unread o ho hd hh hk hg (by rw [hr]; simp [tyOf, he])
    exact ⟨g1, by rw [g2, hf]; simp [tyOf, he]⟩

/-- **C89** (signed integers).  A text that is not accepted by an option of a signed type changes the variable: a number out of
range leaves the nearest number in range, a text that does not begin with an integer leaves 0.  Only a blank text leaves
the variable alone. -/
theorem C89_signed (bits : Nat) (inj : Int → V) (o : Options V) (ho : Ready o) (sw txt : Str) (i : Nat)
    (d : Decl V) (hd : Denotes o.decls sw i d) (hh : ¬ HelpSwitch sw) (hk : d.kind = .scalar)
    (hr : d.read = (sintTy bits inj).read) (hf : d.readFail = (sintTy bits inj).readFail)
    (hg : Greedy d ∨ ¬ SwitchLike txt) :
    (∀ n : Int, BeginsWithInt txt n → 2 ^ (bits - 1) ≤ n →
      (o.parse [sw, txt]).2 = false ∧ (o.parse [sw, txt]).1.sc d.target = inj (2 ^ (bits - 1) - 1)) ∧
    (∀ n : Int, BeginsWithInt txt n → n < -2 ^ (bits - 1) →
      (o.parse [sw, txt]).2 = false ∧ (o.parse [sw, txt]).1.sc d.target = inj (-2 ^ (bits - 1))) ∧
    ((∃ c ∈ txt, ¬ White c) → (¬ ∃ n, BeginsWithInt txt n) →
      (o.parse [sw, txt]).2 = false ∧ (o.parse [sw, txt]).1.sc d.target = inj 0) ∧
    ((∀ c ∈ txt, White c) →
      (o.parse [sw, txt]).2 = false ∧ (o.parse [sw, txt]).1.sc d.target = o.sc d.target) := by
  have hp : (0 : Int) < 2 ^ (bits - 1) := by positivity
  have key := tyOf_rejected true (extractSigned bits) inj o ho hd hh hk hr hf hg
  refine ⟨fun n hn h => key.1 _ ?_, fun n hn h => key.1 _ ?_, fun h1 h2 => key.2.1 ?_, fun h => key.2.2 ?_⟩
  · obtain ⟨neg, m, e1, e2⟩ := (scanInt_iff _ _).2 hn
    simp only [extractSigned, e1, ← e2]
    rw [if_pos (by omega)]
  · obtain ⟨neg, m, e1, e2⟩ := (scanInt_iff _ _).2 hn
    simp only [extractSigned, e1, ← e2]
    rw [if_neg (by omega), if_pos h]
  · simp [extractSigned, (scanInt_bad_iff txt).2 ⟨h1, h2⟩]
  · simp [extractSigned, (scanInt_blank_iff txt).2 h]

/-- **C89** (unsigned integers). -/
theorem C89_unsigned (bits : Nat) (inj : Int → V) (o : Options V) (ho : Ready o) (sw txt : Str) (i : Nat)
    (d : Decl V) (hd : Denotes o.decls sw i d) (hh : ¬ HelpSwitch sw) (hk : d.kind = .scalar)
    (hr : d.read = (uintTy bits inj).read) (hf : d.readFail = (uintTy bits inj).readFail)
    (hg : Greedy d ∨ ¬ SwitchLike txt) :
    (∀ n : Int, BeginsWithInt txt n → 2 ^ bits ≤ |n| →
      (o.parse [sw, txt]).2 = false ∧ (o.parse [sw, txt]).1.sc d.target = inj (2 ^ bits - 1)) ∧
    ((∃ c ∈ txt, ¬ White c) → (¬ ∃ n, BeginsWithInt txt n) →
      (o.parse [sw, txt]).2 = false ∧ (o.parse [sw, txt]).1.sc d.target = inj 0) ∧
    ((∀ c ∈ txt, White c) →
      (o.parse [sw, txt]).2 = false ∧ (o.parse [sw, txt]).1.sc d.target = o.sc d.target) := by
  have key := tyOf_rejected false (extractUnsigned bits) inj o ho hd hh hk hr hf hg
  refine ⟨fun n hn h => key.1 _ ?_, fun h1 h2 => key.2.1 ?_, fun h => key.2.2 ?_⟩
  · obtain ⟨neg, m, e1, e2⟩ := (scanInt_iff _ _).2 hn
    have hm : |n| = m := by rw [e2]; cases neg <;> simp
    rw [hm] at h
    simp only [extractUnsigned, e1]
    rw [if_pos (by exact_mod_cast h)]
  · simp [extractUnsigned, (scanInt_bad_iff txt).2 ⟨h1, h2⟩]
  · simp [extractUnsigned, (scanInt_blank_iff txt).2 h]

/-- What is left behind: the largest number, zero, the old value. -/
example : (intSample.parse ["-c".toList, "99999999999".toList]).1.sc 1 = 4294967295 ∧
    (intSample.parse ["-l".toList, "-99999999999999999999".toList]).1.sc 0 = -9223372036854775808 ∧
    ((intSample.parse ["-c".toList, "5".toList]).1.parse ["-c".toList, "five".toList]).1.sc 1 = 0 ∧
    ((intSample.parse ["-c".toList, "5".toList]).1.parse ["-c".toList, " ".toList]).1.sc 1 = 5 := by decide +kernel

example : (intSample.parse ["-c".toList, "five".toList]).2 = false ∧
    (intSample.parse ["-c".toList, "five".toList]).1.sc 1 = 0 := by
  refine (C89_unsigned 32 id intSample intSample_ready _ _ 1 _ intSample_c (not_help (by decide) (by decide)) rfl rfl rfl
    (.inl (.inr rfl))).2.1 ⟨'f', by decide, by simp [White]⟩ ?_
  rintro ⟨n, hn⟩
  obtain ⟨neg, m, h, _⟩ := (scanInt_iff _ _).2 hn
  have : scanInt "five".toList = .bad := by decide
  rw [this] at h
  simp at h

/-! ### Floating point -/

theorem extractReal_blank_iff (rnd : ℚ → Option ℚ) (s : Str) : extractReal rnd s = .blank ↔ ∀ c ∈ s, White c := by
  unfold extractReal
  by_cases h : (s.dropWhile isSpace).isEmpty
  · simp only [h, if_true, true_iff]
    rw [List.isEmpty_iff, List.dropWhile_eq_nil_iff] at h
    exact fun c hc => (isSpace_iff c).1 (h c hc)
  · simp only [h, if_false, Bool.false_eq_true]
    constructor
    · intro hx
      split at hx
      · simp at hx
      · split at hx <;> simp at hx
    · intro hx
      refine absurd ?_ h
      rw [List.isEmpty_iff, List.dropWhile_eq_nil_iff]
      exact fun c hc => (isSpace_iff c).2 (hx c hc)

theorem extractReal_bad (rnd : ℚ → Option ℚ) {s : Str} (h1 : ∃ c ∈ s, ¬ White c)
    (h2 : ¬ ∃ neg q, BeginsWithReal s neg q) : extractReal rnd s = .bad := by
  cases h : extractReal rnd s with
  | bad => rfl
  | blank =>
    obtain ⟨c, hc, hw⟩ := h1
    exact absurd ((extractReal_blank_iff rnd s).1 h c hc) hw
  | over neg => exact absurd (begins_of_extractReal (.inr ⟨neg, h⟩)) h2
  | good y => exact absurd (begins_of_extractReal (.inl ⟨y, h⟩)) h2

theorem real_rejected (rnd : ℚ → Option ℚ) (big : ℚ) (inj : Dbl → V) (o : Options V) (ho : Ready o) {sw txt : Str}
    {i : Nat} {d : Decl V} (hd : Denotes o.decls sw i d) (hh : ¬ HelpSwitch sw) (hk : d.kind = .scalar)
    (hr : d.read = (realTy rnd big inj).read) (hf : d.readFail = (realTy rnd big inj).readFail)
    (hg : Greedy d ∨ ¬ SwitchLike txt) :
    (∀ neg q, BeginsWithReal txt neg q → rnd q = none →
      (o.parse [sw, txt]).2 = false ∧ (o.parse [sw, txt]).1.sc d.target = inj (.fin neg big)) ∧
    ((∃ c ∈ txt, ¬ White c) → (¬ ∃ neg q, BeginsWithReal txt neg q) →
      (o.parse [sw, txt]).2 = false ∧ (o.parse [sw, txt]).1.sc d.target = inj (.fin false 0)) ∧
    ((∀ c ∈ txt, White c) →
      (o.parse [sw, txt]).2 = false ∧ (o.parse [sw, txt]).1.sc d.target = o.sc d.target) := by
  have key : (∀ y, extractReal rnd txt ≠ .good y) → (o.parse [sw, txt]).2 = false ∧
      (o.parse [sw, txt]).1.sc d.target = (realTy rnd big inj).readFail txt (o.sc d.target) := by
    intro h
    obtain ⟨g1, g2, _⟩ := parse_unread o ho hd hh hk hg (by
      rw [hr]
      cases he : extractReal rnd txt with
      | good y => exact absurd he (h y)
      | _ => simp [realTy, he])
    exact ⟨g1, by rw [g2, hf]⟩
  refine ⟨fun neg q h1 h2 => ?_, fun h1 h2 => ?_, fun h => ?_⟩
  · have he := extractReal_begins rnd h1
    rw [h2] at he
    obtain ⟨g1, g2⟩ := key (by rw [he]; simp)
    exact ⟨g1, by rw [g2]; simp [realTy, he]⟩
  · have he := extractReal_bad rnd h1 h2
    obtain ⟨g1, g2⟩ := key (by rw [he]; simp)
    exact ⟨g1, by rw [g2]; simp [realTy, he]⟩
  · have he := (extractReal_blank_iff rnd txt).2 h
    obtain ⟨g1, g2⟩ := key (by rw [he]; simp)
    exact ⟨g1, by rw [g2]; simp [realTy, he]⟩

/-- **C89** (`double`).  A number beyond the range of `double` leaves the largest `double` with its sign, a text that does not
begin with a number leaves 0, a blank text leaves the variable alone. -/
theorem C89_double (inj : Dbl → V) (o : Options V) (ho : Ready o) (sw txt : Str) (i : Nat)
    (d : Decl V) (hd : Denotes o.decls sw i d) (hh : ¬ HelpSwitch sw) (hk : d.kind = .scalar)
    (hr : d.read = (doubleTy inj).read) (hf : d.readFail = (doubleTy inj).readFail)
    (hg : Greedy d ∨ ¬ SwitchLike txt) :
    (∀ neg q, BeginsWithReal txt neg q → binary64.rnd q = none →
      (o.parse [sw, txt]).2 = false ∧
      (o.parse [sw, txt]).1.sc d.target = inj (.fin neg (2 ^ 1024 - 2 ^ 971))) ∧
    ((∃ c ∈ txt, ¬ White c) → (¬ ∃ neg q, BeginsWithReal txt neg q) →
      (o.parse [sw, txt]).2 = false ∧ (o.parse [sw, txt]).1.sc d.target = inj (.fin false 0)) ∧
    ((∀ c ∈ txt, White c) →
      (o.parse [sw, txt]).2 = false ∧ (o.parse [sw, txt]).1.sc d.target = o.sc d.target) := by
  have hb : dblMag 2046 (2 ^ 52 - 1) = 2 ^ 1024 - 2 ^ 971 := by decide +kernel
  rw [← hb]
  exact real_rejected _ _ inj o ho hd hh hk hr hf hg

/-- **C89** (`float`). -/
theorem C89_float (inj : Dbl → V) (o : Options V) (ho : Ready o) (sw txt : Str) (i : Nat)
    (d : Decl V) (hd : Denotes o.decls sw i d) (hh : ¬ HelpSwitch sw) (hk : d.kind = .scalar)
    (hr : d.read = (floatTy inj).read) (hf : d.readFail = (floatTy inj).readFail)
    (hg : Greedy d ∨ ¬ SwitchLike txt) :
    (∀ neg q, BeginsWithReal txt neg q → F32.rnd32 q = none →
      (o.parse [sw, txt]).2 = false ∧
      (o.parse [sw, txt]).1.sc d.target = inj (.fin neg (2 ^ 128 - 2 ^ 104))) ∧
    ((∃ c ∈ txt, ¬ White c) → (¬ ∃ neg q, BeginsWithReal txt neg q) →
      (o.parse [sw, txt]).2 = false ∧ (o.parse [sw, txt]).1.sc d.target = inj (.fin false 0)) ∧
    ((∀ c ∈ txt, White c) →
      (o.parse [sw, txt]).2 = false ∧ (o.parse [sw, txt]).1.sc d.target = o.sc d.target) := by
  have hb : F32.fltMag 254 (2 ^ 23 - 1) = 2 ^ 128 - 2 ^ 104 := by decide +kernel
  rw [← hb]
  exact real_rejected _ _ inj o ho hd hh hk hr hf hg

/-! ### Other types, test functions -/

/-- **C89** (`char`).  The only text that is not accepted by a `char` option is a blank one, and it leaves the variable
alone. -/
theorem C89_char (inj : Char → V) (o : Options V) (ho : Ready o) (sw txt : Str) (i : Nat)
    (d : Decl V) (hd : Denotes o.decls sw i d) (hh : ¬ HelpSwitch sw) (hk : d.kind = .scalar)
    (hr : d.read = (charTy inj).read) (hf : d.readFail = (charTy inj).readFail)
    (hg : Greedy d ∨ ¬ SwitchLike txt) (h : ∀ c ∈ txt, White c) :
    (o.parse [sw, txt]).2 = false ∧ (o.parse [sw, txt]).1.sc d.target = o.sc d.target := by
  have he : txt.dropWhile isSpace = [] := by
    rw [List.dropWhile_eq_nil_iff]
    exact fun c hc => (isSpace_iff c).2 (h c hc)
  obtain ⟨g1, g2, _⟩ := parse_unread o ho hd hh hk hg (by rw [hr]; simp [charTy, he])
  exact ⟨g1, by rw [g2, hf]; simp [charTy, he]⟩

/-- **C89** (`bool`).  A text that is not accepted leaves the variable alone, except that the empty text leaves false. -/
theorem C89_bool (o : Options Val) (ho : Ready o) (sw txt : Str) (i : Nat)
    (d : Decl Val) (hd : Denotes o.decls sw i d) (hh : ¬ HelpSwitch sw) (hk : d.kind = .scalar)
    (hr : d.read = boolTy.read) (hf : d.readFail = boolTy.readFail)
    (hg : Greedy d ∨ ¬ SwitchLike txt) (hn : ∀ v, boolTy.read txt ≠ some v) :
    (o.parse [sw, txt]).2 = false ∧
    (o.parse [sw, txt]).1.sc d.target = if txt = [] then .bool false else o.sc d.target := by
  obtain ⟨g1, g2, _⟩ := parse_unread o ho hd hh hk hg (by rw [hr]; exact Option.eq_none_iff_forall_ne_some.2 hn)
  refine ⟨g1, ?_⟩
  rw [g2, hf]
  simp only [boolTy, List.length_eq_zero_iff]

/-- **C89** (test functions).  A value of the right type that the test function refuses stays in the variable. -/
theorem C89_test (o : Options V) (ho : Ready o) (sw txt : Str) (i : Nat) (d : Decl V) (v : V)
    (hd : Denotes o.decls sw i d) (hh : ¬ HelpSwitch sw) (hk : d.kind = .scalar)
    (hg : Greedy d ∨ ¬ SwitchLike txt) (hr : d.read txt = some v) (ht : d.test v = false) :
    (o.parse [sw, txt]).2 = false ∧ (o.parse [sw, txt]).1.sc d.target = v := by
  obtain ⟨g1, g2, _⟩ := parse_rejected o ho hd hh hk hg (by
    rintro v' ⟨h1, h2⟩
    rw [hr] at h1
    rw [← Option.some.inj h1, ht] at h2
    simp at h2)
  exact ⟨g1, by rw [g2, hr]⟩

/-- **C89** (vectors).  A vector is not changed by a value that is not accepted, and no other variable ever is. -/
theorem C89_others (o : Options V) (ho : Ready o) (sw txt : Str) (i : Nat) (d : Decl V)
    (hd : Denotes o.decls sw i d) (hh : ¬ HelpSwitch sw) (hk : d.kind ≠ .presence)
    (hg : Greedy d ∨ ¬ SwitchLike txt) (ha : ∀ v, ¬ Accepts d txt v) :
    (o.parse [sw, txt]).1.vec = o.vec ∧ (o.parse [sw, txt]).1.pos = o.pos ∧ (o.parse [sw, txt]).1.pres = o.pres ∧
    ∀ a, (d.kind = .scalar → a ≠ d.target) → (o.parse [sw, txt]).1.sc a = o.sc a := by
  rw [parse_reads ho.wf ho.waiting (.rejected hd hh hk hg ha)]
  refine ⟨rfl, rfl, rfl, ?_⟩
  intro a h
  simp only [finish, rejectVal, List.foldl_nil]
  split
  · rename_i hs; simp only [update, if_neg (h hs)]
  · rfl

/-! ## C76 for options with a default -/

/-- An unsigned option with a default does not take a text that looks like a switch, in particular no negative number: the
text is read as a switch.  So the line is refused, unless its first digit is the short name of an option. -/
theorem C76_default_partial (bits : Nat) (inj : Int → V) (o : Options V) (ho : Ready o) (val : Nat) (long : Str)
    (ab : Char) (df : V) (doc : Str) (test : V → Bool) (err : Str) (hl : long ≠ []) (hh : ¬ HelpSwitch ("--".toList ++ long))
    (txt : Str) (ht : SwitchLike txt) (hh' : ¬ HelpSwitch txt)
    (hno : ∀ i d, ¬ Denotes (o.addDef (uintTy bits inj) val long ab df doc test err).decls txt i d) :
    let r := (o.addDef (uintTy bits inj) val long ab df doc test err).parse ["--".toList ++ long, txt]
    r.2 = false ∧ r.1.sc val = df := by
  intro r
  have ho1 : Ready (o.addDef (uintTy bits inj) val long ab df doc test err) := .addDef _ _ _ _ _ _ _ _ ho
  have hd : Denotes (o.addDef (uintTy bits inj) val long ab df doc test err).decls ("--".toList ++ long) o.decls.length
      { long, ab, kind := .scalar, isSigned := (uintTy bits inj).signed, hasDefault := true, doc, err, target := val,
        read := (uintTy bits inj).read, readFail := (uintTy bits inj).readFail, test, mark := (uintTy bits inj).zero } := by
    refine .long hl ⟨?_, rfl, ?_⟩
    · simp [Options.addDef, Options.registerOpt]
    · intro j d' hj hj'
      simp only [Options.addDef, Options.registerOpt] at hj'
      have := (List.getElem?_eq_some_iff.1 hj').1
      simp at this
      omega
  have hr : r = _ := parse_reads ho1.wf ho1.waiting
    (.bare hd hh (by simp) (by simp [Greedy, uintTy, tyOf]) ht (.unknown (ts := []) ht hh' hno))
  rw [hr]
  refine ⟨rfl, ?_⟩
  simp [finish, applyItem, Options.setPresent, Options.addDef, Options.registerOpt, update]

/-- Behind a default, `-1` is refused by an unsigned option, and taken by a signed one. -/
example : ((intSample.addDef (uintTy 32 id) 2 "size".toList 's' 5).parse ["--size".toList, "-1".toList]).2 = false ∧
    ((intSample.addDef (sintTy 32 id) 2 "size".toList 's' 5).parse ["--size".toList, "-1".toList]).1.sc 2 = -1 := by
  decide +kernel

example : let r := (intSample.addDef (uintTy 32 id) 2 "size".toList 's' 5).parse ["--size".toList, "-1".toList]
    r.2 = false ∧ r.1.sc 2 = 5 := by
  refine C76_default_partial 32 id intSample intSample_ready 2 "size".toList 's' 5 [] (fun _ => true) [] (by decide)
    (not_help (by decide) (by decide)) "-1".toList (.inl ⟨'1', [], rfl, by decide⟩) (not_help (by decide) (by decide)) ?_
  intro i d hden
  have hm := Denotes.mem hden
  have ha : ∀ d ∈ (intSample.addDef (uintTy 32 id) 2 "size".toList 's' 5).decls, d.ab ≠ '1' := by decide
  generalize ht : "-1".toList = t at hden
  cases hden with
  | long _ _ => simp at ht
  | short _ hl =>
    simp at ht
    exact ha d hm (by rw [hl.2.1]; exact ht.1.symm)

end SoDa.Opts
