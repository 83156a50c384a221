import Verif.Model.PropertyLocale
import Verif.Props.YamlNumbers
/-!
Property C145: values of property nodes in a program that has set another global locale.
-/
namespace SoDa.Prop
open Spec

/-- `get<T>` does not depend on the global locale. -/
def C145_claim : Prop := ∀ (L : Locale), Distinct L → ∀ (r : Ref) (t : Bool) (name : Str),
  (∀ bits, r.get (sintIn L name bits) t = r.get (sintTy name bits) t ∧ r.get (uintIn L name bits) t = r.get (uintTy name bits) t) ∧
  r.get (boolIn L) t = r.get boolTy t ∧ ∀ rnd, r.get (realIn L name rnd) t = r.get (realTy name rnd) t

/-- Values without the separator of the locale, and (for `double` and `float`) without points if the locale has another one. -/
theorem C145_same_partial {L : Locale} (h : Distinct L) (r : Ref) (t : Bool) (name : Str)
    (hs : L.useGrouping = false ∨ L.thousands ∉ r.node.val) :
    (∀ bits, r.get (sintIn L name bits) t = r.get (sintTy name bits) t ∧ r.get (uintIn L name bits) t = r.get (uintTy name bits) t) ∧
    r.get (boolIn L) t = r.get boolTy t ∧
    (L.point = '.' ∨ L.point ∉ r.node.val ∧ '.' ∉ r.node.val → ∀ rnd, r.get (realIn L name rnd) t = r.get (realTy name rnd) t) := by
  obtain ⟨h1, h2⟩ := C130_same_partial h r.node.val hs
  refine ⟨fun bits => ⟨?_, ?_⟩, ?_, fun hp rnd => ?_⟩
  · simp only [Ref.get, sintIn, sintTy, (h1 bits).1]
    rfl
  · simp only [Ref.get, uintIn, uintTy, (h1 bits).2]
    rfl
  · simp only [Ref.get, boolIn, boolTy, (h1 64).1]
    rfl
  · have : (realIn L name rnd).read r.node.val = (realTy name rnd).read r.node.val := by
      simp only [realIn, realTy, h2 hp rnd]
      cases Opts.extractReal rnd r.node.val <;> rfl
    simp only [Ref.get, this]
    rfl

theorem decimal_chars {s : Str} {n : Int} (h : YamlDecimal s n) : ∀ c ∈ s, c.isDigit = true ∨ c = '-' ∨ c = '+' := by
  obtain ⟨sg, ds, m, rfl, h1, h2, -⟩ := h
  obtain ⟨-, hd, -⟩ := (Opts.numeral_ten _ _).1 h2
  intro c hc
  rcases List.mem_append.1 hc with hc | hc
  · rcases h1 with rfl | rfl | rfl <;> simp_all
  · exact .inl (hd c hc)

/-- Integers in decimal are read as themselves, whatever the locale. -/
theorem C145_decimal {L : Locale} (h : Distinct L) (r : Ref) (t : Bool) (name : Str) (bits : Nat) (n : Int) (hn : YamlDecimal r.node.val n) :
    (-2 ^ (bits - 1) ≤ n → n < 2 ^ (bits - 1) → r.get (sintIn L name bits) t = .ok (some n)) ∧
    (0 ≤ n → n < 2 ^ bits → r.get (uintIn L name bits) t = .ok (some n)) := by
  have hs : L.thousands ∉ r.node.val := by
    intro hm
    rcases decimal_chars hn _ hm with h' | h' | h'
    · rw [h.thousands] at h'; cases h'
    · exact h.thousands' (by simp [h'])
    · exact h.thousands' (by simp [h'])
  obtain ⟨h1, -⟩ := C145_same_partial h r t name (.inr hs)
  rw [(h1 bits).1, (h1 bits).2]
  obtain ⟨k1, k2⟩ := C144_int_exact name bits r t n (.inl hn)
  exact ⟨fun a b => (k1 a b).2 (.inl hn), fun a b => (k2 a b).2 (.inl hn)⟩

/-! ### Numbers with a point -/

theorem extractReal_sign {L : Locale} (h : Distinct L) (rnd : ℚ → Option ℚ) (sg : Str) (hsg : sg = [] ∨ sg = ['+'] ∨ sg = ['-'])
    (c : Char) (cs : Str) (hc : c.isDigit = true ∨ c = '.') :
    L.extractReal rnd (sg ++ c :: cs) = match L.floatChars false false [] 0 (c :: cs) with
      | none => (.bad, true)
      | some (x, found) =>
        ((match Opts.floatMag x with
          | none => .bad
          | some q =>
            match rnd q with
            | some r => .good (.fin (decide (sg = ['-'])) r)
            | none => .over (decide (sg = ['-']))),
          found.isEmpty || Locale.verify L.grouping found.reverse) := by
  have hsp : Opts.isSpace c = false := by
    rcases hc with hc | rfl
    · exact Opts.digit_not_space hc
    · decide
  have hm : ¬ (c = '-' ∨ c = '+') := by
    rcases hc with hc | rfl
    · rintro (rfl | rfl) <;> revert hc <;> decide
    · decide
  have h1 := h.thousands'
  have h2 := h.point'
  simp only [List.mem_cons, List.not_mem_nil, or_false, not_or] at h1 h2
  rcases hsg with rfl | rfl | rfl
  · have hd : (c :: cs).dropWhile Opts.isSpace = c :: cs := by rw [List.dropWhile_cons, hsp]; rfl
    simp only [not_or] at hm
    simp only [Locale.extractReal, List.nil_append, hd, hm, or_self, false_and, if_false]
    rfl
  · have hd : ('+' :: c :: cs).dropWhile Opts.isSpace = '+' :: c :: cs := rfl
    have n1 : '+' ≠ L.thousands := Ne.symm h1.2.1
    have n2 : '+' ≠ L.point := Ne.symm h2.2.1
    simp [Locale.extractReal, hd, n1, n2]
    rfl
  · have hd : ('-' :: c :: cs).dropWhile Opts.isSpace = '-' :: c :: cs := rfl
    have n1 : '-' ≠ L.thousands := Ne.symm h1.1
    have n2 : '-' ≠ L.point := Ne.symm h2.1
    simp [Locale.extractReal, hd, n1, n2]
    rfl

theorem floatChars_opts (b t : Str) (hb : ∀ c ∈ b, c.isDigit = true) (hne : b ≠ []) : ∀ mant,
    Opts.floatChars mant false (b ++ t) = b ++ Opts.floatChars true false t := by
  induction b with
  | nil => exact absurd rfl hne
  | cons c b ih =>
    intro mant
    rw [List.cons_append, Opts.floatChars, if_pos (hb c (by simp))]
    by_cases hb' : b = []
    · simp [hb']
    · rw [ih (fun x hx => hb x (by simp [hx])) hb' true]
      rfl

theorem floatMag_begins {c : Char} {cs : Str} (hc : c.isDigit = true) {q : ℚ} (h : BeginsWithReal (c :: cs) false q) :
    Opts.floatMag (Opts.floatChars false false (c :: cs)) = some q := by
  have h1 := Opts.extractReal_begins some h
  have hd : (c :: cs).dropWhile Opts.isSpace = c :: cs := by rw [List.dropWhile_cons, Opts.digit_not_space hc]; rfl
  have hm : c ≠ '-' ∧ c ≠ '+' := by constructor <;> (rintro rfl; revert hc; decide)
  simp only [Opts.extractReal, hd, List.isEmpty_cons, Bool.false_eq_true, if_false, List.head?_cons, Option.some_beq_some, beq_iff_eq, hm,
    Bool.or_eq_true, or_self] at h1
  cases hq : Opts.floatMag (Opts.floatChars false false (c :: cs)) with
  | none => rw [hq] at h1; cases h1
  | some q' =>
    rw [hq] at h1
    simp only [Opts.ExtractF.good.injEq, Dbl.fin.injEq] at h1
    rw [h1.2]

/-- The parts of a number with a point. -/
theorem yamlFloat_point {s ip fp : Str} {neg : Bool} {q : ℚ} (h : YamlFloat s ip fp neg q) (hp : '.' ∈ s) :
    ∃ (sg ex : Str) (n : Nat) (x : Int), s = sg ++ (ip ++ '.' :: (fp ++ ex)) ∧ (sg = [] ∨ sg = ['+'] ∨ sg = ['-']) ∧ neg = decide (sg = ['-']) ∧
      numeral 10 (ip ++ fp) = some n ∧ (Exponent ex x ∨ ex = [] ∧ x = 0) ∧ q = (n : ℚ) / 10 ^ fp.length * 10 ^ x := by
  obtain ⟨sg, pt, ex, n, x, hs, hsg, hneg, h3, h4, h5, h6⟩ := h
  refine ⟨sg, ex, n, x, ?_, hsg, hneg, h4, h5, h6⟩
  rcases h3 with ⟨rfl, rfl⟩ | rfl
  · exfalso
    obtain ⟨-, hd, -⟩ := (Opts.numeral_ten _ _).1 h4
    rw [hs] at hp
    simp only [List.append_nil, List.mem_append] at hp
    rcases hp with (hp | hp) | hp
    · rcases hsg with rfl | rfl | rfl <;> simp at hp
    · have := hd '.' (by simp [hp])
      revert this; decide
    · rcases h5 with ⟨c, sg', es, k, rfl, hc, hsg', hk, -⟩ | ⟨rfl, -⟩
      · obtain ⟨-, hd, -⟩ := (Opts.numeral_ten _ _).1 hk
        rcases List.mem_cons.1 hp with rfl | hp
        · revert hc; decide
        · rcases List.mem_append.1 hp with hp | hp
          · rcases hsg' with rfl | rfl | rfl <;> simp at hp
          · have := hd '.' hp
            revert this; decide
      · cases hp
  · simp [hs]

/-- A locale whose point is not '.', and that does not separate digits by '.': only the digits before the point count, the fraction and the
exponent are dropped without an error.  Numbers that begin with the point are refused. -/
theorem C145_point_ends {L : Locale} (h : Distinct L) (hpt : L.point ≠ '.') (hth : L.useGrouping = false ∨ L.thousands ≠ '.') (r : Ref) (t : Bool)
    (name : Str) (rnd : ℚ → Option ℚ) (ip fp : Str) (neg : Bool) (q : ℚ) (hy : YamlFloat r.node.val ip fp neg q) (hp : '.' ∈ r.node.val) :
    (∀ m x, numeral 10 ip = some m → rnd m = some x → r.get (realIn L name rnd) t = .ok (some (.fin neg x))) ∧
    (ip = [] → r.get (realIn L name rnd) false = .ok none) := by
  obtain ⟨sg, ex, n, x, hs, hsg, rfl, hn, hex, -⟩ := yamlFloat_point hy hp
  have hend : ∀ mant k, L.floatChars mant false [] k ('.' :: (fp ++ ex)) = some ([], []) := by
    intro mant k
    rw [Locale.floatChars, if_neg (by rintro ⟨a, b⟩; exact hth.elim (fun e => by simp [a] at e) fun e => e b.symm),
      if_neg (Ne.symm hpt), if_neg (by decide), if_neg (by simp)]
    simp
  constructor
  · intro m x hm hx
    obtain ⟨hne, hd, -⟩ := (Opts.numeral_ten _ _).1 hm
    obtain ⟨c, cs, rfl⟩ := List.exists_cons_of_ne_nil hne
    have hmag : Opts.floatMag (c :: cs) = some (m : ℚ) := by
      have hb : BeginsWithReal (c :: cs) false (m : ℚ) :=
        ⟨[], [], c :: cs, [], [], [], [], m, 0, by simp, by simp, by simp, by simp, by simp, by simpa using hm, .inr ⟨rfl, rfl, by simp, by simp, by simp⟩,
          by simp, by simp⟩
      have := floatMag_begins (hd c (by simp)) hb
      rwa [← List.append_nil (c :: cs), floatChars_opts _ _ hd hne, Opts.floatChars, List.append_nil] at this
    have hread : L.extractReal rnd r.node.val = (.good (.fin (decide (sg = ['-'])) x), true) := by
      rw [hs, List.cons_append, extractReal_sign h rnd sg hsg c _ (.inl (hd c (by simp))), ← List.cons_append,
        Locale.floatChars_run h _ _ hd, hend]
      simp [hmag, hx]
    simp only [Ref.get, realIn, hread]
  · rintro rfl
    have hread : L.extractReal rnd r.node.val = (.bad, true) := by
      rw [hs, List.nil_append, extractReal_sign h rnd sg hsg '.' _ (.inr rfl), hend]
      simp [Opts.floatMag]
    simp [Ref.get, realIn, hread]

/-- A locale that separates digits by '.': the point is a separator.  The number is accepted exactly if there are as many digits after the point
as the last group must have, and before it at least one and at most as many as a further group may have; it is then too large by the factor
`10 ^ g`. -/
theorem C145_point_separates {L : Locale} (h : Distinct L) (hth : L.thousands = '.') (g : Nat) (gs : List Nat)
    (hg : L.grouping = g :: gs) (hg0 : 0 < g ∧ g < 127) (r : Ref) (t : Bool)
    (name : Str) (rnd : ℚ → Option ℚ) (ip fp : Str) (neg : Bool) (q : ℚ) (hy : YamlFloat r.node.val ip fp neg q) (hp : '.' ∈ r.node.val) :
    (∀ x, ip ≠ [] → fp.length = g → (limited (gs.headD g) = true → ip.length ≤ gs.headD g) → rnd (q * 10 ^ g) = some x →
      r.get (realIn L name rnd) t = .ok (some (.fin neg x))) ∧
    (¬ (ip ≠ [] ∧ fp.length = g ∧ (limited (gs.headD g) = true → ip.length ≤ gs.headD g)) → r.get (realIn L name rnd) false = .ok none) := by
  obtain ⟨sg, ex, n, x, hs, hsg, rfl, hn, hex, hq⟩ := yamlFloat_point hy hp
  have hu : L.useGrouping = true := by simp [Locale.useGrouping, hg, limited, hg0]
  obtain ⟨-, hd, -⟩ := (Opts.numeral_ten _ _).1 hn
  have hdi : ∀ c ∈ ip, c.isDigit = true := fun c hc => hd c (by simp [hc])
  have hdf : ∀ c ∈ fp, c.isDigit = true := fun c hc => hd c (by simp [hc])
  have hstop : Locale.StopsF L ex := by
    intro c hc
    have h1 := h.thousands'
    have h2 := h.point'
    simp only [List.mem_cons, List.not_mem_nil, or_false, not_or] at h1 h2
    rcases hex with ⟨c', sg', es, k, rfl, hc', -⟩ | ⟨rfl, -⟩
    · cases hc
      rcases hc' with rfl | rfl
      · exact ⟨Ne.symm h1.2.2.1, Ne.symm h2.2.2.1, by decide, by decide⟩
      · exact ⟨Ne.symm h1.2.2.2, Ne.symm h2.2.2.2, by decide, by decide⟩
    · cases hc
  by_cases hip : ip = []
  · subst hip
    have hread : L.extractReal rnd r.node.val = (.bad, true) := by
      rw [hs, List.nil_append, extractReal_sign h rnd sg hsg '.' _ (.inr rfl), Locale.floatChars, if_pos ⟨hu, hth.symm⟩]
      simp
    exact ⟨fun _ hh => absurd rfl hh, fun _ => by simp [Ref.get, realIn, hread]⟩
  obtain ⟨c, cs, hcc⟩ := List.exists_cons_of_ne_nil hip
  have hc : c.isDigit = true := hdi c (by simp [hcc])
  have hfc : L.floatChars false false [] 0 (ip ++ '.' :: (fp ++ ex)) =
      some (Opts.floatChars false false (ip ++ fp ++ ex), [ip.length, fp.length]) := by
    rw [Locale.floatChars_run h _ _ hdi, Locale.floatChars, if_pos ⟨hu, hth.symm⟩, if_neg Bool.false_ne_true, if_neg (by
        rw [hcc]; simp), Locale.floatChars_run h _ _ hdf]
    have : (false || !ip.isEmpty || !fp.isEmpty) = true := by simp [hcc]
    rw [this, Locale.floatChars_stop hstop, floatChars_opts (ip ++ fp) ex hd (by simp [hip])]
    simp
  have hmag : Opts.floatMag (Opts.floatChars false false (ip ++ fp ++ ex)) = some ((n : ℚ) * 10 ^ x) := by
    have hb : BeginsWithReal (ip ++ fp ++ ex) false ((n : ℚ) * 10 ^ x) := by
      refine ⟨[], [], ip ++ fp, [], ex, [], [], n, x, by simp, by simp, by simp, by simp, by simp, by simpa using hn, ?_, by simp, by simp⟩
      rcases hex with hex | ⟨rfl, rfl⟩
      · exact .inl hex
      · exact .inr ⟨rfl, rfl, by simp, by simp, by simp⟩
    rw [hcc] at hb ⊢
    exact floatMag_begins hc hb
  have hver : Locale.verify L.grouping [fp.length, ip.length] =
      (fp.length == g && (!limited (gs.headD g) || decide (ip.length ≤ gs.headD g))) := by
    rw [hg]
    cases gs <;> simp [Locale.verify]
  have hread : L.extractReal rnd r.node.val = ((match rnd ((n : ℚ) * 10 ^ x) with
      | some r => .good (.fin (decide (sg = ['-'])) r)
      | none => .over (decide (sg = ['-']))),
      (fp.length == g && (!limited (gs.headD g) || decide (ip.length ≤ gs.headD g)))) := by
    have := extractReal_sign h rnd sg hsg c (cs ++ '.' :: (fp ++ ex)) (.inl hc)
    rw [← List.cons_append, ← hcc] at this
    rw [hs, this, hfc]
    simp only [hmag, List.isEmpty_cons, Bool.false_or, List.reverse_cons, List.reverse_nil, List.nil_append, List.singleton_append, hver]
  constructor
  · intro y _ hf hl hy
    have hq' : q * 10 ^ g = (n : ℚ) * 10 ^ x := by
      rw [hq, hf]
      field_simp
    rw [hq'] at hy
    have hb : (fp.length == g && (!limited (gs.headD g) || decide (ip.length ≤ gs.headD g))) = true := by
      rw [hf]
      cases hlim : limited (gs.headD g) with
      | false => simp
      | true => rw [decide_eq_true (hl hlim)]; simp
    rw [hb, hy] at hread
    simp only [Ref.get, realIn, hread]
  · intro hh
    have hb : (fp.length == g && (!limited (gs.headD g) || decide (ip.length ≤ gs.headD g))) = false := by
      rw [Bool.eq_false_iff]
      intro hb
      simp only [Bool.and_eq_true, beq_iff_eq, Bool.or_eq_true, Bool.not_eq_true', decide_eq_true_eq] at hb
      refine hh ⟨hip, hb.1, fun hlim => ?_⟩
      rcases hb.2 with hb | hb
      · rw [hb] at hlim; cases hlim
      · exact hb
    rw [hb] at hread
    have : (realIn L name rnd).read r.node.val = none := by
      simp only [realIn, hread]
      split <;> simp_all
    simp [Ref.get, this]

theorem yamlFloat_chars {s ip fp : Str} {neg : Bool} {q : ℚ} (h : YamlFloat s ip fp neg q) :
    ∀ c ∈ s, c.isDigit = true ∨ c ∈ ['-', '+', 'e', 'E'] ∨ c = '.' := by
  obtain ⟨sg, pt, ex, n, x, rfl, hsg, -, h3, h4, h5, -⟩ := h
  obtain ⟨-, hd, -⟩ := (Opts.numeral_ten _ _).1 h4
  intro c hc
  simp only [List.mem_append] at hc
  rcases hc with ((hc | hc) | hc) | hc
  · rcases hsg with rfl | rfl | rfl <;> simp_all
  · exact .inl (hd c (by simp [hc]))
  · rcases h3 with ⟨rfl, rfl⟩ | rfl
    · cases hc
    · rcases List.mem_cons.1 hc with rfl | hc
      · simp
      · exact .inl (hd c (by simp [hc]))
  · rcases h5 with ⟨c', sg', es, k, rfl, hc', hsg', hk, -⟩ | ⟨rfl, -⟩
    · obtain ⟨-, hd, -⟩ := (Opts.numeral_ten _ _).1 hk
      rcases List.mem_cons.1 hc with rfl | hc
      · rcases hc' with rfl | rfl <;> simp
      · rcases List.mem_append.1 hc with hc | hc
        · rcases hsg' with rfl | rfl | rfl <;> simp_all
        · exact .inl (hd c hc)
    · cases hc

/-- Which numbers are safe: those without a point are read as in the "C" locale whatever the locale is, and all numbers if '.' is the point of the
locale and not its separator. -/
theorem C145_safe {L : Locale} (h : Distinct L) (r : Ref) (t : Bool) (name : Str) (rnd : ℚ → Option ℚ) (ip fp : Str) (neg : Bool) (q : ℚ)
    (hy : YamlFloat r.node.val ip fp neg q) (hs : '.' ∉ r.node.val ∨ L.point = '.' ∧ L.thousands ≠ '.') (x : ℚ) (hx : rnd q = some x) :
    r.get (realIn L name rnd) t = .ok (some (.fin neg x)) := by
  have hch := yamlFloat_chars hy
  have hno : ∀ c, c.isDigit = false → c ∉ ['-', '+', 'e', 'E'] → ('.' ∉ r.node.val ∨ c ≠ '.') → c ∉ r.node.val := by
    intro c h1 h2 h3 hm
    rcases hch c hm with h' | h' | rfl
    · rw [h1] at h'; cases h'
    · exact h2 h'
    · exact h3.elim (fun e => e hm) fun e => e rfl
  have hth : L.thousands ∉ r.node.val := hno _ h.thousands h.thousands' (hs.imp id And.right)
  have hpt : L.point = '.' ∨ L.point ∉ r.node.val ∧ '.' ∉ r.node.val :=
    hs.elim (fun e => .inr ⟨hno _ h.point h.point' (.inl e), e⟩) fun e => .inl e.1
  rw [(C145_same_partial h r t name (.inr hth)).2.2 hpt rnd]
  have := Opts.extractReal_begins rnd (yamlFloat_begins hy)
  rw [hx] at this
  simp only [Ref.get, realTy, this]

theorem scanInt_sign {L : Locale} (h : Distinct L) (sg : Str) (hsg : sg = [] ∨ sg = ['+'] ∨ sg = ['-'])
    (c : Char) (cs : Str) (hc : c.isDigit = true ∨ c = '.') :
    L.scanInt (sg ++ c :: cs) =
      if (L.digits ⟨[], [], 0, false⟩ (c :: cs)).bad = true ∨ (L.digits ⟨[], [], 0, false⟩ (c :: cs)).ds = [] then .bad
      else .num (decide (sg = ['-'])) (Opts.digitsVal (L.digits ⟨[], [], 0, false⟩ (c :: cs)).ds)
        ((L.digits ⟨[], [], 0, false⟩ (c :: cs)).found.isEmpty || Locale.verify L.grouping
          ((L.digits ⟨[], [], 0, false⟩ (c :: cs)).found ++ [(L.digits ⟨[], [], 0, false⟩ (c :: cs)).sepPos]).reverse) := by
  have hsp : Opts.isSpace c = false := by
    rcases hc with hc | rfl
    · exact Opts.digit_not_space hc
    · decide
  have hm : c ≠ '-' ∧ c ≠ '+' := by
    rcases hc with hc | rfl
    · constructor <;> (rintro rfl; revert hc; decide)
    · decide
  have h1 := h.thousands'
  have h2 := h.point'
  simp only [List.mem_cons, List.not_mem_nil, or_false, not_or] at h1 h2
  rcases hsg with rfl | rfl | rfl
  · have hd : (c :: cs).dropWhile Opts.isSpace = c :: cs := by rw [List.dropWhile_cons, hsp]; rfl
    simp [Locale.scanInt, hd, hm]
  · have hd : ('+' :: c :: cs).dropWhile Opts.isSpace = '+' :: c :: cs := rfl
    have n1 : '+' ≠ L.thousands := Ne.symm h1.2.1
    have n2 : '+' ≠ L.point := Ne.symm h2.2.1
    simp [Locale.scanInt, hd, n1, n2]
  · have hd : ('-' :: c :: cs).dropWhile Opts.isSpace = '-' :: c :: cs := rfl
    have n1 : '-' ≠ L.thousands := Ne.symm h1.1
    have n2 : '-' ≠ L.point := Ne.symm h2.1
    simp [Locale.scanInt, hd, n1, n2]

/-- The same for integer types: in a locale that does not separate digits by '.' numbers with a point or an exponent are read as in the "C" locale
(the digits before it, C144). -/
theorem C145_int_same {L : Locale} (h : Distinct L) (hth : L.useGrouping = false ∨ L.thousands ≠ '.') (r : Ref) (t : Bool) (name : Str) (bits : Nat)
    (ip fp : Str) (neg : Bool) (q : ℚ) (hy : YamlFloat r.node.val ip fp neg q) :
    r.get (sintIn L name bits) t = r.get (sintTy name bits) t ∧ r.get (uintIn L name bits) t = r.get (uintTy name bits) t := by
  refine (C145_same_partial h r t name (hth.imp id fun hne hm => ?_)).1 bits
  rcases yamlFloat_chars hy _ hm with h' | h' | h'
  · rw [h.thousands] at h'; cases h'
  · exact h.thousands' h'
  · exact hne h'

theorem scanInt_separates {L : Locale} (h : Distinct L) (hth : L.thousands = '.') (g : Nat) (gs : List Nat)
    (hg : L.grouping = g :: gs) (hg0 : 0 < g ∧ g < 127) (s ip fp : Str) (neg : Bool) (q : ℚ) (hy : YamlFloat s ip fp neg q) (hp : '.' ∈ s) :
    (ip = [] → L.scanInt s = .bad) ∧
    (ip ≠ [] → ∃ n, numeral 10 (ip ++ fp) = some n ∧
      L.scanInt s = .num neg n (decide (fp.length = g ∧ (limited (gs.headD g) = true → ip.length ≤ gs.headD g)))) := by
  obtain ⟨sg, ex, n, x, hs, hsg, rfl, hn, hex, hq⟩ := yamlFloat_point hy hp
  have hu : L.useGrouping = true := by simp [Locale.useGrouping, hg, limited, hg0]
  obtain ⟨-, hd, hnv⟩ := (Opts.numeral_ten _ _).1 hn
  have hdi : ∀ c ∈ ip, c.isDigit = true := fun c hc => hd c (by simp [hc])
  have hdf : ∀ c ∈ fp, c.isDigit = true := fun c hc => hd c (by simp [hc])
  have hstop : Locale.Stops L ex := by
    intro c hc
    have h1 := h.thousands'
    simp only [List.mem_cons, List.not_mem_nil, or_false, not_or] at h1
    rcases hex with ⟨c', sg', es, k, rfl, hc', -⟩ | ⟨rfl, -⟩
    · cases hc
      rcases hc' with rfl | rfl
      · exact ⟨Ne.symm h1.2.2.1, by decide⟩
      · exact ⟨Ne.symm h1.2.2.2, by decide⟩
    · cases hc
  refine ⟨fun hip => ?_, fun hip => ⟨n, hn, ?_⟩⟩
  · subst hip
    have hd0 : L.digits ⟨[], [], 0, false⟩ ('.' :: (fp ++ ex)) = ⟨[], [], 0, true⟩ := by
      rw [Locale.digits, if_pos ⟨hu, hth.symm⟩]
      rfl
    rw [hs, List.nil_append, scanInt_sign h sg hsg '.' _ (.inr rfl), hd0]
    simp
  obtain ⟨c, cs, hcc⟩ := List.exists_cons_of_ne_nil hip
  have hc : c.isDigit = true := hdi c (by simp [hcc])
  have hfc : L.digits ⟨[], [], 0, false⟩ (ip ++ '.' :: (fp ++ ex)) = ⟨ip ++ fp, [ip.length], fp.length, false⟩ := by
    rw [Locale.digits_run h _ _ hdi, Locale.digits, if_pos ⟨hu, hth.symm⟩, if_neg (by simp [hcc]), Locale.digits_run h _ _ hdf,
      Locale.digits_stop hstop]
    simp
  have hver : Locale.verify L.grouping [fp.length, ip.length] =
      decide (fp.length = g ∧ (limited (gs.headD g) = true → ip.length ≤ gs.headD g)) := by
    have e : Locale.verify L.grouping [fp.length, ip.length] =
        (fp.length == g && (!limited (gs.headD g) || decide (ip.length ≤ gs.headD g))) := by
      rw [hg]
      cases gs <;> simp [Locale.verify]
    rw [e, Bool.eq_iff_iff]
    cases limited (gs.headD g) <;> simp
  have := scanInt_sign h sg hsg c (cs ++ '.' :: (fp ++ ex)) (.inl hc)
  rw [← List.cons_append, ← hcc, hfc] at this
  rw [hs, this, if_neg (by simp [hip])]
  simp only [List.isEmpty_cons, Bool.false_or, List.singleton_append, List.reverse_cons, List.reverse_nil, List.nil_append, hver, ← hnv]

/-- In a locale that separates digits by '.', they are accepted exactly in the cases of `C145_point_separates`, with the digits after the point;
an exponent is dropped.  (Unsigned types negate modulo `2 ^ bits`.) -/
theorem C145_int_separates {L : Locale} (h : Distinct L) (hth : L.thousands = '.') (g : Nat) (gs : List Nat)
    (hg : L.grouping = g :: gs) (hg0 : 0 < g ∧ g < 127) (r : Ref) (t : Bool)
    (name : Str) (bits : Nat) (ip fp : Str) (neg : Bool) (q : ℚ) (hy : YamlFloat r.node.val ip fp neg q) (hp : '.' ∈ r.node.val) :
    (∀ m, ip ≠ [] → fp.length = g → (limited (gs.headD g) = true → ip.length ≤ gs.headD g) → numeral 10 (ip ++ fp) = some m →
      ((m : Int) < 2 ^ (bits - 1) → r.get (sintIn L name bits) t = .ok (some (if neg then -(m : Int) else m))) ∧
      (m < 2 ^ bits → r.get (uintIn L name bits) t = .ok (some (if neg then -(m : Int) % 2 ^ bits else m)))) ∧
    (¬ (ip ≠ [] ∧ fp.length = g ∧ (limited (gs.headD g) = true → ip.length ≤ gs.headD g)) →
      r.get (sintIn L name bits) false = .ok none ∧ r.get (uintIn L name bits) false = .ok none) := by
  obtain ⟨h0, h1⟩ := scanInt_separates h hth g gs hg hg0 _ ip fp neg q hy hp
  constructor
  · intro m hip hf hl hm
    obtain ⟨n, hn, hread⟩ := h1 hip
    rw [hn] at hm
    cases hm
    rw [decide_eq_true ⟨hf, hl⟩] at hread
    constructor
    · intro hlt
      generalize hv : (if neg = true then -(m : Int) else m) = v
      have h1 : ¬ v > 2 ^ (bits - 1) - 1 := by split at hv <;> omega
      have h2 : ¬ v < -2 ^ (bits - 1) := by split at hv <;> omega
      simp only [Ref.get, sintIn, Locale.extractSigned, hread, hv, if_neg h1, if_neg h2, if_true]
    · intro hlt
      simp only [Ref.get, uintIn, Locale.extractUnsigned, hread, if_neg (Nat.not_le.2 hlt), if_true]
  · intro hh
    by_cases hip : ip = []
    · have hread := h0 hip
      constructor
      · simp [Ref.get, sintIn, Locale.extractSigned, hread]
      · simp [Ref.get, uintIn, Locale.extractUnsigned, hread]
    · obtain ⟨n, hn, hread⟩ := h1 hip
      rw [decide_eq_false fun hb => hh ⟨hip, hb⟩] at hread
      constructor
      · have : (sintIn L name bits).read r.node.val = none := by
          simp only [sintIn, Locale.extractSigned, hread, Bool.false_eq_true, if_false]
          generalize (if neg = true then -(n : Int) else n) = v
          by_cases h1 : v > 2 ^ (bits - 1) - 1
          · rw [if_pos h1]
          · rw [if_neg h1]
            by_cases h2 : v < -2 ^ (bits - 1)
            · rw [if_pos h2]
            · rw [if_neg h2]
        simp [Ref.get, this]
      · have : (uintIn L name bits).read r.node.val = none := by
          simp only [uintIn, Locale.extractUnsigned, hread, Bool.false_eq_true, if_false]
          by_cases h1 : 2 ^ bits ≤ n
          · rw [if_pos h1]
          · rw [if_neg h1]
        simp [Ref.get, this]

theorem distinct_german : Distinct german := ⟨by decide, by decide, by decide, by decide⟩

/-- The claim is false: in the German locale 144.200 is read as 144200, and 3.14 is refused. -/
theorem C145_refuted : ¬ C145_claim ∧
    (Ref.root (leaf "144.200".toList)).get (realIn german "d".toList binary64.rnd) = .ok (some (.fin false 144200)) ∧
    (Ref.root (leaf "3.14".toList)).get (realIn german "d".toList binary64.rnd) = .ok none ∧
    (Ref.root (leaf "2.5e6".toList)).get (realIn ⟨' ', ',', [3]⟩ "d".toList binary64.rnd) = .ok (some (.fin false 2)) ∧
    (Ref.root (leaf "1,234".toList)).get (sintIn english "i".toList 32) = .ok (some 1234) := by
  have h1 : (Ref.root (leaf "144.200".toList)).get (realIn german "d".toList binary64.rnd) = .ok (some (.fin false 144200)) := by decide +kernel
  refine ⟨fun h => ?_, h1, by decide +kernel, by decide +kernel, by decide +kernel⟩
  have h2 := (h german distinct_german (Ref.root (leaf "3.14".toList)) false "d".toList).2.2 binary64.rnd
  have h3 : (Ref.root (leaf "3.14".toList)).get (realIn german "d".toList binary64.rnd) ≠
      (Ref.root (leaf "3.14".toList)).get (realTy "d".toList binary64.rnd) := by decide +kernel
  exact h3 h2

/-- 144.200 meets the hypotheses of `C145_point_separates` in the German locale. -/
example : YamlFloat "144.200".toList "144".toList "200".toList false (721 / 5) ∧ '.' ∈ "144.200".toList ∧ german.thousands = '.' ∧
    german.grouping = [3] ∧ binary64.rnd (721 / 5 * 10 ^ 3) = some 144200 :=
  ⟨⟨[], ".200".toList, [], 144200, 0, by decide, by decide, by decide, by decide, by decide +kernel, .inr ⟨rfl, rfl⟩, by
    have h : "200".toList.length = 3 := by decide
    rw [h]; norm_num⟩, by decide, rfl, rfl, by decide +kernel⟩

example : (Ref.root (leaf "15e-1".toList)).get (realIn german "d".toList binary64.rnd) = .ok (some (.fin false (3 / 2))) := by decide +kernel
example : (Ref.root (leaf "144.200".toList)).get (sintIn german "i".toList 32) = .ok (some 144200) := by decide +kernel
example : (Ref.root (leaf "-1.000".toList)).get (uintIn german "t".toList 16) = .ok (some 64536) := by decide +kernel
example : (Ref.root (leaf "3.14".toList)).get (sintIn german "i".toList 32) = .ok none := by decide +kernel
example : Distinct ⟨' ', ',', [3]⟩ := ⟨by decide, by decide, by decide, by decide⟩
example : (Ref.root (leaf "-12".toList)).get (sintIn german "i".toList 32) = .ok (some (-12)) := by decide +kernel

end SoDa.Prop
