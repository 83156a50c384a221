import Verif.Proof.OptionsNum
import Verif.Props.Options
import Verif.Props.FormatFSci
/-!
Option values of further types (`double`, sized integers, `char`), the diagnostics of a failed parse, and the documented
`--name=value` form.
-/
namespace SoDa.Opts
open Spec

variable {V : Type}

/-- An object with a `double` option `--gain -g` (default 0) at address 0 and one without default, `--freq -f`, at
address 1. -/
def dblSample : Options Dbl :=
  ((Options.new false (fun _ => .fin false 0) (fun _ => [])).addDef (doubleTy id) 0 "gain".toList 'g' (.fin false 0)).add
    (doubleTy id) 1 "freq".toList 'f'

theorem dblSample_ready : Ready dblSample :=
  .add _ _ _ _ _ _ _ (.addDef _ _ _ _ _ _ _ _ (.new _ _ _))

theorem dblSample_g : Denotes dblSample.decls "-g".toList 0 dblSample.decls[0] :=
  .short (c := 'g') (r := []) (by decide) (isLast_of_findAb dblSample_ready.wf (by decide) rfl)

/-! ## C73  `double` values -/

/-- A `double` option accepts exactly the texts that begin (after white space) with a decimal number in range, and
stores the number rounded to a double. -/
theorem C73_double_values (inj : Dbl → V) (o : Options V) (ho : Ready o) (sw txt : Str) (i : Nat) (d : Decl V)
    (hd : Denotes o.decls sw i d) (hh : ¬ HelpSwitch sw) (hk : d.kind = .scalar)
    (hr : d.read = (doubleTy inj).read) (hs : d.isSigned = true) (ht : ∀ v, d.test v = true) :
    (∀ neg q r, BeginsWithReal txt neg q → binary64.rnd q = some r →
      ∃ o', o.parse [sw, txt] = (o', true) ∧ o'.sc d.target = inj (.fin neg r)) ∧
    ((¬ ∃ neg q r, BeginsWithReal txt neg q ∧ binary64.rnd q = some r) → (o.parse [sw, txt]).2 = false) := by
  constructor
  · intro neg q r h1 h2
    exact C33_signed_scalar_partial o ho sw txt i d _ hd hh hk hs
      ⟨by rw [hr]; exact (doubleTy_read_iff _ _ _).2 ⟨neg, q, r, h1, h2, rfl⟩, ht _⟩
  · intro h
    refine parse_pair_rejected o ho hd hh (by simp [hk]) (.inl (.inl hs)) ?_
    rintro v ⟨ha, _⟩
    rw [hr] at ha
    obtain ⟨neg, q, r, h1, h2, _⟩ := (doubleTy_read_iff _ _ _).1 ha
    exact h ⟨neg, q, r, h1, h2⟩

/-- The stored number is a double, and no double is nearer to the number written. -/
theorem C73_nearest (q r : ℚ) (hq : 0 ≤ q) (hr : binary64.rnd q = some r) :
    binary64.rnd r = some r ∧ ∀ b m, b < 2047 → m < 2 ^ 52 → |r - q| ≤ |dblMag b m - q| := by
  rw [binary64_rnd] at hr
  constructor
  · rw [binary64_rnd]
    obtain ⟨h1, h2⟩ := rndTo_some hr
    obtain ⟨m, j, hm, hu⟩ := units64_form (q * 2 ^ 1074)
    refine rndTo_repr (m := m) (j := j) hm (by rw [← hu]; exact h2) ?_
    rw [h1, ← hu]
    exact div_mul_cancel₀ _ (by positivity)
  · intro b m hb hm
    refine rndTo_nearest hq hr ?_
    by_cases h0 : b = 0
    · refine rndTo_repr (m := m) (j := 0) (by omega) ?_ ?_
      · rw [pow_zero, mul_one]
        exact lt_of_lt_of_le hm (Nat.pow_le_pow_right (by omega) (by omega))
      · rw [dblMag, if_pos h0, pow_zero, mul_one]
        exact div_mul_cancel₀ _ (by positivity)
    · refine rndTo_repr (m := 2 ^ 52 + m) (j := b - 1) (by omega) ?_ ?_
      · calc (2 ^ 52 + m) * 2 ^ (b - 1) < 2 ^ 53 * 2 ^ (b - 1) := Nat.mul_lt_mul_of_pos_right (by omega) (by positivity)
          _ = 2 ^ (53 + (b - 1)) := by rw [pow_add]
          _ ≤ _ := Nat.pow_le_pow_right (by omega) (by omega)
      · rw [dblMag, if_neg h0, Nat.cast_mul, Nat.cast_pow, Nat.cast_ofNat]
        exact div_mul_cancel₀ _ (by positivity)

theorem sample_real : BeginsWithReal " -1.25e1x".toList true (25 / 2) :=
  ⟨" ".toList, ['-'], ['1'], ".25".toList, "e1".toList, "x".toList, "25".toList, 125, 1, by decide, by simp [White],
    .inr (.inr rfl), by decide, .inr rfl, by decide,
    .inl ⟨'e', [], ['1'], 1, rfl, .inl rfl, .inl rfl, by decide, by decide⟩, by decide,
    by rw [show "25".toList.length = 2 by decide]; norm_num⟩

example : ∃ o', dblSample.parse ["-g".toList, " -1.25e1x".toList] = (o', true) ∧ o'.sc 0 = .fin true (25 / 2) :=
  (C73_double_values id dblSample dblSample_ready _ _ 0 _ dblSample_g (not_help (by decide) (by decide)) rfl rfl rfl
    fun _ => rfl).1 true _ _ sample_real (by decide +kernel)

/-- Complete numbers are accepted; an `e` without exponent, a text without digits, `inf` and too large numbers are
not. -/
example : (["1.", ".5", "+7", "1.5.2", "2E-3", "1e-400"].map fun t => (dblSample.parse ["-g".toList, t.toList]).2) =
      [true, true, true, true, true, true] ∧
    (["1e", "1e+", ".", "", "inf", "nan", "e5", "1e400"].map fun t => (dblSample.parse ["-g".toList, t.toList]).2) =
      [false, false, false, false, false, false, false, false] := by
  decide +kernel

/-! ## C74  numbers printed with 17 significant digits are read back -/

theorem foldl_ge (ds : Str) (a : Nat) :
    a * 10 ^ ds.length ≤ ds.foldl (fun n c => 10 * n + (c.toNat - 48)) a := by
  induction ds generalizing a with
  | nil => simp
  | cons c cs ih =>
    rw [List.foldl_cons, List.length_cons]
    refine le_trans ?_ (ih _)
    calc a * 10 ^ (cs.length + 1) = (10 * a) * 10 ^ cs.length := by rw [pow_succ]; ring
      _ ≤ _ := Nat.mul_le_mul_right _ (by omega)

/-- A numeral that does not begin with a zero. -/
theorem numeral_ge {c : Char} {fp : Str} {n : Nat} (h : numeral 10 (c :: fp) = some n) (hc : c ≠ '0') :
    10 ^ fp.length ≤ n := by
  obtain ⟨_, hd, rfl⟩ := (numeral_ten _ _).1 h
  have hc1 := (isDigit_iff c).1 (hd c (by simp))
  have h48 : 48 ≤ c.toNat := by simpa [Char.le_def, UInt32.le_iff_toNat_le] using hc1.1
  have hne : c.toNat ≠ 48 := by
    intro h'
    apply hc
    apply Char.toNat_inj.1
    simpa using h'
  have := foldl_ge fp (10 * 0 + (c.toNat - 48))
  refine le_trans ?_ this
  calc 10 ^ fp.length = 1 * 10 ^ fp.length := by ring
    _ ≤ _ := Nat.mul_le_mul_right _ (by omega)

/-- A decimal number of at least 17 significant digits correctly rounded from a double. -/
theorem rnd64_of_digits {q : ℚ} (hq : binary64.rnd q = some q) {n p : Nat} {e : Int} (hn : 10 ^ p ≤ n) (hp : 16 ≤ p)
    (herr : |(n : ℚ) * 10 ^ e - q| ≤ 10 ^ e / 2) : binary64.rnd ((n : ℚ) * 10 ^ e) = some q := by
  apply rnd64_of_near hq
  refine herr.trans ?_
  have he : (0 : ℚ) < 10 ^ e := by positivity
  have h1 : ((10 ^ 16 : Nat) : ℚ) ≤ n := by exact_mod_cast (Nat.pow_le_pow_right (by omega) hp).trans hn
  rw [le_div_iff₀ (by positivity)]
  push_cast at h1
  nlinarith

theorem expText_exponent {e : Int} {t : Str} (h : ExpText e t) : Exponent t e := by
  obtain ⟨es, rfl, hn, _, _⟩ := h
  refine ⟨'e', [if e < 0 then '-' else '+'], es, e.natAbs, rfl, .inl rfl, ?_, hn, ?_⟩
  · by_cases he : e < 0 <;> simp [he]
  · by_cases he : e < 0
    · rw [if_pos he, if_pos rfl]; omega
    · rw [if_neg he, if_neg (by decide)]; omega

theorem head_replicate (k : Nat) (c : Char) (h : (List.replicate k ' ').head? = some c) : c = ' ' := by
  cases k with
  | zero => simp at h
  | succ k => simp [List.replicate_succ] at h; exact h.symm

/-- C74.  What `addF` prints for a finite double in scientific notation with 16 or more fraction digits, given to a
`double` option, is that double again, sign included. -/
theorem C74_roundtrip_scientific (inj : Dbl → V) (o : Options V) (ho : Ready o) (sw : Str) (i : Nat) (dc : Decl V)
    (hd : Denotes o.decls sw i dc) (hh : ¬ HelpSwitch sw) (hk : dc.kind = .scalar)
    (hr : dc.read = (doubleTy inj).read) (hs : dc.isSigned = true) (ht : ∀ v, dc.test v = true)
    (A : Arith) (fuel : Nat) (radix : Char) (neg : Bool) (q : ℚ) (hq : 0 ≤ q) (hdbl : binary64.rnd q = some q)
    (w d : Nat) (hw : w < 2 ^ 31) (hd16 : 16 ≤ d) (hd31 : d + 4 < 2 ^ 31) (f : Fmt) :
    ∃ f' txt, f.addF A fuel radix (.fin neg q) 's' w d = some (.ok f') ∧ Inserts f f' txt ∧
      ∃ o', o.parse [sw, txt] = (o', true) ∧ o'.sc dc.target = inj (.fin neg q) := by
  obtain ⟨f', c, fp, ex, n, e, hf, hi, hlen, hn, hex, hz, hc, herr, _⟩ :=
    C65_addF_scientific A fuel radix neg q hq w d hw hd31 f
  dsimp only at hi
  rw [if_neg (by omega : ¬ d = 0)] at hi
  refine ⟨f', _, hf, hi, ?_⟩
  generalize hbody : (if neg then ['-'] else []) ++ [c] ++ '.' :: fp ++ ex = body
  have hrnd : binary64.rnd ((n : ℚ) * 10 ^ (e - d)) = some q := by
    by_cases h0 : q = 0
    · rw [(hz h0).1, h0, Nat.cast_zero, zero_mul, ← h0]; rw [h0] at hdbl ⊢; exact hdbl
    · have := numeral_ge hn (hc h0)
      rw [hlen] at this
      exact rnd64_of_digits hdbl this hd16 herr
  refine (C73_double_values inj o ho sw _ i dc hd hh hk hr hs ht).1 neg _ q ?_ hrnd
  refine ⟨[], if neg then ['-'] else [], [c], '.' :: fp, ex, List.replicate ((if w = 0 then d + 4 else w) - body.length) ' ',
    fp, n, e, ?_, by simp, ?_, ?_, .inr rfl, hn, .inl (expText_exponent hex), ?_, ?_⟩
  · rw [← hbody]; simp
  · cases neg <;> simp
  · cases neg <;> simp
  · intro x hx; rw [head_replicate _ _ hx]; decide
  · rw [hlen, zpow_sub₀ (by norm_num), zpow_natCast]
    ring

/-- The same for default notation with 17 or more significant digits. -/
theorem C74_roundtrip_general (inj : Dbl → V) (o : Options V) (ho : Ready o) (sw : Str) (i : Nat) (dc : Decl V)
    (hd : Denotes o.decls sw i dc) (hh : ¬ HelpSwitch sw) (hk : dc.kind = .scalar)
    (hr : dc.read = (doubleTy inj).read) (hs : dc.isSigned = true) (ht : ∀ v, dc.test v = true)
    (A : Arith) (fuel : Nat) (radix : Char) (neg : Bool) (q : ℚ) (hq : 0 ≤ q) (hdbl : binary64.rnd q = some q)
    (w d : Nat) (hw : w < 2 ^ 31) (hd17 : 17 ≤ d) (hd31 : d + 4 < 2 ^ 31) (f : Fmt) :
    ∃ f' txt, f.addF A fuel radix (.fin neg q) 'g' w d = some (.ok f') ∧ Inserts f f' txt ∧
      ∃ o', o.parse [sw, txt] = (o', true) ∧ o'.sc dc.target = inj (.fin neg q) := by
  obtain ⟨f', ip, fp, ex, m, hf, hi, hlz, hfl, hm, hz, hnz⟩ :=
    C66_addF_general A fuel radix neg q hq w d hw hd31 f
  dsimp only at hi
  refine ⟨f', _, hf, hi, ?_⟩
  generalize hbody : (if neg then ['-'] else []) ++ ip ++ (if fp = [] then [] else '.' :: fp) ++ ex = body
  have key : ∃ x : Int, binary64.rnd ((m : ℚ) / 10 ^ fp.length * 10 ^ x) = some q ∧
      (Exponent ex x ∨ ex = [] ∧ x = 0) := by
    by_cases h0 : q = 0
    · obtain ⟨rfl, rfl, rfl⟩ := hz h0
      have hm0 : m = 0 := by
        have : numeral 10 (['0'] ++ []) = some 0 := by decide
        rw [this] at hm; simpa using hm.symm
      refine ⟨0, ?_, .inr ⟨rfl, rfl⟩⟩
      rw [hm0, h0, Nat.cast_zero, zero_div, zero_mul]
      rw [h0] at hdbl
      exact hdbl
    · obtain ⟨x, N, hN1, _, hval, herr, _, hiff, hexp⟩ := hnz h0
      have hmax : max d 1 = d := by omega
      rw [hmax] at hN1 hval herr
      refine ⟨if ex = [] then 0 else x, ?_, ?_⟩
      · rw [hval]
        exact rnd64_of_digits hdbl hN1 (by omega) herr
      · by_cases he : ex = []
        · exact .inr ⟨he, by simp [he]⟩
        · rw [if_neg he]; exact .inl (expText_exponent (hexp he).1)
  obtain ⟨x, hrnd, hexp⟩ := key
  refine (C73_double_values inj o ho sw _ i dc hd hh hk hr hs ht).1 neg _ q ?_ hrnd
  refine ⟨[], if neg then ['-'] else [], ip, if fp = [] then [] else '.' :: fp, ex,
    List.replicate ((if w = 0 then d + 4 else w) - body.length) ' ',
    fp, m, x, ?_, by simp, ?_, ?_, ?_, hm, ?_, ?_, rfl⟩
  · rw [← hbody]; simp
  · cases neg <;> simp
  · cases neg <;> simp
  · by_cases h : fp = [] <;> simp [h]
  · rcases hexp with h | ⟨rfl, rfl⟩
    · exact .inl h
    · refine .inr ⟨rfl, rfl, ?_, ?_, fun _ => ?_⟩ <;>
      · intro h; have := head_replicate _ _ h; simp at this
  · intro y hy; rw [head_replicate _ _ hy]; decide

/-- Sixteen digits are not enough: two different doubles print alike, so no reader can tell them apart. -/
theorem C74_sharp : ∃ q r : ℚ, q ≠ r ∧ binary64.rnd q = some q ∧ binary64.rnd r = some r ∧
    ∀ fuel radix w (f : Fmt), f.addF binary64 fuel radix (.fin false q) 's' w 15 =
      f.addF binary64 fuel radix (.fin false r) 's' w 15 := by
  refine ⟨1, 1 + 1 / 2 ^ 52, by norm_num, by decide +kernel, by decide +kernel, ?_⟩
  intro fuel radix w f
  have h : showSci false 1 15 = showSci false (1 + 1 / 2 ^ 52) 15 := by decide +kernel
  have hp : precision 15 = 15 := by decide
  have ht : textF binary64 fuel radix (.fin false 1) 's' w 15 =
      textF binary64 fuel radix (.fin false (1 + 1 / 2 ^ 52)) 's' w 15 := by
    simp only [textF, if_true, hp, h]
    rw [if_neg (show ¬ 's' = 'f' by decide), if_neg (show ¬ 's' = 'f' by decide)]
  unfold Fmt.addF
  rw [ht]

/-! ## C75  signed integers of any size -/

/-- An option of a signed type of `bits` bits accepts exactly the texts that begin with an integer in range, and stores
that integer. -/
theorem C75_signed_values (bits : Nat) (inj : Int → V) (o : Options V) (ho : Ready o) (sw txt : Str) (i : Nat)
    (d : Decl V) (hd : Denotes o.decls sw i d) (hh : ¬ HelpSwitch sw) (hk : d.kind = .scalar)
    (hr : d.read = (sintTy bits inj).read) (hs : d.isSigned = true) (ht : ∀ v, d.test v = true) :
    (∀ n : Int, BeginsWithInt txt n → -2 ^ (bits - 1) ≤ n → n < 2 ^ (bits - 1) →
      ∃ o', o.parse [sw, txt] = (o', true) ∧ o'.sc d.target = inj n) ∧
    ((¬ ∃ n : Int, BeginsWithInt txt n ∧ -2 ^ (bits - 1) ≤ n ∧ n < 2 ^ (bits - 1)) → (o.parse [sw, txt]).2 = false) := by
  constructor
  · intro n h1 h2 h3
    refine C33_signed_scalar_partial o ho sw txt i d _ hd hh hk hs ⟨?_, ht _⟩
    rw [hr]
    simp [sintTy, tyOf, (extractSigned_good_iff bits txt n).2 ⟨h1, h2, by omega⟩]
  · intro h
    refine parse_pair_rejected o ho hd hh (by simp [hk]) (.inl (.inl hs)) ?_
    rintro v ⟨ha, _⟩
    rw [hr] at ha
    simp only [sintTy, tyOf] at ha
    cases he : extractSigned bits txt with
    | good n =>
      obtain ⟨h1, h2, h3⟩ := (extractSigned_good_iff bits txt n).1 he
      exact h ⟨n, h1, h2, by omega⟩
    | _ => rw [he] at ha; simp at ha

theorem signedNumeral_begins {digits : Str} {v : Int} (h : signedNumeral digits = some v) (k : Nat) :
    BeginsWithInt (List.replicate k ' ' ++ digits) v := by
  have hw : ∀ c ∈ List.replicate k ' ', White c := by
    intro c hc; rw [(List.mem_replicate.1 hc).2]; simp [White]
  unfold signedNumeral at h
  split at h
  · rename_i ds
    cases hn : numeral 10 ds with
    | none => rw [hn] at h; simp at h
    | some n =>
      rw [hn] at h
      simp at h
      exact ⟨_, ['-'], ds, [], n, by simp, hw, .inr (.inr rfl), hn, by simp, by simp [h]⟩
  · cases hn : numeral 10 digits with
    | none => rw [hn] at h; simp at h
    | some n =>
      rw [hn] at h
      simp at h
      exact ⟨_, [], digits, [], n, by simp, hw, .inl rfl, hn, by simp, by simp [h]⟩

/-- What `addI` prints (padded with spaces) is read back by an option of any signed type that can hold it. -/
theorem C75_addI_roundtrip (bits : Nat) (inj : Int → V) (o : Options V) (ho : Ready o) (sw : Str) (i : Nat)
    (d : Decl V) (hd : Denotes o.decls sw i d) (hh : ¬ HelpSwitch sw) (hk : d.kind = .scalar)
    (hr : d.read = (sintTy bits inj).read) (hs : d.isSigned = true) (ht : ∀ v, d.test v = true)
    (f : Fmt) (v : Int) (h1 : -2 ^ (bits - 1) ≤ v) (h2 : v < 2 ^ (bits - 1)) (w : Nat) (hw : w < 2 ^ 31) :
    ∃ txt, Inserts f (f.addI v w nul nul) txt ∧
      ∃ o', o.parse [sw, txt] = (o', true) ∧ o'.sc d.target = inj v := by
  obtain ⟨digits, hi, hn, _⟩ := C11_addI f v w nul hw
  rw [if_pos rfl] at hi
  exact ⟨_, hi, (C75_signed_values bits inj o ho sw _ i d hd hh hk hr hs ht).1 v (signedNumeral_begins hn _) h1 h2⟩

/-- The type `int` of C33 and C34 is the one of 32 bits. -/
theorem C75_int : intTy.read = (sintTy 32 Val.int).read := by
  funext s
  apply Option.ext
  intro v
  rw [intTy_read_iff]
  simp only [sintTy, tyOf]
  constructor
  · rintro ⟨n, rfl, h1, h2, h3⟩
    rw [(extractSigned_good_iff 32 s n).2 ⟨h1, by norm_num; omega, by norm_num; omega⟩]
  · intro h
    cases he : extractSigned 32 s with
    | good n =>
      rw [he] at h
      obtain ⟨h1, h2, h3⟩ := (extractSigned_good_iff 32 s n).1 he
      simp at h
      norm_num at h2 h3
      exact ⟨n, h.symm, h1, by omega, by omega⟩
    | _ => rw [he] at h; simp at h

/-- An object with a `long` option `--long -l` and an `unsigned int` option `--count -c`, without defaults. -/
def intSample : Options Int :=
  ((Options.new false (fun _ => 0) (fun _ => [])).add (sintTy 64 id) 0 "long".toList 'l').add
    (uintTy 32 id) 1 "count".toList 'c'

theorem intSample_ready : Ready intSample :=
  .add _ _ _ _ _ _ _ (.add _ _ _ _ _ _ _ (.new _ _ _))

theorem intSample_l : Denotes intSample.decls "-l".toList 0 intSample.decls[0] :=
  .short (c := 'l') (r := []) (by decide) (isLast_of_findAb intSample_ready.wf (by decide) rfl)

theorem intSample_c : Denotes intSample.decls "-c".toList 1 intSample.decls[1] :=
  .short (c := 'c') (r := []) (by decide) (isLast_of_findAb intSample_ready.wf (by decide) rfl)

example : ∃ txt, Inserts (Fmt.mk' "%0".toList) ((Fmt.mk' "%0".toList).addI (-123456789012) 20 nul nul) txt ∧
    ∃ o', intSample.parse ["-l".toList, txt] = (o', true) ∧ o'.sc 0 = -123456789012 :=
  C75_addI_roundtrip 64 id intSample intSample_ready _ 0 _ intSample_l (not_help (by decide) (by decide)) rfl rfl rfl
    (fun _ => rfl) _ _ (by norm_num) (by norm_num) 20 (by norm_num)

example : (intSample.parse ["-l".toList, "9223372036854775808".toList]).2 = false ∧
    (intSample.parse ["-l".toList, "9223372036854775807".toList]).2 = true := by decide +kernel

/-! ## C76  unsigned integers -/

/-- What one expects: the numbers from 0 to `2 ^ bits - 1` are accepted, everything else is rejected. -/
def C76_claim (bits : Nat) (inj : Int → V) (o : Options V) (sw : Str) (d : Decl V) : Prop :=
  ∀ txt : Str, (Greedy d ∨ ¬ SwitchLike txt) →
    (∀ n : Int, BeginsWithInt txt n → 0 ≤ n → n < 2 ^ bits →
      ∃ o', o.parse [sw, txt] = (o', true) ∧ o'.sc d.target = inj n) ∧
    ((¬ ∃ n : Int, BeginsWithInt txt n ∧ 0 ≤ n ∧ n < 2 ^ bits) → (o.parse [sw, txt]).2 = false)

/-- What holds: the numbers accepted are those of magnitude below `2 ^ bits`, and what is stored is the number modulo
`2 ^ bits`.  Missing: the rejection of negative numbers. -/
theorem C76_unsigned_partial (bits : Nat) (inj : Int → V) (o : Options V) (ho : Ready o) (sw txt : Str) (i : Nat)
    (d : Decl V) (hd : Denotes o.decls sw i d) (hh : ¬ HelpSwitch sw) (hk : d.kind = .scalar)
    (hr : d.read = (uintTy bits inj).read) (ht : ∀ v, d.test v = true) (hg : Greedy d ∨ ¬ SwitchLike txt) :
    (∀ n : Int, BeginsWithInt txt n → -2 ^ bits < n → n < 2 ^ bits →
      ∃ o', o.parse [sw, txt] = (o', true) ∧ o'.sc d.target = inj (if 0 ≤ n then n else n + 2 ^ bits)) ∧
    ((¬ ∃ n : Int, BeginsWithInt txt n ∧ -2 ^ bits < n ∧ n < 2 ^ bits) → (o.parse [sw, txt]).2 = false) := by
  have hp : (0 : Int) < 2 ^ bits := by positivity
  have hcast : ((2 ^ bits : Nat) : Int) = 2 ^ bits := by push_cast; rfl
  constructor
  · intro n h1 h2 h3
    have hmod : n % 2 ^ bits = if 0 ≤ n then n else n + 2 ^ bits := by
      by_cases h0 : 0 ≤ n
      · rw [if_pos h0, Int.emod_eq_of_lt h0 h3]
      · rw [if_neg h0, ← Int.add_emod_right, Int.emod_eq_of_lt (by omega) (by omega)]
    have ha : Accepts d txt (inj (if 0 ≤ n then n else n + 2 ^ bits)) := by
      refine ⟨?_, ht _⟩
      rw [hr]
      simp only [uintTy, tyOf, (extractUnsigned_good_iff bits txt _).2 ⟨n, h1, by omega, rfl⟩]
      rw [hmod]
    obtain ⟨o', e1, e2, _⟩ := parse_pair o ho hd hh (by simp [hk]) hg ha
    exact ⟨o', e1, e2 hk⟩
  · intro h
    refine parse_pair_rejected o ho hd hh (by simp [hk]) hg ?_
    rintro v ⟨ha, _⟩
    rw [hr] at ha
    simp only [uintTy, tyOf] at ha
    cases he : extractUnsigned bits txt with
    | good n =>
      obtain ⟨n, h1, h2, _⟩ := (extractUnsigned_good_iff bits txt n).1 he
      exact h ⟨n, h1, by omega, by omega⟩
    | _ => rw [he] at ha; simp at ha

/-- An `unsigned int` option without default takes `-1` and stores 4294967295. -/
theorem C76_refuted : ¬ C76_claim 32 id intSample "-c".toList intSample.decls[1] ∧
    (intSample.parse ["-c".toList, "-1".toList]).2 = true ∧
    (intSample.parse ["-c".toList, "-1".toList]).1.sc 1 = 4294967295 := by
  have h2 : (intSample.parse ["-c".toList, "-1".toList]).2 = true := by decide +kernel
  refine ⟨?_, h2, by decide +kernel⟩
  intro h
  have := (h "-1".toList (.inl (.inr rfl))).2 (by
    rintro ⟨n, hb, h0, _⟩
    have hm : BeginsWithInt "-1".toList (-1) :=
      ⟨[], ['-'], ['1'], [], 1, rfl, by simp, .inr (.inr rfl), by decide, by simp, rfl⟩
    obtain ⟨neg1, m1, e1, f1⟩ := (scanInt_iff _ _).2 hb
    obtain ⟨neg2, m2, e2, f2⟩ := (scanInt_iff _ _).2 hm
    rw [e1] at e2
    simp only [IntScan.num.injEq] at e2
    rw [e2.1, e2.2, ← f2] at f1
    omega)
  rw [h2] at this
  simp at this

/-- What `addU` prints in decimal is read back by an unsigned option that can hold it. -/
theorem C76_addU_roundtrip_partial (bits : Nat) (inj : Int → V) (o : Options V) (ho : Ready o) (sw : Str) (i : Nat)
    (d : Decl V) (hd : Denotes o.decls sw i d) (hh : ¬ HelpSwitch sw) (hk : d.kind = .scalar)
    (hr : d.read = (uintTy bits inj).read) (ht : ∀ v, d.test v = true)
    (f : Fmt) (v : Nat) (hv : v < 2 ^ bits) (w g : Nat) (hw : w < 2 ^ 31) (fmt : Char)
    (hfmt : fmt ∉ ['x', 'X', 'h', 'H', 'o', 'O']) :
    ∃ txt, Inserts f (f.addU v fmt w nul g) txt ∧
      ∃ o', o.parse [sw, txt] = (o', true) ∧ o'.sc d.target = inj v := by
  obtain ⟨digits, hi, _, hn⟩ := C15_addU_dec f v w g fmt hw hfmt
  refine ⟨_, hi, ?_⟩
  obtain ⟨hne, hds, _⟩ := (numeral_ten _ _).1 hn
  have hb : BeginsWithInt (List.replicate (w - digits.length) ' ' ++ digits) v :=
    ⟨List.replicate (w - digits.length) ' ', [], digits, [], v, by simp, by
      intro c hc; rw [(List.mem_replicate.1 hc).2]; simp [White], .inl rfl, hn, by simp, by simp⟩
  have hsw : ¬ SwitchLike (List.replicate (w - digits.length) ' ' ++ digits) := by
    have hhd : (List.replicate (w - digits.length) ' ' ++ digits).head? ≠ some '-' := by
      cases w - digits.length with
      | zero =>
        obtain ⟨c, cs, rfl⟩ := List.exists_cons_of_ne_nil hne
        have := hds c (by simp)
        simp only [List.replicate_zero, List.nil_append, List.head?_cons, ne_eq, Option.some.injEq]
        rintro rfl
        simp [Char.isDigit] at this
      | succ k => simp [List.replicate_succ]
    rintro (⟨c, r, h, _⟩ | ⟨n, h, _⟩) <;> exact hhd (by rw [h]; rfl)
  have hcast : ((2 ^ bits : Nat) : Int) = 2 ^ bits := by push_cast; rfl
  have := (C76_unsigned_partial bits inj o ho sw _ i d hd hh hk hr ht (.inr hsw)).1 v hb (by
    have : (0 : Int) < 2 ^ bits := by positivity
    omega) (by omega)
  simpa using this

example : ∃ txt, Inserts (Fmt.mk' "%0".toList) ((Fmt.mk' "%0".toList).addU 4294967295 'd' 12 nul 4) txt ∧
    ∃ o', intSample.parse ["-c".toList, txt] = (o', true) ∧ o'.sc 1 = 4294967295 :=
  C76_addU_roundtrip_partial 32 id intSample intSample_ready _ 1 _ intSample_c (not_help (by decide) (by decide)) rfl rfl
    (fun _ => rfl) _ 4294967295 (by norm_num) 12 4 (by norm_num) 'd' (by decide)

/-! ## C77  `char` values -/

/-- A `char` option stores the first character that is not white space, whatever follows it, and rejects a text without
one. -/
theorem C77_char_values (inj : Char → V) (o : Options V) (ho : Ready o) (sw txt : Str) (i : Nat) (d : Decl V)
    (hd : Denotes o.decls sw i d) (hh : ¬ HelpSwitch sw) (hk : d.kind = .scalar)
    (hr : d.read = (charTy inj).read) (hs : d.isSigned = true) (ht : ∀ v, d.test v = true) :
    (∀ (ws rest : Str) (c : Char), txt = ws ++ c :: rest → (∀ x ∈ ws, White x) → ¬ White c →
      ∃ o', o.parse [sw, txt] = (o', true) ∧ o'.sc d.target = inj c) ∧
    ((∀ x ∈ txt, White x) → (o.parse [sw, txt]).2 = false) := by
  constructor
  · intro ws rest c h1 h2 h3
    refine C33_signed_scalar_partial o ho sw txt i d _ hd hh hk hs ⟨?_, ht _⟩
    have hc : isSpace c = false := by
      cases hx : isSpace c with
      | false => rfl
      | true => exact absurd ((isSpace_iff c).1 hx) h3
    rw [hr, h1]
    simp only [charTy]
    rw [dropWhile_append_all _ _ _ fun x hx => (isSpace_iff x).2 (h2 x hx), List.dropWhile_cons, hc]
    rfl
  · intro h
    refine parse_pair_rejected o ho hd hh (by simp [hk]) (.inl (.inl hs)) ?_
    rintro v ⟨ha, _⟩
    have := dropWhile_append_all isSpace txt [] fun x hx => (isSpace_iff x).2 (h x hx)
    rw [List.append_nil] at this
    rw [hr] at ha
    simp [charTy, this] at ha

/-- An object with a `char` option `--sep -s`, default a comma. -/
def charSample : Options Char :=
  (Options.new false (fun _ => nul) (fun _ => [])).addDef (charTy id) 0 "sep".toList 's' ','

theorem charSample_ready : Ready charSample := .addDef _ _ _ _ _ _ _ _ (.new _ _ _)

example : ∃ o', charSample.parse ["-s".toList, " -x".toList] = (o', true) ∧ o'.sc 0 = '-' :=
  (C77_char_values id charSample charSample_ready _ _ 0 charSample.decls[0]
    (.short (c := 's') (r := []) (by decide) (isLast_of_findAb charSample_ready.wf (by decide) rfl))
    (not_help (by decide) (by decide)) rfl rfl rfl fun _ => rfl).1 " ".toList "x".toList '-' rfl (by simp [White])
    (by simp [White])

/-! ## C78  diagnostics -/

/-- What the user is told, given the help text: nothing if the line was read to its end; else the name that is not
known (and the help text), the help text, or the option with the text it did not accept and the message registered with
the option. -/
def Complaint (help : Str) (e : Ending V) (text : Str) : Prop :=
  match e with
  | .done | .dangling _ _ _ => text = []
  | .unknown sw => text = "Command option [[".toList ++ sw ++ "]] is unknown.\n".toList ++ help
  | .help _ => text = help
  | .rejected _ _ d txt =>
    text = d.long ++ " unacceptable value \"".toList ++ txt ++ "\" ".toList ++ d.err ++ "\n".toList

theorem whatText_id {s : Str} (h : nul ∉ s) : whatText s = s := by
  unfold whatText
  apply List.takeWhile_eq_self_iff.2
  intro c hc
  simp only [ne_eq, decide_eq_true_eq]
  rintro rfl
  exact h hc

theorem printHelp_congr {o o' : Options V} (h1 : o'.decls = o.decls) (h2 : o'.longMap = o.longMap)
    (h3 : o'.info = o.info) (h4 : o'.isKvp = o.isKvp) : o'.printHelp = o.printHelp := by
  have : ∀ m, o'.helpLoop m = o.helpLoop m := by
    intro m
    induction m with
    | nil => rfl
    | cons x m ih => obtain ⟨n, p⟩ := x; simp only [Options.helpLoop, h1, h4, ih]
  unfold Options.printHelp
  rw [this, h2, h3]

/-- The diagnostics of a line are what `Complaint` says, and `parse` returns false exactly if there is something wrong. -/
theorem C78_diagnostics (o : Options V) (ho : Ready o) (ts : List Str) (its : List (LineItem V)) (e : Ending V)
    (h : Reads o.decls ts its e) (help : Str) (hhelp : o.printHelp = .ok help)
    (hn1 : ∀ t ∈ ts, nul ∉ t) (hn2 : ∀ d ∈ o.decls, nul ∉ d.long ∧ nul ∉ d.err) :
    ∃ o' ds text, o.parse ts = (o', match e with | .done | .dangling _ _ _ => true | _ => false) ∧
      o'.cerr = o.cerr ++ ds ∧ o'.diagTexts ds = .ok text ∧ Complaint help e text := by
  have hp := parse_reads ho.wf ho.waiting h
  have hk := parse_keep ho.wf ts
  have hc := (items_keep its o).2.2.2.2.2.2
  have hhelp' : (o.parse ts).1.printHelp = .ok help := by
    rw [printHelp_congr hk.1 hk.2.1 hk.2.2.2.1 hk.2.2.2.2]; exact hhelp
  -- the tokens of the ending are tokens of the line
  have hmem : (∀ sw, e = .unknown sw → nul ∉ sw) ∧
      (∀ sw i d txt, e = .rejected sw i d txt → nul ∉ txt ∧ nul ∉ d.long ∧ nul ∉ d.err) := by
    clear hp hk hc hhelp' hhelp
    induction h with
    | done => exact ⟨by simp, by simp⟩
    | word _ _ ih => exact ih fun t ht => hn1 t (by simp [ht])
    | flag _ _ _ _ ih => exact ih fun t ht => hn1 t (by simp [ht])
    | value _ _ _ _ _ _ ih => exact ih fun t ht => hn1 t (by simp [ht])
    | bare _ _ _ _ _ _ ih => exact ih fun t ht => hn1 t (by simp only [List.mem_cons] at ht ⊢; exact .inr ht)
    | dangling => exact ⟨by simp, by simp⟩
    | unknown => exact ⟨by rintro sw ⟨⟩; exact hn1 _ (by simp), by simp⟩
    | help => exact ⟨by simp, by simp⟩
    | @rejected sw i d txt ts hd =>
      have hd' : d ∈ o.decls := by
        cases hd with
        | long _ hl => exact List.mem_of_getElem? hl.1
        | short _ hl => exact List.mem_of_getElem? hl.1
      refine ⟨by simp, ?_⟩
      intro sw' i' d' txt' he
      simp only [Ending.rejected.injEq] at he
      obtain ⟨-, -, rfl, rfl⟩ := he
      exact ⟨hn1 _ (by simp), hn2 d hd'⟩
  have hlit1 : nul ∉ "Command option [[".toList ∧ nul ∉ "]] is unknown.".toList := by decide
  have hlit2 : nul ∉ " unacceptable value \"".toList ∧ nul ∉ "\" ".toList := by decide
  rw [hp] at hhelp'
  simp only [finish] at hhelp'
  cases e with
  | done => exact ⟨_, [], [], hp, by simp [hc], rfl, rfl⟩
  | dangling sw i d => exact ⟨_, [], [], hp, by simp [hc], rfl, rfl⟩
  | unknown sw =>
    refine ⟨_, [.badName sw, .help], _, hp, by simp [hc], ?_, rfl⟩
    simp only [Options.diagTexts, Options.diagText]
    rw [hhelp', whatText_id (by simp only [List.mem_append, not_or]; exact ⟨⟨hlit1.1, hmem.1 _ rfl⟩, hlit1.2⟩)]
    simp only [Res.bind]
    simp
  | help sw =>
    refine ⟨_, [.help], _, hp, by simp [hc], ?_, rfl⟩
    simp only [Options.diagTexts, Options.diagText]
    rw [hhelp']
    simp [Res.bind]
  | rejected sw i d txt =>
    obtain ⟨m1, m2, m3⟩ := hmem.2 _ _ _ _ rfl
    refine ⟨_, [.badValue d.long txt d.err], _, hp, by simp [hc], ?_, rfl⟩
    simp only [Options.diagTexts, Options.diagText]
    rw [whatText_id (by
      simp only [List.mem_append, not_or]; exact ⟨⟨⟨⟨m2, hlit2.1⟩, m1⟩, hlit2.2⟩, m3⟩)]
    simp [Res.bind]

example : ((sample.parse (["--num", "x1"].map (·.toList))).1.diagTexts
      (sample.parse (["--num", "x1"].map (·.toList))).1.cerr) = .ok "num unacceptable value \"x1\" \n".toList ∧
    ((dblSample.parse (["--zz", "x1"].map (·.toList))).1.diagTexts
      (dblSample.parse (["--zz", "x1"].map (·.toList))).1.cerr) =
      .ok ("Command option [[--zz]] is unknown.\n" ++
        "   --freq                 -f     \n   --gain                 -g     \n").toList := by
  decide +kernel

/-! ## C79  the form `--name=value` -/

/-- The form the introduction of the header shows (`--set-sauce=Memphis`): the text after the equals sign is the value
of the option before it. -/
def C79_claim (o : Options V) : Prop :=
  ∀ (n txt : Str) (i : Nat) (d : Decl V) (v : V), Denotes o.decls ('-' :: '-' :: n) i d → ¬ HelpSwitch ('-' :: '-' :: n) →
    d.kind = .scalar → Accepts d txt v →
    ∃ o', o.parse ['-' :: '-' :: n ++ '=' :: txt] = (o', true) ∧ o'.sc d.target = v

/-- What holds: if no option has the whole text as its name, the token is refused and nothing is changed, so a value
given in this form is never lost silently.  Missing: that the form works. -/
theorem C79_refused_partial (o : Options V) (ho : Ready o) (n txt : Str)
    (hno : ∀ d ∈ o.decls, d.long ≠ n ++ '=' :: txt) (suf : List Str) :
    ∃ o', o.parse (('-' :: '-' :: n ++ '=' :: txt) :: suf) = (o', false) ∧
      o'.sc = o.sc ∧ o'.vec = o.vec ∧ o'.pos = o.pos ∧ o'.pres = o.pres ∧
      o'.cerr = o.cerr ++ [.badName ('-' :: '-' :: n ++ '=' :: txt), .help] := by
  have hsl : SwitchLike ('-' :: '-' :: n ++ '=' :: txt) := .inr ⟨n ++ '=' :: txt, rfl, by simp⟩
  have hh : ¬ HelpSwitch ('-' :: '-' :: n ++ '=' :: txt) := by
    rintro (h | ⟨r, h⟩)
    · have h2 : n ++ '=' :: txt = "help".toList := by simpa using h
      have : '=' ∈ "help".toList := by rw [← h2]; simp
      revert this; decide
    · simp at h
  have hden : ∀ i d, ¬ Denotes o.decls ('-' :: '-' :: n ++ '=' :: txt) i d := by
    intro i d h
    generalize ht : '-' :: '-' :: n ++ '=' :: txt = t at h
    cases h with
    | long hn hl =>
      simp only [List.cons_append, List.cons.injEq, true_and] at ht
      exact hno d (List.mem_of_getElem? hl.1) (by rw [hl.2.1, ht])
    | short hc hl => simp at ht; exact hc ht.1.symm
  obtain ⟨o1, o2, h1, h2, ⟨s1, s2, s3, s4⟩, h4⟩ :=
    C28_unknown_switch o ho [] suf none (.inl ⟨[], .done, rfl⟩) _ hsl hh hden
  have : o1 = o := by
    have h0 : o.parse [] = (o, true) := rfl
    rw [h0] at h1
    exact (congrArg Prod.fst h1).symm
  subst this
  exact ⟨o2, h2, s1, s2, s3, by funext j; simpa using s4 j, h4⟩

theorem C79_refuted : ¬ C79_claim sample ∧ (sample.parse ["--num=5".toList]).2 = false ∧
    (sample.parse ["--num=5".toList]).1.sc 0 = .int 7 := by
  refine ⟨?_, by decide, by decide⟩
  intro h
  have hd : Denotes sample.decls "--num".toList 0 sample.decls[0] :=
    .long (n := "num".toList) (by simp) (isLast_of_findLong sample_ready.wf (by decide) rfl)
  obtain ⟨o', h1, _⟩ := h "num".toList "5".toList 0 sample.decls[0] (.int 5) hd (not_help (by decide) (by decide)) rfl
    ⟨by decide, rfl⟩
  have : (sample.parse ["--num=5".toList]).2 = false := by decide
  rw [show '-' :: '-' :: "num".toList ++ '=' :: "5".toList = "--num=5".toList by decide] at h1
  rw [h1] at this
  simp at this

example : ∃ o', sample.parse (["--num=5", "w"].map (·.toList)) = (o', false) ∧ o'.sc = sample.sc := by
  obtain ⟨o', h1, h2, _⟩ := C79_refused_partial sample sample_ready "num".toList "5".toList (by decide) ["w".toList]
  exact ⟨o', h1, h2⟩

end SoDa.Opts
