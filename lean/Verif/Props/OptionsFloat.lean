import Verif.Proof.Binary32
import Verif.Props.OptionsNum
/-!
Options of type `float`: test/OptionsTest.cxx and examples/OptionsExample.cxx use them.
-/
namespace SoDa.Opts
open Spec

variable {V : Type}

/-- An object with a `float` option `--gain -g` (default 0) at address 0. -/
def fltSample : Options Dbl :=
  (Options.new false (fun _ => .fin false 0) (fun _ => [])).addDef (floatTy id) 0 "gain".toList 'g' (.fin false 0)

theorem fltSample_ready : Ready fltSample := .addDef _ _ _ _ _ _ _ _ (.new _ _ _)

theorem fltSample_g : Denotes fltSample.decls "-g".toList 0 fltSample.decls[0] :=
  .short (c := 'g') (r := []) (by decide) (isLast_of_findAb fltSample_ready.wf (by decide) rfl)

/-! ## C84  `float` values -/

/-- A `float` option accepts exactly the texts that begin (after white space) with a decimal number in range, and stores
the number rounded to a float. -/
theorem C84_float_values (inj : Dbl → V) (o : Options V) (ho : Ready o) (sw txt : Str) (i : Nat) (d : Decl V)
    (hd : Denotes o.decls sw i d) (hh : ¬ HelpSwitch sw) (hk : d.kind = .scalar)
    (hr : d.read = (floatTy inj).read) (hs : d.isSigned = true) (ht : ∀ v, d.test v = true) :
    (∀ neg q r, BeginsWithReal txt neg q → F32.rnd32 q = some r →
      ∃ o', o.parse [sw, txt] = (o', true) ∧ o'.sc d.target = inj (.fin neg r)) ∧
    ((¬ ∃ neg q r, BeginsWithReal txt neg q ∧ F32.rnd32 q = some r) → (o.parse [sw, txt]).2 = false) := by
  constructor
  · intro neg q r h1 h2
    exact C33_signed_scalar_partial o ho sw txt i d _ hd hh hk hs
      ⟨by rw [hr]; exact (floatTy_read_iff _ _ _).2 ⟨neg, q, r, h1, h2, rfl⟩, ht _⟩
  · intro h
    refine parse_pair_rejected o ho hd hh (by simp [hk]) (.inl (.inl hs)) ?_
    rintro v ⟨ha, _⟩
    rw [hr] at ha
    obtain ⟨neg, q, r, h1, h2, _⟩ := (floatTy_read_iff _ _ _).1 ha
    exact h ⟨neg, q, r, h1, h2⟩

theorem rnd32_flt (b m : Nat) (hb : b < 255) (hm : m < 2 ^ 23) : F32.rnd 149 277 (F32.fltMag b m) = some (F32.fltMag b m) := by
  by_cases h0 : b = 0
  · refine F32.rnd_repr (m := m) (j := 0) (by omega) ?_ ?_
    · rw [pow_zero, mul_one]
      exact lt_of_lt_of_le hm (Nat.pow_le_pow_right (by omega) (by omega))
    · rw [F32.fltMag, if_pos h0, pow_zero, mul_one]
      exact div_mul_cancel₀ _ (by positivity)
  · refine F32.rnd_repr (m := 2 ^ 23 + m) (j := b - 1) (by omega) ?_ ?_
    · calc (2 ^ 23 + m) * 2 ^ (b - 1) < 2 ^ 24 * 2 ^ (b - 1) := Nat.mul_lt_mul_of_pos_right (by omega) (by positivity)
        _ = 2 ^ (24 + (b - 1)) := by rw [pow_add]
        _ ≤ _ := Nat.pow_le_pow_right (by omega) (by omega)
    · rw [F32.fltMag, if_neg h0, Nat.cast_mul, Nat.cast_pow, Nat.cast_ofNat]
      exact div_mul_cancel₀ _ (by positivity)

/-- The stored number is a float, and no float is nearer to the number written.  A number is refused as too large exactly
if it is at least half a unit above the largest float. -/
theorem C84_nearest (q : ℚ) (hq : 0 ≤ q) :
    (∀ r, F32.rnd32 q = some r → (∃ b m, b < 255 ∧ m < 2 ^ 23 ∧ r = F32.fltMag b m) ∧
      ∀ b m, b < 255 → m < 2 ^ 23 → |r - q| ≤ |F32.fltMag b m - q|) ∧
    (F32.rnd32 q = none ↔ (2 ^ 25 - 1) * 2 ^ 103 ≤ q) := by
  have hp : (0 : ℚ) < 2 ^ 149 := by positivity
  refine ⟨fun r hr => ?_, ?_⟩
  · rw [F32.rnd32_eq] at hr
    refine ⟨?_, fun b m hb hm => F32.rnd_nearest hq hr (rnd32_flt b m hb hm)⟩
    obtain ⟨h1, h2⟩ := F32.rnd_some hr
    have hid := F32.units32_idem (q * 2 ^ 149)
    generalize F32.units32 (q * 2 ^ 149) = Y at h1 h2 hid
    rw [F32.units32_eq] at hid
    have hlt := F32.expo_lt (Y : ℚ)
    by_cases hk : F32.expo (Y : ℚ) = 0
    · rw [hk, Nat.add_zero] at hlt
      have hlt' : Y < 2 ^ 24 := by exact_mod_cast hlt
      by_cases h23 : Y < 2 ^ 23
      · exact ⟨0, Y, by omega, h23, by rw [h1, F32.fltMag, if_pos rfl]⟩
      · refine ⟨1, Y - 2 ^ 23, by omega, by omega, ?_⟩
        rw [h1, F32.fltMag, if_neg (by omega), Nat.add_sub_cancel' (by omega), Nat.sub_self, pow_zero, mul_one]
    · have hge := F32.expo_ge (Y : ℚ) hk
      generalize hkk : F32.expo (Y : ℚ) = k at hid hlt hk hge
      generalize roundHalfEven ((Y : ℚ) / 2 ^ k) = c at hid
      have hlt' : c * 2 ^ k < 2 ^ 24 * 2 ^ k := by rw [← pow_add, hid]; exact_mod_cast hlt
      have hge' : 2 ^ 23 * 2 ^ k ≤ c * 2 ^ k := by rw [← pow_add, hid]; exact_mod_cast hge
      have hc1 := Nat.lt_of_mul_lt_mul_right hlt'
      have hc2 := Nat.le_of_mul_le_mul_right hge' (by positivity)
      have hk2 : 23 + k < 277 := by
        have : 2 ^ (23 + k) < 2 ^ 277 := by
          rw [pow_add]; exact lt_of_le_of_lt (hge'.trans_eq hid) h2
        exact (Nat.pow_lt_pow_iff_right (by omega)).1 this
      refine ⟨k + 1, c - 2 ^ 23, by omega, by omega, ?_⟩
      rw [h1, F32.fltMag, if_neg (by omega), Nat.add_sub_cancel' hc2, Nat.add_sub_cancel, ← hid]
      push_cast
      rfl
  · have hT : F32.expo (((2 ^ 25 - 1) * 2 ^ 252 : Nat) : ℚ) = 253 :=
      F32.expo_unique (by exact_mod_cast (by decide +kernel : 2 ^ (23 + 253) ≤ (2 ^ 25 - 1) * 2 ^ 252))
        (by exact_mod_cast (by decide +kernel : (2 ^ 25 - 1) * 2 ^ 252 < 2 ^ (24 + 253)))
    have hu : F32.rnd32 q = none ↔ 2 ^ 277 ≤ F32.units32 (q * 2 ^ 149) := by
      rw [F32.rnd32_eq, F32.rnd]
      split <;> simp <;> omega
    have hs : (2 ^ 25 - 1) * 2 ^ 103 ≤ q ↔ (((2 ^ 25 - 1) * 2 ^ 252 : Nat) : ℚ) ≤ q * 2 ^ 149 := by
      rw [show (((2 ^ 25 - 1) * 2 ^ 252 : Nat) : ℚ) = (2 ^ 25 - 1) * 2 ^ 103 * 2 ^ 149 by norm_num]
      exact (mul_le_mul_iff_left₀ hp).symm
    rw [hu, hs]
    generalize q * 2 ^ 149 = y
    constructor
    · intro h
      by_contra hc
      rw [not_le] at hc
      by_cases hy : y < 2 ^ 276
      · have h1 := F32.units32_mono hy.le
        have h2 : F32.units32 ((1 * 2 ^ 276 : Nat) : ℚ) = 1 * 2 ^ 276 := F32.units32_fix (by norm_num)
        push_cast at h2
        rw [one_mul] at h2
        rw [h2] at h1
        exact absurd (h.trans h1) (by decide +kernel)
      · rw [not_lt] at hy
        have he : F32.expo y = 253 := F32.expo_unique hy
          (hc.trans (by exact_mod_cast (by decide +kernel : (2 ^ 25 - 1) * 2 ^ 252 < 2 ^ (24 + 253))))
        rw [F32.units32_eq, he] at h
        have h1 : 2 ^ 24 ≤ roundHalfEven (y / 2 ^ 253) := by
          rw [show 277 = 24 + 253 by norm_num, pow_add] at h
          exact Nat.le_of_mul_le_mul_right h (by positivity)
        have hy0 : 0 ≤ y := le_trans (by positivity) hy
        have h2 := rhe_err (q := y / 2 ^ 253) (by positivity)
        have h3 : y / 2 ^ 253 < 2 ^ 24 - 1 / 2 := by
          rw [div_lt_iff₀ (by positivity)]
          refine lt_of_lt_of_eq hc ?_
          norm_num
        have h4 : ((2 ^ 24 : Nat) : ℚ) ≤ roundHalfEven (y / 2 ^ 253) := by exact_mod_cast h1
        rw [abs_le] at h2
        push_cast at h4
        linarith [h2.2]
    · intro h
      refine le_trans (le_of_eq ?_) (F32.units32_mono h)
      rw [F32.units32_eq, hT]
      have : (((2 ^ 25 - 1) * 2 ^ 252 : Nat) : ℚ) / 2 ^ 253 = ((2 ^ 25 - 1 : Nat) : ℚ) / 2 := by norm_num
      rw [this, show roundHalfEven (((2 ^ 25 - 1 : Nat) : ℚ) / 2) = 2 ^ 24 by decide +kernel, ← pow_add]

example : ∃ o', fltSample.parse ["-g".toList, " -1.25e1x".toList] = (o', true) ∧ o'.sc 0 = .fin true (25 / 2) :=
  (C84_float_values id fltSample fltSample_ready _ _ 0 _ fltSample_g (not_help (by decide) (by decide)) rfl rfl rfl
    fun _ => rfl).1 true _ _ sample_real (by decide +kernel)

/-- One tenth is not a float. -/
example : (fltSample.parse ["-g".toList, "0.1".toList]).2 = true ∧
    (fltSample.parse ["-g".toList, "0.1".toList]).1.sc 0 = .fin false (13421773 / 2 ^ 27) := by decide +kernel

/-- Too large for a float, though not for a double. -/
example : (fltSample.parse ["-g".toList, "1e39".toList]).2 = false := by decide +kernel

/-! ## C85  numbers printed with 9 significant digits are read back -/

/-- A decimal number of at least 9 significant digits correctly rounded from a float. -/
theorem rnd32_of_digits {q : ℚ} (hq : F32.rnd32 q = some q) {n p : Nat} {e : Int} (hn : 10 ^ p ≤ n) (hp : 8 ≤ p)
    (herr : |(n : ℚ) * 10 ^ e - q| ≤ 10 ^ e / 2) : F32.rnd32 ((n : ℚ) * 10 ^ e) = some q := by
  rw [F32.rnd32_eq] at hq ⊢
  apply F32.rnd_of_near hq
  refine herr.trans ?_
  have he : (0 : ℚ) < 10 ^ e := by positivity
  have h1 : ((10 ^ 8 : Nat) : ℚ) ≤ n := by exact_mod_cast (Nat.pow_le_pow_right (by omega) hp).trans hn
  rw [le_div_iff₀ (by positivity)]
  push_cast at h1
  nlinarith

/-- C85.  What `addF` prints for a finite float (as a `double`) in scientific notation with 8 or more fraction digits, given to a
`float` option, is that float again, sign included. -/
theorem C85_roundtrip_scientific (inj : Dbl → V) (o : Options V) (ho : Ready o) (sw : Str) (i : Nat) (dc : Decl V)
    (hd : Denotes o.decls sw i dc) (hh : ¬ HelpSwitch sw) (hk : dc.kind = .scalar)
    (hr : dc.read = (floatTy inj).read) (hs : dc.isSigned = true) (ht : ∀ v, dc.test v = true)
    (A : Arith) (fuel : Nat) (radix : Char) (neg : Bool) (q : ℚ) (hq : 0 ≤ q) (hflt : F32.rnd32 q = some q)
    (w d : Nat) (hw : w < 2 ^ 31) (hd8 : 8 ≤ d) (hd31 : d + 4 < 2 ^ 31) (f : Fmt) :
    ∃ f' txt, f.addF A fuel radix (.fin neg q) 's' w d = some (.ok f') ∧ Inserts f f' txt ∧
      ∃ o', o.parse [sw, txt] = (o', true) ∧ o'.sc dc.target = inj (.fin neg q) := by
  obtain ⟨f', c, fp, ex, n, e, hf, hi, hlen, hn, hex, hz, hc, herr, _⟩ :=
    C65_addF_scientific A fuel radix neg q hq w d hw hd31 f
  dsimp only at hi
  rw [if_neg (by omega : ¬ d = 0)] at hi
  refine ⟨f', _, hf, hi, ?_⟩
  generalize hbody : (if neg then ['-'] else []) ++ [c] ++ '.' :: fp ++ ex = body
  have hrnd : F32.rnd32 ((n : ℚ) * 10 ^ (e - d)) = some q := by
    by_cases h0 : q = 0
    · rw [(hz h0).1, h0, Nat.cast_zero, zero_mul, ← h0]; rw [h0] at hflt ⊢; exact hflt
    · have := numeral_ge hn (hc h0)
      rw [hlen] at this
      exact rnd32_of_digits hflt this hd8 herr
  refine (C84_float_values inj o ho sw _ i dc hd hh hk hr hs ht).1 neg _ q ?_ hrnd
  refine ⟨[], if neg then ['-'] else [], [c], '.' :: fp, ex, List.replicate ((if w = 0 then d + 4 else w) - body.length) ' ',
    fp, n, e, ?_, by simp, ?_, ?_, .inr rfl, hn, .inl (expText_exponent hex), ?_, ?_⟩
  · rw [← hbody]; simp
  · cases neg <;> simp
  · cases neg <;> simp
  · intro x hx; rw [head_replicate _ _ hx]; decide
  · rw [hlen, zpow_sub₀ (by norm_num), zpow_natCast]
    ring

/-- The same for default notation with 9 or more significant digits. -/
theorem C85_roundtrip_general (inj : Dbl → V) (o : Options V) (ho : Ready o) (sw : Str) (i : Nat) (dc : Decl V)
    (hd : Denotes o.decls sw i dc) (hh : ¬ HelpSwitch sw) (hk : dc.kind = .scalar)
    (hr : dc.read = (floatTy inj).read) (hs : dc.isSigned = true) (ht : ∀ v, dc.test v = true)
    (A : Arith) (fuel : Nat) (radix : Char) (neg : Bool) (q : ℚ) (hq : 0 ≤ q) (hflt : F32.rnd32 q = some q)
    (w d : Nat) (hw : w < 2 ^ 31) (hd9 : 9 ≤ d) (hd31 : d + 4 < 2 ^ 31) (f : Fmt) :
    ∃ f' txt, f.addF A fuel radix (.fin neg q) 'g' w d = some (.ok f') ∧ Inserts f f' txt ∧
      ∃ o', o.parse [sw, txt] = (o', true) ∧ o'.sc dc.target = inj (.fin neg q) := by
  obtain ⟨f', ip, fp, ex, m, hf, hi, hlz, hfl, hm, hz, hnz⟩ :=
    C66_addF_general A fuel radix neg q hq w d hw hd31 f
  dsimp only at hi
  refine ⟨f', _, hf, hi, ?_⟩
  generalize hbody : (if neg then ['-'] else []) ++ ip ++ (if fp = [] then [] else '.' :: fp) ++ ex = body
  have key : ∃ x : Int, F32.rnd32 ((m : ℚ) / 10 ^ fp.length * 10 ^ x) = some q ∧
      (Exponent ex x ∨ ex = [] ∧ x = 0) := by
    by_cases h0 : q = 0
    · obtain ⟨rfl, rfl, rfl⟩ := hz h0
      have hm0 : m = 0 := by
        have : numeral 10 (['0'] ++ []) = some 0 := by decide
        rw [this] at hm; simpa using hm.symm
      refine ⟨0, ?_, .inr ⟨rfl, rfl⟩⟩
      rw [hm0, h0, Nat.cast_zero, zero_div, zero_mul]
      rw [h0] at hflt
      exact hflt
    · obtain ⟨x, N, hN1, _, hval, herr, _, hiff, hexp⟩ := hnz h0
      have hmax : max d 1 = d := by omega
      rw [hmax] at hN1 hval herr
      refine ⟨if ex = [] then 0 else x, ?_, ?_⟩
      · rw [hval]
        exact rnd32_of_digits hflt hN1 (by omega) herr
      · by_cases he : ex = []
        · exact .inr ⟨he, by simp [he]⟩
        · rw [if_neg he]; exact .inl (expText_exponent (hexp he).1)
  obtain ⟨x, hrnd, hexp⟩ := key
  refine (C84_float_values inj o ho sw _ i dc hd hh hk hr hs ht).1 neg _ q ?_ hrnd
  refine ⟨[], if neg then ['-'] else [], ip, if fp = [] then [] else '.' :: fp, ex,
    List.replicate ((if w = 0 then d + 4 else w) - body.length) ' ',
    fp, m, x, ?_, by simp, ?_, ?_, ?_, hm, ?_, ?_, rfl⟩
  · rw [← hbody]; simp
  · cases neg <;> simp
  · cases neg <;> simp
  · by_cases h : fp = [] <;> simp [h]
  · rcases hexp with h | ⟨rfl, rfl⟩
    · exact .inl h
    · refine .inr ⟨rfl, rfl, ?_, ?_, fun _ => ?_⟩ <;>
      · intro h; have := head_replicate _ _ h; simp at this
  · intro y hy; rw [head_replicate _ _ hy]; decide

/-- Eight digits are not enough: two different floats print alike, so no reader can tell them apart. -/
theorem C85_sharp : ∃ q r : ℚ, q ≠ r ∧ F32.rnd32 q = some q ∧ F32.rnd32 r = some r ∧
    ∀ fuel radix w (f : Fmt), f.addF binary64 fuel radix (.fin false q) 's' w 7 =
      f.addF binary64 fuel radix (.fin false r) 's' w 7 := by
  refine ⟨1000 + 1 / 2 ^ 14, 1000 + 2 / 2 ^ 14, by norm_num, by decide +kernel, by decide +kernel, ?_⟩
  intro fuel radix w f
  have h : showSci false (1000 + 1 / 2 ^ 14) 7 = showSci false (1000 + 2 / 2 ^ 14) 7 := by decide +kernel
  have hp : precision 7 = 7 := by decide
  have ht : textF binary64 fuel radix (.fin false (1000 + 1 / 2 ^ 14)) 's' w 7 =
      textF binary64 fuel radix (.fin false (1000 + 2 / 2 ^ 14)) 's' w 7 := by
    simp only [textF, if_true, hp, h]
    rw [if_neg (show ¬ 's' = 'f' by decide), if_neg (show ¬ 's' = 'f' by decide)]
  unfold Fmt.addF
  rw [ht]

/-- One tenth as a float, printed with nine digits and read back. -/
example (f : Fmt) : ∃ f' txt, f.addF binary64 0 '.' (.fin false (13421773 / 2 ^ 27)) 's' 0 8 = some (.ok f') ∧
    Inserts f f' txt ∧ ∃ o', fltSample.parse ["-g".toList, txt] = (o', true) ∧
      o'.sc 0 = .fin false (13421773 / 2 ^ 27) :=
  C85_roundtrip_scientific id fltSample fltSample_ready _ 0 _ fltSample_g (not_help (by decide) (by decide)) rfl rfl rfl
    (fun _ => rfl) _ _ _ _ _ (by norm_num) (by decide +kernel) _ _ (by norm_num) (by norm_num) (by norm_num) f

end SoDa.Opts
