import Verif.Proof.FormatFAcc
import Verif.Proof.OptionsText
/-!
The text of engineering notation in full, for the properties about the width of a field.
-/
namespace SoDa
open Spec

/-- The text of a value that is not zero. -/
theorem textF_eng_text {A : Arith} (hA : A.Sane) {fuel : Nat} {radix : Char} {neg : Bool} {q : ℚ} {width d : Nat}
    {t : Str} (hq : q ≠ 0) (hd : 1 ≤ d)
    (h : textF A fuel radix (.fin neg q) 'e' width d = some (.ok t)) :
    ∃ x e r, log1k A fuel q d = some (some x, e) ∧ fractionate A fuel (some x) d = some (.ok r) ∧
      1 ≤ x ∧ x ≤ 1000 ∧ r.intWid ≤ (Nat.toDigits 10 r.intPart.toNat).length ∧
      t = [if neg then '-' else ' '] ++ Nat.toDigits 10 r.intPart.toNat ++
        (if 0 < r.fracWid then '.' :: padLeft '0' r.fracWid (Nat.toDigits 10 r.fracPart.toNat) else []) ++
        ['e', if e < 0 then '-' else '+'] ++ Nat.toDigits 10 e.natAbs ++
        List.replicate ((2 - (Nat.toDigits 10 e.natAbs).length) +
          (toI32 (((if width = 0 then (d + 4) % u32 else width : Nat) : Int) - (r.intWid + r.fracWid + 4))).toNat) ' ' := by
  simp only [textF, show ('e' : Char) ≠ 'f' by decide, show ('e' : Char) ≠ 's' by decide,
    show ('e' : Char) ≠ 'g' by decide, if_false, if_true, hq, Option.bind_eq_some_iff,
    Option.map_eq_some_iff] at h
  obtain ⟨⟨m, e⟩, hl, rr, hf, h⟩ := h
  obtain ⟨x, rfl, hx1, hx2⟩ := log1k_range hA hl
  dsimp only at hf h
  cases rr with
  | ub => simp at h
  | throw e => exact e.elim
  | ok r =>
    simp only [Res.bind_ok, Res.ok.injEq] at h
    obtain ⟨p1, p2, p3, p4, _⟩ := fractionate_spec hA hx1 hx2 hd hf
    generalize (if width = 0 then (d + 4) % u32 else width) = wd at h ⊢
    have hpos : 0 ≤ r.intPart := le_trans (by positivity) p1
    obtain ⟨ip, hip⟩ := Int.eq_ofNat_of_zero_le hpos
    obtain ⟨fp, hfp⟩ := Int.eq_ofNat_of_zero_le p3
    have hlen : r.intWid ≤ (Nat.toDigits 10 ip).length := by
      by_cases hw : r.intWid ≤ 1
      · have := List.length_pos_iff.mpr (@Nat.toDigits_ne_nil ip 10)
        omega
      · by_contra hcon
        have h1 : (Nat.toDigits 10 ip).length ≤ r.intWid - 1 := by omega
        rw [Nat.length_toDigits_le_iff (by omega) (by omega)] at h1
        rw [hip] at p1
        have : (10 : Int) ^ (r.intWid - 1) ≤ (ip : Int) := p1
        have : 10 ^ (r.intWid - 1) ≤ ip := by exact_mod_cast this
        omega
    refine ⟨x, e, r, hl, hf, hx1, hx2, by simpa [hip] using hlen, ?_⟩
    rw [← h]
    unfold engText
    rw [hip, hfp, showInt_ofNat, showInt_ofNat, padRight_enough hlen]
    have hes : (if e < 0 then '-' :: padRight ' ' 2 (showInt (-e)) else '+' :: padRight ' ' 2 (showInt e)) =
          (if e < 0 then '-' else '+') :: padRight ' ' 2 (Nat.toDigits 10 e.natAbs) := by
      by_cases hneg : e < 0
      · rw [if_pos hneg, if_pos hneg, show -e = ((e.natAbs : Nat) : Int) by omega, showInt_ofNat]
      · obtain ⟨n, rfl⟩ := Int.eq_ofNat_of_zero_le (show 0 ≤ e by omega)
        rw [if_neg hneg, if_neg hneg, showInt_ofNat]; simp
    rw [hes]
    simp only [Int.toNat_natCast, padRight, List.replicate_add]
    simp

/-- How many digits there are: as many as the widths say, unless the integer part is a power of ten. -/
theorem eng_digits {A : Arith} {u lo hi ε : ℚ} {L N d : Nat} (S : Setting A u lo hi ε L N d) (D : A.Digits) {fuel : Nat}
    {q x : ℚ} {e : Int} {r : Fractioned} (hl : log1k A fuel q d = some (some x, e))
    (hf : fractionate A fuel (some x) d = some (.ok r)) (hx1 : 1 ≤ x) (hx2 : x ≤ 1000) (hfuel : 4 ≤ fuel) :
    r.fracWid = d - r.intWid ∧
    (padLeft '0' r.fracWid (Nat.toDigits 10 r.fracPart.toNat)).length = max r.fracWid 1 ∧
    ((Nat.toDigits 10 r.intPart.toNat).length = r.intWid ∨
      r.intPart = 10 ^ r.intWid ∧ r.fracPart = 0) := by
  have hrep := log1k_repr D hl
  obtain ⟨f1, f2, f3, f4, f5, f6, f7⟩ := fractionate_acc S D hx1 hx2 hrep hf
  obtain ⟨p1, p2, p3, p4, p5, p6, p7, p8, p9⟩ := fractionate_spec S.sane hx1 hx2 S.hd hf
  rw [loopCount_small S (by have := S.hd'; omega)] at p6
  obtain ⟨w, hw, hxw⟩ := getIntPartWidth_run S hx1 hx2 fuel hfuel
  have hrw : r.intWid = w := by
    rw [fractionate, hw] at hf
    simp only [Option.map_some, Option.some.injEq] at hf
    split at hf
    · generalize modvalLoop (w - d) 1 = mv at hf
      cases mv with
      | ub => simp at hf
      | throw e => exact e.elim
      | ok mv =>
        simp only [Res.bind_ok] at hf
        generalize fracLoop A (loopCount (d - w)) (Int.fract x) 0 = fl at hf
        cases fl with
        | ub => simp at hf
        | throw e => exact e.elim
        | ok fl => simp only [Res.bind_ok, Res.ok.injEq] at hf; rw [← hf]
    · simp at hf
  subst hrw
  refine ⟨p6, ?_, ?_⟩
  · have : (Nat.toDigits 10 r.fracPart.toNat).length ≤ max r.fracWid 1 := by
      rw [Nat.length_toDigits_le_iff (by omega) (by omega)]
      have : r.fracPart.toNat < 10 ^ r.fracWid := by
        have : ((r.fracPart.toNat : Nat) : Int) < ((10 ^ r.fracWid : Nat) : Int) := by
          rw [Int.toNat_of_nonneg p3]; exact_mod_cast f1
        exact_mod_cast this
      exact lt_of_lt_of_le this (Nat.pow_le_pow_right (by omega) (by omega))
    have h1 := List.length_pos_iff.mpr (@Nat.toDigits_ne_nil r.fracPart.toNat 10)
    simp only [padLeft, List.length_append, List.length_replicate]
    omega
  · have hN := S.hN
    have hd := S.hd
    have hue : u ≤ ε := by
      have h1 := one_add_mul_le_pow (show (-2 : ℚ) ≤ u by have := S.close.u0; linarith) N
      have h2 := S.ehi
      have h3 : (1 : ℚ) ≤ N := by exact_mod_cast (by omega : 1 ≤ N)
      have h4 := S.close.u0
      nlinarith
    have hε := S.eps
    have hu0 := S.close.u0
    have hε0 := S.eps0
    have hdp : (0 : ℚ) < 10 ^ d := by positivity
    have hd1 : (10 : ℚ) ≤ 10 ^ d := by simpa using pow_le_pow_right₀ (show (1 : ℚ) ≤ 10 by norm_num) hd
    have hε' : ε * 10 ^ d ≤ 1 / 1000 := by
      rw [pow_add, le_div_iff₀ (by positivity)] at hε
      rw [le_div_iff₀ (by norm_num)]
      linarith
    have hxu : (x - 10 ^ r.intWid) * 10 ^ d ≤ 1 := by nlinarith
    have hfl : r.intPart ≤ ⌊x⌋ := by
      have := Int.emod_nonneg ⌊x⌋ (show (10 : Int) ^ (r.intWid - d) ≠ 0 by positivity)
      omega
    have hle : r.intPart ≤ 10 ^ r.intWid := by
      have h1 : x < 10 ^ r.intWid + 1 := by nlinarith
      have h2 : ((⌊x⌋ : Int) : ℚ) < ((10 ^ r.intWid + 1 : Int) : ℚ) := by
        push_cast
        exact lt_of_le_of_lt (Int.floor_le x) h1
      have : ⌊x⌋ < 10 ^ r.intWid + 1 := by exact_mod_cast h2
      omega
    rcases lt_or_eq_of_le hle with hlt | heq
    · left
      have h0 : 0 ≤ r.intPart := le_trans (by positivity) p1
      obtain ⟨ip, hip⟩ := Int.eq_ofNat_of_zero_le h0
      rw [hip] at hlt p1 ⊢
      have hlt' : ip < 10 ^ r.intWid := by exact_mod_cast hlt
      have hp1 : 10 ^ (r.intWid - 1) ≤ ip := by exact_mod_cast p1
      have hW : r.intWid ≠ 0 := by
        intro h0
        rw [h0] at hlt' hp1
        simp at hlt' hp1
        omega
      simp only [Int.toNat_natCast]
      refine le_antisymm ?_ ?_
      · rw [Nat.length_toDigits_le_iff (by omega) (by omega)]; exact hlt'
      · by_contra hcon
        have h1 : (Nat.toDigits 10 ip).length ≤ r.intWid - 1 := by omega
        by_cases hW1 : r.intWid = 1
        · have := List.length_pos_iff.mpr (@Nat.toDigits_ne_nil ip 10)
          omega
        · rw [Nat.length_toDigits_le_iff (by omega) (by omega)] at h1
          omega
    · right
      refine ⟨heq, ?_⟩
      have hfw : (0 : ℚ) < 10 ^ r.fracWid := by positivity
      rw [heq] at f4
      push_cast at f4
      have h1 : (r.fracPart : ℚ) / 10 ^ r.fracWid ≤ (x - 10 ^ r.intWid) + 2 * u := by linarith
      rw [div_le_iff₀ hfw] at h1
      have h2 : (r.fracPart : ℚ) < 1 := by
        by_cases h0 : r.intWid = 0
        · have hx : x = 1 := f7 h0
          have h3 : (10 : ℚ) ^ r.fracWid ≤ 10 ^ d := pow_le_pow_right₀ (by norm_num) (by omega)
          rw [hx, h0] at h1
          simp only [pow_zero, sub_self, zero_add] at h1
          nlinarith
        · have h3 : (10 : ℚ) ^ r.fracWid * 10 ≤ 10 ^ d ∨ r.fracWid = 0 := by
            by_cases h4 : r.fracWid = 0
            · exact .inr h4
            · left
              rw [← pow_succ]
              exact pow_le_pow_right₀ (by norm_num) (by omega)
          rcases h3 with h3 | h3
          · by_cases hneg : x - 10 ^ r.intWid ≤ 0
            · nlinarith
            · push Not at hneg
              nlinarith
          · rw [h3] at f1
            have : r.fracPart < 1 := by simpa using f1
            have : r.fracPart ≤ 0 := by omega
            have : (r.fracPart : ℚ) ≤ 0 := by exact_mod_cast this
            linarith
      have : r.fracPart < 1 := by exact_mod_cast h2
      omega

end SoDa
