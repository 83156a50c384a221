import Verif.Proof.Units
import Verif.Spec.FormatF
/-!
Exactly the doubles for which engineering notation terminates.
-/
namespace SoDa
open Spec

/-- Units of a double. -/
def dblN (b m : Nat) : Nat := if b = 0 then m else (2 ^ 52 + m) * 2 ^ (b - 1)

theorem dblMag_eq (b m : Nat) : dblMag b m = (dblN b m : ℚ) / 2 ^ 1074 := by
  unfold dblMag dblN
  split
  · rfl
  · rw [Nat.cast_mul, Nat.cast_pow]; norm_num

theorem hangFrom_eq (d : Nat) : hangFrom d = dblMag 2046 (hangTable.getD (min d 16) 0) := by
  unfold hangFrom dblMag
  rw [if_neg (by norm_num), show 2046 - 1 = 971 + 1074 by norm_num, pow_add, ← mul_assoc, mul_div_assoc,
    div_self (pow_ne_zero _ (by norm_num)), mul_one]

section
variable {e M : Nat}

/-- The evaluations, in units. -/
theorem extremes_of (hM : e + 54 ≤ M) (J K N mx big : Nat)
    (down : geN e (iterH (2 ^ M) 1 10 (J + 1) (2 * e) mx) 10 = false)
    (downBig : geN e (iterH (2 ^ M) 1 10 J (2 * e) big) 10 = false)
    (prod : leN (match iterH (2 ^ M) 10 1 J e (2 ^ e) with
      | some p => iterH (2 ^ M) 15 1 1 (2 * e) p
      | none => none) (some (2 ^ M)) = true)
    (up3 : ltN e (iterH (2 ^ M) 10 1 K 4 3) 1 = false)
    (up2 : ltN e (iterH (2 ^ M) 10 1 K 4 2) 1 = true)
    (rem : leN (some 1) (iterH (2 ^ M) 1 10 K e (2 ^ e)) = true)
    (rem0 : iterH (2 ^ M) 1 10 (K + 1) e (2 ^ e) = some 0)
    (nup : ltN e (iterH (2 ^ M) 1000 1 N 4 1) 1 = false)
    (ndn : gtN e (iterH (2 ^ M) 1 1000 N (2 * e) (2 ^ M)) 1000 = false) :
    Extremes ⟨rndTo e M⟩ (mx / 2 ^ e) (big / 2 ^ e) (1 / 2 ^ e) (2 ^ M / 2 ^ e) J K N := by
  have hd : ∀ k n, (dn ⟨rndTo e M⟩ 10)^[k] (some ((n : Nat) / 2 ^ e)) = toMag e ((dnN M 10)^[k] (some n)) :=
    fun k n => dn_iter (some n) (c := 10) (by norm_num) k
  have hu : ∀ k n, (up ⟨rndTo e M⟩ 10)^[k] (some ((n : Nat) / 2 ^ e)) = toMag e ((upN M 10)^[k] (some n)) :=
    fun k n => up_iter (some n) 10 k
  have hd' : ∀ k n, (dn ⟨rndTo e M⟩ 1000)^[k] (some ((n : Nat) / 2 ^ e)) = toMag e ((dnN M 1000)^[k] (some n)) :=
    fun k n => dn_iter (some n) (c := 1000) (by norm_num) k
  have hu' : ∀ k n, (up ⟨rndTo e M⟩ 1000)^[k] (some ((n : Nat) / 2 ^ e)) = toMag e ((upN M 1000)^[k] (some n)) :=
    fun k n => up_iter (some n) 1000 k
  have h1 : (some 1 : Mag) = some (((2 ^ e : Nat) : ℚ) / 2 ^ e) := by simp
  have hge : ∀ x, (toMag e x).ge 10 = geN e x 10 := fun x => by exact_mod_cast ge_toMag x 10
  have hlt : ∀ x, (toMag e x).lt 1 = ltN e x 1 := fun x => by exact_mod_cast lt_toMag x 1
  have hgt : ∀ x, (toMag e x).gt 1000 = gtN e x 1000 := fun x => by exact_mod_cast gt_toMag x 1000
  have hpos : (1 : ℚ) ≤ 2 ^ e := one_le_pow₀ (by norm_num)
  refine
    { sane := rndTo_sane hM
      below := ?_
      mn0 := by positivity
      mn1 := ?_
      down := ?_
      downBig := ?_
      prod := ?_
      up3 := ?_
      up2 := ?_
      rem := ?_
      rem0 := ?_
      mulMin := ?_
      nup := ?_
      ndn := ?_
      u2 := ?_ }
  · intro q r h
    obtain ⟨h1, h2⟩ := rndTo_some h
    rw [h1]
    have : ((units64 (q * 2 ^ e) : Nat) : ℚ) < 2 ^ M := by exact_mod_cast h2
    gcongr
  · rw [div_le_one (by positivity)]; exact hpos
  · rw [hd, hge, dnH (2 * e)]; exact down
  · rw [hd, hge, dnH (2 * e)]; exact downBig
  · rw [h1, hu, upH e]
    have e2 : (some (2 ^ M / 2 ^ e) : Mag) = toMag e (some (2 ^ M)) := by simp [toMag]
    rw [e2]
    cases hp : iterH (2 ^ M) 10 1 J e (2 ^ e) with
    | none => rw [hp] at prod; simp [leN] at prod
    | some p =>
      rw [hp] at prod
      have e3 : (Arith.mk (rndTo e M)).mul (some 15) (toMag e (some p)) = up ⟨rndTo e M⟩ (15 : Nat) (toMag e (some p)) := by
        simp only [up, Arith.mul, toMag]
        rw [mul_comm]; norm_num
      rw [e3, up_toMag, le_toMag]
      have e4 : upN M 15 (some p) = iterH (2 ^ M) 15 1 1 (2 * e) p := by
        rw [← upH]; rfl
      rw [e4]
      exact prod
  · rw [show (3 * (1 / 2 ^ e) : ℚ) = ((3 : Nat) : ℚ) / 2 ^ e by push_cast; ring, hu, hlt, upH 4]; exact up3
  · rw [show (2 * (1 / 2 ^ e) : ℚ) = ((2 : Nat) : ℚ) / 2 ^ e by push_cast; ring, hu, hlt, upH 4]; exact up2
  · rw [show (1 / 2 ^ e : ℚ) = ((1 : Nat) : ℚ) / 2 ^ e by push_cast; ring, h1, hd, dnH e]
    exact (le_toMag _ _).2 rem
  · rw [h1, hd, dnH e, rem0]; simp [toMag]
  · simp only [Arith.mul, one_mul]
    exact rndTo_repr (m := 1) (j := 0) (by norm_num) (by simp; omega) (by field_simp; norm_num)
  · rw [show (1 / 2 ^ e : ℚ) = ((1 : Nat) : ℚ) / 2 ^ e by push_cast; ring, hu', hlt, upH 4]; exact nup
  · rw [show (2 ^ M / 2 ^ e : ℚ) = ((2 ^ M : Nat) : ℚ) / 2 ^ e by push_cast; ring, hd', hgt, dnH (2 * e)]; exact ndn
  · have : rndTo e M (20 / 2 ^ e) = some (20 / 2 ^ e) :=
      rndTo_repr (m := 20) (j := 0) (by norm_num)
        (lt_of_lt_of_le (show 20 * 2 ^ 0 < 2 ^ 54 by norm_num) (Nat.pow_le_pow_right (by norm_num) (by omega)))
        (by field_simp; norm_num)
    simp only [up, Arith.mul]
    rw [show (2 * (1 / 2 ^ e) * 10 : ℚ) = 20 / 2 ^ e by ring, this]
    simp only [Mag.le]
    rw [← mul_div_assoc]
    gcongr
    norm_num

end

/-- The evaluations for doubles. -/
theorem extremes64 : Extremes ⟨rndTo 1074 2098⟩ (((2 ^ 53 - 1) * 2 ^ 2045 : Nat) / 2 ^ 1074) ((2 ^ 52 * 2 ^ 2045 : Nat) / 2 ^ 1074)
    (1 / 2 ^ 1074) (2 ^ 2098 / 2 ^ 1074) 307 323 120 :=
  extremes_of (by norm_num) 307 323 120 ((2 ^ 53 - 1) * 2 ^ 2045) (2 ^ 52 * 2 ^ 2045) (by decide +kernel)
    (by decide +kernel) (by decide +kernel) (by decide +kernel) (by decide +kernel) (by decide +kernel)
    (by decide +kernel) (by decide +kernel) (by decide +kernel)

/-- The increment for `m` digits, in units. -/
def incrH (m : Nat) : Option Nat := iterH (2 ^ 2098) 1 10 m 1074 (5 * 2 ^ 1074)

/-- The table is right: overflow at the entry, even without the increment for the last one, none just below it. -/
def tableOk (m : Nat) : Bool :=
  let n := (2 ^ 52 + hangTable.getD m 0) * 2 ^ 2045
  overH 1074 (2 ^ 2098) 307 (if m < 16 then incrH m else some 0) n &&
  !overH 1074 (2 ^ 2098) 307 (incrH m) (n - 2 ^ 2045)

theorem table_ok0 : tableOk 0 = true := by decide +kernel
theorem table_ok1 : tableOk 1 = true := by decide +kernel
theorem table_ok2 : tableOk 2 = true := by decide +kernel
theorem table_ok3 : tableOk 3 = true := by decide +kernel
theorem table_ok4 : tableOk 4 = true := by decide +kernel
theorem table_ok5 : tableOk 5 = true := by decide +kernel
theorem table_ok6 : tableOk 6 = true := by decide +kernel
theorem table_ok7 : tableOk 7 = true := by decide +kernel
theorem table_ok8 : tableOk 8 = true := by decide +kernel
theorem table_ok9 : tableOk 9 = true := by decide +kernel
theorem table_ok10 : tableOk 10 = true := by decide +kernel
theorem table_ok11 : tableOk 11 = true := by decide +kernel
theorem table_ok12 : tableOk 12 = true := by decide +kernel
theorem table_ok13 : tableOk 13 = true := by decide +kernel
theorem table_ok14 : tableOk 14 = true := by decide +kernel
theorem table_ok15 : tableOk 15 = true := by decide +kernel
theorem table_ok16 : tableOk 16 = true := by decide +kernel

theorem table_ok : ∀ m < 17, tableOk m = true
  | 0, _ => table_ok0
  | 1, _ => table_ok1
  | 2, _ => table_ok2
  | 3, _ => table_ok3
  | 4, _ => table_ok4
  | 5, _ => table_ok5
  | 6, _ => table_ok6
  | 7, _ => table_ok7
  | 8, _ => table_ok8
  | 9, _ => table_ok9
  | 10, _ => table_ok10
  | 11, _ => table_ok11
  | 12, _ => table_ok12
  | 13, _ => table_ok13
  | 14, _ => table_ok14
  | 15, _ => table_ok15
  | 16, _ => table_ok16
  | m + 17, h => by omega

theorem table_pos : ∀ m < 17, 1 ≤ hangTable.getD m 0 ∧ hangTable.getD m 0 < 2 ^ 52 := by decide

section
variable {e M : Nat}

theorem incr_eq (m h : Nat) : roundIncr ⟨rndTo e M⟩ m = toMag e (iterH (2 ^ M) 1 10 m h (5 * 2 ^ e)) := by
  rw [roundIncr_toMag, dnH h]

theorem over_eq (J m n h : Nat) :
    OverflowsBy ⟨rndTo e M⟩ J (roundIncr ⟨rndTo e M⟩ m) ((n : ℚ) / 2 ^ e) ↔
      overH e (2 ^ M) J (iterH (2 ^ M) 1 10 m h (5 * 2 ^ e)) n = true := by
  rw [incr_eq m h, overflows_toMag, overH_eq]

theorem over_zero (J n : Nat) :
    OverflowsBy ⟨rndTo e M⟩ J (some 0) ((n : ℚ) / 2 ^ e) ↔ overH e (2 ^ M) J (some 0) n = true := by
  rw [← overH_eq, ← overflows_toMag]
  simp [toMag]

theorem roundIncr_iter (A : Arith) (m : Nat) : roundIncr A m = (dn A 10)^[m] (some 5) := by
  induction m with
  | zero => rfl
  | succ m ih => rw [Function.iterate_succ_apply', ← ih]; rfl

end

section
variable {A : Arith} {mx big mn tp : ℚ} {J K N : Nat} (E : Extremes A mx big mn tp J K N)
include E

theorem roundIncr_pos (m : Nat) : (roundIncr A m).Pos := by
  rw [roundIncr_iter]; exact dn_pos E.sane (by norm_num) (by simp [Mag.Pos, Mag.le]) m

theorem roundIncr_anti {m m' : Nat} (h : m ≤ m') : (roundIncr A m').le (roundIncr A m) := by
  rw [roundIncr_iter, roundIncr_iter]
  refine dn_decr E.sane (by norm_num) ?_ h
  obtain ⟨z, hz, hle⟩ := E.sane.le_of_le (n := 1) (by norm_num) (q := 5 / 10) (by norm_num)
  simp only [dn, Arith.divc, hz, Mag.le]
  push_cast at hle
  linarith

/-- Overflow from a threshold on, given the two facts about it. -/
theorem over_from {m : Nat} {T P : ℚ} {r : Mag} (hP : 0 ≤ P) (hPT : P ≤ T) (hr : r.Pos) (hrm : r.le (roundIncr A m))
    (m0 : Nat) (hm0 : m0 ≤ m) (h1 : OverflowsBy A J r T) (h2 : ¬ OverflowsBy A J (roundIncr A m0) P) {q : ℚ}
    (hq : 0 ≤ q) (hgap : q < T → q ≤ P) : OverflowsBy A J (roundIncr A m) q ↔ T ≤ q := by
  constructor
  · intro ho
    by_contra hlt
    exact h2 (ho.mono E hq (hgap (not_le.1 hlt)) (roundIncr_pos E m) (roundIncr_anti E hm0))
  · intro hle
    exact h1.mono E (hP.trans hPT) hle hr hrm

end

/-- The same for numbers given in units. -/
theorem over_grid {e M : Nat} {mx big mn tp : ℚ} {J K N : Nat} (E : Extremes ⟨rndTo e M⟩ mx big mn tp J K N) {m : Nat}
    {n T P : Nat} {r : Option Nat} (hPT : P ≤ T) (hrm : (toMag e r).le (roundIncr ⟨rndTo e M⟩ m))
    (m0 h : Nat) (hm0 : m0 ≤ m) (h1 : overH e (2 ^ M) J r T = true)
    (h2 : overH e (2 ^ M) J (iterH (2 ^ M) 1 10 m0 h (5 * 2 ^ e)) P = false) (hgap : n < T → n ≤ P) :
    OverflowsBy ⟨rndTo e M⟩ J (roundIncr ⟨rndTo e M⟩ m) ((n : ℚ) / 2 ^ e) ↔ (T : ℚ) / 2 ^ e ≤ (n : ℚ) / 2 ^ e := by
  have hpos : Mag.Pos (toMag e r) := by
    cases r with
    | none => trivial
    | some a => simp only [Mag.Pos, toMag, Mag.le]; positivity
  refine over_from E (P := (P : ℚ) / 2 ^ e) (by positivity) ?_ hpos hrm m0 hm0 ?_ ?_ (by positivity) ?_
  · rw [div_le_div_iff_of_pos_right (by positivity)]; exact_mod_cast hPT
  · rw [overflows_toMag, overH_eq]; exact h1
  · rw [over_eq J m0 P h, h2]; simp
  · intro hlt
    rw [div_lt_div_iff_of_pos_right (by positivity)] at hlt
    rw [div_le_div_iff_of_pos_right (by positivity)]
    exact_mod_cast hgap (by exact_mod_cast hlt)

/-- Doubles below a normal one of the largest exponent are at most its predecessor. -/
theorem dblN_gap {b m t : Nat} (hb : b < 2047) (hm : m < 2 ^ 52) (ht : 1 ≤ t)
    (h : dblN b m < (2 ^ 52 + t) * 2 ^ 2045) : dblN b m ≤ (2 ^ 52 + t) * 2 ^ 2045 - 2 ^ 2045 := by
  have e1 : (2 ^ 52 + t) * 2 ^ 2045 - 2 ^ 2045 = (2 ^ 52 + (t - 1)) * 2 ^ 2045 := by
    obtain ⟨u, rfl⟩ : ∃ u, t = u + 1 := ⟨t - 1, by omega⟩
    rw [Nat.add_sub_cancel, ← Nat.add_assoc, Nat.add_one_mul, Nat.add_sub_cancel]
  rw [e1]
  unfold dblN at h ⊢
  generalize hX : (2 : Nat) ^ 2045 = X at h ⊢
  split at h
  · rename_i h0
    rw [if_pos h0]
    have : 1 ≤ X := by rw [← hX]; exact Nat.one_le_two_pow
    have : 2 ^ 52 * 1 ≤ (2 ^ 52 + (t - 1)) * X := Nat.mul_le_mul (by omega) this
    omega
  · rename_i h0
    rw [if_neg h0]
    rcases Nat.lt_or_ge (b - 1) 2045 with h1 | h1
    · have h2 : (2 : Nat) ^ (b - 1) * 2 ≤ X := by
        rw [← hX, ← Nat.pow_succ]; exact Nat.pow_le_pow_right (by norm_num) (by omega)
      have h3 : (2 ^ 52 + m) * 2 ^ (b - 1) ≤ 2 ^ 52 * 2 * 2 ^ (b - 1) := Nat.mul_le_mul_right _ (by omega)
      have h4 : 2 ^ 52 * (2 ^ (b - 1) * 2) ≤ 2 ^ 52 * X := Nat.mul_le_mul_left _ h2
      have h5 : 2 ^ 52 * X ≤ (2 ^ 52 + (t - 1)) * X := Nat.mul_le_mul_right _ (by omega)
      have h6 : 2 ^ 52 * 2 * 2 ^ (b - 1) = 2 ^ 52 * (2 ^ (b - 1) * 2) := by ring
      omega
    · have e2 : b - 1 = 2045 := by omega
      rw [e2, hX] at h ⊢
      have := Nat.lt_of_mul_lt_mul_right h
      exact Nat.mul_le_mul_right _ (by omega)

theorem dblN_le {b m : Nat} (hb : b < 2047) (hm : m < 2 ^ 52) : dblN b m ≤ (2 ^ 53 - 1) * 2 ^ 2045 := by
  unfold dblN
  split
  · have : 1 ≤ 2 ^ 2045 := Nat.one_le_two_pow
    generalize (2 : Nat) ^ 2045 = X at this
    calc m ≤ (2 ^ 53 - 1) * 1 := by omega
      _ ≤ (2 ^ 53 - 1) * X := Nat.mul_le_mul_left _ this
  · exact Nat.mul_le_mul (by omega) (Nat.pow_le_pow_right (by norm_num) (by omega))

/-- For doubles the overflow threshold is the one of the table. -/
theorem over64 {b m d : Nat} (hb : b < 2047) (hm : m < 2 ^ 52) :
    Overflows binary64 307 d (dblMag b m) ↔ hangFrom (loopCount d) ≤ dblMag b m := by
  have hmin : min (loopCount d) 16 < 17 := by omega
  have ht := table_ok _ hmin
  obtain ⟨hpos, _⟩ := table_pos _ hmin
  unfold tableOk at ht
  rw [Bool.and_eq_true, Bool.not_eq_true'] at ht
  obtain ⟨h1, h2⟩ := ht
  have hgap := dblN_gap hb hm hpos
  have hT : hangFrom (loopCount d) =
      (((2 ^ 52 + hangTable.getD (min (loopCount d) 16) 0) * 2 ^ 2045 : Nat) : ℚ) / 2 ^ 1074 := by
    rw [hangFrom_eq, dblMag_eq]; rfl
  rw [hT, dblMag_eq]
  generalize hangTable.getD (min (loopCount d) 16) 0 = t at *
  by_cases h16 : loopCount d < 16
  · have em : min (loopCount d) 16 = loopCount d := by omega
    rw [em, if_pos h16] at h1
    rw [em] at h2
    refine over_grid extremes64 (Nat.sub_le _ _) ?_ (loopCount d) 1074 (Nat.le_refl _) h1 h2 hgap
    rw [incr_eq _ 1074]
    exact Mag.le_refl _
  · have em : min (loopCount d) 16 = 16 := by omega
    rw [em, if_neg (by omega)] at h1
    rw [em] at h2
    refine over_grid extremes64 (Nat.sub_le _ _) ?_ 16 1074 (by omega) h1 h2 hgap
    have := roundIncr_pos extremes64 (loopCount d)
    simpa [Mag.Pos, toMag] using this

theorem pow_le_mul (x : Nat) {p q : Nat} (hpq : p ≤ q) (hx : 1 ≤ x) : (2 : ℚ) ^ p ≤ ((x * 2 ^ q : Nat) : ℚ) := by
  have : 1 * 2 ^ p ≤ x * 2 ^ q := Nat.mul_le_mul hx (Nat.pow_le_pow_right (by norm_num) hpq)
  rw [one_mul] at this
  exact_mod_cast this

/-- `log1k` on a positive double stops (within 400 iterations of each loop) between the two limits, and never stops
outside. -/
theorem log1k_range64 {b m d : Nat} (hb : b < 2047) (hm : m < 2 ^ 52) (h0 : 0 < dblMag b m) :
    if 2 / 2 ^ 1074 < dblMag b m ∧ dblMag b m < hangFrom (loopCount d)
    then (log1k binary64 400 (dblMag b m) d).isSome
    else ∀ fuel, log1k binary64 fuel (dblMag b m) d = none := by
  have hmax : dblMag b m ≤ (((2 ^ 53 - 1) * 2 ^ 2045 : Nat) : ℚ) / 2 ^ 1074 := by
    rw [dblMag_eq, div_le_div_iff_of_pos_right (by positivity)]
    exact_mod_cast dblN_le hb hm
  have ho := over64 (d := d) hb hm
  have hsmall : (2 * (1 / 2 ^ 1074) : ℚ) < 1 := by
    rw [mul_one_div, div_lt_one (by positivity)]
    exact lt_of_lt_of_le (show (2 : ℚ) < 2 ^ 2 by norm_num) (pow_le_pow_right₀ (by norm_num) (by norm_num))
  split
  · rename_i h
    by_cases h1 : 1 ≤ dblMag b m
    · exact log1k_ge_one extremes64 h1 hmax (fun hh => absurd (ho.1 hh) (not_le.2 h.2)) (by norm_num) (by norm_num)
    · refine log1k_lt_one extremes64 ?_ (not_le.1 h1) (by norm_num) (by norm_num)
      have h2 := h.1
      rw [dblMag_eq] at h2 ⊢
      rw [div_lt_div_iff_of_pos_right (by positivity)] at h2
      have h3 : 2 < dblN b m := by exact_mod_cast h2
      rw [mul_one_div, div_le_div_iff_of_pos_right (by positivity)]
      exact_mod_cast h3
  · rename_i h
    rw [not_and_or, not_lt, not_lt] at h
    intro fuel
    by_cases h1 : dblMag b m ≤ 2 / 2 ^ 1074
    · exact log1k_tiny extremes64 h0 (by rw [mul_one_div]; exact h1) hsmall fuel
    · have h2 := h.resolve_left h1
      have h3 : 1 ≤ hangFrom (loopCount d) := by
        rw [hangFrom_eq, dblMag_eq, le_div_iff₀ (by positivity), one_mul]
        exact pow_le_mul _ (by norm_num) (Nat.le_trans Nat.one_le_two_pow (Nat.le_add_right _ _))
      exact log1k_over extremes64 (h3.trans h2) hmax (ho.2 h2) fuel

end SoDa
