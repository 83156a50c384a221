import Verif.Proof.FormatFAcc
/-!
Lemmas about `fractionate` when the digits of the fraction do not fit into an `int`, and about `log1k` for any number of
digits.
-/
namespace SoDa

/-! ### The loop over the digits -/

/-- With exact arithmetic: the digits of the fraction, if they fit. -/
theorem fracLoop_exact (k : Nat) : ∀ (x : ℚ) (f : Int), 0 ≤ x → x < 1 → 0 ≤ f → f ≤ intMax →
    fracLoop exactArith k x f =
      if ⌊((f : ℚ) + x) * 10 ^ k⌋ ≤ intMax then .ok ⌊((f : ℚ) + x) * 10 ^ k⌋ else .ub := by
  induction k with
  | zero =>
    intro x f hx hx1 hf hm
    have : ⌊((f : ℚ) + x) * 10 ^ 0⌋ = f := by
      rw [pow_zero, mul_one, Int.floor_intCast_add, Int.floor_eq_zero_iff.2 ⟨hx, hx1⟩, add_zero]
    rw [this, if_pos hm]; rfl
  | succ k ih =>
    intro x f hx hx1 hf hm
    rw [fracLoop]
    show (if 10 * f ≤ intMax ∧ 10 * f + ⌊x * 10⌋ ≤ intMax then
      fracLoop exactArith k (Int.fract (x * 10)) (10 * f + ⌊x * 10⌋) else .ub) = _
    have hfl0 : 0 ≤ ⌊x * 10⌋ := Int.floor_nonneg.2 (by positivity)
    have hsum : ((10 * f + ⌊x * 10⌋ : Int) : ℚ) + Int.fract (x * 10) = (f + x) * 10 := by
      push_cast
      have := Int.floor_add_fract (x * 10)
      linarith
    have he : ((f : ℚ) + x) * 10 ^ (k + 1) = (((10 * f + ⌊x * 10⌋ : Int) : ℚ) + Int.fract (x * 10)) * 10 ^ k := by
      rw [hsum, pow_succ]; ring
    rw [he]
    by_cases h : 10 * f + ⌊x * 10⌋ ≤ intMax
    · rw [if_pos ⟨by omega, h⟩]
      exact ih _ _ (Int.fract_nonneg _) (Int.fract_lt_one _) (by omega) h
    · have : 10 * f + ⌊x * 10⌋ ≤ ⌊(((10 * f + ⌊x * 10⌋ : Int) : ℚ) + Int.fract (x * 10)) * 10 ^ k⌋ := by
        refine Int.le_floor.2 ?_
        have h1 : (1 : ℚ) ≤ 10 ^ k := one_le_pow₀ (by norm_num)
        have h2 : (0 : ℚ) ≤ ((10 * f + ⌊x * 10⌋ : Int) : ℚ) := by exact_mod_cast (by omega : (0 : Int) ≤ 10 * f + ⌊x * 10⌋)
        have h3 := Int.fract_nonneg (x * 10)
        nlinarith
      rw [if_neg (by omega), if_neg (by omega)]

theorem fracLoop_le {A : Arith} (k : Nat) : ∀ (x : ℚ) (f r : Int), f ≤ intMax → fracLoop A k x f = .ok r → r ≤ intMax := by
  induction k with
  | zero => intro x f r hf h; simp only [fracLoop, Res.ok.injEq] at h; omega
  | succ k ih =>
    intro x f r hf h
    rw [fracLoop] at h
    split at h
    · simp at h
    · dsimp only at h
      split at h
      · rename_i hc; exact ih _ _ _ hc.2 h
      · simp at h

/-- Ten digits or more of a fraction from 0.21479 on do not fit. -/
theorem fracLoop_ub {A : Arith} {u lo hi : ℚ} (hS : A.Sane) (hC : A.Close u lo hi) (hD : A.Digits) (hlo : lo ≤ 10)
    (hhi : 10 ≤ hi) (hu : u ≤ 1 / 10 ^ 9) {k : Nat} (hk : 10 ≤ k) {x : ℚ} (hx : 21479 / 100000 ≤ x) (hx1 : x < 1)
    (hrep : A.rnd x = some x) : fracLoop A k x 0 = .ub := by
  cases h : fracLoop A k x 0 with
  | ub => rfl
  | throw e => exact e.elim
  | ok r =>
    exfalso
    have h1 := fracLoop_le k x 0 r (by decide) h
    obtain ⟨-, -, h2, -⟩ := fracLoop_spec hS hC hD hlo hhi k x 0 r (by linarith) hx1 hrep (le_refl _) h
    have h3 : (10 : ℚ) ^ 10 ≤ 10 ^ k := pow_le_pow_right₀ (by norm_num) hk
    have h4 : (r : ℚ) ≤ 2147483647 := by unfold intMax at h1; exact_mod_cast h1
    push_cast at h2
    have h5 : (21478 / 100000 : ℚ) * 10 ^ k ≤ (x - 2 * u) * 10 ^ k := by
      gcongr
      norm_num at hu ⊢
      linarith
    norm_num at h3 h5
    nlinarith

/-! ### `log1k` with exact arithmetic -/

/-- The scaled value times its exponent is the value with half a unit of the last digit added. -/
theorem log1k_exact_value {fuel : Nat} {q x : ℚ} {d : Nat} {e k : Int} (hd' : d < 2 ^ 31)
    (hk : (10 : ℚ) ^ k ≤ q) (hk' : q < 10 ^ (k + 1)) (h : log1k exactArith fuel q d = some (some x, e)) :
    x * 10 ^ e = q + 5 * 10 ^ k / 10 ^ d := by
  have hri : ∀ n, roundIncr exactArith n = some (5 / 10 ^ n) := by
    intro n
    induction n with
    | zero => simp [roundIncr]
    | succ n ih =>
      rw [roundIncr, ih]
      show some (5 / 10 ^ n / 10 : ℚ) = _
      rw [div_div, ← pow_succ]
  have hlc : loopCount d = d := by
    have hm : d % u32 = d := Nat.mod_eq_of_lt (by simp [u32]; omega)
    simp only [loopCount, setwWidth, hm]
    rw [if_pos (by omega)]
  have hq : 0 < q := lt_of_lt_of_le (by positivity) hk
  simp only [log1k, Option.bind_eq_some_iff] at h
  obtain ⟨s1, h1, s2, h2, h⟩ := h
  have i1 := whileFuel_inv _ _ (fun s : Mag × Mag => ∃ a : ℚ, ∃ i : Int, s = (some a, some (10 ^ i)) ∧ a * 10 ^ i = q)
    (by
      rintro s ⟨a, i, rfl, ha⟩ hc
      refine ⟨a / 10, i + 1, ?_, ?_⟩
      · simp [Arith.divc, Arith.mul, exactArith, zpow_add_one₀]
      · rw [zpow_add_one₀ (by norm_num), ← ha]; ring)
    _ _ _ ⟨q, 0, by simp, by simp⟩ h1
  obtain ⟨⟨a1, i1, rfl, ha1⟩, hc1⟩ := i1
  simp only [Mag.ge, decide_eq_false_iff_not, not_le] at hc1
  have i2 := whileFuel_inv _ _ (fun s : Mag × Mag => ∃ a : ℚ, ∃ i : Int, s = (some a, some (10 ^ i)) ∧ a * 10 ^ i = q ∧ a < 10)
    (by
      rintro s ⟨a, i, rfl, ha, ha10⟩ hc
      simp only [Mag.lt, decide_eq_true_eq] at hc
      refine ⟨a * 10, i - 1, ?_, ?_, by linarith⟩
      · simp [Arith.divc, Arith.mul, exactArith, zpow_sub_one₀, div_eq_mul_inv]
      · rw [zpow_sub_one₀ (by norm_num), ← ha]; field_simp)
    _ _ _ ⟨a1, i1, rfl, ha1, hc1⟩ h2
  obtain ⟨⟨a, i, rfl, ha, ha10⟩, hc2⟩ := i2
  simp only [Mag.lt, decide_eq_false_iff_not, not_lt] at hc2
  have hip : (0 : ℚ) < 10 ^ i := by positivity
  have hik : i = k := by
    have e1 : (10 : ℚ) ^ i ≤ q := by rw [← ha]; nlinarith
    have e2 : q < (10 : ℚ) ^ (i + 1) := by rw [zpow_add_one₀ (by norm_num), ← ha]; nlinarith
    have l1 := (zpow_lt_zpow_iff_right₀ (by norm_num : (1 : ℚ) < 10)).1 (lt_of_le_of_lt e1 hk')
    have l2 := (zpow_lt_zpow_iff_right₀ (by norm_num : (1 : ℚ) < 10)).1 (lt_of_le_of_lt hk e2)
    omega
  subst hik
  rw [hlc, hri] at h
  have hT : exactArith.mul (exactArith.add (some a) (some (5 / 10 ^ d))) (some (10 ^ i)) =
      some (q + 5 * 10 ^ i / 10 ^ d) := by
    simp only [exactArith, Arith.add, Arith.mul, Option.some.injEq]
    rw [← ha]; ring
  simp only [hT] at h
  split at h
  · have := whileFuel_inv _ _ (fun s : Mag × Int => ∃ y : ℚ, s.1 = some y ∧ y * 10 ^ s.2 = q + 5 * 10 ^ i / 10 ^ d)
      (by
        rintro ⟨m, e⟩ ⟨y, hm, hy⟩ hc
        dsimp only at hm hy
        subst hm
        refine ⟨y * 1000, rfl, ?_⟩
        rw [← hy]
        dsimp only
        rw [zpow_sub₀ (by norm_num)]; norm_num; ring)
      _ _ _ ⟨_, rfl, by simp⟩ h
    obtain ⟨⟨y, h3, h4⟩, -⟩ := this
    obtain rfl : x = y := by simpa using h3
    exact h4
  · have := whileFuel_inv _ _ (fun s : Mag × Int => ∃ y : ℚ, s.1 = some y ∧ y * 10 ^ s.2 = q + 5 * 10 ^ i / 10 ^ d)
      (by
        rintro ⟨m, e⟩ ⟨y, hm, hy⟩ hc
        dsimp only at hm hy
        subst hm
        refine ⟨y / 1000, rfl, ?_⟩
        rw [← hy]
        dsimp only
        rw [zpow_add₀ (by norm_num)]; norm_num; ring)
      _ _ _ ⟨_, rfl, by simp⟩ h
    obtain ⟨⟨y, h3, h4⟩, -⟩ := this
    obtain rfl : x = y := by simpa using h3
    exact h4

/-! ### `log1k` with rounding, for any number of digits -/

section
variable {A : Arith} {u lo hi ε : ℚ} {L N d : Nat} (S : Setting A u lo hi ε L N d)
include S

/-- The rounding increment for at least `d` digits. -/
theorem roundIncr_small (n : Nat) : ∃ ri : ℚ, roundIncr A (d + n) = some ri ∧ 0 ≤ ri ∧ ri ≤ 6 / 10 ^ d := by
  have h3 := S.eps_small
  have h4 := S.eps0
  have hp : (0 : ℚ) < 1 / 10 ^ d := by positivity
  have e6 : (6 : ℚ) / 10 ^ d = 6 * (1 / 10 ^ d) := by ring
  rw [e6]
  induction n with
  | zero =>
    obtain ⟨r, hr, nr⟩ := roundIncr_spec S d (le_refl _)
    have := S.near (by have := S.hN; omega) (by positivity) nr
    refine ⟨r, hr, Near.nonneg S.close.u0 S.close.u1 (by positivity) nr, this.2.trans ?_⟩
    have e5 : (5 : ℚ) / 10 ^ d = 5 * (1 / 10 ^ d) := by ring
    rw [e5]
    nlinarith
  | succ n ih =>
    obtain ⟨r, hr, h0, h6⟩ := ih
    have hb : r / 10 ≤ hi := by
      have : (1 : ℚ) / 10 ^ d ≤ 1 := by
        rw [div_le_one (by positivity)]; exact one_le_pow₀ (by norm_num)
      have := S.hi_big
      linarith
    obtain ⟨z, hz, herr⟩ := S.close.err (r / 10) (by positivity) hb
    have hz0 := S.sane.ge_of_ge (n := 0) (by norm_num) (q := r / 10) (by push_cast; positivity) hz
    refine ⟨z, by rw [← add_assoc, roundIncr, hr]; exact hz, by exact_mod_cast hz0, ?_⟩
    have hm : max (r / 10) lo ≤ 1 / 10 ^ d := by
      refine max_le (by linarith) (S.lo_d.trans ?_)
      exact one_div_le_one_div_of_le (by positivity) (pow_le_pow_right₀ (by norm_num) (by omega))
    have h1 := S.close.u0
    have h2 := S.close.u1
    have h5 : u * max (r / 10) lo ≤ 1 * (1 / 10 ^ d) := mul_le_mul h2.le hm (le_max_of_le_left (by positivity)) (by norm_num)
    rw [abs_le] at herr
    linarith [herr.2]

/-- Up to a small relative error the scaled value is the value, for any number of digits whose rounding increment is at
most `ρ`. -/
theorem log1k_about {q : ℚ} (hq1 : 1 / 10 ^ L ≤ q) (hq2 : q ≤ 10 ^ L) (fuel : Nat) (hf : L + 4 ≤ fuel) (d' : Nat)
    {ri ρ : ℚ} (hri : roundIncr A (loopCount d') = some ri) (hri0 : 0 ≤ ri) (hriρ : ri ≤ ρ) (hρ : ρ ≤ 5) :
    ∃ x : ℚ, ∃ e : Int, log1k A fuel q d' = some (some x, e) ∧
      q * (1 - ε) ^ 5 ≤ x * 10 ^ e ∧ x * 10 ^ e ≤ q * (1 + ε) ^ 5 * (1 + ρ) := by
  have hri5 : ri ≤ 5 := hriρ.trans hρ
  have hq0 : 0 < q := lt_of_lt_of_le (by positivity) hq1
  obtain ⟨a, b, k, hrun, na, nb, ha1, ha2⟩ := scale_spec S hq1 hq2 fuel (by omega)
  have hN := S.hN
  have h3 := S.eps_small
  have h4 := S.eps0
  have hlo := S.lo_small
  have hlo' := S.lo_le
  have hhi := S.hi_big
  have hhi' := S.le_hi
  have hkp : (0 : ℚ) < 10 ^ k := by positivity
  have ba := S.near (by omega) (by positivity) na
  have bb := S.near (by omega) hkp.le nb
  obtain ⟨s, hs, ns⟩ := Near.rnd S.close (x := a + ri) (y := a + ri) (by linarith) (Near.refl _)
    (by linarith) (by linarith)
  have bs := S.near (by omega) (by linarith) ns
  have hs1 := S.sane.ge_of_ge (n := 1) (by norm_num) (q := a + ri) (by push_cast; linarith) hs
  have hs2 : s ≤ 15 := by
    obtain ⟨z, hz, hle⟩ := S.sane.le_of_le (n := 15) (by norm_num) (q := a + ri) (by push_cast; linarith)
    rw [hs] at hz
    have := Option.some.inj hz
    push_cast at hle; linarith
  push_cast at hs1
  have hk1 : 1 / 10 ^ L * (1 / 20) ≤ (10 : ℚ) ^ k := by
    have h1 : q / 10 ^ k * (1 / 2) ≤ 10 := le_trans (by gcongr; linarith) (le_trans ba.1 ha2)
    have h2 : q * (1 / 2) ≤ 10 * 10 ^ k := by
      have := mul_le_mul_of_nonneg_right h1 hkp.le
      have e : q / 10 ^ k * (1 / 2) * 10 ^ k = q * (1 / 2) := by field_simp
      linarith
    linarith
  have hk2 : (10 : ℚ) ^ k ≤ (1 + 1 / 10) * q := by
    have h1 : 1 ≤ q / 10 ^ k * (1 + 1 / 10) := le_trans ha1 (le_trans ba.2 (by gcongr; linarith))
    have h2 := mul_le_mul_of_nonneg_right h1 hkp.le
    have e : q / 10 ^ k * (1 + 1 / 10) * 10 ^ k = (1 + 1 / 10) * q := by field_simp
    linarith
  have hb1 : 1 / 10 ^ L * (1 / 40) ≤ b := le_trans (by nlinarith) bb.1
  have hb2 : b ≤ 3 / 2 * 10 ^ L := le_trans bb.2 (by nlinarith)
  have hLp : (0 : ℚ) < 1 / 10 ^ L := by positivity
  have hLp' : (0 : ℚ) < 10 ^ L := by positivity
  have h13 : (1 : ℚ) / 10 ^ (L + 3) = 1 / 10 ^ L * (1 / 1000) := by rw [pow_add]; field_simp; norm_num
  have h13' : (10 : ℚ) ^ (L + 3) = 10 ^ L * 1000 := by rw [pow_add]; norm_num
  have hb0 : 0 < b := by linarith
  have hsb1 : b ≤ s * b := le_mul_of_one_le_left hb0.le hs1
  have hsb2 : s * b ≤ 15 * b := mul_le_mul_of_nonneg_right hs2 hb0.le
  -- the sum times the power of ten
  have hε : 0 ≤ 1 - ε := by linarith
  have lower : q * (1 - ε) ^ 3 ≤ s * b := by
    have e : q * (1 - ε) ^ 3 = (q / 10 ^ k * (1 - ε) * (1 - ε)) * (10 ^ k * (1 - ε)) := by field_simp
    rw [e]
    refine mul_le_mul ?_ bb.1 (by positivity) (by linarith)
    refine le_trans ?_ bs.1
    gcongr
    linarith [ba.1]
  have upper : s * b ≤ q * (1 + ε) ^ 3 * (1 + ρ) := by
    have e : q * (1 + ε) ^ 3 * (1 + ρ) = (q / 10 ^ k * (1 + ε) * (1 + ρ) * (1 + ε)) * (10 ^ k * (1 + ε)) := by field_simp
    rw [e]
    have hρ0 : 0 ≤ ρ := hri0.trans hriρ
    refine mul_le_mul ?_ bb.2 hb0.le (by positivity)
    refine bs.2.trans ?_
    gcongr
    have : a * (1 + ρ) ≤ q / 10 ^ k * (1 + ε) * (1 + ρ) := mul_le_mul_of_nonneg_right ba.2 (by linarith)
    nlinarith
  -- the product
  obtain ⟨T, hT, nT⟩ := Near.rnd S.close (x := s * b) (y := s * b) (by positivity) (Near.refl _)
    (by linarith) (by linarith)
  have bT := S.near (by omega) (by positivity) nT
  have hY2 : s * b ≤ 30 * 10 ^ L := by linarith
  have hlog : log1k A fuel q d' =
      if Mag.lt (some T) 1 then normUp A fuel (some T, 0) else normDown A fuel (some T, 0) := by
    unfold log1k
    rw [hri]
    cases hsd : scaleDown A fuel (some q, some 1) with
    | none => rw [hsd] at hrun; simp at hrun
    | some s1 =>
      rw [hsd] at hrun
      simp only [Option.bind_some] at hrun ⊢
      rw [hrun]
      simp only [Option.bind_some, Arith.add, hs, Arith.mul, hT]
  have hsb0 : 0 < s * b := by linarith
  have hρ0 : 0 ≤ ρ := hri0.trans hriρ
  by_cases hlt : Mag.lt (some T) 1 = true
  · obtain ⟨f, rfl⟩ : ∃ f, fuel = f + 1 := ⟨fuel - 1, by omega⟩
    have hTu : T ≤ 1 := by simp [Mag.lt] at hlt; linarith
    have hTl : 1 / 10 ^ L * (1 / 50) ≤ T := by
      refine le_trans ?_ bT.1
      have : s * b * (9 / 10) ≤ s * b * (1 - ε) := by gcongr; linarith
      linarith
    have hT0 : 0 < T := by linarith
    obtain ⟨T', hT', nT'⟩ := Near.rnd S.close (x := T * 1000) (y := T * 1000) (by positivity) (Near.refl _)
      (by linarith) (by linarith)
    obtain ⟨x, e, hx, nx⟩ := normUp_spec S (Y := T * 1000) (by linarith) (n0 := 0 + 1) (by omega) nT' f (by omega)
    have bx := S.near (by omega) (by positivity) nx
    have hep : (0 : ℚ) < 10 ^ e := by positivity
    have e3 : (10 : ℚ) ^ (e + (-3)) = 10 ^ e / 1000 := by rw [zpow_add₀ (by norm_num)]; norm_num; ring
    refine ⟨x, e + (-3), ?_, ?_, ?_⟩
    · rw [hlog, if_pos hlt, normUp, whileFuel]
      dsimp only
      rw [if_pos hlt]
      have : A.mul (some T) (some 1000) = some T' := by simp [Arith.mul, hT']
      rw [this, show (0 : Int) - 3 = 0 + (-3) by ring]
      exact normUp_shift f _ _ _ _ _ hx
    · rw [e3]
      have h1 := mul_le_mul_of_nonneg_right bx.1 (show 0 ≤ (10 : ℚ) ^ e / 1000 by positivity)
      have h2 : T * 1000 / 10 ^ e * (1 - ε) * (10 ^ e / 1000) = T * (1 - ε) := by field_simp
      rw [h2] at h1
      refine le_trans ?_ h1
      calc q * (1 - ε) ^ 5 = q * (1 - ε) ^ 3 * (1 - ε) * (1 - ε) := by ring
        _ ≤ s * b * (1 - ε) * (1 - ε) := by gcongr
        _ ≤ T * (1 - ε) := by gcongr; exact bT.1
    · rw [e3]
      have h1 := mul_le_mul_of_nonneg_right bx.2 (show 0 ≤ (10 : ℚ) ^ e / 1000 by positivity)
      have h2 : T * 1000 / 10 ^ e * (1 + ε) * (10 ^ e / 1000) = T * (1 + ε) := by field_simp
      rw [h2] at h1
      refine h1.trans ?_
      calc T * (1 + ε) ≤ s * b * (1 + ε) * (1 + ε) := by gcongr; exact bT.2
        _ ≤ q * (1 + ε) ^ 3 * (1 + ρ) * (1 + ε) * (1 + ε) := by gcongr
        _ = q * (1 + ε) ^ 5 * (1 + ρ) := by ring
  · obtain ⟨x, e, hx, nx⟩ := normDown_spec S hsb0 hY2 (by omega) nT fuel (by omega)
    have bx := S.near (by omega) (by positivity) nx
    have hep : (0 : ℚ) < 10 ^ e := by positivity
    refine ⟨x, e, by rw [hlog, if_neg hlt, hx], ?_, ?_⟩
    · have h1 := mul_le_mul_of_nonneg_right bx.1 hep.le
      have h2 : s * b / 10 ^ e * (1 - ε) * 10 ^ e = s * b * (1 - ε) := by field_simp
      rw [h2] at h1
      refine le_trans ?_ h1
      calc q * (1 - ε) ^ 5 = q * (1 - ε) ^ 3 * (1 - ε) * (1 - ε) := by ring
        _ ≤ s * b * (1 - ε) * (1 - ε) := by gcongr
        _ ≤ s * b * (1 - ε) * 1 := by gcongr; linarith
        _ = s * b * (1 - ε) := by ring
    · have h1 := mul_le_mul_of_nonneg_right bx.2 hep.le
      have h2 : s * b / 10 ^ e * (1 + ε) * 10 ^ e = s * b * (1 + ε) := by field_simp
      rw [h2] at h1
      refine h1.trans ?_
      calc s * b * (1 + ε) = s * b * (1 + ε) * 1 := by ring
        _ ≤ s * b * (1 + ε) * (1 + ε) := by gcongr; linarith
        _ ≤ q * (1 + ε) ^ 3 * (1 + ρ) * (1 + ε) * (1 + ε) := by gcongr
        _ = q * (1 + ε) ^ 5 * (1 + ρ) := by ring

end

end SoDa
