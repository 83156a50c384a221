import Verif.Model.RoundSig
import Verif.Proof.FormatFAcc
/-!
Error analysis of `roundToSigDigs` for any arithmetic whose operations have relative error at most `u`.
-/
namespace SoDa

theorem SDbl.round_some {A : Arith} {q m : ℚ} (hq : 0 ≤ q) (h : A.rnd q = some m) : SDbl.round A q = .fin m := by
  simp [SDbl.round, abs_of_nonneg hq, h, not_lt.2 hq]

/-- Everything assumed about the arithmetic, the magnitude of the value and the number of digits. -/
structure SigSetting (A : Arith) (u lo hi ε : ℚ) (L N s : Nat) : Prop where
  sane : A.Sane
  close : A.Close u lo hi
  digits : A.Digits
  thr : sigThreshold A s = .fin (10 ^ s - 1 / 2)
  lo_le : lo ≤ 1 / 10 ^ (L + s + 3)
  le_hi : (10 : ℚ) ^ (L + s + 3) ≤ hi
  hN : 3 * (L + s) + 10 ≤ N
  elo : 1 - ε ≤ (1 - u) ^ N
  ehi : (1 + u) ^ N ≤ 1 + ε
  eps0 : 0 ≤ ε
  eps : ε ≤ 1 / 10 ^ (s + 3)
  hs : 1 ≤ s
  hs' : s ≤ 15

section
variable {A : Arith} {u lo hi ε : ℚ} {L N s : Nat} (S : SigSetting A u lo hi ε L N s)
include S

namespace SigSetting

theorem near {n : Nat} {x y : ℚ} (hn : n ≤ N) (hy : 0 ≤ y) (h : Near u n x y) :
    y * (1 - ε) ≤ x ∧ x ≤ y * (1 + ε) :=
  Near.bounds S.close.u0 S.close.u1 hn hy S.elo S.ehi h

theorem eps_small : ε ≤ 1 / 10000 := by
  refine le_trans S.eps ?_
  have : (10 : ℚ) ^ 4 ≤ 10 ^ (s + 3) := pow_le_pow_right₀ (by norm_num) (by have := S.hs; omega)
  calc 1 / (10 : ℚ) ^ (s + 3) ≤ 1 / 10 ^ 4 := one_div_le_one_div_of_le (by norm_num) this
    _ = 1 / 10000 := by norm_num

theorem eps_s : ε * 10 ^ s ≤ 1 / 1000 := by
  have h := S.eps
  rw [le_div_iff₀ (by positivity), pow_add] at h
  linarith

theorem pow_s : (10 : ℚ) ≤ 10 ^ s := by
  calc (10 : ℚ) = 10 ^ 1 := by norm_num
    _ ≤ 10 ^ s := pow_le_pow_right₀ (by norm_num) S.hs

theorem pow_s_le : (10 : ℚ) ^ s ≤ 10 ^ 15 := pow_le_pow_right₀ (by norm_num) S.hs'

/-- `hi` is large. -/
theorem hi_ge {n : Nat} (hn : n ≤ L + s + 3) : (10 : ℚ) ^ n ≤ hi :=
  le_trans (pow_le_pow_right₀ (by norm_num) hn) S.le_hi

theorem lo_le' {n : Nat} (hn : n ≤ L + s + 3) : lo ≤ 1 / 10 ^ n :=
  le_trans S.lo_le (one_div_le_one_div_of_le (by positivity) (pow_le_pow_right₀ (by norm_num) hn))

/-- One rounding is small. -/
theorem u_le : u ≤ ε := by
  have h1 := S.elo
  have h2 : (1 - u) ^ N ≤ (1 - u) ^ 1 :=
    pow_le_pow_of_le_one (by linarith [S.close.u1]) (by linarith [S.close.u0]) (by have := S.hN; omega)
  rw [pow_one] at h2
  linarith

/-- The constant `0.1`. -/
theorem tenth_near : Near u 1 (tenth A) (1 / 10) := by
  obtain ⟨r, h1, h2⟩ := Near.rnd S.close (n := 0) (show (0 : ℚ) ≤ 1 / 10 by norm_num) (Near.refl _)
    (le_trans (S.lo_le' (n := 1) (by omega)) (by norm_num))
    (le_trans (show (1 : ℚ) / 10 ≤ 10 ^ 0 by norm_num) (S.hi_ge (by omega)))
  unfold tenth
  rw [h1]
  exact h2

/-- Multiplication by the constant `0.1` and rounding. -/
theorem times_tenth {a a1 : ℚ} (ha : 0 ≤ a) (hlo : lo ≤ a * tenth A) (hhi : a * tenth A ≤ hi)
    (h : A.rnd (a * tenth A) = some a1) : a / 10 * (1 - ε) ≤ a1 ∧ a1 ≤ a / 10 * (1 + ε) := by
  have h1 := Near.mul S.close.u0 S.close.u1 ha (by norm_num) (Near.refl a) S.tenth_near
  obtain ⟨r, h2, h3⟩ := Near.rnd S.close (by positivity) h1 hlo hhi
  rw [h] at h2
  cases h2
  have := S.near (by have := S.hN; omega) (by positivity) h3
  rwa [show a * (1 / 10) = a / 10 by ring] at this

end SigSetting

/-- The loop that divides. -/
theorem sigDown {q : ℚ} (hq0 : 0 < q) (hq : q ≤ 10 ^ L) : ∀ k i : Nat, ∀ a b : ℚ, i + k = L →
    Near u (2 * i) a (q / 10 ^ i) → Near u i b (10 ^ i) → A.rnd a = some a →
    (i = 0 ∧ a = q ∨ (10 ^ s - 1 / 2) / 10 * (1 - ε) ≤ a) → ∀ fuel, k + 1 ≤ fuel →
    ∃ a' b' : ℚ, ∃ j : Nat, j ≤ L ∧
      whileFuel (fun s' : SDbl × SDbl => (SDbl.fin (10 ^ s - 1 / 2)).lt s'.1)
        (fun s => (s.1.mulc A (tenth A), s.2.mulc A 10)) fuel (.fin a, .fin b) = some (.fin a', .fin b') ∧
      Near u (2 * j) a' (q / 10 ^ j) ∧ Near u j b' (10 ^ j) ∧ A.rnd a' = some a' ∧ a' ≤ 10 ^ s - 1 / 2 ∧
      (j = 0 ∧ a' = q ∨ (10 ^ s - 1 / 2) / 10 * (1 - ε) ≤ a') := by
  have hN := S.hN
  have hps := S.pow_s
  have he := S.eps_small
  have he0 := S.eps0
  have stop : ∀ (i : Nat) (a b : ℚ) (fuel : Nat), i ≤ L → 1 ≤ fuel → Near u (2 * i) a (q / 10 ^ i) →
      Near u i b (10 ^ i) → A.rnd a = some a → (i = 0 ∧ a = q ∨ (10 ^ s - 1 / 2) / 10 * (1 - ε) ≤ a) →
      a ≤ 10 ^ s - 1 / 2 →
      ∃ a' b' : ℚ, ∃ j : Nat, j ≤ L ∧
        whileFuel (fun s' : SDbl × SDbl => (SDbl.fin (10 ^ s - 1 / 2)).lt s'.1)
          (fun s => (s.1.mulc A (tenth A), s.2.mulc A 10)) fuel (.fin a, .fin b) = some (.fin a', .fin b') ∧
        Near u (2 * j) a' (q / 10 ^ j) ∧ Near u j b' (10 ^ j) ∧ A.rnd a' = some a' ∧ a' ≤ 10 ^ s - 1 / 2 ∧
        (j = 0 ∧ a' = q ∨ (10 ^ s - 1 / 2) / 10 * (1 - ε) ≤ a') := by
    intro i a b fuel hi hf ha hb hr h1 hle
    obtain ⟨fuel, rfl⟩ : ∃ f, fuel = f + 1 := ⟨fuel - 1, by omega⟩
    refine ⟨a, b, i, hi, ?_, ha, hb, hr, hle, h1⟩
    rw [whileFuel, if_neg (by simpa [SDbl.lt] using hle)]
  intro k
  induction k with
  | zero =>
    intro i a b hik ha hb hr h1 fuel hf
    have hi : i = L := by omega
    have h2 := (S.near (by omega) (by positivity) ha).2
    have h3 : q / 10 ^ i ≤ 1 := by rw [div_le_one (by positivity), hi]; exact hq
    exact stop i a b fuel (by omega) hf ha hb hr h1 (by nlinarith)
  | succ k ih =>
    intro i a b hik ha hb hr h1 fuel hf
    by_cases hle : a ≤ 10 ^ s - 1 / 2
    · exact stop i a b fuel (by omega) (by omega) ha hb hr h1 hle
    · have hlt := not_le.1 hle
      obtain ⟨fuel, rfl⟩ : ∃ f, fuel = f + 1 := ⟨fuel - 1, by omega⟩
      have ht := S.tenth_near
      have htb := S.near (by omega) (by norm_num) ht
      have hab := S.near (by omega) (by positivity) ha
      have hbb := S.near (by omega) (by positivity) hb
      have hqi : q / 10 ^ i ≤ 10 ^ L := by
        rw [div_le_iff₀ (by positivity)]
        have : (1 : ℚ) ≤ 10 ^ i := one_le_pow₀ (by norm_num)
        nlinarith [show (0 : ℚ) < 10 ^ L by positivity]
      have ha0 : 0 < a := by linarith
      have ht0 : 0 < tenth A := by linarith
      have hat := Near.mul S.close.u0 S.close.u1 (by positivity) (by norm_num) ha ht
      rw [show q / 10 ^ i * (1 / 10) = q / 10 ^ (i + 1) by rw [pow_succ]; field_simp] at hat
      have hlo1 : lo ≤ a * tenth A := le_trans (S.lo_le' (n := 1) (by omega)) (by nlinarith)
      have hhi1 : a * tenth A ≤ hi := le_trans (show a * tenth A ≤ 10 ^ (L + 1) by
          rw [pow_succ]
          have : a ≤ 10 ^ L * 2 := by nlinarith [show (0 : ℚ) < 10 ^ L by positivity]
          nlinarith [show (0 : ℚ) < 10 ^ L by positivity]) (S.hi_ge (by omega))
      obtain ⟨a1, ha1, hna1⟩ := Near.rnd S.close (by positivity) hat hlo1 hhi1
      have hb10 := Near.scale S.close.u0 S.close.u1 (c := 10) (by norm_num) hb
      rw [← pow_succ] at hb10
      have hpi : (1 : ℚ) ≤ 10 ^ i := one_le_pow₀ (by norm_num)
      have hb0 : 0 < b := by nlinarith
      obtain ⟨b1, hb1, hnb1⟩ := Near.rnd S.close (by positivity) hb10
        (le_trans (S.lo_le' (n := 1) (by omega)) (by nlinarith))
        (le_trans (show b * 10 ≤ 10 ^ (i + 2) by rw [pow_add]; nlinarith) (S.hi_ge (by omega)))
      have low1 : (10 ^ s - 1 / 2) / 10 * (1 - ε) ≤ a1 := by
        have := (S.times_tenth ha0.le hlo1 hhi1 ha1).1
        nlinarith
      obtain ⟨a', b', j, hj, hw, r1, r2, r3, r4, r5⟩ := ih (i + 1) a1 b1 (by omega) (by rwa [show 2 * (i + 1) = 2 * i + 1 + 1 by ring]) hnb1
        (S.digits.idem _ _ ha1) (Or.inr low1) fuel (by omega)
      refine ⟨a', b', j, hj, ?_, r1, r2, r3, r4, r5⟩
      rw [whileFuel, if_pos (by simpa [SDbl.lt] using hlt)]
      dsimp only [SDbl.mulc]
      rw [SDbl.round_some (by positivity) ha1, SDbl.round_some (by positivity) hb1]
      exact hw

/-- The loop that multiplies. -/
theorem sigUp {q : ℚ} (hq : 1 / 10 ^ L ≤ q) : ∀ k i : Nat, ∀ a b : ℚ, i + k = L + s →
    Near u i a (q * 10 ^ i) → Near u (2 * i) b (1 / 10 ^ i) → A.rnd a = some a →
    (i = 0 ∧ a = q ∨ a ≤ (10 ^ s - 1 / 2) * 10 * (1 + ε)) → ∀ fuel, k + 1 ≤ fuel →
    ∃ a' b' : ℚ, ∃ j : Nat, j ≤ L + s ∧
      whileFuel (fun s' : SDbl × SDbl => s'.1.lt (SDbl.fin (10 ^ s - 1 / 2)))
        (fun s => (s.1.mulc A 10, s.2.mulc A (tenth A))) fuel (.fin a, .fin b) = some (.fin a', .fin b') ∧
      Near u j a' (q * 10 ^ j) ∧ Near u (2 * j) b' (1 / 10 ^ j) ∧ A.rnd a' = some a' ∧ 10 ^ s - 1 / 2 ≤ a' ∧
      (j = 0 ∧ a' = q ∨ a' ≤ (10 ^ s - 1 / 2) * 10 * (1 + ε)) := by
  have hN := S.hN
  have hps := S.pow_s
  have he := S.eps_small
  have he0 := S.eps0
  have hes := S.eps_s
  have hq0 : 0 < q := lt_of_lt_of_le (by positivity) hq
  have stop : ∀ (i : Nat) (a b : ℚ) (fuel : Nat), i ≤ L + s → 1 ≤ fuel → Near u i a (q * 10 ^ i) →
      Near u (2 * i) b (1 / 10 ^ i) → A.rnd a = some a → (i = 0 ∧ a = q ∨ a ≤ (10 ^ s - 1 / 2) * 10 * (1 + ε)) →
      10 ^ s - 1 / 2 ≤ a →
      ∃ a' b' : ℚ, ∃ j : Nat, j ≤ L + s ∧
        whileFuel (fun s' : SDbl × SDbl => s'.1.lt (SDbl.fin (10 ^ s - 1 / 2)))
          (fun s => (s.1.mulc A 10, s.2.mulc A (tenth A))) fuel (.fin a, .fin b) = some (.fin a', .fin b') ∧
        Near u j a' (q * 10 ^ j) ∧ Near u (2 * j) b' (1 / 10 ^ j) ∧ A.rnd a' = some a' ∧ 10 ^ s - 1 / 2 ≤ a' ∧
        (j = 0 ∧ a' = q ∨ a' ≤ (10 ^ s - 1 / 2) * 10 * (1 + ε)) := by
    intro i a b fuel hi hf ha hb hr h1 hle
    obtain ⟨fuel, rfl⟩ : ∃ f, fuel = f + 1 := ⟨fuel - 1, by omega⟩
    refine ⟨a, b, i, hi, ?_, ha, hb, hr, hle, h1⟩
    rw [whileFuel, if_neg (by simpa [SDbl.lt] using hle)]
  intro k
  induction k with
  | zero =>
    intro i a b hik ha hb hr h1 fuel hf
    have hi : i = L + s := by omega
    have h2 := (S.near (by omega) (by positivity) ha).1
    have h3 : (10 : ℚ) ^ s ≤ q * 10 ^ i := by
      rw [hi, pow_add, ← mul_assoc]
      rw [div_le_iff₀ (by positivity)] at hq
      nlinarith [show (0 : ℚ) < 10 ^ s by positivity]
    have h4 : 10 ^ s * (1 - ε) ≤ q * 10 ^ i * (1 - ε) := mul_le_mul_of_nonneg_right h3 (by linarith)
    exact stop i a b fuel (by omega) hf ha hb hr h1 (by linarith)
  | succ k ih =>
    intro i a b hik ha hb hr h1 fuel hf
    by_cases hle : 10 ^ s - 1 / 2 ≤ a
    · exact stop i a b fuel (by omega) (by omega) ha hb hr h1 hle
    · have hlt := not_le.1 hle
      obtain ⟨fuel, rfl⟩ : ∃ f, fuel = f + 1 := ⟨fuel - 1, by omega⟩
      have ht := S.tenth_near
      have htb := S.near (by omega) (by norm_num) ht
      have hab := S.near (by omega) (by positivity) ha
      have hbb := S.near (by omega) (by positivity) hb
      have hpi : (1 : ℚ) ≤ 10 ^ i := one_le_pow₀ (by norm_num)
      have hqi : 1 / 10 ^ L ≤ q * 10 ^ i := by nlinarith
      have hpL : (0 : ℚ) < 1 / 10 ^ L := by positivity
      have halo : 1 / 10 ^ L * (1 / 2) ≤ a := by nlinarith
      have ha0 : 0 < a := by nlinarith
      have ht0 : 0 < tenth A := by linarith
      have hbpos : (0 : ℚ) < 1 / 10 ^ i := by positivity
      have hb0 : 0 < b := by nlinarith
      have ha10 := Near.scale S.close.u0 S.close.u1 (c := 10) (by norm_num) ha
      rw [mul_assoc, ← pow_succ] at ha10
      have hlo1 : lo ≤ a * 10 := le_trans (S.lo_le' (n := L) (by omega)) (by nlinarith)
      have hhi1 : a * 10 ≤ hi := le_trans (show a * 10 ≤ 10 ^ (s + 1) by rw [pow_succ]; linarith) (S.hi_ge (by omega))
      obtain ⟨a1, ha1, hna1⟩ := Near.rnd S.close (by positivity) ha10 hlo1 hhi1
      have hbt := Near.mul S.close.u0 S.close.u1 (by positivity) (by norm_num) hb ht
      rw [show (1 : ℚ) / 10 ^ i * (1 / 10) = 1 / 10 ^ (i + 1) by rw [pow_succ]; field_simp] at hbt
      have hlo2 : lo ≤ b * tenth A := by
        refine le_trans (S.lo_le' (n := i + 2) (by omega)) ?_
        have : (1 : ℚ) / 10 ^ (i + 2) = 1 / 10 ^ i * (1 / 100) := by rw [pow_add]; field_simp; norm_num
        rw [this]
        nlinarith
      have hhi2 : b * tenth A ≤ hi := by
        refine le_trans ?_ (S.hi_ge (n := 0) (by omega))
        have : (1 : ℚ) / 10 ^ i ≤ 1 := by rw [div_le_one (by positivity)]; exact hpi
        nlinarith
      obtain ⟨b1, hb1, hnb1⟩ := Near.rnd S.close (by positivity) hbt hlo2 hhi2
      have high1 : a1 ≤ (10 ^ s - 1 / 2) * 10 * (1 + ε) := by
        obtain ⟨r, h2, h3⟩ := Near.rnd S.close (n := 0) (show (0 : ℚ) ≤ a * 10 by positivity) (Near.refl _) hlo1 hhi1
        rw [ha1] at h2
        cases h2
        have := (S.near (by omega) (by positivity) h3).2
        nlinarith
      obtain ⟨a', b', j, hj, hw, r1, r2, r3, r4, r5⟩ := ih (i + 1) a1 b1 (by omega) hna1
        (by rwa [show 2 * (i + 1) = 2 * i + 1 + 1 by ring]) (S.digits.idem _ _ ha1) (Or.inr high1) fuel (by omega)
      refine ⟨a', b', j, hj, ?_, r1, r2, r3, r4, r5⟩
      rw [whileFuel, if_pos (by simpa [SDbl.lt] using hlt)]
      dsimp only [SDbl.mulc]
      rw [SDbl.round_some (by positivity) ha1, SDbl.round_some (by positivity) hb1]
      exact hw

/-- Rounding to a whole number. -/
theorem sigWhole {y : ℚ} (hy : 0 ≤ y) (hrep : A.rnd y = some y) (hle : y ≤ 10 ^ s) :
    ∃ M : Nat, (addHalf A (.fin y)).trunc = .fin M ∧ (M : ℚ) - 1 / 2 ≤ y ∧ y < M + 1 / 2 := by
  have hps := S.pow_s_le
  have hf1 := Int.floor_le y
  have hf2 := Int.lt_floor_add_one y
  have hfr := S.digits.fract y hy hrep
  have hfrac : Int.fract y = y - (⌊y⌋ : ℚ) := rfl
  have hn : 0 ≤ ⌊y⌋ := Int.floor_nonneg.2 hy
  obtain ⟨n, hn'⟩ := Int.eq_ofNat_of_zero_le hn
  have hfl : ((⌊y⌋ : Int) : ℚ) = n := by rw [hn']; simp
  rw [hfl] at hf1 hf2 hfrac
  simp only [addHalf, hfl]
  rw [← hfrac, SDbl.round_some (Int.fract_nonneg y) hfr]
  dsimp only
  split
  · rename_i h
    rw [hfrac] at h
    obtain ⟨r, hr, herr⟩ := S.close.err (y + 1 / 2) (by linarith) (by
      refine le_trans ?_ (S.hi_ge (n := s + 1) (by omega))
      rw [pow_succ]; linarith [S.pow_s])
    have hlo : lo ≤ y + 1 / 2 := by
      refine le_trans (S.lo_le' (n := 1) (by omega)) ?_
      norm_num; linarith
    rw [max_eq_left hlo, abs_le] at herr
    have hnle : n + 1 ≤ 2 ^ 53 := by
      have : (n : ℚ) ≤ 10 ^ 15 := by linarith
      have : n ≤ 10 ^ 15 := by exact_mod_cast this
      omega
    have h1 : ((n + 1 : Nat) : ℚ) ≤ r := S.sane.ge_of_ge hnle (by push_cast; linarith) hr
    have h2 : r < n + 2 := by
      have h3 : u * (y + 1 / 2) ≤ ε * (y + 1 / 2) := mul_le_mul_of_nonneg_right S.u_le (by linarith)
      have h4 : ε * (y + 1 / 2) ≤ ε * (10 ^ s + 1) := mul_le_mul_of_nonneg_left (by linarith) S.eps0
      have := S.eps_s
      have := S.eps_small
      linarith
    push_cast at h1
    refine ⟨n + 1, ?_, by push_cast; linarith, by push_cast; linarith⟩
    rw [SDbl.round_some (by linarith) hr]
    simp only [SDbl.trunc]
    rw [if_neg (by linarith)]
    have : ⌊r⌋ = ((n + 1 : Nat) : Int) := by
      rw [Int.floor_eq_iff]; push_cast; constructor <;> linarith
    rw [this]; simp
  · rename_i h
    rw [hfrac] at h
    refine ⟨n, ?_, by linarith, by linarith⟩
    simp only [SDbl.trunc]
    rw [if_neg (by linarith), hfl]

/-- Rounding, and scaling back by a factor close to `10 ^ k`. -/
theorem sigFinish {y v c : ℚ} {k : Int} {n m : Nat} (hrep : A.rnd y = some y) (hv : 0 ≤ v) (hn : n ≤ N) (hm : m + 1 ≤ N)
    (hy : Near u n y (v / 10 ^ k)) (hc : Near u m c (10 ^ k)) (hk1 : -(L + s : Int) ≤ k) (hk2 : k ≤ L + 1)
    (h1 : (10 ^ s - 1 / 2) / 10 * (1 - ε) ≤ y) (h2 : y ≤ (10 ^ s - 1 / 2) * (1 + ε) * (1 + ε)) :
    ∃ r, ((addHalf A (.fin y)).trunc.mul A (.fin c)) = .fin r ∧ ∃ M : Nat, 10 ^ (s - 1) ≤ M ∧ M ≤ 10 ^ s ∧
      |r - M * 10 ^ k| ≤ ε * (M * 10 ^ k) ∧ |(M : ℚ) * 10 ^ k - v| ≤ (1 / 2 + 2 * ε * 10 ^ s) * 10 ^ k := by
  have hps := S.pow_s
  have he := S.eps_small
  have he0 := S.eps0
  have hes := S.eps_s
  have hee : ε * ε * 10 ^ s ≤ 1 / 10000 := by nlinarith
  have hy0 : 0 ≤ y := by nlinarith
  have hy2 : y < 10 ^ s - 2 / 5 := by nlinarith
  obtain ⟨M, hM, g1, g2⟩ := sigWhole S hy0 hrep (by linarith)
  have hpk : (0 : ℚ) < 10 ^ k := by positivity
  have hMlo : (10 : ℚ) ^ (s - 1) ≤ M := by
    obtain ⟨t, rfl⟩ : ∃ t, s = t + 1 := ⟨s - 1, by have := S.hs; omega⟩
    rw [show t + 1 - 1 = t by omega]
    have : (10 : ℚ) ^ t < M + 1 := by rw [pow_succ] at h1 hes; nlinarith
    have : 10 ^ t < M + 1 := by exact_mod_cast this
    have : 10 ^ t ≤ M := by omega
    exact_mod_cast this
  have hMhi : M ≤ 10 ^ s := by
    have : (M : ℚ) < 10 ^ s + 1 := by linarith
    have : M < 10 ^ s + 1 := by exact_mod_cast this
    omega
  have hMhi' : (M : ℚ) ≤ 10 ^ s := by exact_mod_cast hMhi
  have hM1 : (1 : ℚ) ≤ M := le_trans (one_le_pow₀ (by norm_num)) hMlo
  have hcb := S.near (by omega) hpk.le hc
  have hc0 : 0 < c := by nlinarith
  have hkl : (1 : ℚ) / 10 ^ (L + s) ≤ 10 ^ k := by
    rw [one_div, ← zpow_natCast, ← zpow_neg]
    exact zpow_le_zpow_right₀ (by norm_num) (by push_cast; linarith)
  have hkh : (10 : ℚ) ^ k ≤ 10 ^ (L + 1) := by
    rw [← zpow_natCast]
    exact zpow_le_zpow_right₀ (by norm_num) (by push_cast; exact hk2)
  have hMc := Near.mul S.close.u0 S.close.u1 (show (0 : ℚ) ≤ M by positivity) hpk.le (Near.refl (M : ℚ)) hc
  obtain ⟨r, hr, hnr⟩ := Near.rnd S.close (by positivity) hMc
    (by
      refine le_trans (S.lo_le' (n := L + s + 1) (by omega)) ?_
      have : (1 : ℚ) / 10 ^ (L + s + 1) = 1 / 10 ^ (L + s) * (1 / 10) := by rw [pow_succ]; field_simp
      rw [this]
      nlinarith)
    (by
      refine le_trans ?_ (S.hi_ge (n := L + s + 2) (by omega))
      have : (10 : ℚ) ^ (L + s + 2) = 10 ^ s * (10 ^ (L + 1) * 10) := by rw [pow_add, pow_add, pow_add]; ring
      rw [this]
      apply mul_le_mul hMhi' _ hc0.le (by positivity)
      nlinarith)
  have hrb := S.near (by omega) (by positivity) hnr
  refine ⟨r, ?_, M, by exact_mod_cast hMlo, hMhi, ?_, ?_⟩
  · rw [hM]
    exact SDbl.round_some (by positivity) hr
  · rw [abs_le]; constructor <;> linarith
  · have hyb := S.near hn (by positivity) hy
    have hvk : v = v / 10 ^ k * 10 ^ k := by field_simp
    set w := v / 10 ^ k with hw
    have hw0 : 0 ≤ w := by rw [hw]; positivity
    have hwle : w ≤ 10 ^ s * 2 := by nlinarith
    rw [hvk, ← sub_mul, abs_mul, abs_of_pos hpk]
    apply mul_le_mul_of_nonneg_right _ hpk.le
    have h3 : ε * w ≤ ε * (10 ^ s * 2) := mul_le_mul_of_nonneg_left hwle he0
    rw [abs_le]
    constructor <;> linarith

/-- The whole function on positive values between `10 ^ -L` and `10 ^ L`. -/
theorem sig_spec {q : ℚ} (hq1 : 1 / 10 ^ L ≤ q) (hq2 : q ≤ 10 ^ L) (hrep : A.rnd q = some q) (fuel : Nat)
    (hf : L + s + 1 ≤ fuel) :
    ∃ r, roundToSigDigs A fuel (.fin q) s = some (.fin r) ∧ ∃ (M : Nat) (k : Int), 10 ^ (s - 1) ≤ M ∧ M ≤ 10 ^ s ∧
      |r - M * 10 ^ k| ≤ ε * (M * 10 ^ k) ∧ |(M : ℚ) * 10 ^ k - q| ≤ (1 / 2 + 2 * ε * 10 ^ s) * 10 ^ k := by
  have hN := S.hN
  have hps := S.pow_s
  have he := S.eps_small
  have he0 := S.eps0
  have hq0 : 0 < q := lt_of_lt_of_le (by positivity) hq1
  unfold roundToSigDigs scaleSig
  rw [S.thr]
  rcases lt_trichotomy (10 ^ s - 1 / 2) q with hlt | heq | hgt
  · obtain ⟨a, b, j, hj, hw, r1, r2, r3, r4, r5⟩ := sigDown S hq0 hq2 L 0 q 1 (by omega) (by simpa using Near.refl q)
      (by simpa using Near.refl 1) hrep (Or.inl ⟨rfl, rfl⟩) fuel (by omega)
    have hlow : (10 ^ s - 1 / 2) / 10 * (1 - ε) ≤ a := by
      rcases r5 with ⟨_, h⟩ | h
      · rw [h]; nlinarith
      · exact h
    obtain ⟨r, g1, M, g2⟩ := sigFinish S (k := j) r3 hq0.le (show 2 * j ≤ N by omega) (show j + 1 ≤ N by omega)
      (by simpa using r1) (by simpa using r2) (by omega) (by omega) hlow (by
        have h9 : (0 : ℚ) ≤ 10 ^ s - 1 / 2 := by linarith
        nlinarith [mul_nonneg h9 he0, mul_nonneg (mul_nonneg h9 he0) he0])
    refine ⟨r, ?_, M, j, g2⟩
    rw [if_pos (by simpa [SDbl.lt] using hlt), hw]
    simpa using g1
  · obtain ⟨r, g1, M, g2⟩ := sigFinish S (y := q) (v := q) (c := 1) (k := 0) hrep hq0.le (Nat.zero_le N)
      (show 0 + 1 ≤ N by omega) (by simpa using Near.refl q) (by simpa using Near.refl 1) (by omega) (by omega)
      (by nlinarith) (by rw [heq]; nlinarith [mul_nonneg hq0.le he0, mul_nonneg (mul_nonneg hq0.le he0) he0])
    refine ⟨r, ?_, M, 0, g2⟩
    rw [heq, if_neg (by simp [SDbl.lt]), if_neg (by simp [SDbl.lt])]
    simpa using g1
  · obtain ⟨a, b, j, hj, hw, r1, r2, r3, r4, r5⟩ := sigUp S hq1 (L + s) 0 q 1 (by omega) (by simpa using Near.refl q)
      (by simpa using Near.refl 1) hrep (Or.inl ⟨rfl, rfl⟩) fuel hf
    have hhigh : a ≤ (10 ^ s - 1 / 2) * 10 * (1 + ε) := by
      rcases r5 with ⟨_, h⟩ | h
      · rw [h]; nlinarith
      · exact h
    have hps15 := S.pow_s_le
    have ha0 : 0 < a := by linarith
    have ht := S.tenth_near
    have htb := S.near (by omega) (by norm_num) ht
    have hlo1 : lo ≤ a * tenth A := le_trans (S.lo_le' (n := 1) (by omega)) (by nlinarith)
    have hhi1 : a * tenth A ≤ hi := by
      refine le_trans ?_ (S.hi_ge (n := s + 1) (by omega))
      rw [pow_succ]; nlinarith
    have hat := Near.mul S.close.u0 S.close.u1 (by positivity) (by norm_num) r1 ht
    obtain ⟨y, hy, hny⟩ := Near.rnd S.close (by positivity) hat hlo1 hhi1
    have hyt := S.times_tenth ha0.le hlo1 hhi1 hy
    have hbb := S.near (by omega) (by positivity) r2
    have hpj : (1 : ℚ) ≤ 10 ^ j := one_le_pow₀ (by norm_num)
    have hbpos : (0 : ℚ) < 1 / 10 ^ j := by positivity
    have hb0 : 0 < b := by nlinarith
    have hb10 := Near.scale S.close.u0 S.close.u1 (c := 10) (by norm_num) r2
    obtain ⟨c, hc, hnc⟩ := Near.rnd S.close (by positivity) hb10
      (by
        refine le_trans (S.lo_le' (n := j) (by omega)) ?_
        nlinarith)
      (by
        refine le_trans ?_ (S.hi_ge (n := 2) (by omega))
        have : (1 : ℚ) / 10 ^ j ≤ 1 := by rw [div_le_one (by positivity)]; exact hpj
        nlinarith)
    have hk : (10 : ℚ) ^ (1 - (j : Int)) = 1 / 10 ^ j * 10 := by
      rw [zpow_sub₀ (by norm_num), zpow_one, zpow_natCast]; ring
    obtain ⟨r, g1, M, g2⟩ := sigFinish S (y := y) (v := q) (c := c) (k := 1 - j) (S.digits.idem _ _ hy) hq0.le
      (show j + 1 + 1 ≤ N by omega) (show 2 * j + 1 + 1 ≤ N by omega)
      (by
        rw [hk, show q / (1 / 10 ^ j * 10) = q * 10 ^ j * (1 / 10) by field_simp]
        exact hny)
      (by rw [hk]; exact hnc) (by omega) (by omega) (by nlinarith) (by nlinarith)
    refine ⟨r, ?_, M, 1 - j, g2⟩
    rw [if_neg (by simpa [SDbl.lt] using hgt.le), if_pos (by simpa [SDbl.lt] using hgt), hw]
    simp only [Option.map_some, SDbl.mulc]
    have ht0 : 0 < tenth A := by linarith
    rw [SDbl.round_some (by positivity) hy, SDbl.round_some (by positivity) hc]
    simpa using g1

end

end SoDa
