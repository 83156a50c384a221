import Verif.Proof.FormatFAcc
import Verif.Proof.Binary64
/-!
Exactly when the loops of engineering notation stop, by monotonicity of the operations and evaluation at the extreme
values.
-/
namespace SoDa

/-- The order of magnitudes; infinity is the greatest. -/
def Mag.le : Mag → Mag → Prop
  | _, none => True
  | none, some _ => False
  | some a, some b => a ≤ b

instance : ∀ x y : Mag, Decidable (x.le y)
  | _, none => .isTrue trivial
  | none, some _ => .isFalse id
  | some a, some b => inferInstanceAs (Decidable (a ≤ b))

namespace Mag

theorem le_refl : ∀ x : Mag, x.le x
  | none => trivial
  | some _ => _root_.le_refl _

theorem le_trans {x y z : Mag} (h1 : x.le y) (h2 : y.le z) : x.le z := by
  cases x <;> cases y <;> cases z <;> simp_all [Mag.le]
  linarith

theorem le_top (x : Mag) : x.le none := by cases x <;> trivial

theorem lt_of_le {x y : Mag} {c : ℚ} (h : x.le y) (hy : y.lt c = true) : x.lt c = true := by
  cases x <;> cases y <;> simp_all [Mag.le, Mag.lt]
  linarith

theorem ge_of_le {x y : Mag} {c : ℚ} (h : x.le y) (hx : x.ge c = true) : y.ge c = true := by
  cases x <;> cases y <;> simp_all [Mag.le, Mag.ge]
  linarith

theorem gt_of_le {x y : Mag} {c : ℚ} (h : x.le y) (hx : x.gt c = true) : y.gt c = true := by
  cases x <;> cases y <;> simp_all [Mag.le, Mag.gt]
  linarith

theorem ge_false {x : Mag} {c : ℚ} (h : x.ge c = false) : ∃ a, x = some a ∧ a < c := by
  cases x <;> simp_all [Mag.ge]

theorem ge_true_some {a c : ℚ} : (Mag.ge (some a) c = true) ↔ c ≤ a := by simp [Mag.ge]

end Mag

/-- Operations on magnitudes are monotone. -/
theorem Arith.Sane.rnd_le {A : Arith} (hA : A.Sane) {p q : ℚ} (h : p ≤ q) : Mag.le (A.rnd p) (A.rnd q) := by
  cases hq : A.rnd q with
  | none => exact Mag.le_top _
  | some b =>
    obtain ⟨a, ha, hab⟩ := hA.mono p q b h hq
    rw [ha]; exact hab

/-- Nonnegative magnitudes. -/
def Mag.Pos (x : Mag) : Prop := Mag.le (some 0) x

theorem Arith.Sane.rnd_pos {A : Arith} (hA : A.Sane) {q : ℚ} (h : 0 ≤ q) : Mag.Pos (A.rnd q) := by
  have := hA.rnd_le h
  rwa [show A.rnd 0 = some 0 by exact_mod_cast hA.fix 0 (by norm_num)] at this

theorem Arith.Sane.mul_le {A : Arith} (hA : A.Sane) {x y x' y' : Mag} (hx : x.le x') (hy : y.le y') (px : x.Pos)
    (py : y.Pos) : (A.mul x y).le (A.mul x' y') := by
  cases x <;> cases y <;> cases x' <;> cases y' <;> simp_all [Mag.le, Arith.mul, Mag.Pos]
  exact hA.rnd_le (mul_le_mul hx hy py (by linarith))

theorem Arith.Sane.mul_pos {A : Arith} (hA : A.Sane) {x y : Mag} (px : x.Pos) (py : y.Pos) : (A.mul x y).Pos := by
  cases x <;> cases y <;> simp_all [Mag.le, Arith.mul, Mag.Pos]
  exact hA.rnd_pos (mul_nonneg px py)

theorem Arith.Sane.add_le {A : Arith} (hA : A.Sane) {x y x' y' : Mag} (hx : x.le x') (hy : y.le y') :
    (A.add x y).le (A.add x' y') := by
  cases x <;> cases y <;> cases x' <;> cases y' <;> simp_all [Mag.le, Arith.add]
  exact hA.rnd_le (by linarith)

theorem Arith.Sane.divc_le {A : Arith} (hA : A.Sane) {x y : Mag} {c : ℚ} (hc : 0 < c) (h : x.le y) :
    (A.divc x c).le (A.divc y c) := by
  cases x <;> cases y <;> simp_all [Mag.le, Arith.divc]
  exact hA.rnd_le (by gcongr)

theorem Arith.Sane.divc_pos {A : Arith} (hA : A.Sane) {x : Mag} {c : ℚ} (hc : 0 < c) (h : x.Pos) :
    (A.divc x c).Pos := by
  cases x <;> simp_all [Mag.le, Arith.divc, Mag.Pos]
  exact hA.rnd_pos (by positivity)

/-! ### Iterations -/

theorem whileFuel_stops {σ : Type} (cond : σ → Bool) (body : σ → σ) : ∀ (k fuel : Nat) (s : σ),
    cond (body^[k] s) = false → k < fuel →
    ∃ j ≤ k, whileFuel cond body fuel s = some (body^[j] s) ∧ cond (body^[j] s) = false ∧
      ∀ i < j, cond (body^[i] s) = true := by
  intro k
  induction k with
  | zero =>
    intro fuel s h hk
    obtain ⟨f, rfl⟩ : ∃ f, fuel = f + 1 := ⟨fuel - 1, by omega⟩
    simp only [Function.iterate_zero, id_eq] at h
    exact ⟨0, Nat.le_refl _, by simp [whileFuel, h], by simpa using h, by omega⟩
  | succ k ih =>
    intro fuel s h hk
    obtain ⟨f, rfl⟩ : ∃ f, fuel = f + 1 := ⟨fuel - 1, by omega⟩
    cases hc : cond s with
    | false => exact ⟨0, by omega, by simp [whileFuel, hc], by simpa using hc, by omega⟩
    | true =>
      rw [Function.iterate_succ_apply] at h
      obtain ⟨j, h1, h2, h3, h4⟩ := ih f (body s) h (by omega)
      refine ⟨j + 1, by omega, by simp [whileFuel, hc, h2], by simpa using h3, ?_⟩
      intro i hi
      cases i with
      | zero => simpa using hc
      | succ i => rw [Function.iterate_succ_apply]; exact h4 i (by omega)

theorem whileFuel_some {σ : Type} (cond : σ → Bool) (body : σ → σ) : ∀ (fuel : Nat) (s s' : σ),
    whileFuel cond body fuel s = some s' →
    ∃ j, s' = body^[j] s ∧ cond (body^[j] s) = false ∧ ∀ i < j, cond (body^[i] s) = true := by
  intro fuel
  induction fuel with
  | zero => intro s s' h; simp [whileFuel] at h
  | succ f ih =>
    intro s s' h
    rw [whileFuel] at h
    cases hc : cond s with
    | false =>
      rw [hc] at h
      simp only [Bool.false_eq_true, if_false, Option.some.injEq] at h
      exact ⟨0, h.symm, by simpa using hc, by omega⟩
    | true =>
      rw [hc] at h
      simp only [if_true] at h
      obtain ⟨j, h1, h2, h3⟩ := ih _ _ h
      refine ⟨j + 1, h1, h2, ?_⟩
      intro i hi
      cases i with
      | zero => simpa using hc
      | succ i => rw [Function.iterate_succ_apply]; exact h3 i (by omega)

theorem iterate_pair {α β : Type} (f : α → α) (g : β → β) (k : Nat) (a : α) (b : β) :
    (fun s : α × β => (f s.1, g s.2))^[k] (a, b) = (f^[k] a, g^[k] b) := by
  induction k generalizing a b with
  | zero => rfl
  | succ k ih => simp only [Function.iterate_succ_apply]; exact ih _ _

/-- Dividing and multiplying by ten, by a thousand. -/
def dn (A : Arith) (c : ℚ) (x : Mag) : Mag := A.divc x c
def up (A : Arith) (c : ℚ) (x : Mag) : Mag := A.mul x (some c)

section
variable {A : Arith} (hA : A.Sane) {c : ℚ} (hc : 1 ≤ c)
include hA hc

theorem dn_le {x y : Mag} (h : x.le y) (k : Nat) : ((dn A c)^[k] x).le ((dn A c)^[k] y) := by
  induction k generalizing x y with
  | zero => exact h
  | succ k ih => exact ih (hA.divc_le (by linarith) h)

theorem dn_pos {x : Mag} (h : x.Pos) (k : Nat) : ((dn A c)^[k] x).Pos := by
  induction k generalizing x with
  | zero => exact h
  | succ k ih => exact ih (hA.divc_pos (by linarith) h)

theorem up_pos {x : Mag} (h : x.Pos) (k : Nat) : ((up A c)^[k] x).Pos := by
  induction k generalizing x with
  | zero => exact h
  | succ k ih => exact ih (hA.mul_pos h (by simp only [Mag.Pos, Mag.le]; linarith))

theorem up_le {x y : Mag} (h : x.le y) (px : x.Pos) (k : Nat) : ((up A c)^[k] x).le ((up A c)^[k] y) := by
  have pc : Mag.Pos (some c) := by simp only [Mag.Pos, Mag.le]; linarith
  induction k generalizing x y with
  | zero => exact h
  | succ k ih => exact ih (hA.mul_le h (Mag.le_refl _) px pc) (hA.mul_pos px pc)

/-- More iterations give more, if the first one does. -/
theorem up_incr {x : Mag} (px : x.Pos) (h : x.le (up A c x)) {i j : Nat} (hij : i ≤ j) :
    ((up A c)^[i] x).le ((up A c)^[j] x) := by
  induction j with
  | zero => rw [Nat.le_zero.1 hij]; exact Mag.le_refl _
  | succ j ih =>
    rcases Nat.lt_or_ge j i with h1 | h1
    · rw [show i = j + 1 by omega]; exact Mag.le_refl _
    · refine Mag.le_trans (ih h1) ?_
      rw [Function.iterate_succ_apply]
      exact up_le hA hc h px j

theorem dn_decr {x : Mag} (h : (dn A c x).le x) {i j : Nat} (hij : i ≤ j) :
    ((dn A c)^[j] x).le ((dn A c)^[i] x) := by
  induction j with
  | zero => rw [Nat.le_zero.1 hij]; exact Mag.le_refl _
  | succ j ih =>
    rcases Nat.lt_or_ge j i with h1 | h1
    · rw [show i = j + 1 by omega]; exact Mag.le_refl _
    · refine Mag.le_trans ?_ (ih h1)
      rw [Function.iterate_succ_apply]
      exact dn_le hA hc h j

end

theorem scaleDown_iter (A : Arith) (k : Nat) (x b : Mag) :
    (fun s : Mag × Mag => (A.divc s.1 10, A.mul s.2 (some 10)))^[k] (x, b) = ((dn A 10)^[k] x, (up A 10)^[k] b) :=
  iterate_pair (dn A 10) (up A 10) k x b

theorem scaleUp_iter (A : Arith) (k : Nat) (x b : Mag) :
    (fun s : Mag × Mag => (A.mul s.1 (some 10), A.divc s.2 10))^[k] (x, b) = ((up A 10)^[k] x, (dn A 10)^[k] b) :=
  iterate_pair (up A 10) (dn A 10) k x b

/-- The value with the increment `ri`, scaled back, overflows. -/
def OverflowsBy (A : Arith) (J : Nat) (ri : Mag) (q : ℚ) : Prop :=
  ((dn A 10)^[J] (some q)).ge 10 = true ∧
  A.mul (A.add ((dn A 10)^[J + 1] (some q)) ri) ((up A 10)^[J + 1] (some 1)) = none

/-- The value rounded to `d` digits, scaled back, overflows. -/
def Overflows (A : Arith) (J d : Nat) (q : ℚ) : Prop := OverflowsBy A J (roundIncr A (loopCount d)) q

theorem normUp_zero (A : Arith) (hA : A.Sane) (fuel : Nat) : ∀ e : Int, normUp A fuel (some 0, e) = none := by
  have h0 : A.rnd 0 = some 0 := by exact_mod_cast hA.fix 0 (by norm_num)
  unfold normUp
  induction fuel with
  | zero => intro e; rfl
  | succ n ih =>
    intro e
    rw [whileFuel]
    have : A.mul (some 0) (some 1000) = some 0 := by simp [Arith.mul, h0]
    simp only [Mag.lt, zero_lt_one, decide_true, if_true, this]
    exact ih _

theorem normDown_inf (A : Arith) (fuel : Nat) : ∀ e : Int, normDown A fuel (none, e) = none := by
  unfold normDown
  induction fuel with
  | zero => intro e; rfl
  | succ n ih =>
    intro e
    rw [whileFuel]
    simp only [Mag.gt, if_true, Arith.divc]
    exact ih _

/-- If the value scaled back is 0 or infinite, `log1k` does not stop. -/
theorem log1k_hangs (A : Arith) (hA : A.Sane) (q : ℚ) (d fuel0 : Nat) (s : Mag × Mag)
    (hs : ((scaleDown A fuel0 (some q, some 1)).bind fun s => scaleUp A fuel0 s) = some s)
    (hm : A.mul (A.add s.1 (roundIncr A (loopCount d))) s.2 = some 0 ∨
      A.mul (A.add s.1 (roundIncr A (loopCount d))) s.2 = none) (fuel : Nat) :
    log1k A fuel q d = none := by
  by_contra hc
  obtain ⟨r, hr⟩ := Option.ne_none_iff_exists'.mp hc
  have hr := log1k_mono fuel0 hr
  simp only [Option.bind_eq_some_iff] at hs
  obtain ⟨s1, h1, h2⟩ := hs
  have h1 := whileFuel_mono _ _ _ fuel _ _ h1
  have h2 := whileFuel_mono _ _ _ fuel _ _ h2
  rw [Nat.add_comm] at h1 h2
  unfold log1k scaleDown scaleUp at hr
  rw [h1] at hr
  simp only [Option.bind_some] at hr
  rw [h2] at hr
  simp only [Option.bind_some] at hr
  rcases hm with hm | hm
  · rw [hm] at hr
    simp only [Mag.lt, zero_lt_one, decide_true, if_true] at hr
    rw [normUp_zero A hA] at hr
    simp at hr
  · rw [hm] at hr
    simp only [Mag.lt, Bool.false_eq_true, if_false] at hr
    rw [normDown_inf] at hr
    simp at hr

/-- Evaluations at the extreme values that decide when the loops stop.  `mx`: the largest number, `big`: a number below the
last decade, `mn`: the smallest number, `tp`: a bound of everything representable, `J + 1`: the number of divisions by
ten for the last decade, `K`: that of multiplications for the first one, `N`: enough steps of three digits. -/
structure Extremes (A : Arith) (mx big mn tp : ℚ) (J K N : Nat) : Prop where
  sane : A.Sane
  below : ∀ q r, A.rnd q = some r → r < tp
  mn0 : 0 < mn
  mn1 : mn ≤ 1
  down : ((dn A 10)^[J + 1] (some mx)).ge 10 = false
  downBig : ((dn A 10)^[J] (some big)).ge 10 = false
  prod : (A.mul (some 15) ((up A 10)^[J] (some 1))).le (some tp)
  up3 : ((up A 10)^[K] (some (3 * mn))).lt 1 = false
  up2 : ((up A 10)^[K] (some (2 * mn))).lt 1 = true
  rem : Mag.le (some mn) ((dn A 10)^[K] (some 1))
  rem0 : (dn A 10)^[K + 1] (some 1) = some 0
  mulMin : A.mul (some 1) (some mn) = some mn
  nup : ((up A 1000)^[N] (some mn)).lt 1 = false
  ndn : ((dn A 1000)^[N] (some tp)).gt 1000 = false
  u2 : Mag.le (some (2 * mn)) (up A 10 (some (2 * mn)))

section
variable {A : Arith} {mx big mn tp : ℚ} {J K N : Nat} (E : Extremes A mx big mn tp J K N)
include E

theorem Extremes.nat {n : Nat} (hn : n ≤ 2 ^ 53) : A.rnd n = some (n : ℚ) := E.sane.fix n hn

theorem Extremes.one : Mag.le (some 1) (up A 10 (some 1)) := by
  have := E.nat (n := 10) (by norm_num)
  simp only [up, Arith.mul, one_mul]
  norm_num at this
  rw [this]; norm_num [Mag.le]

theorem Extremes.tenth : (dn A 10 (some 1)).le (some 1) := by
  obtain ⟨a, ha, hle⟩ := E.sane.le_of_le (n := 1) (by norm_num) (q := 1 / 10) (by norm_num)
  simp only [dn, Arith.divc, ha, Mag.le]
  exact_mod_cast hle

/-! ### Scaling to a single digit -/

theorem scaling_ge_one {q : ℚ} (h1 : 1 ≤ q) (h2 : q ≤ mx) {fuel : Nat} (hf : J + 2 ≤ fuel) :
    ∃ j ≤ J + 1, ∃ a : ℚ, 1 ≤ a ∧ a < 10 ∧ (dn A 10)^[j] (some q) = some a ∧
      (∀ i < j, ((dn A 10)^[i] (some q)).ge 10 = true) ∧
      ((scaleDown A fuel (some q, some 1)).bind fun s => scaleUp A fuel s) =
        some (some a, (up A 10)^[j] (some 1)) := by
  have hend : ((dn A 10)^[J + 1] (some q)).ge 10 = false := by
    have := dn_le E.sane (c := 10) (by norm_num) (x := some q) (y := some mx) h2 (J + 1)
    cases h : ((dn A 10)^[J + 1] (some q)).ge 10 with
    | false => rfl
    | true => have := Mag.ge_of_le this h; rw [E.down] at this; simp at this
  obtain ⟨j, hj, hrun, hc, hall⟩ := whileFuel_stops (fun s : Mag × Mag => s.1.ge 10)
    (fun s => (A.divc s.1 10, A.mul s.2 (some 10))) (J + 1) fuel (some q, some 1)
    (by rw [scaleDown_iter]; exact hend) (by omega)
  rw [scaleDown_iter] at hrun hc
  simp only [scaleDown_iter] at hall
  obtain ⟨a, ha, ha10⟩ := Mag.ge_false hc
  have ha1 : 1 ≤ a := by
    cases j with
    | zero =>
      simp only [Function.iterate_zero, id_eq, Option.some.injEq] at ha
      rw [← ha]; exact h1
    | succ j =>
      have := hall j (by omega)
      simp only [Function.iterate_succ_apply'] at ha
      have h := E.sane.divc_le (c := 10) (x := some 10) (y := (dn A 10)^[j] (some q)) (by norm_num)
        (by cases hx : (dn A 10)^[j] (some q) with
            | none => trivial
            | some b => rw [hx] at this; simpa [Mag.ge, Mag.le] using this)
      have e : A.divc (some 10) 10 = some 1 := by
        have := E.nat (n := 1) (by norm_num)
        norm_num at this
        simp only [Arith.divc]; norm_num [this]
      rw [e] at h
      change Mag.le (some 1) (dn A 10 ((dn A 10)^[j] (some q))) at h
      rw [ha] at h
      exact h
  refine ⟨j, hj, a, ha1, ha10, ha, hall, ?_⟩
  obtain ⟨f, rfl⟩ : ∃ f, fuel = f + 1 := ⟨fuel - 1, by omega⟩
  rw [scaleDown, hrun]
  dsimp only at ha
  rw [ha]
  simp [scaleUp, whileFuel, Mag.lt, not_lt.2 ha1]

theorem up_lt_ten {x : Mag} (px : x.Pos) (h : x.lt 1 = true) : (up A 10 x).le (some 10) := by
  cases x with
  | none => simp [Mag.lt] at h
  | some b =>
    simp only [Mag.lt, decide_eq_true_eq] at h
    have := E.sane.mul_le (x := some b) (x' := some 1) (y := some 10) (y' := some 10)
      (by simp only [Mag.le]; linarith) (Mag.le_refl _) px (by simp [Mag.Pos, Mag.le])
    have e : A.mul (some 1) (some 10) = some 10 := by
      have := E.nat (n := 10) (by norm_num)
      norm_num at this
      simp only [Arith.mul]; norm_num [this]
    rwa [e] at this

theorem scaling_lt_one {q : ℚ} (h1 : 3 * mn ≤ q) (h2 : q < 1) {fuel : Nat} (hf : K + 1 ≤ fuel) :
    ∃ j ≤ K, ∃ a : ℚ, 1 ≤ a ∧ a ≤ 10 ∧
      ((scaleDown A fuel (some q, some 1)).bind fun s => scaleUp A fuel s) =
        some (some a, (dn A 10)^[j] (some 1)) := by
  have hm := E.mn0
  have pq : Mag.Pos (some q) := by simp only [Mag.Pos, Mag.le]; linarith
  have hend : ((up A 10)^[K] (some q)).lt 1 = false := by
    have := up_le E.sane (c := 10) (by norm_num) (x := some (3 * mn)) (y := some q) h1
      (by simp only [Mag.Pos, Mag.le]; linarith) K
    cases h : ((up A 10)^[K] (some q)).lt 1 with
    | false => rfl
    | true => have := Mag.lt_of_le this h; rw [E.up3] at this; simp at this
  obtain ⟨j, hj, hrun, hc, hall⟩ := whileFuel_stops (fun s : Mag × Mag => s.1.lt 1)
    (fun s => (A.mul s.1 (some 10), A.divc s.2 10)) K fuel (some q, some 1)
    (by rw [scaleUp_iter]; exact hend) (by omega)
  rw [scaleUp_iter] at hrun hc
  simp only [scaleUp_iter] at hall
  have hle : ((up A 10)^[j] (some q)).le (some 10) := by
    cases j with
    | zero => simp only [Function.iterate_zero, id_eq, Mag.le]; linarith
    | succ j =>
      rw [Function.iterate_succ_apply']
      exact up_lt_ten E (up_pos E.sane (by norm_num) pq j) (hall j (by omega))
  obtain ⟨f, rfl⟩ : ∃ f, fuel = f + 1 := ⟨fuel - 1, by omega⟩
  cases ha : (up A 10)^[j] (some q) with
  | none => rw [ha] at hle; exact absurd hle (by simp [Mag.le])
  | some a =>
    rw [ha] at hle hc
    refine ⟨j, hj, a, by simpa [Mag.lt] using hc, hle, ?_⟩
    have hd : scaleDown A (f + 1) (some q, some 1) = some (some q, some 1) := by
      have : ¬ (10 : ℚ) ≤ q := by linarith
      simp [scaleDown, whileFuel, Mag.ge, this]
    rw [hd, Option.bind_some, scaleUp, hrun, ha]

/-! ### The rest of `log1k` -/

theorem normUp_stops {x : ℚ} (h1 : mn ≤ x) {fuel : Nat} (hf : N + 1 ≤ fuel) (e : Int) :
    (normUp A fuel (some x, e)).isSome := by
  have hm := E.mn0
  have hit : ∀ k : Nat, (fun s : Mag × Int => (A.mul s.1 (some 1000), s.2 - 3))^[k] (some x, e) =
      ((up A 1000)^[k] (some x), (fun i : Int => i - 3)^[k] e) :=
    fun k => iterate_pair (up A 1000) (fun i : Int => i - 3) k _ _
  obtain ⟨j, _, hrun, _⟩ := whileFuel_stops (fun s : Mag × Int => s.1.lt 1)
    (fun s => (A.mul s.1 (some 1000), s.2 - 3)) N fuel (some x, e)
    (by
      rw [hit]
      have := up_le E.sane (c := 1000) (by norm_num) (x := some mn) (y := some x) h1
        (by simp only [Mag.Pos, Mag.le]; linarith) N
      cases h : ((up A 1000)^[N] (some x)).lt 1 with
      | false => rfl
      | true => have := Mag.lt_of_le this h; rw [E.nup] at this; simp at this) (by omega)
  rw [normUp, hrun]; rfl

theorem normDown_stops {x : ℚ} (h1 : x ≤ tp) {fuel : Nat} (hf : N + 1 ≤ fuel) (e : Int) :
    (normDown A fuel (some x, e)).isSome := by
  have hit : ∀ k : Nat, (fun s : Mag × Int => (A.divc s.1 1000, s.2 + 3))^[k] (some x, e) =
      ((dn A 1000)^[k] (some x), (fun i : Int => i + 3)^[k] e) :=
    fun k => iterate_pair (dn A 1000) (fun i : Int => i + 3) k _ _
  obtain ⟨j, _, hrun, _⟩ := whileFuel_stops (fun s : Mag × Int => s.1.gt 1000)
    (fun s => (A.divc s.1 1000, s.2 + 3)) N fuel (some x, e)
    (by
      rw [hit]
      have := dn_le E.sane (c := 1000) (by norm_num) (x := some x) (y := some (tp)) h1 N
      cases h : ((dn A 1000)^[N] (some x)).gt 1000 with
      | false => rfl
      | true => have := Mag.gt_of_le this h; rw [E.ndn] at this; simp at this) (by omega)
  rw [normDown, hrun]; rfl

theorem log1k_isSome {q : ℚ} {d fuel : Nat} {s : Mag × Mag} {z : ℚ} (hf : N + 1 ≤ fuel)
    (hs : ((scaleDown A fuel (some q, some 1)).bind fun s => scaleUp A fuel s) = some s)
    (hz : A.mul (A.add s.1 (roundIncr A (loopCount d))) s.2 = some z) (h1 : mn ≤ z)
    (h2 : z ≤ tp) : (log1k A fuel q d).isSome := by
  simp only [Option.bind_eq_some_iff] at hs
  obtain ⟨s1, hs1, hs2⟩ := hs
  unfold log1k
  rw [hs1, Option.bind_some, hs2, Option.bind_some]
  simp only [hz]
  split
  · exact normUp_stops E h1 hf 0
  · exact normDown_stops E h2 hf 0

/-- The rounding increment is between 0 and 5. -/
theorem roundIncr64 (m : Nat) : ∃ ri : ℚ, roundIncr A m = some ri ∧ 0 ≤ ri ∧ ri ≤ 5 := by
  induction m with
  | zero => exact ⟨5, rfl, by norm_num, le_refl _⟩
  | succ m ih =>
    obtain ⟨r, hr, h0, h5⟩ := ih
    obtain ⟨z, hz, hle⟩ := E.sane.le_of_le (n := 5) (by norm_num) (q := r / 10) (by push_cast; linarith)
    have hz0 := E.sane.ge_of_ge (n := 0) (by norm_num) (q := r / 10) (by push_cast; positivity) hz
    exact ⟨z, by simp [roundIncr, hr, Arith.divc, hz], by exact_mod_cast hz0, by exact_mod_cast hle⟩

theorem OverflowsBy.mono {ri ri' : Mag} {p q : ℚ} (hp : 0 ≤ p) (h : p ≤ q) (h0 : ri.Pos) (hr : ri.le ri')
    (ho : OverflowsBy A J ri p) : OverflowsBy A J ri' q := by
  have hle := fun k => dn_le E.sane (c := 10) (by norm_num) (x := some p) (y := some q) h k
  refine ⟨Mag.ge_of_le (hle J) ho.1, ?_⟩
  have pp : Mag.Pos (some p) := hp
  have p1 := dn_pos E.sane (c := 10) (by norm_num) pp (J + 1)
  have padd : (A.add ((dn A 10)^[J + 1] (some p)) ri).Pos := by
    have := E.sane.add_le (x := some 0) (y := some 0) (x' := (dn A 10)^[J + 1] (some p)) (y' := ri)
      p1 h0
    exact Mag.le_trans (by have := E.nat (n := 0) (by norm_num); norm_num at this; norm_num [Arith.add, this, Mag.le]) this
  have := E.sane.mul_le (E.sane.add_le (hle (J + 1)) hr)
    (Mag.le_refl ((up A 10)^[J + 1] (some 1))) padd
    (up_pos E.sane (by norm_num) (by simp [Mag.Pos, Mag.le]) (J + 1))
  rw [ho.2] at this
  generalize A.mul _ _ = z at this ⊢
  cases z with
  | none => rfl
  | some z => exact absurd this (by simp [Mag.le])

/-- The sum of the scaled value and the increment. -/
theorem sum_range {a ri : ℚ} (h1 : 1 ≤ a) (h2 : a ≤ 10) (h3 : 0 ≤ ri) (h4 : ri ≤ 5) :
    ∃ s : ℚ, A.add (some a) (some ri) = some s ∧ 1 ≤ s ∧ s ≤ 15 := by
  obtain ⟨s, hs, hs2⟩ := E.sane.le_of_le (n := 15) (by norm_num) (q := a + ri) (by push_cast; linarith)
  have hs1 := E.sane.ge_of_ge (n := 1) (by norm_num) (q := a + ri) (by push_cast; linarith) hs
  exact ⟨s, hs, by exact_mod_cast hs1, by exact_mod_cast hs2⟩

theorem log1k_ge_one {q : ℚ} {d : Nat} (h1 : 1 ≤ q) (h2 : q ≤ mx) (ho : ¬ Overflows A J d q) {fuel : Nat}
    (hf : J + 2 ≤ fuel) (hN : N + 1 ≤ fuel) : (log1k A fuel q d).isSome := by
  obtain ⟨j, hj, a, ha1, ha2, ha, hall, hrun⟩ := scaling_ge_one E h1 h2 hf
  obtain ⟨ri, hri, hr0, hr5⟩ := roundIncr64 E (loopCount d)
  obtain ⟨s, hs, hs1, hs15⟩ := sum_range E ha1 ha2.le hr0 hr5
  have p1 : Mag.Pos (some 1) := by simp [Mag.Pos, Mag.le]
  have ps : Mag.Pos (some s) := by simp only [Mag.Pos, Mag.le]; linarith
  have hlow : Mag.le (some 1) (A.mul (some s) ((up A 10)^[j] (some 1))) := by
    have hP := up_incr E.sane (c := 10) (by norm_num) p1 E.one (Nat.zero_le j)
    have := E.sane.mul_le (x := some 1) (y := some 1) (x' := some s) hs1 hP p1 p1
    exact Mag.le_trans (by have := E.nat (n := 1) (by norm_num); norm_num at this; norm_num [Arith.mul, this, Mag.le]) this
  have hfin : A.mul (some s) ((up A 10)^[j] (some 1)) ≠ none := by
    rcases Nat.lt_or_ge j (J + 1) with hj' | hj'
    · have hP := up_incr E.sane (c := 10) (by norm_num) p1 E.one (show j ≤ J by omega)
      have := E.sane.mul_le (x := some s) (x' := some 15) hs15 hP ps
        (up_pos E.sane (by norm_num) p1 j)
      have := Mag.le_trans this E.prod
      intro hn
      rw [hn] at this
      exact absurd this (by simp [Mag.le])
    · obtain rfl : j = J + 1 := by omega
      intro hn
      exact ho ⟨hall J (by omega), by rw [hri, ha, hs, hn]⟩
  obtain ⟨z, hz⟩ := Option.ne_none_iff_exists'.mp hfin
  rw [hz] at hlow
  have hm := E.mn1
  refine log1k_isSome E hN hrun (z := z) (by rw [hri, hs, hz]) (le_trans hm hlow) ?_
  cases hP : (up A 10)^[j] (some 1) with
  | none => rw [hP] at hz; simp [Arith.mul] at hz
  | some P => rw [hP] at hz; exact (E.below _ _ hz).le

theorem log1k_lt_one {q : ℚ} {d : Nat} (h1 : 3 * mn ≤ q) (h2 : q < 1) {fuel : Nat} (hf : K + 1 ≤ fuel) (hN : N + 1 ≤ fuel) :
    (log1k A fuel q d).isSome := by
  obtain ⟨j, hj, a, ha1, ha2, hrun⟩ := scaling_lt_one E h1 h2 hf
  obtain ⟨ri, hri, hr0, hr5⟩ := roundIncr64 E (loopCount d)
  obtain ⟨s, hs, hs1, hs15⟩ := sum_range E ha1 ha2 hr0 hr5
  have hm := E.mn0
  have p1 : Mag.Pos (some 1) := by simp [Mag.Pos, Mag.le]
  have ps : Mag.Pos (some s) := by simp only [Mag.Pos, Mag.le]; linarith
  have hR := dn_decr E.sane (c := 10) (by norm_num) E.tenth hj
  have hR0 := dn_decr E.sane (c := 10) (by norm_num) E.tenth (Nat.zero_le j)
  have hlow := E.sane.mul_le (x := some 1) (x' := some s) hs1 (Mag.le_trans E.rem hR) p1
    (by simp only [Mag.Pos, Mag.le]; linarith)
  rw [E.mulMin] at hlow
  cases hP : (dn A 10)^[j] (some 1) with
  | none => rw [hP] at hR0; exact absurd hR0 (by simp [Mag.le])
  | some P =>
    rw [hP] at hR0 hlow
    have hPle : P ≤ 1 := hR0
    have hP0 : 0 ≤ P := by
      have := dn_pos E.sane (c := 10) (by norm_num) p1 j
      rw [hP] at this; exact this
    obtain ⟨z, hz, _⟩ := E.sane.le_of_le (n := 15) (by norm_num) (q := s * P) (by push_cast; nlinarith)
    rw [show A.mul (some s) (some P) = some z from hz] at hlow
    exact log1k_isSome E hN hrun (z := z) (by rw [hri, hs, hP]; exact hz) hlow (E.below _ _ hz).le


/-- Too small a value: the factor for scaling back underflows. -/
theorem log1k_tiny {q : ℚ} {d : Nat} (h1 : 0 < q) (h2 : q ≤ 2 * mn) (hmn : 2 * mn < 1) (fuel : Nat) :
    log1k A fuel q d = none := by
  by_contra hc
  obtain ⟨r, hr⟩ := Option.ne_none_iff_exists'.mp hc
  simp only [log1k, Option.bind_eq_some_iff] at hr
  obtain ⟨s1, hs1, s2, hs2, hr⟩ := hr
  have hd : s1 = (some q, some 1) := by
    cases fuel with
    | zero => simp [scaleDown, whileFuel] at hs1
    | succ f =>
      have : ¬ (10 : ℚ) ≤ q := by linarith
      simpa [scaleDown, whileFuel, Mag.ge, this, eq_comm] using hs1
  subst hd
  obtain ⟨j, hj, hc, hall⟩ := whileFuel_some _ _ _ _ _ hs2
  rw [scaleUp_iter] at hj hc
  have hjK : K + 1 ≤ j := by
    by_contra hlt
    have pm : Mag.Pos (some (2 * mn)) := by have := E.mn0; simp only [Mag.Pos, Mag.le]; linarith
    have a := up_le E.sane (c := 10) (by norm_num) (x := some q) (y := some (2 * mn)) h2
      (by simp only [Mag.Pos, Mag.le]; linarith) j
    have b := up_incr E.sane (c := 10) (by norm_num) pm E.u2 (show j ≤ K by omega)
    have := Mag.lt_of_le (Mag.le_trans a b) E.up2
    rw [this] at hc
    simp at hc
  have h0 : A.rnd 0 = some 0 := by exact_mod_cast E.nat (n := 0) (by norm_num)
  have hz : ∀ k : Nat, (dn A 10)^[k] (some 0) = some 0 := by
    intro k
    induction k with
    | zero => rfl
    | succ k ih => rw [Function.iterate_succ_apply, dn, Arith.divc, zero_div, h0, ih]
  have hR : (dn A 10)^[j] (some 1) = some 0 := by
    obtain ⟨k, rfl⟩ : ∃ k, j = k + (K + 1) := ⟨j - (K + 1), by omega⟩
    rw [Function.iterate_add_apply, E.rem0, hz]
  rw [hR] at hj
  subst hj
  dsimp only at hr
  cases ha : A.add ((up A 10)^[j] (some q)) (roundIncr A (loopCount d)) with
  | none =>
    rw [ha] at hr
    simp only [Arith.mul, Mag.lt, Bool.false_eq_true, if_false] at hr
    rw [normDown_inf] at hr
    simp at hr
  | some a =>
    rw [ha] at hr
    simp only [Arith.mul, mul_zero, h0, Mag.lt, zero_lt_one, decide_true, if_true] at hr
    rw [normUp_zero A E.sane] at hr
    simp at hr

/-- Too large a value: the product overflows. -/
theorem log1k_over {q : ℚ} {d : Nat} (h1 : 1 ≤ q) (h2 : q ≤ mx) (ho : Overflows A J d q) (fuel : Nat) :
    log1k A fuel q d = none := by
  obtain ⟨j, hj, a, ha1, ha2, ha, hall, hrun⟩ := scaling_ge_one E h1 h2 (le_refl _)
  have hjJ : j = J + 1 := by
    by_contra hne
    have hdec : (dn A 10 (some a)).le (some a) := by
      obtain ⟨z, hz, hle⟩ := E.sane.le_of_le (n := 1) (by norm_num) (q := a / 10) (by push_cast; linarith)
      simp only [dn, Arith.divc, hz, Mag.le]
      push_cast at hle
      linarith
    have := dn_decr E.sane (c := 10) (by norm_num) hdec (Nat.zero_le (J - j))
    rw [← ha, ← Function.iterate_add_apply, Nat.sub_add_cancel (by omega), Function.iterate_zero, id_eq, ha] at this
    have := Mag.ge_of_le this ho.1
    rw [Mag.ge_true_some] at this
    linarith
  subst hjJ
  refine log1k_hangs A E.sane q d (J + 2) _ hrun (Or.inr ?_) fuel
  rw [← ha]
  exact ho.2

end

end SoDa
