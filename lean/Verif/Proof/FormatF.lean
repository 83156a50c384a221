import Verif.Model.FormatF
import Verif.Spec.FormatF
import Verif.Proof.FormatNum
import Mathlib.Tactic.Linarith
import Mathlib.Tactic.NormNum
import Mathlib.Tactic.Positivity
import Mathlib.Tactic.Ring
namespace SoDa
open Spec

/-- Rounding is monotone (as in every IEEE rounding mode) and leaves integers up to 2^53 alone. -/
structure Arith.Sane (A : Arith) : Prop where
  mono : ∀ p q b, p ≤ q → A.rnd q = some b → ∃ a, A.rnd p = some a ∧ a ≤ b
  fix : ∀ n : Nat, n ≤ 2 ^ 53 → A.rnd n = some n

theorem exactArith_sane : exactArith.Sane where
  mono := by
    intro p q b h hq
    simp only [exactArith, Option.some.injEq] at hq ⊢
    exact ⟨p, rfl, by linarith⟩
  fix := by intro n _; rfl

/-! ### Loops -/

theorem whileFuel_inv {σ : Type} (cond : σ → Bool) (body : σ → σ) (P : σ → Prop)
    (hP : ∀ s, P s → cond s = true → P (body s)) :
    ∀ (fuel : Nat) (s s' : σ), P s → whileFuel cond body fuel s = some s' → P s' ∧ cond s' = false := by
  intro fuel
  induction fuel with
  | zero => intro s s' _ h; simp [whileFuel] at h
  | succ n ih =>
    intro s s' hs h
    rw [whileFuel] at h
    split at h
    · rename_i hc; exact ih _ _ (hP s hs hc) h
    · rename_i hc
      simp only [Option.some.injEq] at h
      subst h
      exact ⟨hs, by simpa using hc⟩

theorem whileFuel_mono {σ : Type} (cond : σ → Bool) (body : σ → σ) :
    ∀ (fuel k : Nat) (s s' : σ), whileFuel cond body fuel s = some s' →
      whileFuel cond body (fuel + k) s = some s' := by
  intro fuel
  induction fuel with
  | zero => intro k s s' h; simp [whileFuel] at h
  | succ n ih =>
    intro k s s' h
    rw [Nat.succ_add, whileFuel]
    rw [whileFuel] at h
    split
    · rename_i hc; simp only [hc, if_true] at h; exact ih _ _ _ h
    · rename_i hc; simpa [hc] using h

namespace Arith.Sane
variable {A : Arith} (hA : A.Sane)
include hA

theorem le_of_le {q : ℚ} {n : Nat} (hn : n ≤ 2 ^ 53) (h : q ≤ n) : ∃ a, A.rnd q = some a ∧ a ≤ n :=
  hA.mono q n n h (hA.fix n hn)

theorem ge_of_ge {q r : ℚ} {n : Nat} (hn : n ≤ 2 ^ 53) (h : (n : ℚ) ≤ q) (hr : A.rnd q = some r) :
    (n : ℚ) ≤ r := by
  obtain ⟨a, ha, hle⟩ := hA.mono n q r h hr
  rw [hA.fix n hn] at ha
  have := Option.some.inj ha
  linarith

theorem gt_of_gt {q r : ℚ} {n : Nat} (hn : n ≤ 2 ^ 53) (hr : A.rnd q = some r) (h : (n : ℚ) < r) :
    (n : ℚ) < q := by
  by_contra hq
  obtain ⟨a, ha, hle⟩ := hA.le_of_le hn (not_lt.mp hq)
  rw [hr] at ha
  have := Option.some.inj ha
  linarith

end Arith.Sane

/-! ### `log1k` -/

theorem log1k_three {A : Arith} {fuel : Nat} {q : ℚ} {d : Nat} {m : Mag} {e : Int}
    (h : log1k A fuel q d = some (m, e)) : (3 : Int) ∣ e := by
  simp only [log1k, Option.bind_eq_some_iff] at h
  obtain ⟨s1, _, s2, _, h⟩ := h
  split at h
  · exact (whileFuel_inv _ _ (fun s : Mag × Int => (3 : Int) ∣ s.2)
      (by intro s hs _; dsimp only; omega) _ _ _ (by simp) h).1
  · exact (whileFuel_inv _ _ (fun s : Mag × Int => (3 : Int) ∣ s.2)
      (by intro s hs _; dsimp only; omega) _ _ _ (by simp) h).1

theorem log1k_range {A : Arith} (hA : A.Sane) {fuel : Nat} {q : ℚ} {d : Nat} {m : Mag} {e : Int}
    (h : log1k A fuel q d = some (m, e)) : ∃ x, m = some x ∧ 1 ≤ x ∧ x ≤ 1000 := by
  simp only [log1k, Option.bind_eq_some_iff] at h
  obtain ⟨s1, _, s2, _, h⟩ := h
  generalize A.mul _ _ = v at h
  split at h
  · rename_i hlt
    have := whileFuel_inv _ _ (fun s : Mag × Int => ∃ x, s.1 = some x ∧ x ≤ 1000)
      (by
        rintro ⟨v, e⟩ ⟨x, hx, hle⟩ hc
        dsimp only at hx hc ⊢
        subst hx
        simp only [Mag.lt, decide_eq_true_eq] at hc
        obtain ⟨a, ha, hle⟩ := hA.le_of_le (q := x * 1000) (n := 1000) (by norm_num)
          (by push_cast; linarith)
        exact ⟨a, by simpa [Arith.mul] using ha, by exact_mod_cast hle⟩)
      _ _ _ (by
        cases v with
        | none => simp [Mag.lt] at hlt
        | some x =>
          simp only [Mag.lt, decide_eq_true_eq] at hlt
          exact ⟨x, rfl, by linarith⟩) h
    obtain ⟨⟨x, hx, hle⟩, hc⟩ := this
    dsimp only at hx hc
    subst hx
    simp only [Mag.lt, decide_eq_false_iff_not, not_lt] at hc
    exact ⟨x, rfl, hc, hle⟩
  · rename_i hlt
    have := whileFuel_inv _ _ (fun s : Mag × Int => ∀ x, s.1 = some x → 1 ≤ x)
      (by
        rintro ⟨v, e⟩ hx hc y hy
        dsimp only at hx hc hy
        cases v with
        | none => simp [Arith.divc] at hy
        | some x =>
          simp only [Mag.gt, decide_eq_true_eq] at hc
          simp only [Arith.divc] at hy
          have := hA.ge_of_ge (n := 1) (by norm_num) (q := x / 1000)
            (by rw [le_div_iff₀ (by norm_num)]; push_cast; linarith) hy
          exact_mod_cast this)
      _ _ _ (by
        intro x hx
        dsimp only at hx
        subst hx
        simpa [Mag.lt] using hlt) h
    obtain ⟨hx, hc⟩ := this
    cases m with
    | none => simp [Mag.gt] at hc
    | some x =>
      simp only [Mag.gt, decide_eq_false_iff_not, not_lt] at hc
      exact ⟨x, rfl, hx x rfl, hc⟩

/-! ### `getIntPartWidth` -/

theorem getIntPartWidth_spec {A : Arith} (hA : A.Sane) {fuel : Nat} {x : ℚ} {w : Nat}
    (h1 : x ≤ 1000) (h : getIntPartWidth A fuel (some x) = some w) :
    w ≤ 3 ∧ (w = 0 → x ≤ 1) ∧ (1 ≤ w → (10 : ℚ) ^ (w - 1) < x) := by
  simp only [getIntPartWidth, Option.map_eq_some_iff] at h
  obtain ⟨⟨m, w'⟩, h, rfl⟩ := h
  have inv := whileFuel_inv _ _ (fun s : Mag × Nat => ∃ y, s.1 = some y ∧
      ((s.2 = 0 ∧ y = x) ∨ (s.2 = 1 ∧ 1 < x ∧ A.rnd (x / 10) = some y) ∨
       (s.2 = 2 ∧ 10 < x ∧ y ≤ 10 ∧ ∃ z, A.rnd (x / 10) = some z ∧ A.rnd (z / 10) = some y) ∨
       (s.2 = 3 ∧ 100 < x ∧ y ≤ 1)))
    (by
      rintro ⟨m, k⟩ ⟨y, hm, hy⟩ hc
      dsimp only at hm hy hc ⊢
      subst hm
      simp only [Mag.gt, decide_eq_true_eq] at hc
      simp only [Arith.divc]
      rcases hy with ⟨rfl, rfl⟩ | ⟨rfl, hx, hy⟩ | ⟨rfl, hx, hle, z, hz, hy⟩ | ⟨rfl, hx, hle⟩
      · obtain ⟨a, ha, _⟩ := hA.le_of_le (q := y / 10) (n := 1000) (by norm_num)
          (by rw [div_le_iff₀ (by norm_num)]; push_cast; linarith)
        exact ⟨a, ha, Or.inr (Or.inl ⟨rfl, hc, ha⟩)⟩
      · have h10 : (1 : ℚ) < x / 10 := by
          exact_mod_cast hA.gt_of_gt (n := 1) (by norm_num) hy (by exact_mod_cast hc)
        rw [lt_div_iff₀ (by norm_num)] at h10
        obtain ⟨a, ha, hle⟩ := hA.le_of_le (q := x / 10) (n := 100) (by norm_num)
          (by rw [div_le_iff₀ (by norm_num)]; push_cast; linarith)
        rw [hy] at ha
        have hya := Option.some.inj ha
        obtain ⟨b, hb, hle2⟩ := hA.le_of_le (q := y / 10) (n := 10) (by norm_num)
          (by rw [div_le_iff₀ (by norm_num)]; push_cast at hle ⊢; linarith)
        exact ⟨b, hb, Or.inr (Or.inr (Or.inl ⟨rfl, by linarith, by exact_mod_cast hle2, y, hy, hb⟩))⟩
      · have h10 : (1 : ℚ) < z / 10 := by
          exact_mod_cast hA.gt_of_gt (n := 1) (by norm_num) hy (by exact_mod_cast hc)
        rw [lt_div_iff₀ (by norm_num)] at h10
        have h100 : (10 : ℚ) < x / 10 := by
          exact_mod_cast hA.gt_of_gt (n := 10) (by norm_num) hz (by push_cast; linarith)
        rw [lt_div_iff₀ (by norm_num)] at h100
        obtain ⟨b, hb, hle2⟩ := hA.le_of_le (q := y / 10) (n := 1) (by norm_num)
          (by rw [div_le_iff₀ (by norm_num)]; push_cast; linarith)
        exact ⟨b, hb, Or.inr (Or.inr (Or.inr ⟨rfl, by linarith, by exact_mod_cast hle2⟩))⟩
      · linarith)
    _ _ _ ⟨x, rfl, Or.inl ⟨rfl, rfl⟩⟩ h
  obtain ⟨⟨y, hm, hy⟩, hc⟩ := inv
  dsimp only at hm hy hc
  subst hm
  simp only [Mag.gt, decide_eq_false_iff_not, not_lt] at hc
  rcases hy with ⟨rfl, rfl⟩ | ⟨rfl, hx, hy⟩ | ⟨rfl, hx, hle, z, hz, hy⟩ | ⟨rfl, hx, hle⟩
  · simp [hc]
  · simpa using hx
  · simpa using hx
  · norm_num; exact hx

theorem modvalLoop_eq (k : Nat) (hk : k ≤ 9) : modvalLoop k 1 = .ok (10 ^ k) := by
  have : ∀ k ≤ 9, modvalLoop k 1 = .ok (10 ^ k) := by decide
  exact this k hk

theorem fracLoop_nonneg {A : Arith} (hA : A.Sane) (k : Nat) : ∀ (x : ℚ) (f r : Int), 0 ≤ x → 0 ≤ f →
    fracLoop A k x f = .ok r → 0 ≤ r := by
  induction k with
  | zero => intro x f r _ hf h; simp [fracLoop] at h; omega
  | succ k ih =>
    intro x f r hx hf h
    rw [fracLoop] at h
    split at h
    · simp at h
    · rename_i y hy
      dsimp only at h
      split at h
      · have h0 : (0 : ℚ) ≤ y := by
          have := hA.ge_of_ge (n := 0) (by norm_num) (q := x * 10) (by push_cast; positivity) hy
          exact_mod_cast this
        refine ih _ _ _ (Int.fract_nonneg _) ?_ h
        have := Int.floor_nonneg.mpr h0
        omega
      · simp at h

/-- The facts about a finished run on a non-zero value, for at least one significant digit. -/
theorem fractionate_spec {A : Arith} (hA : A.Sane) {fuel : Nat} {x : ℚ} {d : Nat} {r : Fractioned}
    (h1 : 1 ≤ x) (h2 : x ≤ 1000) (hd : 1 ≤ d)
    (h : fractionate A fuel (some x) d = some (.ok r)) :
    (10 : Int) ^ (r.intWid - 1) ≤ r.intPart ∧ r.intPart ≤ 1000 ∧ 0 ≤ r.fracPart ∧ r.intWid ≤ 3 ∧
    r.intPart = ⌊x⌋ - ⌊x⌋ % 10 ^ (r.intWid - d) ∧ r.fracWid = loopCount (d - r.intWid) ∧
    fracLoop A r.fracWid (Int.fract x) 0 = .ok r.fracPart ∧
    (r.intWid = 0 → x ≤ 1) ∧ (1 ≤ r.intWid → (10 : ℚ) ^ (r.intWid - 1) < x) := by
  simp only [fractionate, Option.map_eq_some_iff] at h
  obtain ⟨w, hw, h⟩ := h
  obtain ⟨g1, g2, g3⟩ := getIntPartWidth_spec hA h2 hw
  have hf1 : 1 ≤ ⌊x⌋ := Int.le_floor.mpr (by exact_mod_cast h1)
  have hf2 : ⌊x⌋ ≤ 1000 := by
    have : ((⌊x⌋ : Int) : ℚ) ≤ 1000 := (Int.floor_le x).trans h2
    exact_mod_cast this
  rw [if_pos (by unfold intMax; omega), modvalLoop_eq _ (by omega)] at h
  simp only [Res.bind_ok] at h
  cases hfl : fracLoop A (loopCount (d - w)) (Int.fract x) 0 with
  | ub => rw [hfl] at h; simp at h
  | throw e => exact e.elim
  | ok f =>
    rw [hfl] at h
    simp only [Res.bind_ok, Res.ok.injEq] at h
    subst h
    refine ⟨?_, ?_, ?_, g1, rfl, rfl, hfl, g2, g3⟩
    · dsimp only
      by_cases hw0 : w = 0
      · subst hw0; simp; omega
      · have g3 := g3 (by omega)
        have hfl : (10 : Int) ^ (w - 1) ≤ ⌊x⌋ := Int.le_floor.mpr (by push_cast; exact g3.le)
        have hdvd : (10 : Int) ^ (w - d) ∣ 10 ^ (w - 1) := pow_dvd_pow _ (by omega)
        have hpos : (0 : Int) < 10 ^ (w - d) := by positivity
        -- the largest multiple of modval below ⌊x⌋
        obtain ⟨c, hc⟩ := hdvd
        have h4 : c ≤ ⌊x⌋ / 10 ^ (w - d) := by
          rw [Int.le_ediv_iff_mul_le hpos, mul_comm, ← hc]; exact hfl
        have h5 := Int.emod_add_mul_ediv ⌊x⌋ (10 ^ (w - d))
        rw [hc]
        have : 10 ^ (w - d) * c ≤ 10 ^ (w - d) * (⌊x⌋ / 10 ^ (w - d)) :=
          Int.mul_le_mul_of_nonneg_left h4 hpos.le
        omega
    · dsimp only
      have := Int.emod_nonneg ⌊x⌋ (show (10 : Int) ^ (w - d) ≠ 0 by positivity)
      omega
    · exact fracLoop_nonneg hA _ _ _ _ (Int.fract_nonneg _) (le_refl 0) hfl


/-! ### The printed text -/

theorem takeWhile_append_stop (ds rest : Str) (hds : ∀ c ∈ ds, c.isDigit = true)
    (h : ∀ c, rest.head? = some c → c.isDigit = false) :
    (ds ++ rest).takeWhile Char.isDigit = ds ∧ (ds ++ rest).dropWhile Char.isDigit = rest := by
  induction ds with
  | nil =>
    cases rest with
    | nil => simp
    | cons c cs => have := h c rfl; simp [this]
  | cons d ds ih =>
    have := ih (fun c hc => hds c (List.mem_cons_of_mem _ hc))
    have hd := hds d List.mem_cons_self
    simp [hd, this]

theorem readExp_eq (neg : Bool) (n k : Nat) :
    readExp ('e' :: (if neg then '-' else '+') :: (Nat.toDigits 10 n ++ List.replicate k ' ')) =
      some (if neg then -(n : Int) else n) := by
  obtain ⟨h1, h2⟩ := takeWhile_append_stop (Nat.toDigits 10 n) (List.replicate k ' ')
    (toDigits_isDigit n) (by intro c hc; cases k <;> simp [List.replicate_succ] at hc; subst hc; decide)
  simp only [readExp, h1, h2, numeral_toDigits 10 (by omega) (by omega)]
  have hall : (List.replicate k ' ').all (fun c => decide (c = ' ')) = true := by
    simp
  rw [if_pos ⟨by cases neg <;> simp, Nat.toDigits_ne_nil, hall⟩]
  cases neg <;> simp

theorem readEng_eq (neg eneg : Bool) (ip fp : Str) (n k : Nat) (hip : ip ≠ [])
    (h1 : ∀ c ∈ ip, c.isDigit = true) (h2 : ∀ c ∈ fp, c.isDigit = true) :
    readEng ((if neg then '-' else ' ') :: (ip ++ ((if fp = [] then [] else '.' :: fp) ++
      'e' :: (if eneg then '-' else '+') :: (Nat.toDigits 10 n ++ List.replicate k ' ')))) =
      some ⟨neg, ip, fp, if eneg then -(n : Int) else n⟩ := by
  obtain ⟨a1, a2⟩ := takeWhile_append_stop ip ((if fp = [] then [] else '.' :: fp) ++
      'e' :: (if eneg then '-' else '+') :: (Nat.toDigits 10 n ++ List.replicate k ' ')) h1
      (by intro c hc; by_cases hf : fp = [] <;> simp [hf] at hc <;> subst hc <;> decide)
  have hs : ((if neg then '-' else ' ') = ' ' ∨ (if neg then '-' else ' ') = '-') ∧ ip ≠ [] :=
    ⟨by cases neg <;> simp, hip⟩
  have hneg : decide ((if neg then '-' else ' ') = '-') = neg := by cases neg <;> decide
  unfold readEng
  simp only [a1, a2]
  rw [if_pos hs]
  by_cases hf : fp = []
  · subst hf
    simp [readExp_eq]
  · obtain ⟨b1, b2⟩ := takeWhile_append_stop fp
      ('e' :: (if eneg then '-' else '+') :: (Nat.toDigits 10 n ++ List.replicate k ' ')) h2
      (by intro c hc; simp at hc; subst hc; decide)
    simp only [hf, if_false, List.cons_append, b1, b2, readExp_eq, Option.map_some, hneg]

theorem showInt_ofNat (n : Nat) : showInt (n : Int) = Nat.toDigits 10 n := rfl

theorem padRight_enough {c : Char} {w : Nat} {s : Str} (h : w ≤ s.length) : padRight c w s = s := by
  simp [padRight, show w - s.length = 0 by omega]

/-- What a finished run prints, for at least one significant digit. -/
theorem textF_eng {A : Arith} (hA : A.Sane) {fuel : Nat} {radix : Char} {neg : Bool} {q : ℚ} {width d : Nat}
    {t : Str} (hq : q ≠ 0) (hd : 1 ≤ d)
    (h : textF A fuel radix (.fin neg q) 'e' width d = some (.ok t)) :
    ∃ x e r, log1k A fuel q d = some (some x, e) ∧ fractionate A fuel (some x) d = some (.ok r) ∧
      1 ≤ x ∧ x ≤ 1000 ∧ (3 : Int) ∣ e ∧
      readEng t = some ⟨neg, Nat.toDigits 10 r.intPart.toNat,
        if 0 < r.fracWid then padLeft '0' r.fracWid (Nat.toDigits 10 r.fracPart.toNat) else [], e⟩ := by
  simp only [textF, show ('e' : Char) ≠ 'f' by decide, show ('e' : Char) ≠ 's' by decide,
    show ('e' : Char) ≠ 'g' by decide, if_false, if_true, hq, Option.bind_eq_some_iff,
    Option.map_eq_some_iff] at h
  obtain ⟨⟨m, e⟩, hl, rr, hf, h⟩ := h
  obtain ⟨x, rfl, hx1, hx2⟩ := log1k_range hA hl
  dsimp only at hf h
  cases rr with
  | ub => simp at h
  | throw e => exact e.elim
  | ok r =>
    simp only [Res.bind_ok, Res.ok.injEq] at h
    refine ⟨x, e, r, hl, hf, hx1, hx2, log1k_three hl, ?_⟩
    obtain ⟨p1, p2, p3, p4, _⟩ := fractionate_spec hA hx1 hx2 hd hf
    generalize (if width = 0 then (d + 4) % u32 else width) = wd at h
    have hpos : 0 ≤ r.intPart := le_trans (by positivity) p1
    obtain ⟨ip, hip⟩ := Int.eq_ofNat_of_zero_le hpos
    obtain ⟨fp, hfp⟩ := Int.eq_ofNat_of_zero_le p3
    have hlen : r.intWid ≤ (Nat.toDigits 10 ip).length := by
      by_cases hw : r.intWid ≤ 1
      · have := List.length_pos_iff.mpr (@Nat.toDigits_ne_nil ip 10)
        omega
      · by_contra hcon
        have h1 : (Nat.toDigits 10 ip).length ≤ r.intWid - 1 := by omega
        rw [Nat.length_toDigits_le_iff (by omega) (by omega)] at h1
        rw [hip] at p1
        have : (10 : Int) ^ (r.intWid - 1) ≤ (ip : Int) := p1
        have : 10 ^ (r.intWid - 1) ≤ ip := by exact_mod_cast this
        omega
    rw [← h]
    unfold engText
    rw [hip, hfp, showInt_ofNat, showInt_ofNat, padRight_enough hlen]
    obtain ⟨n, eneg, he, hes⟩ : ∃ (n : Nat) (eneg : Bool), e = (if eneg then -(n : Int) else n) ∧
        (if e < 0 then '-' :: padRight ' ' 2 (showInt (-e)) else '+' :: padRight ' ' 2 (showInt e)) =
          (if eneg then '-' else '+') :: padRight ' ' 2 (Nat.toDigits 10 n) := by
      by_cases hneg : e < 0
      · obtain ⟨n, hn⟩ := Int.eq_ofNat_of_zero_le (show 0 ≤ -e by omega)
        refine ⟨n, true, by simp; omega, ?_⟩
        rw [if_pos hneg, hn, showInt_ofNat]; simp
      · obtain ⟨n, hn⟩ := Int.eq_ofNat_of_zero_le (show 0 ≤ e by omega)
        refine ⟨n, false, by simp; omega, ?_⟩
        rw [if_neg hneg, hn, showInt_ofNat]; simp
    rw [hes]
    have key := readEng_eq neg eneg (Nat.toDigits 10 ip)
      (if 0 < r.fracWid then padLeft '0' r.fracWid (Nat.toDigits 10 fp) else []) n
      ((2 - (Nat.toDigits 10 n).length) + (toI32 ((wd : Int) - (r.intWid + r.fracWid + 4))).toNat)
      Nat.toDigits_ne_nil (toDigits_isDigit ip)
      (by
        intro c hc
        split at hc
        · rcases List.mem_append.mp hc with hc | hc
          · rw [List.eq_of_mem_replicate hc]; decide
          · exact toDigits_isDigit _ c hc
        · simp at hc)
    simp only [Int.toNat_natCast, he]
    rw [← key]
    congr 1
    by_cases hw : 0 < r.fracWid
    · have hne : padLeft '0' r.fracWid (Nat.toDigits 10 fp) ≠ [] := by
        simp [padLeft, Nat.toDigits_ne_nil]
      simp [hw, hne, padRight]
    · simp [hw, padRight]

end SoDa
