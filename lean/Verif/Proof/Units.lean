import Verif.Proof.FormatFStop
/-!
The arithmetic of doubles computed with whole numbers of units of `2^-1074`, so that long iterations can be evaluated.
-/
namespace SoDa

/-- The quotient rounded to the nearest whole number, ties to even. -/
def rheN (n m : Nat) : Nat :=
  if 2 * (n % m) < m then n / m else if m < 2 * (n % m) then n / m + 1
  else if (n / m) % 2 = 0 then n / m else n / m + 1

theorem floor_divN (n m : Nat) : ⌊(n : ℚ) / m⌋.toNat = n / m := by
  rw [Rat.floor_natCast_div_natCast]
  exact_mod_cast Int.toNat_natCast (n / m)

theorem rhe_div (n : Nat) {m : Nat} (hm : 0 < m) : roundHalfEven ((n : ℚ) / m) = rheN n m := by
  have hm' : (0 : ℚ) < m := by exact_mod_cast hm
  have hr : (n : ℚ) / m - ((n / m : Nat) : ℚ) = ((n % m : Nat) : ℚ) / m := by
    have h := Nat.div_add_mod n m
    have h' : (m : ℚ) * ((n / m : Nat) : ℚ) + ((n % m : Nat) : ℚ) = n := by exact_mod_cast h
    field_simp
    linarith
  unfold roundHalfEven rheN
  dsimp only
  rw [floor_divN, hr]
  have e1 : ((n % m : Nat) : ℚ) / m < 1 / 2 ↔ 2 * (n % m) < m := by
    rw [div_lt_iff₀ hm']
    constructor
    · intro h; have : (2 : ℚ) * ((n % m : Nat) : ℚ) < m := by linarith
      exact_mod_cast this
    · intro h; have : (2 : ℚ) * ((n % m : Nat) : ℚ) < m := by exact_mod_cast h
      linarith
  have e2 : 1 / 2 < ((n % m : Nat) : ℚ) / m ↔ m < 2 * (n % m) := by
    rw [lt_div_iff₀ hm']
    constructor
    · intro h; have : (m : ℚ) < (2 : ℚ) * ((n % m : Nat) : ℚ) := by linarith
      exact_mod_cast this
    · intro h; have : (m : ℚ) < (2 : ℚ) * ((n % m : Nat) : ℚ) := by exact_mod_cast h
      linarith
  simp only [e1, e2]

/-- `n / m` units rounded to a mantissa of 53 bits. -/
def divN (n m : Nat) : Nat :=
  let k := Nat.log2 (n / m) - 52
  rheN n (m * 2 ^ k) * 2 ^ k

theorem units64_div (n : Nat) {m : Nat} (hm : 0 < m) : units64 ((n : ℚ) / m) = divN n m := by
  unfold units64 divN
  dsimp only
  rw [floor_divN, div_div]
  congr 1
  exact_mod_cast rhe_div n (Nat.mul_pos hm (by positivity))

/-- Overflow. -/
def limN (M n : Nat) : Option Nat := if n < 2 ^ M then some n else none

/-- Units as magnitudes. -/
def toMag (e : Nat) : Option Nat → Mag
  | some n => some ((n : ℚ) / 2 ^ e)
  | none => none

theorem rndTo_div {e M : Nat} (n : Nat) {m : Nat} (hm : 0 < m) {q : ℚ} (hq : q = (n : ℚ) / m / 2 ^ e) :
    rndTo e M q = toMag e (limN M (divN n m)) := by
  have : q * 2 ^ e = (n : ℚ) / m := by rw [hq]; field_simp
  unfold rndTo limN
  dsimp only
  rw [this, units64_div n hm]
  split <;> rfl

/-- Dividing by a number. -/
def dnN (M c : Nat) : Option Nat → Option Nat
  | some n => limN M (divN n c)
  | none => none

/-- Multiplying by a number. -/
def upN (M c : Nat) : Option Nat → Option Nat
  | some n => limN M (divN (n * c) 1)
  | none => none

/-- Adding. -/
def addN (M : Nat) : Option Nat → Option Nat → Option Nat
  | some a, some b => limN M (divN (a + b) 1)
  | _, _ => none

/-- Multiplying. -/
def mulN (e M : Nat) : Option Nat → Option Nat → Option Nat
  | some a, some b => limN M (divN (a * b) (2 ^ e))
  | _, _ => none

section
variable {e M : Nat}

theorem dn_toMag (x : Option Nat) {c : Nat} (hc : 0 < c) :
    dn ⟨rndTo e M⟩ c (toMag e x) = toMag e (dnN M c x) := by
  cases x with
  | none => rfl
  | some n =>
    simp only [dn, Arith.divc, toMag, dnN]
    exact rndTo_div n hc (by rw [div_right_comm])

theorem up_toMag (x : Option Nat) (c : Nat) : up ⟨rndTo e M⟩ c (toMag e x) = toMag e (upN M c x) := by
  cases x with
  | none => rfl
  | some n =>
    simp only [up, Arith.mul, toMag, upN]
    exact rndTo_div (n * c) (by omega) (by push_cast; ring)

theorem add_toMag (x y : Option Nat) :
    (Arith.mk (rndTo e M)).add (toMag e x) (toMag e y) = toMag e (addN M x y) := by
  cases x with
  | none => rfl
  | some a =>
    cases y with
    | none => rfl
    | some b =>
      simp only [Arith.add, toMag, addN]
      exact rndTo_div (a + b) (by omega) (by push_cast; ring)

theorem mul_toMag (x y : Option Nat) :
    (Arith.mk (rndTo e M)).mul (toMag e x) (toMag e y) = toMag e (mulN e M x y) := by
  cases x with
  | none => rfl
  | some a =>
    cases y with
    | none => rfl
    | some b =>
      simp only [Arith.mul, toMag, mulN]
      exact rndTo_div (a * b) (by positivity) (by push_cast; field_simp)

theorem dn_iter (x : Option Nat) {c : Nat} (hc : 0 < c) (k : Nat) :
    (dn ⟨rndTo e M⟩ c)^[k] (toMag e x) = toMag e ((dnN M c)^[k] x) := by
  induction k generalizing x with
  | zero => rfl
  | succ k ih => rw [Function.iterate_succ_apply, Function.iterate_succ_apply, dn_toMag x hc]; exact ih _

theorem up_iter (x : Option Nat) (c k : Nat) :
    (up ⟨rndTo e M⟩ c)^[k] (toMag e x) = toMag e ((upN M c)^[k] x) := by
  induction k generalizing x with
  | zero => rfl
  | succ k ih => rw [Function.iterate_succ_apply, Function.iterate_succ_apply, up_toMag x c]; exact ih _

/-- Comparing with a number. -/
def ltN (e : Nat) (x : Option Nat) (c : Nat) : Bool := match x with | some n => n < c * 2 ^ e | none => false
def geN (e : Nat) (x : Option Nat) (c : Nat) : Bool := match x with | some n => c * 2 ^ e ≤ n | none => true
def gtN (e : Nat) (x : Option Nat) (c : Nat) : Bool := match x with | some n => c * 2 ^ e < n | none => true
def leN : Option Nat → Option Nat → Bool
  | _, none => true
  | none, some _ => false
  | some a, some b => a ≤ b

theorem lt_toMag (x : Option Nat) (c : Nat) : (toMag e x).lt c = ltN e x c := by
  cases x with
  | none => rfl
  | some n =>
    simp only [toMag, Mag.lt, ltN, decide_eq_decide]
    rw [div_lt_iff₀ (by positivity)]
    exact_mod_cast Iff.rfl

theorem ge_toMag (x : Option Nat) (c : Nat) : (toMag e x).ge c = geN e x c := by
  cases x with
  | none => rfl
  | some n =>
    simp only [toMag, Mag.ge, geN, decide_eq_decide]
    rw [le_div_iff₀ (by positivity)]
    exact_mod_cast Iff.rfl

theorem gt_toMag (x : Option Nat) (c : Nat) : (toMag e x).gt c = gtN e x c := by
  cases x with
  | none => rfl
  | some n =>
    simp only [toMag, Mag.gt, gtN, decide_eq_decide]
    rw [lt_div_iff₀ (by positivity)]
    exact_mod_cast Iff.rfl

theorem le_toMag (x y : Option Nat) : (toMag e x).le (toMag e y) ↔ leN x y = true := by
  cases x <;> cases y <;> simp [toMag, Mag.le, leN]
  rw [div_le_div_iff_of_pos_right (by positivity)]
  exact_mod_cast Iff.rfl

theorem toMag_none (x : Option Nat) : toMag e x = none ↔ x = none := by cases x <;> simp [toMag]

theorem one_toMag : (some 1 : Mag) = toMag e (some (2 ^ e)) := by
  simp [toMag]

theorem nat_toMag (c : Nat) : (some (c : ℚ) : Mag) = toMag e (some (c * 2 ^ e)) := by
  simp [toMag]

theorem roundIncr_toMag (m : Nat) :
    roundIncr ⟨rndTo e M⟩ m = toMag e ((dnN M 10)^[m] (some (5 * 2 ^ e))) := by
  induction m with
  | zero => simp [roundIncr, toMag]
  | succ m ih =>
    rw [Function.iterate_succ_apply', ← dn_toMag _ (by norm_num), roundIncr, ih]
    rfl

/-- The overflow test in units. -/
def overN (e M J : Nat) (r : Option Nat) (n : Nat) : Bool :=
  geN e ((dnN M 10)^[J] (some n)) 10 &&
  (mulN e M (addN M ((dnN M 10)^[J + 1] (some n)) r) ((upN M 10)^[J + 1] (some (2 ^ e)))).isNone

theorem overflows_toMag (J n : Nat) (r : Option Nat) :
    OverflowsBy ⟨rndTo e M⟩ J (toMag e r) ((n : ℚ) / 2 ^ e) ↔ overN e M J r n = true := by
  have hd : ∀ k, (dn ⟨rndTo e M⟩ 10)^[k] (some ((n : ℚ) / 2 ^ e)) = toMag e ((dnN M 10)^[k] (some n)) :=
    fun k => dn_iter (some n) (c := 10) (by norm_num) k
  have hu : (up ⟨rndTo e M⟩ 10)^[J + 1] (some 1) = toMag e ((upN M 10)^[J + 1] (some (2 ^ e))) := by
    rw [one_toMag (e := e)]
    exact up_iter (some (2 ^ e)) 10 (J + 1)
  have hg : ∀ x, (toMag e x).ge 10 = geN e x 10 := fun x => ge_toMag x 10
  unfold OverflowsBy overN
  rw [hd, hd, hu, add_toMag, mul_toMag, toMag_none, hg]
  simp

end

/-! ### Fast evaluation

`Nat.log2` is slow in the kernel; along an iteration the exponent changes little, so it is searched near the last one. -/

/-- Evaluates the argument first. -/
def force {α : Type} (n : Nat) (f : Nat → α) : α :=
  Nat.casesOn (motive := fun _ => α) n (f 0) (fun k => f (Nat.succ k))

theorem force_eq {α : Type} (n : Nat) (f : Nat → α) : force n f = f n := by cases n <;> rfl

/-- The exponent for `y`, searched from `h` downward. -/
def findK : Nat → Nat → Nat
  | 0, _ => 0
  | h + 1, y => bif Nat.ble (Nat.pow 2 (Nat.add h 53)) y then h + 1 else findK h y

theorem findK_eq (h y : Nat) (hy : y < 2 ^ (53 + h)) : findK h y = Nat.log2 y - 52 := by
  induction h with
  | zero =>
    simp only [findK]
    by_cases h0 : y = 0
    · subst h0; simp
    · have := (Nat.log2_lt h0).2 hy
      omega
  | succ h ih =>
    simp only [findK]
    by_cases hle : 2 ^ (h + 53) ≤ y
    · have h1 : Nat.ble (Nat.pow 2 (Nat.add h 53)) y = true := by simpa using hle
      rw [h1]
      have h0 : y ≠ 0 := by have : 0 < 2 ^ (h + 53) := by positivity
                            omega
      have h2 := (Nat.le_log2 h0).2 hle
      have h3 := (Nat.log2_lt h0).2 hy
      simp only [cond_true]
      omega
    · have h1 : Nat.ble (Nat.pow 2 (Nat.add h 53)) y = false := by
        rw [Bool.eq_false_iff]; simpa using hle
      rw [h1]
      exact ih (by rw [Nat.add_comm 53 h]; omega)

theorem blt_iff (a b : Nat) : Nat.blt a b = true ↔ a < b := by
  simp only [Nat.blt, Nat.ble_eq]; exact Iff.rfl

/-- The exponent for `y`, near `h` if possible. -/
def expN (h y : Nat) : Nat := bif Nat.blt y (Nat.pow 2 (Nat.add 53 h)) then findK h y else Nat.log2 y - 52

theorem expN_eq (h y : Nat) : expN h y = Nat.log2 y - 52 := by
  unfold expN
  cases hb : Nat.blt y (Nat.pow 2 (Nat.add 53 h)) with
  | false => rfl
  | true =>
    have : y < 2 ^ (53 + h) := (blt_iff _ _).1 hb
    exact findK_eq h y this

/-- Rounds of multiplying by `c` and dividing by `m`, with overflow at `lim`; `h` is a bound for the exponent. -/
def iterH (lim c m : Nat) : Nat → Nat → Nat → Option Nat
  | 0, _, n => some n
  | t + 1, h, n =>
    force (Nat.mul n c) fun nc =>
    force (expN h (Nat.div nc m)) fun k =>
    force (Nat.pow 2 k) fun p =>
    force (Nat.mul m p) fun mp =>
    force (Nat.div nc mp) fun q =>
    force (Nat.mul 2 (Nat.mod nc mp)) fun r =>
    force (Nat.mul (bif Nat.blt r mp then q else bif Nat.blt mp r then Nat.succ q
      else bif Nat.beq (Nat.mod q 2) 0 then q else Nat.succ q) p) fun x =>
    bif Nat.blt x lim then iterH lim c m t (Nat.add k 10) x else none

theorem iterH_eq {M : Nat} (c m : Nat) (f : Option Nat → Option Nat) (hf0 : f none = none)
    (hf : ∀ n, f (some n) = limN M (divN (n * c) m)) (t : Nat) : ∀ h n, iterH (2 ^ M) c m t h n = f^[t] (some n) := by
  have hnone : ∀ t, f^[t] none = none := by
    intro t
    induction t with
    | zero => rfl
    | succ t ih => rw [Function.iterate_succ_apply, hf0, ih]
  induction t with
  | zero => intro h n; rfl
  | succ t ih =>
    intro h n
    rw [Function.iterate_succ_apply, hf]
    simp only [iterH, force_eq, expN_eq]
    change (bif Nat.blt (Nat.mul _ _) _ then _ else _) = _
    have hx : Nat.mul (bif Nat.blt (Nat.mul 2 (Nat.mod (Nat.mul n c) (Nat.mul m (Nat.pow 2 (Nat.log2 (Nat.div (Nat.mul n c) m) - 52)))))
          (Nat.mul m (Nat.pow 2 (Nat.log2 (Nat.div (Nat.mul n c) m) - 52)))
        then Nat.div (Nat.mul n c) (Nat.mul m (Nat.pow 2 (Nat.log2 (Nat.div (Nat.mul n c) m) - 52)))
        else bif Nat.blt (Nat.mul m (Nat.pow 2 (Nat.log2 (Nat.div (Nat.mul n c) m) - 52)))
          (Nat.mul 2 (Nat.mod (Nat.mul n c) (Nat.mul m (Nat.pow 2 (Nat.log2 (Nat.div (Nat.mul n c) m) - 52)))))
        then Nat.succ (Nat.div (Nat.mul n c) (Nat.mul m (Nat.pow 2 (Nat.log2 (Nat.div (Nat.mul n c) m) - 52))))
        else bif Nat.beq (Nat.mod (Nat.div (Nat.mul n c) (Nat.mul m (Nat.pow 2 (Nat.log2 (Nat.div (Nat.mul n c) m) - 52)))) 2) 0
        then Nat.div (Nat.mul n c) (Nat.mul m (Nat.pow 2 (Nat.log2 (Nat.div (Nat.mul n c) m) - 52)))
        else Nat.succ (Nat.div (Nat.mul n c) (Nat.mul m (Nat.pow 2 (Nat.log2 (Nat.div (Nat.mul n c) m) - 52)))))
        (Nat.pow 2 (Nat.log2 (Nat.div (Nat.mul n c) m) - 52)) = divN (n * c) m := by
      change (bif Nat.blt (2 * ((n * c) % (m * 2 ^ (Nat.log2 ((n * c) / m) - 52)))) (m * 2 ^ (Nat.log2 ((n * c) / m) - 52))
        then (n * c) / (m * 2 ^ (Nat.log2 ((n * c) / m) - 52))
        else bif Nat.blt (m * 2 ^ (Nat.log2 ((n * c) / m) - 52)) (2 * ((n * c) % (m * 2 ^ (Nat.log2 ((n * c) / m) - 52))))
        then (n * c) / (m * 2 ^ (Nat.log2 ((n * c) / m) - 52)) + 1
        else bif Nat.beq (((n * c) / (m * 2 ^ (Nat.log2 ((n * c) / m) - 52))) % 2) 0
        then (n * c) / (m * 2 ^ (Nat.log2 ((n * c) / m) - 52))
        else (n * c) / (m * 2 ^ (Nat.log2 ((n * c) / m) - 52)) + 1) * 2 ^ (Nat.log2 ((n * c) / m) - 52) = _
      unfold divN rheN
      dsimp only
      generalize m * 2 ^ (Nat.log2 ((n * c) / m) - 52) = mp
      generalize n * c = nc
      simp only [Bool.cond_eq_ite, blt_iff, Nat.beq_eq]
    rw [hx]
    unfold limN
    by_cases hl : divN (n * c) m < 2 ^ M
    · have : Nat.blt (divN (n * c) m) (2 ^ M) = true := (blt_iff _ _).2 hl
      rw [this, if_pos hl]
      exact ih _ _
    · have : Nat.blt (divN (n * c) m) (2 ^ M) = false := by
        rw [Bool.eq_false_iff]; exact fun h => hl ((blt_iff _ _).1 h)
      rw [this, if_neg hl, hnone]
      rfl

theorem dnH {M c t n : Nat} (h : Nat) : (dnN M c)^[t] (some n) = iterH (2 ^ M) 1 c t h n :=
  (iterH_eq 1 c (dnN M c) rfl (fun n => by rw [Nat.mul_one]; rfl) t h n).symm

theorem upH {M c t n : Nat} (h : Nat) : (upN M c)^[t] (some n) = iterH (2 ^ M) c 1 t h n :=
  (iterH_eq c 1 (upN M c) rfl (fun _ => rfl) t h n).symm

/-- The overflow test, evaluated fast. -/
def overH (e lim J : Nat) (r : Option Nat) (n : Nat) : Bool :=
  geN e (iterH lim 1 10 J (2 * e) n) 10 &&
  match iterH lim 1 10 (J + 1) (2 * e) n, r, iterH lim 10 1 (J + 1) e (2 ^ e) with
  | some a, some b, some p =>
    match iterH lim 1 1 1 (e + 8) (a + b) with
    | some s => (iterH lim p (2 ^ e) 1 (2 * e) s).isNone
    | none => true
  | _, _, _ => true

theorem overH_eq (e M J : Nat) (r : Option Nat) (n : Nat) : overN e M J r n = overH e (2 ^ M) J r n := by
  have h1 : ∀ h m, iterH (2 ^ M) 1 1 1 h m = limN M (divN m 1) := fun h m => by
    rw [iterH_eq (M := M) 1 1 (dnN M 1) rfl (fun n => by rw [Nat.mul_one]; rfl) 1 h m]; rfl
  have h2 : ∀ c h m, iterH (2 ^ M) c (2 ^ e) 1 h m = limN M (divN (m * c) (2 ^ e)) := fun c h m => by
    rw [iterH_eq (M := M) c (2 ^ e) (fun x => match x with | some n => limN M (divN (n * c) (2 ^ e)) | none => none)
      rfl (fun _ => rfl) 1 h m]; rfl
  unfold overN overH
  rw [dnH (2 * e), dnH (2 * e), upH e]
  congr 1
  cases iterH (2 ^ M) 1 10 (J + 1) (2 * e) n with
  | none => rfl
  | some a =>
    cases r with
    | none => rfl
    | some b =>
      cases iterH (2 ^ M) 10 1 (J + 1) e (2 ^ e) with
      | none => simp only [addN]; cases limN M (divN (a + b) 1) <;> rfl
      | some p =>
        simp only [addN, h1]
        cases limN M (divN (a + b) 1) with
        | none => rfl
        | some s => simp only [mulN, h2]

end SoDa
