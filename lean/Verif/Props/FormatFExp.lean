import Verif.Props.FormatF
/-!
C20: the exponent of engineering notation fits into an `int` (the counter `ret` of `log1k` cannot overflow in a call that
returns).
-/
namespace SoDa
open Spec

/-- A counter that grows by at most `k` in every round. -/
theorem whileFuel_count {σ : Type} (cond : σ → Bool) (body : σ → σ) (c : σ → Int) (k : Int)
    (hk : ∀ s, |c (body s) - c s| ≤ k) (hk0 : 0 ≤ k) :
    ∀ (fuel : Nat) (s s' : σ), whileFuel cond body fuel s = some s' → |c s' - c s| ≤ k * fuel
  | 0, _, _, h => by simp [whileFuel] at h
  | fuel + 1, s, s', h => by
    rw [whileFuel] at h
    push_cast
    split at h
    · have h1 := whileFuel_count cond body c k hk hk0 fuel _ _ h
      have h2 := hk s
      rw [abs_le] at h1 h2 ⊢
      constructor <;> nlinarith
    · cases h
      simp only [sub_self, abs_zero]
      positivity

/-- The exponent after `fuel` rounds. -/
theorem log1k_exp {A : Arith} {fuel : Nat} {q : ℚ} {d : Nat} {m : Mag} {e : Int} (h : log1k A fuel q d = some (m, e)) :
    |e| ≤ 3 * fuel := by
  unfold log1k at h
  simp only [Option.bind_eq_some_iff] at h
  obtain ⟨-, -, s, -, h⟩ := h
  split at h
  · have := whileFuel_count _ _ (fun s : Mag × Int => s.2) 3 (fun s => by simp) (by norm_num) _ _ _ h
    simpa using this
  · have := whileFuel_count _ _ (fun s : Mag × Int => s.2) 3 (fun s => by simp) (by norm_num) _ _ _ h
    simpa using this

/-- The exponent printed for a double is at most 1200 in magnitude. -/
theorem C20_exponent_binary64 (b m : Nat) (hb : b < 2047) (hm : m < 2 ^ 52) (h0 : 0 < dblMag b m) (w d : Nat) (hd : 1 ≤ d)
    (fuel : Nat) (radix : Char) (neg : Bool) (f f' : Fmt)
    (h : f.addF binary64 fuel radix (.fin neg (dblMag b m)) 'e' w d = some (.ok f')) :
    ∃ t n, Inserts f f' t ∧ readEng t = some n ∧ n.exp.natAbs ≤ 1200 := by
  obtain ⟨t, ht, hi⟩ := addF_some h
  obtain ⟨x, e, r, hl, -, -, -, -, hr⟩ := textF_eng binary64_sane h0.ne' hd ht
  refine ⟨t, _, hi, hr, ?_⟩
  have key := log1k_range64 (d := d) hb hm h0
  split at key
  · obtain ⟨⟨x', e'⟩, h2⟩ := Option.isSome_iff_exists.1 key
    have h3 := log1k_mono 400 hl
    rw [show fuel + 400 = 400 + fuel by omega, log1k_mono fuel h2] at h3
    cases h3
    have := log1k_exp h2
    simp only
    rw [abs_le] at this
    omega
  · rw [key fuel] at hl
    cases hl

/-- The largest power of ten among the doubles. -/
example : ∃ b m, b < 2047 ∧ m < 2 ^ 52 ∧ 0 < dblMag b m ∧
    textF binary64 400 '.' (.fin false (dblMag b m)) 'e' 0 6 = some (.ok " 100.000e+306".toList) :=
  ⟨2046, 506821272651936, by decide, by decide, by decide +kernel, by decide +kernel⟩

end SoDa
