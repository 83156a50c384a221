import Verif.Model.PropertyTreeNum
import Verif.Proof.OptionsNum
import Verif.Props.PropertyTree
/-!
Values of property nodes of further types: numbers of any size, `double`, `float`, `bool`, `char`.
-/
namespace SoDa.Prop
open Spec

/-- What `get` does with a type whose extraction finds a value exactly for the pairs `P`. -/
theorem get_of_iff {V : Type} (T : Ty V) (P : Str → V → Prop) (h : ∀ s v, T.read s = some v ↔ P s v) (r : Ref) (t : Bool) :
    (∀ v, P r.node.val v → r.get T t = .ok (some v)) ∧
    ((¬ ∃ v, P r.node.val v) → r.get T false = .ok none ∧
      r.get T true = .throw (.badType r.getPathName T.name r.node.val)) := by
  constructor
  · intro v hv
    unfold Ref.get
    rw [(h _ _).2 hv]
  · intro hn
    have : T.read r.node.val = none := by
      cases hq : T.read r.node.val with
      | none => rfl
      | some v => exact absurd ⟨v, (h _ _).1 hq⟩ hn
    unfold Ref.get
    rw [this]
    simp

/-! ## C86  values of further types -/

/-- Signed integers of any size: the integer the value begins with, if it is in range. -/
theorem C86_signed (name : Str) (bits : Nat) (r : Ref) (t : Bool) :
    (∀ n : Int, BeginsWithInt r.node.val n → -2 ^ (bits - 1) ≤ n → n < 2 ^ (bits - 1) →
      r.get (sintTy name bits) t = .ok (some n)) ∧
    ((¬ ∃ n : Int, BeginsWithInt r.node.val n ∧ -2 ^ (bits - 1) ≤ n ∧ n < 2 ^ (bits - 1)) →
      r.get (sintTy name bits) false = .ok none ∧
      r.get (sintTy name bits) true = .throw (.badType r.getPathName name r.node.val)) := by
  have key := get_of_iff (sintTy name bits)
    (fun s n => BeginsWithInt s n ∧ -2 ^ (bits - 1) ≤ n ∧ n < 2 ^ (bits - 1)) (fun s v => by
      have h := Opts.extractSigned_good_iff bits s v
      rw [Int.le_sub_one_iff] at h
      rw [← h]
      simp only [sintTy]
      cases Opts.extractSigned bits s <;> simp) r t
  exact ⟨fun n h1 h2 h3 => key.1 n ⟨h1, h2, h3⟩, key.2⟩

/-- Unsigned integers: a magnitude in range; a minus sign negates modulo `2 ^ bits`. -/
theorem C86_unsigned (name : Str) (bits : Nat) (r : Ref) (t : Bool) :
    (∀ n : Int, BeginsWithInt r.node.val n → -2 ^ bits < n → n < 2 ^ bits →
      r.get (uintTy name bits) t = .ok (some (if 0 ≤ n then n else n + 2 ^ bits))) ∧
    ((¬ ∃ n : Int, BeginsWithInt r.node.val n ∧ -2 ^ bits < n ∧ n < 2 ^ bits) →
      r.get (uintTy name bits) false = .ok none ∧
      r.get (uintTy name bits) true = .throw (.badType r.getPathName name r.node.val)) := by
  have hp : (0 : Int) < 2 ^ bits := by positivity
  have hcast : ((2 ^ bits : Nat) : Int) = 2 ^ bits := by push_cast; rfl
  have key := get_of_iff (uintTy name bits)
    (fun s v => ∃ n : Int, BeginsWithInt s n ∧ n.natAbs < 2 ^ bits ∧ v = n % 2 ^ bits) (fun s v => by
      rw [← Opts.extractUnsigned_good_iff]
      simp only [uintTy]
      cases Opts.extractUnsigned bits s <;> simp) r t
  constructor
  · intro n h1 h2 h3
    refine key.1 _ ⟨n, h1, by omega, ?_⟩
    by_cases h0 : 0 ≤ n
    · rw [if_pos h0, Int.emod_eq_of_lt h0 h3]
    · rw [if_neg h0, ← Int.add_emod_right, Int.emod_eq_of_lt (by omega) (by omega)]
  · intro h
    refine key.2 ?_
    rintro ⟨v, n, h1, h2, _⟩
    exact h ⟨n, h1, by omega, by omega⟩

theorem realTy_read_iff (name : Str) (rnd : ℚ → Option ℚ) (s : Str) (v : Dbl) : (realTy name rnd).read s = some v ↔
    ∃ neg q x, BeginsWithReal s neg q ∧ rnd q = some x ∧ v = .fin neg x := by
  exact Opts.realTy_read_iff rnd 0 id s v

/-- `double`: the decimal number the value begins with, rounded to a double. -/
theorem C86_double (r : Ref) (t : Bool) :
    (∀ neg q x, BeginsWithReal r.node.val neg q → binary64.rnd q = some x →
      r.get doubleTy t = .ok (some (.fin neg x))) ∧
    ((¬ ∃ neg q x, BeginsWithReal r.node.val neg q ∧ binary64.rnd q = some x) →
      r.get doubleTy false = .ok none ∧
      r.get doubleTy true = .throw (.badType r.getPathName "d".toList r.node.val)) := by
  have key := get_of_iff doubleTy _ (realTy_read_iff "d".toList binary64.rnd) r t
  refine ⟨fun neg q x h1 h2 => key.1 _ ⟨neg, q, x, h1, h2, rfl⟩, fun h => key.2 ?_⟩
  rintro ⟨v, neg, q, x, h1, h2, _⟩
  exact h ⟨neg, q, x, h1, h2⟩

/-- `float`: the decimal number the value begins with, rounded to a float. -/
theorem C86_float (r : Ref) (t : Bool) :
    (∀ neg q x, BeginsWithReal r.node.val neg q → F32.rnd32 q = some x →
      r.get floatTy t = .ok (some (.fin neg x))) ∧
    ((¬ ∃ neg q x, BeginsWithReal r.node.val neg q ∧ F32.rnd32 q = some x) →
      r.get floatTy false = .ok none ∧
      r.get floatTy true = .throw (.badType r.getPathName "f".toList r.node.val)) := by
  have key := get_of_iff floatTy _ (realTy_read_iff "f".toList F32.rnd32) r t
  refine ⟨fun neg q x h1 h2 => key.1 _ ⟨neg, q, x, h1, h2, rfl⟩, fun h => key.2 ?_⟩
  rintro ⟨v, neg, q, x, h1, h2, _⟩
  exact h ⟨neg, q, x, h1, h2⟩

/-- `bool`: values that begin with the integer 0 or 1, nothing else; in particular not the words of YAML. -/
theorem C86_bool (r : Ref) (t : Bool) :
    (BeginsWithInt r.node.val 0 → r.get boolTy t = .ok (some false)) ∧
    (BeginsWithInt r.node.val 1 → r.get boolTy t = .ok (some true)) ∧
    (¬ BeginsWithInt r.node.val 0 → ¬ BeginsWithInt r.node.val 1 →
      r.get boolTy false = .ok none ∧
      r.get boolTy true = .throw (.badType r.getPathName "b".toList r.node.val)) := by
  have key := get_of_iff boolTy (fun s b => BeginsWithInt s (if b then 1 else 0)) (fun s v => by
    have h0 := Opts.extractSigned_good_iff 64 s 0
    have h1 := Opts.extractSigned_good_iff 64 s 1
    rw [and_iff_left (by norm_num)] at h0 h1
    simp only [boolTy]
    cases v with
    | false =>
      rw [if_neg (by decide), ← h0]
      split <;> simp_all
    | true =>
      rw [if_pos rfl, ← h1]
      split <;> simp_all) r t
  refine ⟨fun h => key.1 false h, fun h => key.1 true h, fun h0 h1 => key.2 ?_⟩
  rintro ⟨b, hb⟩
  cases b
  · exact h0 hb
  · exact h1 hb

/-- `char`: the first character that is not white space. -/
theorem C86_char (r : Ref) (t : Bool) :
    (∀ (ws rest : Str) (c : Char), r.node.val = ws ++ c :: rest → (∀ x ∈ ws, White x) → ¬ White c →
      r.get charTy t = .ok (some c)) ∧
    ((∀ x ∈ r.node.val, White x) → r.get charTy false = .ok none ∧
      r.get charTy true = .throw (.badType r.getPathName "c".toList r.node.val)) := by
  constructor
  · intro ws rest c h1 h2 h3
    have hc : Opts.isSpace c = false := by
      cases hx : Opts.isSpace c with
      | false => rfl
      | true => exact absurd ((Opts.isSpace_iff c).1 hx) h3
    unfold Ref.get
    simp only [charTy]
    rw [h1, Opts.dropWhile_append_all _ _ _ fun x hx => (Opts.isSpace_iff x).2 (h2 x hx), List.dropWhile_cons, hc]
    rfl
  · intro h
    have := Opts.dropWhile_append_all Opts.isSpace r.node.val [] fun x hx => (Opts.isSpace_iff x).2 (h x hx)
    rw [List.append_nil] at this
    unfold Ref.get
    simp [charTy, this]

example : (Ref.root (leaf "144.2e6 Hz".toList)).get doubleTy = .ok (some (.fin false 144200000)) := by decide +kernel
example : (Ref.root (leaf "1e39".toList)).get floatTy = .ok none := by decide +kernel

/-- The words YAML uses for truth values are not read as `bool`. -/
example : ∀ w ∈ ["true", "false", "yes", "on", "T", "2"], (Ref.root (leaf w.toList)).get boolTy = .ok none := by
  decide +kernel

example : (Ref.root (leaf "1".toList)).get boolTy = .ok (some true) := by decide +kernel
example : (Ref.root (leaf "70000".toList)).get (sintTy "s".toList 16) = .ok none := by decide +kernel
example : (Ref.root (leaf "-1".toList)).get (uintTy "j".toList 32) = .ok (some 4294967295) := by decide +kernel
example : (Ref.root (leaf " x".toList)).get charTy = .ok (some 'x') := by decide +kernel

end SoDa.Prop
