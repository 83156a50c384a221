import Verif.Spec.YamlNumbers
import Verif.Props.PropertyTreeNum
import Verif.Props.ReadBack
import Mathlib.Algebra.Order.Floor.Semifield
/-!
Property C144: the numbers of a YAML document, read with `PropNode::get<T>`.
-/
namespace SoDa.Prop
open Spec

/-- A number of the document is read by `get<T>`, for every type that can hold it, as that number. -/
def C144_claim : Prop :=
  (∀ (name : Str) (bits : Nat) (r : Ref) (t : Bool) (n : Int), YamlInt r.node.val n →
    (-2 ^ (bits - 1) ≤ n → n < 2 ^ (bits - 1) → r.get (sintTy name bits) t = .ok (some n)) ∧
    (0 ≤ n → n < 2 ^ bits → r.get (uintTy name bits) t = .ok (some n))) ∧
  (∀ (r : Ref) (t : Bool) (ip fp : Str) (neg : Bool) (q x : ℚ), YamlFloat r.node.val ip fp neg q → binary64.rnd q = some x →
    r.get doubleTy t = .ok (some (.fin neg x)))

theorem yamlDecimal_begins {s : Str} {n : Int} (h : YamlDecimal s n) : BeginsWithInt s n := by
  obtain ⟨sg, ds, m, rfl, h1, h2, rfl⟩ := h
  exact ⟨[], sg, ds, [], m, by simp, by simp, h1, h2, by simp, rfl⟩

theorem yamlBased_begins {s : Str} {n : Int} (h : YamlBased s n) : BeginsWithInt s 0 ∧ BeginsWithReal s false 0 := by
  obtain ⟨c, ds, hs, hc⟩ : ∃ c ds, s = '0' :: c :: ds ∧ (c = 'o' ∨ c = 'x') := by
    obtain ⟨ds, m, _, ⟨h, _⟩ | ⟨h, _⟩⟩ := h
    · exact ⟨_, ds, h, .inl rfl⟩
    · exact ⟨_, ds, h, .inr rfl⟩
  subst hs
  constructor
  · refine ⟨[], [], ['0'], c :: ds, 0, by simp, by simp, by simp, by decide, ?_, by simp⟩
    rintro x hx
    cases hx
    rcases hc with rfl | rfl <;> decide
  · refine ⟨[], [], ['0'], [], [], c :: ds, [], 0, 0, by simp, by simp, by simp, by simp, by simp, by decide, .inr ⟨rfl, rfl, ?_⟩, ?_, by simp⟩
    · rcases hc with rfl | rfl <;> simp
    · rintro x hx
      cases hx
      rcases hc with rfl | rfl <;> decide

/-- Octal and hexadecimal numbers are read as 0, by every numeric type, without an error. -/
theorem C144_based (r : Ref) (n : Int) (h : YamlBased r.node.val n) (t : Bool) :
    (∀ name bits, r.get (sintTy name bits) t = .ok (some 0)) ∧ (∀ name bits, r.get (uintTy name bits) t = .ok (some 0)) ∧
    r.get doubleTy t = .ok (some (.fin false 0)) ∧ r.get floatTy t = .ok (some (.fin false 0)) ∧ r.get boolTy t = .ok (some false) := by
  obtain ⟨h1, h2⟩ := yamlBased_begins h
  refine ⟨fun name bits => (C86_signed name bits r t).1 0 h1 (by simp) (by positivity), fun name bits => ?_, ?_, ?_, (C86_bool r t).1 h1⟩
  · have := (C86_unsigned name bits r t).1 0 h1 (by simp) (by positivity)
    simpa using this
  · exact (C86_double r t).1 false 0 0 h2 (by decide +kernel)
  · exact (C86_float r t).1 false 0 0 h2 (by decide +kernel)

/-- An integer of the document in the range of the type is read as itself exactly if it is written in decimal or is 0. -/
theorem C144_int_exact (name : Str) (bits : Nat) (r : Ref) (t : Bool) (n : Int) (h : YamlInt r.node.val n) :
    (-2 ^ (bits - 1) ≤ n → n < 2 ^ (bits - 1) → (r.get (sintTy name bits) t = .ok (some n) ↔ YamlDecimal r.node.val n ∨ n = 0)) ∧
    (0 ≤ n → n < 2 ^ bits → (r.get (uintTy name bits) t = .ok (some n) ↔ YamlDecimal r.node.val n ∨ n = 0)) := by
  have hp : (0 : Int) < 2 ^ bits := by positivity
  constructor
  · intro h1 h2
    rcases h with h | h
    · exact ⟨fun _ => .inl h, fun _ => (C86_signed name bits r t).1 n (yamlDecimal_begins h) h1 h2⟩
    · have h0 := (C144_based r n h t).1 name bits
      constructor
      · intro hq
        rw [h0] at hq
        cases hq
        exact .inr rfl
      · rintro (hd | rfl)
        · exact (C86_signed name bits r t).1 n (yamlDecimal_begins hd) h1 h2
        · exact h0
  · intro h1 h2
    have key (hd : YamlDecimal r.node.val n) : r.get (uintTy name bits) t = .ok (some n) := by
      rw [(C86_unsigned name bits r t).1 n (yamlDecimal_begins hd) (by omega) h2, if_pos h1]
    rcases h with h | h
    · exact ⟨fun _ => .inl h, fun _ => key h⟩
    · have h0 := (C144_based r n h t).2.1 name bits
      constructor
      · intro hq
        rw [h0] at hq
        cases hq
        exact .inr rfl
      · rintro (hd | rfl)
        · exact key hd
        · exact h0

theorem yamlFloat_begins {s ip fp : Str} {neg : Bool} {q : ℚ} (h : YamlFloat s ip fp neg q) : BeginsWithReal s neg q := by
  obtain ⟨sg, pt, ex, n, x, rfl, h1, h2, h3, h4, h5, h6⟩ := h
  refine ⟨[], sg, ip, pt, ex, [], fp, n, x, by simp, by simp, h1, h2, h3, h4, ?_, by simp, h6⟩
  rcases h5 with h5 | ⟨h5, h5'⟩
  · exact .inl h5
  · exact .inr ⟨h5, h5', by simp, by simp, by simp⟩

theorem beginsWithReal_rnd {s : Str} {neg : Bool} {q : ℚ} (h : BeginsWithReal s neg q) (rnd : ℚ → Option ℚ) (hq : rnd q = none) :
    ¬ ∃ neg q x, BeginsWithReal s neg q ∧ rnd q = some x := by
  rintro ⟨neg', q', x, h', hx⟩
  have h1 := Opts.extractReal_begins some h
  have h2 := Opts.extractReal_begins some h'
  rw [h1] at h2
  cases h2
  rw [hq] at hx
  cases hx

/-- Numbers with a point or an exponent are read by `get<double>` as the nearest double; those beyond the largest double are refused. -/
theorem C144_float (r : Ref) (t : Bool) (ip fp : Str) (neg : Bool) (q : ℚ) (h : YamlFloat r.node.val ip fp neg q) :
    (∀ x, binary64.rnd q = some x → r.get doubleTy t = .ok (some (.fin neg x))) ∧
    (∀ x, F32.rnd32 q = some x → r.get floatTy t = .ok (some (.fin neg x))) ∧
    (binary64.rnd q = none → r.get doubleTy false = .ok none) ∧
    (F32.rnd32 q = none → r.get floatTy false = .ok none) := by
  have hb := yamlFloat_begins h
  exact ⟨fun x hx => (C86_double r t).1 neg q x hb hx, fun x hx => (C86_float r t).1 neg q x hb hx,
    fun hn => ((C86_double r t).2 (beginsWithReal_rnd hb _ hn)).1, fun hn => ((C86_float r t).2 (beginsWithReal_rnd hb _ hn)).1⟩

/-- Read as an integer, such a number gives the digits before the point or the exponent, whatever follows. -/
theorem C144_float_as_int (name : Str) (bits : Nat) (r : Ref) (t : Bool) (ip fp : Str) (neg : Bool) (q : ℚ) (h : YamlFloat r.node.val ip fp neg q)
    (m : Nat) (hm : numeral 10 ip = some m) (h1 : (m : Int) < 2 ^ (bits - 1)) :
    r.get (sintTy name bits) t = .ok (some (if neg then -(m : Int) else m)) := by
  obtain ⟨sg, pt, ex, n, x, hs, hsg, rfl, h3, h4, h5, h6⟩ := h
  refine (C86_signed name bits r t).1 _ ⟨[], sg, ip, pt ++ ex, m, by simp [hs], by simp, hsg, hm, ?_, by simp⟩ ?_ ?_
  · intro c hc
    rcases h3 with ⟨rfl, rfl⟩ | rfl
    · rcases h5 with ⟨c', sg', es, k, rfl, hc', _⟩ | ⟨rfl, _⟩
      · cases hc
        rcases hc' with rfl | rfl <;> decide
      · cases hc
    · cases hc
      decide
  · split <;> omega
  · split <;> omega

/-- Without an exponent this is the number without its fraction. -/
theorem C144_truncates (name : Str) (bits : Nat) (r : Ref) (t : Bool) (ip fp : Str) (neg : Bool) (q : ℚ) (h : YamlFloat r.node.val ip fp neg q)
    (hip : ip ≠ []) (he : 'e' ∉ r.node.val ∧ 'E' ∉ r.node.val) (h1 : (⌊q⌋₊ : Int) < 2 ^ (bits - 1)) :
    r.get (sintTy name bits) t = .ok (some (if neg then -(⌊q⌋₊ : Int) else ⌊q⌋₊)) := by
  obtain ⟨sg, pt, ex, n, x, hs, hsg, hneg, h3, h4, h5, h6⟩ := id h
  obtain ⟨-, hd, hn⟩ := (Opts.numeral_ten _ _).1 h4
  rcases h5 with ⟨c, sg', es, k, rfl, hc, _⟩ | ⟨rfl, rfl⟩
  · rcases hc with rfl | rfl <;> simp [hs] at he
  have hip' : numeral 10 ip = some (Opts.digitsVal ip) := (Opts.numeral_ten _ _).2 ⟨hip, fun c hc => hd c (by simp [hc]), rfl⟩
  have hq : ⌊q⌋₊ = Opts.digitsVal ip := by
    have hlt := digitsVal_lt fp fun c hc => hd c (by simp [hc])
    rw [digitsVal_append] at hn
    rw [h6, zpow_zero, mul_one, show ((n : ℚ) / 10 ^ fp.length) = (n : ℚ) / ((10 ^ fp.length : Nat) : ℚ) by push_cast; rfl, Nat.floor_div_eq_div, hn,
      Nat.mul_comm, Nat.mul_add_div (by positivity), Nat.div_eq_of_lt hlt, Nat.add_zero]
  rw [hq] at h1 ⊢
  exact C144_float_as_int name bits r t ip fp neg q h _ hip' h1

/-- A number that begins with the point is refused by the integer types. -/
theorem C144_point_first (name : Str) (bits : Nat) (r : Ref) (fp : Str) (neg : Bool) (q : ℚ) (h : YamlFloat r.node.val [] fp neg q) :
    r.get (sintTy name bits) false = .ok none ∧ r.get (uintTy name bits) false = .ok none := by
  obtain ⟨sg, pt, ex, n, x, hs, hsg, hneg, h3, h4, h5, h6⟩ := h
  have hpt : pt = '.' :: fp := by
    rcases h3 with ⟨_, rfl⟩ | h
    · simp [numeral] at h4
    · exact h
  have hi : Opts.scanInt r.node.val = .bad := by
    rw [hs, hpt]
    rcases hsg with rfl | rfl | rfl
    · exact scan_other (by decide) (by decide) (by decide)
    · exact scan_start (by decide)
    · exact scan_sign (by decide)
  constructor
  · simp [Ref.get, sintTy, Opts.extractSigned, hi]
  · simp [Ref.get, uintTy, Opts.extractUnsigned, hi]

/-- The words of YAML for infinities, for "not a number", for nothing and for truth values are refused by every numeric type. -/
theorem C144_words (r : Ref) (h : r.node.val ∈ yamlWords) :
    (∀ name bits, r.get (sintTy name bits) false = .ok none) ∧ (∀ name bits, r.get (uintTy name bits) false = .ok none) ∧
    r.get doubleTy false = .ok none ∧ r.get floatTy false = .ok none ∧ r.get boolTy false = .ok none := by
  have h1 : ∀ w ∈ yamlWords, (Opts.scanInt w = .bad ∨ Opts.scanInt w = .blank) ∧ doubleTy.read w = none ∧ floatTy.read w = none ∧ boolTy.read w = none := by
    decide +kernel
  obtain ⟨hi, hd, hf, hb⟩ := h1 _ h
  refine ⟨fun name bits => ?_, fun name bits => ?_, ?_, ?_, ?_⟩
  · have : (sintTy name bits).read r.node.val = none := by
      rcases hi with hi | hi <;> simp [sintTy, Opts.extractSigned, hi]
    simp [Ref.get, this]
  · have : (uintTy name bits).read r.node.val = none := by
      rcases hi with hi | hi <;> simp [uintTy, Opts.extractUnsigned, hi]
    simp [Ref.get, this]
  all_goals simp [Ref.get, hd, hf, hb]

theorem mem_items {l : List Contrib} {s : Str} (h : Contrib.item s ∈ l) : s ∈ items l := by
  induction l with
  | nil => cases h
  | cons c l ih =>
    cases c with
    | item u =>
      rcases List.mem_cons.1 h with h | h
      · cases h; simp [items]
      · simpa [items] using Or.inr (ih h)
    | entry k y =>
      rcases List.mem_cons.1 h with h | h
      · cases h
      · simpa [items] using ih h

/-- From the document to the value: an integer that is an element of a sequence is found in the list of the tree; read with the type it is itself
if it is written in decimal, and 0 if it is not. -/
theorem C144_document (y : Y) (hy : Readable y) (s : Str) (n : Int) (hs : Contrib.item s ∈ contents y) (name : Str) (bits : Nat)
    (h1 : -2 ^ (bits - 1) ≤ n) (h2 : n < 2 ^ (bits - 1)) :
    ∃ root m, readFile newTree (.doc y) = (root, .normal) ∧ m ∈ root.getList ∧ m.val = s ∧
      (YamlDecimal s n → ∀ t, ((Ref.root root).child m).get (sintTy name bits) t = .ok (some n)) ∧
      (YamlBased s n → ∀ t, ((Ref.root root).child m).get (sintTy name bits) t = .ok (some 0)) := by
  obtain ⟨root, hr, -, -, hsh, -⟩ := C62_tree y hy
  refine ⟨root, leaf s, hr, ?_, rfl, fun hd t => ?_, fun hb t => ?_⟩
  · rw [hsh.scalars]
    exact List.mem_map_of_mem (mem_items hs)
  · exact (C86_signed name bits _ t).1 n (yamlDecimal_begins hd) h1 h2
  · exact (C144_based ((Ref.root root).child (leaf s)) n hb t).1 name bits

/-- `freqs: [144, 0x90]` -/
example : Readable (.map [(.scalar "freqs".toList, .seq [.scalar "144".toList, .scalar "0x90".toList])]) ∧
    Contrib.item "0x90".toList ∈ contents (.map [(.scalar "freqs".toList, .seq [.scalar "144".toList, .scalar "0x90".toList])]) ∧
    YamlBased "0x90".toList 144 := by
  refine ⟨by simp [Readable, ReadableEntries, ReadableEntry, ReadableList], by simp [contents, contentsEntries, contentsEntry, contentsList],
    "90".toList, 144, rfl, .inr ⟨by decide, by decide +kernel⟩⟩

/-- The claim is false: `0x1F` is read as 0. -/
theorem C144_refuted : ¬ C144_claim := by
  intro h
  have := ((h.1 "i".toList 32 (Ref.root (leaf "0x1F".toList)) true 31
    (.inr ⟨"1F".toList, 31, rfl, .inr ⟨by decide, by decide +kernel⟩⟩)).1 (by norm_num) (by norm_num))
  revert this
  decide +kernel

example : YamlInt "0x1F".toList 31 := .inr ⟨"1F".toList, 31, rfl, .inr ⟨by decide, by decide +kernel⟩⟩
example : YamlInt "-12".toList (-12) := .inl ⟨['-'], "12".toList, 12, by decide, by decide, by decide +kernel, by decide⟩
example : (Ref.root (leaf "0x1F".toList)).get (sintTy "i".toList 32) = .ok (some 0) := by decide +kernel
example : (Ref.root (leaf "0o17".toList)).get (uintTy "j".toList 32) = .ok (some 0) := by decide +kernel
example : (Ref.root (leaf "-12".toList)).get (sintTy "i".toList 32) = .ok (some (-12)) := by decide +kernel
/-- 1500, read as an integer: 1. -/
example : YamlFloat "1.5e3".toList "1".toList "5".toList false 1500 :=
  ⟨[], ".5".toList, "e3".toList, 15, 3, by decide, by decide, by decide, by decide, by decide +kernel,
    .inl ⟨'e', [], "3".toList, 3, by decide, by decide, by decide, by decide +kernel, by decide⟩, by
    have h : "5".toList.length = 1 := by decide
    rw [h]; norm_num⟩
example : (Ref.root (leaf "1.5e3".toList)).get (sintTy "i".toList 32) = .ok (some 1) := by decide +kernel
example : (Ref.root (leaf "1.5e3".toList)).get doubleTy = .ok (some (.fin false 1500)) := by decide +kernel
example : (Ref.root (leaf "-7.9".toList)).get (sintTy "i".toList 32) = .ok (some (-7)) := by decide +kernel
example : (Ref.root (leaf ".5".toList)).get (sintTy "i".toList 32) = .ok none := by decide +kernel
example : ".inf".toList ∈ yamlWords := by decide +kernel

end SoDa.Prop
