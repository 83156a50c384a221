import Verif.Model.SmallInts
import Verif.Props.OptionsNum
import Verif.Props.PropertyTreeNum
import Verif.Spec.YamlNumbers
/-!
Property C147: numbers read into `int8_t` and `uint8_t`.
-/
namespace SoDa
open Spec

/-- A decimal integer in the range of both types is read as itself. -/
def C147_claim : Prop :=
  ∀ (name : Str) (r : Prop.Ref) (n : Int) (t : Bool), YamlDecimal r.node.val n → 0 ≤ n → n ≤ 127 →
    r.get (Prop.byteTy name) t = .ok (some n)

theorem byte_digit_bounds {c : Char} (h : c.isDigit = true) : 48 ≤ c.toNat ∧ c.toNat ≤ 57 := by
  have hc := (Opts.isDigit_iff c).1 h
  constructor
  · simpa [Char.le_def, UInt32.le_iff_toNat_le] using hc.1
  · simpa [Char.le_def, UInt32.le_iff_toNat_le] using hc.2

/-- Any text that is not blank is accepted, be it a number or not and be it in range or not. -/
theorem C147_accepts (name : Str) (r : Prop.Ref) (t : Bool) :
    (∃ v, r.get (Prop.byteTy name) t = .ok (some v)) ↔ ∃ c ∈ r.node.val, ¬ White c := by
  have hread : (∃ v, (Prop.byteTy name).read r.node.val = some v) ↔ ∃ c ∈ r.node.val, ¬ White c := by
    generalize r.node.val = s
    induction s with
    | nil => simp [Prop.byteTy]
    | cons x xs ih =>
      cases hx : Opts.isSpace x with
      | true =>
        have hw := (Opts.isSpace_iff x).1 hx
        simp only [Prop.byteTy, List.dropWhile_cons, hx, if_true] at ih ⊢
        rw [ih]
        simp [hw]
      | false =>
        have hw : ¬ White x := fun h => by
          rw [(Opts.isSpace_iff x).2 h] at hx
          exact absurd hx (by simp)
        simp only [Prop.byteTy, List.dropWhile_cons, hx]
        simp [hw]
  rw [← hread]
  unfold Prop.Ref.get
  cases (Prop.byteTy name).read r.node.val with
  | some v => simp
  | none => cases t <;> simp

/-- What is read is the code of the first character: 48 plus the first digit. -/
theorem C147_first (name : Str) (r : Prop.Ref) (c : Char) (rest : Str) (n : Nat) (t : Bool) (hv : r.node.val = c :: rest)
    (hn : numeral 10 (c :: rest) = some n) :
    ∃ d : Nat, digitValue 10 c = some d ∧ r.get (Prop.byteTy name) t = .ok (some (48 + (d : Int))) := by
  obtain ⟨_, hd, _⟩ := (Opts.numeral_ten _ _).1 hn
  have hc := hd c (by simp)
  have hb := byte_digit_bounds hc
  refine ⟨c.toNat - 48, (Opts.digitValue_ten c _).2 ⟨hc, rfl⟩, ?_⟩
  unfold Prop.Ref.get
  simp only [Prop.byteTy, hv, List.dropWhile_cons, Opts.digit_not_space hc]
  simp
  omega

/-- A sign is read as a character, too: 43 or 45, whatever number follows. -/
theorem C147_sign (name : Str) (r : Prop.Ref) (rest : Str) (t : Bool) :
    (r.node.val = '+' :: rest → r.get (Prop.byteTy name) t = .ok (some 43)) ∧
    (r.node.val = '-' :: rest → r.get (Prop.byteTy name) t = .ok (some 45)) := by
  constructor <;> intro h
  · have h1 : Opts.isSpace '+' = false := by decide
    unfold Prop.Ref.get
    simp [Prop.byteTy, h, h1]
  · have h1 : Opts.isSpace '-' = false := by decide
    unfold Prop.Ref.get
    simp [Prop.byteTy, h, h1]

/-- Exactly which digits are read as the number they denote: "53", and 48 written with zeros in front. -/
theorem C147_exact (name : Str) (r : Prop.Ref) (n : Nat) (t : Bool) (hn : numeral 10 r.node.val = some n) :
    r.get (Prop.byteTy name) t = .ok (some (n : Int)) ↔ r.node.val = "53".toList ∨ (r.node.val.head? = some '0' ∧ n = 48) := by
  obtain ⟨hne, hd, hval⟩ := (Opts.numeral_ten _ _).1 hn
  obtain ⟨c, rest, hv⟩ := List.exists_cons_of_ne_nil hne
  rw [hv] at hn hd hval
  have hc := hd c (by simp)
  have hb := byte_digit_bounds hc
  have hget : r.get (Prop.byteTy name) t = .ok (some (c.toNat : Int)) := by
    unfold Prop.Ref.get
    simp [Prop.byteTy, hv, Opts.digit_not_space hc]
  have hiff : r.get (Prop.byteTy name) t = .ok (some (n : Int)) ↔ c.toNat = n := by
    rw [hget]
    simp
  rw [hiff, hv]
  by_cases h0 : c = '0'
  · subst h0
    simp
    omega
  · have hz : ¬ (c :: rest).head? = some '0' := by simpa using h0
    simp only [hz, false_and, or_false]
    constructor
    · intro he
      have hge := Opts.numeral_ge hn h0
      rcases rest with _ | ⟨e, _ | ⟨e', rest⟩⟩
      · simp [Opts.digitsVal] at hval
        omega
      · have hbe := byte_digit_bounds (hd e (by simp))
        simp [Opts.digitsVal] at hval
        have hc' : c = '5' := Char.toNat_inj.1 (by show c.toNat = 53; omega)
        have he' : e = '3' := Char.toNat_inj.1 (by show e.toNat = 51; omega)
        rw [hc', he']
        rfl
      · simp only [List.length_cons, pow_succ] at hge
        have : 0 < 10 ^ rest.length := by positivity
        omega
    · intro h
      obtain ⟨rfl, rfl⟩ : c = '5' ∧ rest = ['3'] := by simpa using h
      rw [hval]
      rfl

/-- Exactly which integers in decimal, signs included, are read as themselves. -/
theorem C147_decimal_exact (name : Str) (r : Prop.Ref) (n : Int) (t : Bool) (h : YamlDecimal r.node.val n) :
    r.get (Prop.byteTy name) t = .ok (some n) ↔
      r.node.val = "53".toList ∨ (r.node.val.head? = some '0' ∧ n = 48) ∨ (r.node.val.head? = some '+' ∧ n = 43) := by
  obtain ⟨sg, ds, m, hv, hsg, hm, hn⟩ := h
  obtain ⟨hne, hd, _⟩ := (Opts.numeral_ten _ _).1 hm
  rcases hsg with rfl | rfl | rfl
  · rw [List.nil_append] at hv
    rw [if_neg (by simp)] at hn
    obtain ⟨c, rest, hcr⟩ := List.exists_cons_of_ne_nil hne
    have hp : ¬ r.node.val.head? = some '+' := by
      rw [hv, hcr]
      intro hx
      have : c = '+' := by simpa using hx
      exact absurd (hd c (by simp [hcr])) (by rw [this]; decide)
    rw [← hv] at hm
    rw [hn, C147_exact name r m t hm]
    simp only [hp, false_and, or_false]
    norm_cast
  · rw [(C147_sign name r ds t).1 hv, hv]
    simp [eq_comm]
  · rw [(C147_sign name r ds t).2 hv, hv]
    rw [if_pos rfl] at hn
    simp
    omega

/-- Of the numbers in their usual form, without superfluous zeros, only 53 is read as itself. -/
theorem C147_usual_form (name : Str) (r : Prop.Ref) (n : Nat) (t : Bool) (h : r.node.val = Nat.toDigits 10 n) :
    r.get (Prop.byteTy name) t = .ok (some (n : Int)) ↔ n = 53 := by
  have hn : numeral 10 r.node.val = some n := by
    rw [h]
    exact numeral_toDigits 10 (by omega) (by omega) n
  rw [C147_exact name r n t hn]
  constructor
  · rintro (h' | ⟨h', rfl⟩)
    · rw [h', show numeral 10 "53".toList = some 53 from rfl] at hn
      simpa using hn.symm
    · rw [h] at h'
      exact absurd h' (by decide)
  · rintro rfl
    left
    rw [h]
    rfl

/-- The same for options: `add<int8_t>` and `add<uint8_t>` store 48 plus the first digit, `addV` appends it. -/
theorem C147_option (o : Opts.Options Int) (ho : Opts.Ready o) (sw : Str) (i : Nat) (d : Opts.Decl Int)
    (hd : Denotes o.decls sw i d) (hh : ¬ HelpSwitch sw) (hk : d.kind ≠ .presence) (hr : d.read = Opts.byteTy.read ∨ d.read = Opts.ubyteTy.read)
    (ht : ∀ v, d.test v = true) (c : Char) (rest : Str) (n : Nat) (hn : numeral 10 (c :: rest) = some n) :
    ∃ (k : Nat) (o' : Opts.Options Int), digitValue 10 c = some k ∧ o.parse [sw, c :: rest] = (o', true) ∧
      (d.kind = .scalar → o'.sc d.target = 48 + (k : Int)) ∧ (d.kind = .vector → o'.vec d.target = o.vec d.target ++ [48 + (k : Int)]) := by
  obtain ⟨_, hdig, _⟩ := (Opts.numeral_ten _ _).1 hn
  have hc := hdig c (by simp)
  have hb := byte_digit_bounds hc
  have hne : c ≠ '-' := by
    rintro rfl
    exact absurd hc (by decide)
  have hacc : Accepts d (c :: rest) (48 + ((c.toNat - 48 : Nat) : Int)) := by
    refine ⟨?_, ht _⟩
    have hr' : d.read = Opts.byteTy.read := by rcases hr with h | h <;> exact h
    rw [hr']
    simp only [Opts.byteTy, Opts.charTy, List.dropWhile_cons, Opts.digit_not_space hc]
    simp
    omega
  obtain ⟨o', h1, h2, h3⟩ := Opts.parse_pair o ho hd hh hk (.inr (by simp [SwitchLike, hne])) hacc
  exact ⟨c.toNat - 48, o', (Opts.digitValue_ten c _).2 ⟨hc, rfl⟩, h1, h2, h3⟩

/-- An object with options `--level -l` of type `int8_t`, default 1, and `--port -p` of type `uint8_t`, default 0. -/
def byteSample : Opts.Options Int :=
  ((Opts.Options.new false (fun _ => 0) (fun _ => [])).addDef Opts.byteTy 0 "level".toList 'l' 1).addDef Opts.ubyteTy 1 "port".toList 'p' 0

theorem byteSample_ready : Opts.Ready byteSample := .addDef _ _ _ _ _ _ _ _ (.addDef _ _ _ _ _ _ _ _ (.new _ _ _))

example : ∃ (k : Nat) (o' : Opts.Options Int), digitValue 10 '9' = some k ∧ byteSample.parse ["-p".toList, "90".toList] = (o', true) ∧
    (byteSample.decls[1].kind = .scalar → o'.sc 1 = 48 + (k : Int)) ∧
    (byteSample.decls[1].kind = .vector → o'.vec 1 = byteSample.vec 1 ++ [48 + (k : Int)]) :=
  C147_option byteSample byteSample_ready _ 1 byteSample.decls[1]
    (.short (c := 'p') (r := []) (by decide) (Opts.isLast_of_findAb byteSample_ready.wf (by decide) rfl))
    (Opts.not_help (by decide) (by decide)) (by decide) (.inr rfl) (fun _ => rfl) '9' "0".toList 90 rfl
example : (byteSample.parse ["-l".toList, "5".toList]).1.sc 0 = 53 := by decide +kernel

/-- The claim is false: 5 is read as 53. -/
theorem C147_refuted : ¬ C147_claim ∧
    (Prop.Ref.root (leaf "5".toList)).get (Prop.byteTy "h".toList) = .ok (some 53) ∧
    (Prop.Ref.root (leaf "100".toList)).get (Prop.byteTy "h".toList) = .ok (some 49) ∧
    (Prop.Ref.root (leaf "53".toList)).get (Prop.byteTy "h".toList) = .ok (some 53) := by
  refine ⟨fun h => ?_, by decide +kernel, by decide +kernel, by decide +kernel⟩
  have h1 := h "h".toList (Prop.Ref.root (leaf "5".toList)) 5 false ⟨[], "5".toList, 5, rfl, .inl rfl, rfl, rfl⟩ (by decide) (by decide)
  exact absurd h1 (by decide +kernel)

example : (Prop.Ref.root (leaf "300".toList)).get (Prop.byteTy "h".toList) = .ok (some 51) := by decide +kernel
example : (Prop.Ref.root (leaf " ".toList)).get (Prop.byteTy "h".toList) = .ok none := by decide +kernel
example : (Prop.Ref.root (leaf "+43".toList)).get (Prop.byteTy "a".toList) = .ok (some 43) :=
  (C147_decimal_exact _ _ 43 _ ⟨"+".toList, "43".toList, 43, rfl, .inr (.inl rfl), rfl, rfl⟩).2 (.inr (.inr ⟨rfl, rfl⟩))
example : (Prop.Ref.root (leaf "048".toList)).get (Prop.byteTy "a".toList) = .ok (some 48) :=
  (C147_decimal_exact _ _ 48 _ ⟨[], "048".toList, 48, rfl, .inl rfl, rfl, rfl⟩).2 (.inr (.inl ⟨rfl, rfl⟩))
example : ∃ d : Nat, digitValue 10 '7' = some d ∧
    (Prop.Ref.root (leaf "73".toList)).get (Prop.byteTy "a".toList) true = .ok (some (48 + (d : Int))) :=
  C147_first _ _ '7' "3".toList 73 true rfl rfl

end SoDa
