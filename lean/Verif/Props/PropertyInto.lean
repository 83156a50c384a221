import Verif.Model.PropertyInto
import Verif.Props.OptionsRejected
import Verif.Props.PropertyTreeNum
import Verif.Spec.YamlNumbers
/-!
Property C146: what a failing `get<T>(v)` does to the variable.
-/
namespace SoDa.Prop
open Spec

/-- `get<T>(v)` that returns false or throws leaves `v` as it was (so that `v` may hold a default). -/
def C146_claim : Prop :=
  (∀ (name : Str) (bits : Nat) (r : Ref) (old : Int) (t : Bool),
    ((r.getInto (sintInto name bits) old t).1 ≠ .ok true → (r.getInto (sintInto name bits) old t).2 = old) ∧
    ((r.getInto (uintInto name bits) old t).1 ≠ .ok true → (r.getInto (uintInto name bits) old t).2 = old)) ∧
  (∀ (r : Ref) (old : Dbl) (t : Bool), (r.getInto doubleInto old t).1 ≠ .ok true → (r.getInto doubleInto old t).2 = old) ∧
  (∀ (r : Ref) (old : Bool) (t : Bool), (r.getInto boolInto old t).1 ≠ .ok true → (r.getInto boolInto old t).2 = old)

/-- The outcome of `get<T>(v)` does not depend on what `v` holds, and is that of the other properties of `get`: success with a value that is
then in `v`, `false`, or an exception. -/
theorem C146_outcome {V : Type} (T : Into V) (r : Ref) (old : V) (t : Bool) :
    (∀ v, r.get T.toTy t = .ok (some v) ↔ (r.getInto T old t).1 = .ok true ∧ (r.getInto T old t).2 = v) ∧
    (r.get T.toTy t = .ok none ↔ (r.getInto T old t).1 = .ok false) ∧
    ∀ e, r.get T.toTy t = .throw e ↔ (r.getInto T old t).1 = .throw e := by
  unfold Ref.get Ref.getInto
  cases T.read r.node.val with
  | some v => simp
  | none => cases t <;> simp

theorem getInto_failed {V : Type} (T : Into V) (r : Ref) (old : V) (t : Bool) (h : T.read r.node.val = none) :
    (r.getInto T old t).1 ≠ .ok true ∧ (r.getInto T old t).2 = T.fail r.node.val old := by
  unfold Ref.getInto
  rw [h]
  cases t <;> simp

/-- Signed integers: a number out of range leaves the nearest number of the type, a value that is no number leaves 0; only a blank value
leaves the variable alone. -/
theorem C146_signed (name : Str) (bits : Nat) (r : Ref) (old : Int) (t : Bool) :
    (∀ n : Int, BeginsWithInt r.node.val n → 2 ^ (bits - 1) ≤ n → (r.getInto (sintInto name bits) old t).1 ≠ .ok true ∧
      (r.getInto (sintInto name bits) old t).2 = 2 ^ (bits - 1) - 1) ∧
    (∀ n : Int, BeginsWithInt r.node.val n → n < -2 ^ (bits - 1) → (r.getInto (sintInto name bits) old t).1 ≠ .ok true ∧
      (r.getInto (sintInto name bits) old t).2 = -2 ^ (bits - 1)) ∧
    ((∃ c ∈ r.node.val, ¬ White c) → (¬ ∃ n, BeginsWithInt r.node.val n) → (r.getInto (sintInto name bits) old t).1 ≠ .ok true ∧
      (r.getInto (sintInto name bits) old t).2 = 0) ∧
    ((∀ c ∈ r.node.val, White c) → (r.getInto (sintInto name bits) old t).1 ≠ .ok true ∧ (r.getInto (sintInto name bits) old t).2 = old) := by
  have hp : (0 : Int) < 2 ^ (bits - 1) := by positivity
  have key : ∀ x, Opts.extractSigned bits r.node.val = x → (∀ v, x ≠ .good v) → (r.getInto (sintInto name bits) old t).1 ≠ .ok true ∧
      (r.getInto (sintInto name bits) old t).2 = match x with
        | .good v | .over v => v
        | .bad => 0
        | .blank => old := by
    intro x hx hne
    obtain ⟨h1, h2⟩ := getInto_failed (sintInto name bits) r old t (by simp only [sintInto, sintTy, hx])
    refine ⟨h1, ?_⟩
    rw [h2]
    simp only [sintInto, hx]
    rfl
  refine ⟨fun n hn h => key (.over _) ?_ (by simp), fun n hn h => key (.over _) ?_ (by simp), fun h1 h2 => key .bad ?_ (by simp),
    fun h => key .blank ?_ (by simp)⟩
  · obtain ⟨neg, m, e1, e2⟩ := (Opts.scanInt_iff _ _).2 hn
    simp only [Opts.extractSigned, e1, ← e2]
    rw [if_pos (by omega)]
  · obtain ⟨neg, m, e1, e2⟩ := (Opts.scanInt_iff _ _).2 hn
    simp only [Opts.extractSigned, e1, ← e2]
    rw [if_neg (by omega), if_pos h]
  · simp [Opts.extractSigned, (Opts.scanInt_bad_iff _).2 ⟨h1, h2⟩]
  · simp [Opts.extractSigned, (Opts.scanInt_blank_iff _).2 h]

/-- Unsigned integers. -/
theorem C146_unsigned (name : Str) (bits : Nat) (r : Ref) (old : Int) (t : Bool) :
    (∀ n : Int, BeginsWithInt r.node.val n → 2 ^ bits ≤ |n| → (r.getInto (uintInto name bits) old t).1 ≠ .ok true ∧
      (r.getInto (uintInto name bits) old t).2 = 2 ^ bits - 1) ∧
    ((∃ c ∈ r.node.val, ¬ White c) → (¬ ∃ n, BeginsWithInt r.node.val n) → (r.getInto (uintInto name bits) old t).1 ≠ .ok true ∧
      (r.getInto (uintInto name bits) old t).2 = 0) ∧
    ((∀ c ∈ r.node.val, White c) → (r.getInto (uintInto name bits) old t).1 ≠ .ok true ∧ (r.getInto (uintInto name bits) old t).2 = old) := by
  have key : ∀ x, Opts.extractUnsigned bits r.node.val = x → (∀ v, x ≠ .good v) → (r.getInto (uintInto name bits) old t).1 ≠ .ok true ∧
      (r.getInto (uintInto name bits) old t).2 = match x with
        | .good v | .over v => v
        | .bad => 0
        | .blank => old := by
    intro x hx hne
    obtain ⟨h1, h2⟩ := getInto_failed (uintInto name bits) r old t (by simp only [uintInto, uintTy, hx])
    refine ⟨h1, ?_⟩
    rw [h2]
    simp only [uintInto, hx]
    rfl
  refine ⟨fun n hn h => key (.over _) ?_ (by simp), fun h1 h2 => key .bad ?_ (by simp), fun h => key .blank ?_ (by simp)⟩
  · obtain ⟨neg, m, e1, e2⟩ := (Opts.scanInt_iff _ _).2 hn
    have hm : |n| = m := by rw [e2]; cases neg <;> simp
    rw [hm] at h
    simp only [Opts.extractUnsigned, e1]
    rw [if_pos (by exact_mod_cast h)]
  · simp [Opts.extractUnsigned, (Opts.scanInt_bad_iff _).2 ⟨h1, h2⟩]
  · simp [Opts.extractUnsigned, (Opts.scanInt_blank_iff _).2 h]

/-- `double`: the largest number, 0, or unchanged. -/
theorem C146_double (r : Ref) (old : Dbl) (t : Bool) :
    (∀ neg q, BeginsWithReal r.node.val neg q → binary64.rnd q = none → (r.getInto doubleInto old t).1 ≠ .ok true ∧
      (r.getInto doubleInto old t).2 = .fin neg (2 ^ 1024 - 2 ^ 971)) ∧
    ((∃ c ∈ r.node.val, ¬ White c) → (¬ ∃ neg q, BeginsWithReal r.node.val neg q) → (r.getInto doubleInto old t).1 ≠ .ok true ∧
      (r.getInto doubleInto old t).2 = .fin false 0) ∧
    ((∀ c ∈ r.node.val, White c) → (r.getInto doubleInto old t).1 ≠ .ok true ∧ (r.getInto doubleInto old t).2 = old) := by
  have hb : dblMag 2046 (2 ^ 52 - 1) = 2 ^ 1024 - 2 ^ 971 := by decide +kernel
  have key : ∀ x, Opts.extractReal binary64.rnd r.node.val = x → (∀ v, x ≠ .good v) → (r.getInto doubleInto old t).1 ≠ .ok true ∧
      (r.getInto doubleInto old t).2 = match x with
        | .good x => x
        | .over neg => .fin neg (2 ^ 1024 - 2 ^ 971)
        | .bad => .fin false 0
        | .blank => old := by
    intro x hx hne
    obtain ⟨h1, h2⟩ := getInto_failed doubleInto r old t (by simp only [doubleInto, realInto, realTy, hx])
    refine ⟨h1, ?_⟩
    rw [h2]
    simp only [doubleInto, realInto, hx, hb]
    rfl
  refine ⟨fun neg q h1 h2 => key (.over neg) ?_ (by simp), fun h1 h2 => key .bad (Opts.extractReal_bad _ h1 h2) (by simp),
    fun h => key .blank ((Opts.extractReal_blank_iff _ _).2 h) (by simp)⟩
  have he := Opts.extractReal_begins binary64.rnd h1
  rwa [h2] at he

/-- `float`: the largest number, 0, or unchanged. -/
theorem C146_float (r : Ref) (old : Dbl) (t : Bool) :
    (∀ neg q, BeginsWithReal r.node.val neg q → F32.rnd32 q = none → (r.getInto floatInto old t).1 ≠ .ok true ∧
      (r.getInto floatInto old t).2 = .fin neg (2 ^ 128 - 2 ^ 104)) ∧
    ((∃ c ∈ r.node.val, ¬ White c) → (¬ ∃ neg q, BeginsWithReal r.node.val neg q) → (r.getInto floatInto old t).1 ≠ .ok true ∧
      (r.getInto floatInto old t).2 = .fin false 0) ∧
    ((∀ c ∈ r.node.val, White c) → (r.getInto floatInto old t).1 ≠ .ok true ∧ (r.getInto floatInto old t).2 = old) := by
  have hb : F32.fltMag 254 (2 ^ 23 - 1) = 2 ^ 128 - 2 ^ 104 := by decide +kernel
  have key : ∀ x, Opts.extractReal F32.rnd32 r.node.val = x → (∀ v, x ≠ .good v) → (r.getInto floatInto old t).1 ≠ .ok true ∧
      (r.getInto floatInto old t).2 = match x with
        | .good x => x
        | .over neg => .fin neg (2 ^ 128 - 2 ^ 104)
        | .bad => .fin false 0
        | .blank => old := by
    intro x hx hne
    obtain ⟨h1, h2⟩ := getInto_failed floatInto r old t (by simp only [floatInto, realInto, realTy, hx])
    refine ⟨h1, ?_⟩
    rw [h2]
    simp only [floatInto, realInto, hx, hb]
    rfl
  refine ⟨fun neg q h1 h2 => key (.over neg) ?_ (by simp), fun h1 h2 => key .bad (Opts.extractReal_bad _ h1 h2) (by simp),
    fun h => key .blank ((Opts.extractReal_blank_iff _ _).2 h) (by simp)⟩
  have he := Opts.extractReal_begins F32.rnd32 h1
  rwa [h2] at he

/-- `bool`: any other number than 0 and 1 leaves true, a word (also `true`) leaves false. -/
theorem C146_bool (r : Ref) (old : Bool) (t : Bool) :
    (∀ n : Int, BeginsWithInt r.node.val n → n ≠ 0 → n ≠ 1 → (r.getInto boolInto old t).1 ≠ .ok true ∧ (r.getInto boolInto old t).2 = true) ∧
    ((∃ c ∈ r.node.val, ¬ White c) → (¬ ∃ n, BeginsWithInt r.node.val n) → (r.getInto boolInto old t).1 ≠ .ok true ∧
      (r.getInto boolInto old t).2 = false) ∧
    ((∀ c ∈ r.node.val, White c) → (r.getInto boolInto old t).1 ≠ .ok true ∧ (r.getInto boolInto old t).2 = old) := by
  have key : ∀ x, Opts.extractSigned 64 r.node.val = x → x ≠ .good 0 → x ≠ .good 1 → (r.getInto boolInto old t).1 ≠ .ok true ∧
      (r.getInto boolInto old t).2 = match x with
        | .good v | .over v => decide (v ≠ 0)
        | .bad => false
        | .blank => old := by
    intro x hx h0 h1
    obtain ⟨h1, h2⟩ := getInto_failed boolInto r old t (by simp only [boolInto, boolTy, hx])
    refine ⟨h1, ?_⟩
    rw [h2]
    simp only [boolInto, hx]
    rfl
  refine ⟨fun n hn h0 h1 => ?_, fun h1 h2 => key .bad ?_ (by simp) (by simp), fun h => key .blank ?_ (by simp) (by simp)⟩
  · obtain ⟨neg, m, e1, e2⟩ := (Opts.scanInt_iff _ _).2 hn
    have he : Opts.extractSigned 64 r.node.val = if n > 2 ^ 63 - 1 then .over (2 ^ 63 - 1) else if n < -2 ^ 63 then .over (-2 ^ 63) else .good n := by
      simp only [Opts.extractSigned, e1, ← e2]
    by_cases ha : n > 2 ^ 63 - 1
    · rw [if_pos ha] at he
      simpa using key _ he (by simp) (by simp)
    · rw [if_neg ha] at he
      by_cases hb : n < -2 ^ 63
      · rw [if_pos hb] at he
        simpa using key _ he (by simp) (by simp)
      · rw [if_neg hb] at he
        simpa [h0] using key _ he (by simpa using h0) (by simpa using h1)
  · simp [Opts.extractSigned, (Opts.scanInt_bad_iff _).2 ⟨h1, h2⟩]
  · simp [Opts.extractSigned, (Opts.scanInt_blank_iff _).2 h]

/-- `std::string` and `char`: the variable stays as it was. -/
theorem C146_text_partial (r : Ref) (t : Bool) :
    (∀ old, (r.getInto strInto old t).1 ≠ .ok true → (r.getInto strInto old t).2 = old) ∧
    (∀ old, (r.getInto charInto old t).1 ≠ .ok true → (r.getInto charInto old t).2 = old) := by
  constructor <;> intro old h
  · unfold Ref.getInto at h ⊢
    split at h <;> simp_all [strInto]
  · unfold Ref.getInto at h ⊢
    split at h <;> simp_all [charInto]

/-- Exactly when a default survives a failing `get<int>`: the value is blank, or the default is what is assigned. -/
theorem C146_default_exact (name : Str) (bits : Nat) (r : Ref) (old : Int) (t : Bool) (h : (r.getInto (sintInto name bits) old t).1 ≠ .ok true) :
    (r.getInto (sintInto name bits) old t).2 = old ↔ (∀ c ∈ r.node.val, White c) ∨ (old = 0 ∧ ¬ ∃ n, BeginsWithInt r.node.val n) ∨
      ∃ n, BeginsWithInt r.node.val n ∧ ((2 ^ (bits - 1) ≤ n ∧ old = 2 ^ (bits - 1) - 1) ∨ (n < -2 ^ (bits - 1) ∧ old = -2 ^ (bits - 1))) := by
  obtain ⟨k1, k2, k3, k4⟩ := C146_signed name bits r old t
  have hp : (0 : Int) < 2 ^ (bits - 1) := by positivity
  by_cases hw : ∀ c ∈ r.node.val, White c
  · exact ⟨fun _ => .inl hw, fun _ => (k4 hw).2⟩
  · have hw' : ∃ c ∈ r.node.val, ¬ White c := by simpa using hw
    by_cases hn : ∃ n, BeginsWithInt r.node.val n
    · obtain ⟨n, hn⟩ := hn
      have hout : 2 ^ (bits - 1) ≤ n ∨ n < -2 ^ (bits - 1) := by
        by_contra hc
        push Not at hc
        have := (C86_signed name bits r t).1 n hn hc.2 hc.1
        exact h (((C146_outcome (sintInto name bits) r old t).1 n).1 this).1
      constructor
      · intro he
        refine .inr (.inr ⟨n, hn, ?_⟩)
        rcases hout with ho | ho
        · exact .inl ⟨ho, by rw [← he, (k1 n hn ho).2]⟩
        · exact .inr ⟨ho, by rw [← he, (k2 n hn ho).2]⟩
      · rintro (h' | ⟨_, h'⟩ | ⟨m, hm, h' | h'⟩)
        · exact absurd h' hw
        · exact absurd ⟨n, hn⟩ h'
        · rw [(k1 m hm h'.1).2, h'.2]
        · rw [(k2 m hm h'.1).2, h'.2]
    · rw [(k3 hw' hn).2]
      constructor
      · intro h0
        exact .inr (.inl ⟨h0.symm, hn⟩)
      · rintro (h' | ⟨h', _⟩ | ⟨m, hm, _⟩)
        · exact absurd h' hw
        · exact h'.symm
        · exact absurd ⟨m, hm⟩ hn

/-- The same for unsigned types. -/
theorem C146_default_unsigned (name : Str) (bits : Nat) (r : Ref) (old : Int) (t : Bool)
    (h : (r.getInto (uintInto name bits) old t).1 ≠ .ok true) :
    (r.getInto (uintInto name bits) old t).2 = old ↔ (∀ c ∈ r.node.val, White c) ∨ (old = 0 ∧ ¬ ∃ n, BeginsWithInt r.node.val n) ∨
      (old = 2 ^ bits - 1 ∧ ∃ n, BeginsWithInt r.node.val n) := by
  obtain ⟨k1, k2, k3⟩ := C146_unsigned name bits r old t
  by_cases hw : ∀ c ∈ r.node.val, White c
  · exact ⟨fun _ => .inl hw, fun _ => (k3 hw).2⟩
  · have hw' : ∃ c ∈ r.node.val, ¬ White c := by simpa using hw
    by_cases hn : ∃ n, BeginsWithInt r.node.val n
    · have hex := hn
      obtain ⟨n, hn'⟩ := hn
      have hout : 2 ^ bits ≤ |n| := by
        by_contra hc
        have hc := abs_lt.1 (not_le.1 hc)
        have := (C86_unsigned name bits r t).1 n hn' hc.1 hc.2
        exact h (((C146_outcome (uintInto name bits) r old t).1 _).1 this).1
      rw [(k1 n hn' hout).2]
      simp only [hw, hex, not_true_eq_false, and_false, false_or, and_true]
      exact eq_comm
    · rw [(k2 hw' hn).2]
      simp only [hw, hn, not_false_eq_true, and_true, and_false, false_or, or_false]
      exact eq_comm

/-- The same for `bool`. -/
theorem C146_default_bool (r : Ref) (old : Bool) (t : Bool) (h : (r.getInto boolInto old t).1 ≠ .ok true) :
    (r.getInto boolInto old t).2 = old ↔ (∀ c ∈ r.node.val, White c) ∨ (old = false ∧ ¬ ∃ n, BeginsWithInt r.node.val n) ∨
      (old = true ∧ ∃ n, BeginsWithInt r.node.val n) := by
  obtain ⟨k1, k2, k3⟩ := C146_bool r old t
  by_cases hw : ∀ c ∈ r.node.val, White c
  · exact ⟨fun _ => .inl hw, fun _ => (k3 hw).2⟩
  · have hw' : ∃ c ∈ r.node.val, ¬ White c := by simpa using hw
    by_cases hn : ∃ n, BeginsWithInt r.node.val n
    · have hex := hn
      obtain ⟨n, hn'⟩ := hn
      have h0 : n ≠ 0 := by
        rintro rfl
        exact h (((C146_outcome boolInto r old t).1 _).1 ((C86_bool r t).1 hn')).1
      have h1 : n ≠ 1 := by
        rintro rfl
        exact h (((C146_outcome boolInto r old t).1 _).1 ((C86_bool r t).2.1 hn')).1
      rw [(k1 n hn' h0 h1).2]
      simp only [hw, hex, not_true_eq_false, and_false, false_or, and_true]
      exact eq_comm
    · rw [(k2 hw' hn).2]
      simp only [hw, hn, not_false_eq_true, and_true, and_false, false_or, or_false]
      exact eq_comm

/-- The same for `double`: the default survives if the value is blank, or if it is what is assigned. -/
theorem C146_default_double (r : Ref) (old : Dbl) (t : Bool) (h : (r.getInto doubleInto old t).1 ≠ .ok true) :
    (r.getInto doubleInto old t).2 = old ↔ (∀ c ∈ r.node.val, White c) ∨
      (old = .fin false 0 ∧ ¬ ∃ neg q, BeginsWithReal r.node.val neg q) ∨
      ∃ neg q, BeginsWithReal r.node.val neg q ∧ old = .fin neg (2 ^ 1024 - 2 ^ 971) := by
  obtain ⟨k1, k2, k3⟩ := C146_double r old t
  by_cases hw : ∀ c ∈ r.node.val, White c
  · exact ⟨fun _ => .inl hw, fun _ => (k3 hw).2⟩
  · have hw' : ∃ c ∈ r.node.val, ¬ White c := by simpa using hw
    have hout : ∀ neg q, BeginsWithReal r.node.val neg q → binary64.rnd q = none := by
      intro neg q hq
      cases hx : binary64.rnd q with
      | none => rfl
      | some x => exact absurd (((C146_outcome doubleInto r old t).1 _).1 ((C86_double r t).1 neg q x hq hx)).1 h
    by_cases hn : ∃ neg q, BeginsWithReal r.node.val neg q
    · constructor
      · intro he
        obtain ⟨neg, q, hq⟩ := hn
        exact .inr (.inr ⟨neg, q, hq, by rw [← he, (k1 neg q hq (hout neg q hq)).2]⟩)
      · rintro (h' | ⟨_, h'⟩ | ⟨neg, q, hq, h'⟩)
        · exact absurd h' hw
        · exact absurd hn h'
        · rw [(k1 neg q hq (hout neg q hq)).2, h']
    · rw [(k2 hw' hn).2]
      constructor
      · intro h0
        exact .inr (.inl ⟨h0.symm, hn⟩)
      · rintro (h' | ⟨h', _⟩ | ⟨neg, q, hq, _⟩)
        · exact absurd h' hw
        · exact h'.symm
        · exact absurd ⟨neg, q, hq⟩ hn

/-- With a path: `getProp` finds the node it starts from (C52), the root, whose value is "root".  So `get<int>(v, path)` never succeeds: it
throws `PropertyNotFound` and leaves `v` alone, or fails and sets `v` to 0. -/
theorem C146_path (name : Str) (bits : Nat) (root : Node) (hr : root.val = "root".toList) (path : Str) (old : Int) (t : Bool)
    (hb : ¬ ∀ c ∈ path, c = ' ') :
    (getInto (sintInto name bits) root path old t).1 ≠ .ok true ∧
    ((getInto (sintInto name bits) root path old t).1 = .throw (.notFound path) ∧ (getInto (sintInto name bits) root path old t).2 = old ∨
      ((getInto (sintInto name bits) root path old t).1 = if t then .throw (.badType [] name root.val) else .ok false) ∧
      (getInto (sintInto name bits) root path old t).2 = 0) := by
  obtain ⟨c, hc, hne⟩ : ∃ c ∈ path, c ≠ ' ' := by simpa using hb
  have hsp := C03_split_fields path ":".toList ⟨c, hc, hne⟩
  have hread : (sintInto name bits).read (Ref.root root).node.val = none := by
    simp [sintInto, sintTy, Ref.root, hr, show Opts.extractSigned bits ['r', 'o', 'o', 't'] = .bad from rfl]
  have hfail : (sintInto name bits).fail (Ref.root root).node.val old = 0 := by
    simp [sintInto, Ref.root, hr, show Opts.extractSigned bits ['r', 'o', 'o', 't'] = .bad from rfl]
  generalize dropFinalEmpty _ = ks at hsp
  by_cases hk : ∀ k ∈ ks, k ∈ (Ref.root root).node.getKeys
  · have hg : getProp (Ref.root root) path t = .ok (some (Ref.root root)) := by
      unfold getProp
      rw [hsp]
      exact getPropRecursive_all _ _ _ _ hk
    simp only [getInto, hg, Ref.getInto, hread, hfail]
    cases t <;> simp [Ref.getPathName, Ref.root, sintInto, sintTy]
  · have hg : getProp (Ref.root root) path t = if t then .throw (.notFound path) else .ok none := by
      unfold getProp
      rw [hsp]
      exact getPropRecursive_missing _ _ _ _ (by simpa using hk)
    cases t <;> simp [getInto, hg]

theorem getInto_cases {V : Type} (T : Into V) (root : Node) (path : Str) (old : V) (t : Bool) (hb : ¬ ∀ c ∈ path, c = ' ') :
    getInto T root path old t = (.throw (.notFound path), old) ∨ getInto T root path old t = (Ref.root root).getInto T old t := by
  obtain ⟨c, hc, hne⟩ : ∃ c ∈ path, c ≠ ' ' := by simpa using hb
  have hsp := C03_split_fields path ":".toList ⟨c, hc, hne⟩
  generalize dropFinalEmpty _ = ks at hsp
  by_cases hk : ∀ k ∈ ks, k ∈ (Ref.root root).node.getKeys
  · have hg : getProp (Ref.root root) path t = .ok (some (Ref.root root)) := by
      unfold getProp
      rw [hsp]
      exact getPropRecursive_all _ _ _ _ hk
    right
    simp only [getInto, hg]
  · have hg : getProp (Ref.root root) path t = if t then .throw (.notFound path) else .ok none := by
      unfold getProp
      rw [hsp]
      exact getPropRecursive_missing _ _ _ _ (by simpa using hk)
    left
    cases t <;> simp [getInto, hg]

/-- With a path, the other types: numbers and `bool` never succeed either; `std::string` always gets "root", `char` always 'r', whatever the
document says. -/
theorem C146_path_types (root : Node) (hr : root.val = "root".toList) (path : Str) (t : Bool) (hb : ¬ ∀ c ∈ path, c = ' ') :
    (∀ name bits old, (getInto (uintInto name bits) root path old t).1 ≠ .ok true) ∧
    (∀ old, (getInto doubleInto root path old t).1 ≠ .ok true) ∧ (∀ old, (getInto floatInto root path old t).1 ≠ .ok true) ∧
    (∀ old, (getInto boolInto root path old t).1 ≠ .ok true) ∧
    (∀ old, getInto strInto root path old t = (.throw (.notFound path), old) ∨ getInto strInto root path old t = (.ok true, "root".toList)) ∧
    ∀ old, getInto charInto root path old t = (.throw (.notFound path), old) ∨ getInto charInto root path old t = (.ok true, 'r') := by
  have no : ∀ {V : Type} (T : Into V) (old : V), T.read "root".toList = none → (getInto T root path old t).1 ≠ .ok true := by
    intro V T old h
    rcases getInto_cases T root path old t hb with e | e <;> rw [e]
    · simp
    · exact (getInto_failed T _ old t (by rw [← hr] at h; exact h)).1
  have yes : ∀ {V : Type} (T : Into V) (old v : V), T.read "root".toList = some v →
      getInto T root path old t = (.throw (.notFound path), old) ∨ getInto T root path old t = (.ok true, v) := by
    intro V T old v h
    rcases getInto_cases T root path old t hb with e | e <;> rw [e]
    · exact .inl rfl
    · right
      have h' : T.read (Ref.root root).node.val = some v := by rw [← hr] at h; exact h
      simp only [Ref.getInto, h']
  refine ⟨fun name bits old => no _ _ rfl, fun old => no _ _ (by decide +kernel), fun old => no _ _ (by decide +kernel),
    fun old => no _ _ (by decide +kernel), fun old => yes _ _ _ (by decide +kernel), fun old => yes _ _ _ (by decide +kernel)⟩

/-- The words of YAML (infinities, "not a number", nothing, truth values): a variable of a number type becomes 0, a `bool` false, also for `true`;
only the empty value leaves it alone. -/
theorem C146_words (r : Ref) (w : Str) (hw : w ∈ yamlWords) (hv : r.node.val = w) :
    (∀ name bits old, r.getInto (sintInto name bits) old = (.ok false, if w = [] then old else 0)) ∧
    (∀ name bits old, r.getInto (uintInto name bits) old = (.ok false, if w = [] then old else 0)) ∧
    (∀ old, r.getInto doubleInto old = (.ok false, if w = [] then old else .fin false 0)) ∧
    (∀ old, r.getInto floatInto old = (.ok false, if w = [] then old else .fin false 0)) ∧
    ∀ old, r.getInto boolInto old = (.ok false, if w = [] then old else false) := by
  have hall : ∀ w ∈ yamlWords, (w = [] ∧ Opts.scanInt w = .blank) ∨ (w ≠ [] ∧ Opts.scanInt w = .bad) := by decide +kernel
  have hreal : ∀ w ∈ yamlWords, w ≠ [] → (w.dropWhile Opts.isSpace).isEmpty = false ∧
      Opts.floatMag (Opts.floatChars false false (if (w.dropWhile Opts.isSpace).head? == some '-' || (w.dropWhile Opts.isSpace).head? == some '+'
        then (w.dropWhile Opts.isSpace).drop 1 else w.dropWhile Opts.isSpace)) = none := by decide +kernel
  have key : ∀ {V : Type} (T : Into V) (old z : V), T.read w = none → T.fail w old = z → r.getInto T old = (.ok false, z) := by
    intro V T old z h1 h2
    rw [← hv] at h1 h2
    simp [Ref.getInto, h1, h2]
  rcases hall w hw with ⟨rfl, hs⟩ | ⟨hne, hs⟩
  · simp only [if_true]
    exact ⟨fun _ _ _ => key _ _ _ rfl rfl, fun _ _ _ => key _ _ _ rfl rfl, fun _ => key _ _ _ rfl rfl, fun _ => key _ _ _ rfl rfl,
      fun _ => key _ _ _ rfl rfl⟩
  · obtain ⟨he, hf⟩ := hreal w hw hne
    have hr : ∀ rnd, Opts.extractReal rnd w = .bad := by
      intro rnd
      simp only [Opts.extractReal, he, hf]
      rfl
    simp only [if_neg hne]
    refine ⟨fun _ _ _ => key _ _ _ ?_ ?_, fun _ _ _ => key _ _ _ ?_ ?_, fun _ => key _ _ _ ?_ ?_, fun _ => key _ _ _ ?_ ?_,
      fun _ => key _ _ _ ?_ ?_⟩
    all_goals simp [sintInto, sintTy, uintInto, uintTy, doubleInto, floatInto, realInto, realTy, boolInto, boolTy, Opts.extractSigned,
      Opts.extractUnsigned, hs, hr]

/-- The claim is false: a default port is lost if the value is a word. -/
theorem C146_refuted : ¬ C146_claim ∧
    (Ref.root (leaf "auto".toList)).getInto (sintInto "i".toList 32) 8080 = (.ok false, 0) ∧
    (Ref.root (leaf "true".toList)).getInto boolInto true = (.ok false, false) ∧
    (Ref.root (leaf "70000".toList)).getInto (uintInto "t".toList 16) 8080 = (.ok false, 65535) ∧
    (Ref.root (leaf "".toList)).getInto (sintInto "i".toList 32) 8080 = (.ok false, 8080) := by
  refine ⟨fun h => ?_, by decide +kernel, by decide +kernel, by decide +kernel, by decide +kernel⟩
  have h1 := ((h.1 "i".toList 32 (Ref.root (leaf "auto".toList)) 8080 false).1)
  have h2 : (Ref.root (leaf "auto".toList)).getInto (sintInto "i".toList 32) 8080 false = (.ok false, 0) := by decide +kernel
  rw [h2] at h1
  exact absurd (h1 (by simp)) (by decide)

example : ((Ref.root (leaf "70000".toList)).getInto (uintInto "t".toList 16) 65535).1 ≠ .ok true ∧
    ((Ref.root (leaf "70000".toList)).getInto (uintInto "t".toList 16) 65535).2 = 65535 := by decide +kernel
example : ((Ref.root (leaf "2".toList)).getInto boolInto true).1 ≠ .ok true ∧ ((Ref.root (leaf "2".toList)).getInto boolInto true).2 = true := by
  decide +kernel
example : ((Ref.root (leaf "1e999".toList)).getInto doubleInto (.fin false 1)).1 ≠ .ok true ∧
    ((Ref.root (leaf "1e999".toList)).getInto doubleInto (.fin false 1)).2 ≠ .fin false 1 := by decide +kernel
example : (Ref.root (leaf "True".toList)).getInto boolInto true = (.ok false, false) :=
  (C146_words _ _ (by decide) rfl).2.2.2.2 true
example : getInto (sintInto "i".toList 32) sampleTree "a".toList 8080 = (.ok false, 0) := by decide +kernel
example : getInto strInto sampleTree "a".toList "x".toList = (.ok true, "root".toList) := by decide +kernel
example : getInto strInto sampleTree "q".toList "x".toList = (.throw (.notFound "q".toList), "x".toList) := by decide +kernel
example : (Ref.root (leaf "443".toList)).getInto (sintInto "i".toList 32) 8080 = (.ok true, 443) := by decide +kernel
example : (Ref.root (leaf "auto".toList)).getInto (sintInto "i".toList 32) 8080 true =
    (.throw (.badType [] "i".toList "auto".toList), 0) := by decide +kernel

end SoDa.Prop
