import Verif.Model.Format
import Verif.Spec.Format
import Mathlib.Data.List.Induction
import Mathlib.Tactic.IntervalCases
namespace SoDa
open Spec

/-! ### Numerals -/

theorem digitValue_digitChar {b d : Nat} (hb : b ≤ 16) (hd : d < b) :
    digitValue b (Nat.digitChar d) = some d := by
  have : d < 16 := by omega
  interval_cases d <;> (simp [digitValue, Nat.digitChar, Option.filter]; omega)

theorem digitValue_upper {b d : Nat} (hb : b ≤ 16) (hd : d < b) :
    digitValue b (Nat.digitChar d).toUpper = some d := by
  have h16 : d < 16 := by omega
  have : ∀ d < 16, digitValue 16 (Nat.digitChar d).toUpper = some d := by decide
  have h := this d h16
  simp only [digitValue, Option.filter_eq_some_iff] at h ⊢
  exact ⟨h.1, by simpa using hd⟩

theorem valueFrom_append (b : Nat) (s t : Str) : ∀ acc : Nat,
    valueFrom b acc (s ++ t) = (valueFrom b acc s).bind fun a => valueFrom b a t := by
  induction s with
  | nil => simp [valueFrom]
  | cons c cs ih =>
    intro acc
    simp only [List.cons_append, valueFrom]
    cases digitValue b c <;> simp [ih]

theorem valueFrom_toDigits (b : Nat) (hb : 2 ≤ b) (hb' : b ≤ 16) (f : Char → Char)
    (hf : ∀ d < b, digitValue b (f (Nat.digitChar d)) = some d) (n : Nat) :
    valueFrom b 0 ((Nat.toDigits b n).map f) = some n := by
  induction n using Nat.strongRecOn with
  | _ n ih =>
    rw [Nat.toDigits_eq_if (by omega)]
    split
    · rename_i h; simp [valueFrom, hf n h]
    · rename_i h
      have hlt : n / b < n := Nat.div_lt_self (by omega) (by omega)
      rw [List.map_append, valueFrom_append, ih _ hlt]
      simp [valueFrom, hf (n % b) (Nat.mod_lt _ (by omega)), Nat.div_add_mod']

theorem numeral_toDigits (b : Nat) (hb : 2 ≤ b) (hb' : b ≤ 16) (n : Nat) :
    numeral b (Nat.toDigits b n) = some n := by
  have := valueFrom_toDigits b hb hb' id (fun d hd => digitValue_digitChar hb' hd) n
  simp only [List.map_id_fun, id] at this
  simp [numeral, this, Nat.toDigits_ne_nil]

theorem numeral_toDigits_upper (b : Nat) (hb : 2 ≤ b) (hb' : b ≤ 16) (n : Nat) :
    numeral b ((Nat.toDigits b n).map Char.toUpper) = some n := by
  have := valueFrom_toDigits b hb hb' Char.toUpper (fun d hd => digitValue_upper hb' hd) n
  simp [numeral, this, Nat.toDigits_ne_nil]

theorem digitValue_zero (b : Nat) (hb : 2 ≤ b) : digitValue b '0' = some 0 := by
  simp [digitValue, Option.filter]; omega

theorem valueFrom_zeros (b : Nat) (hb : 2 ≤ b) (k : Nat) (s : Str) :
    valueFrom b 0 (List.replicate k '0' ++ s) = valueFrom b 0 s := by
  induction k with
  | zero => simp
  | succ k ih => simp [List.replicate_succ, valueFrom, digitValue_zero b hb, ih]

theorem numeral_zeros (b : Nat) (hb : 2 ≤ b) (k : Nat) (s : Str) (hs : s ≠ []) :
    numeral b (List.replicate k '0' ++ s) = numeral b s := by
  simp [numeral, hs, valueFrom_zeros b hb]

/-- All characters of a base-`b` numeral, mapped by `f`, satisfy `P` if all digits do. -/
theorem mem_toDigits (b : Nat) (hb : 2 ≤ b) (n : Nat) (c : Char)
    (h : c ∈ Nat.toDigits b n) : ∃ d < b, c = Nat.digitChar d := by
  induction n using Nat.strongRecOn with
  | _ n ih =>
    rw [Nat.toDigits_eq_if (by omega)] at h
    split at h
    · rename_i hn; exact ⟨n, hn, by simpa using h⟩
    · rcases List.mem_append.mp h with h | h
      · exact ih _ (Nat.div_lt_self (by omega) (by omega)) h
      · exact ⟨n % b, Nat.mod_lt _ (by omega), by simpa using h⟩

theorem head_toDigits (b : Nat) (hb : 2 ≤ b) (hb' : b ≤ 16) (n : Nat) (hn : n ≠ 0) :
    ∃ d t, 0 < d ∧ d < b ∧ Nat.toDigits b n = Nat.digitChar d :: t := by
  induction n using Nat.strongRecOn with
  | _ n ih =>
    rw [Nat.toDigits_eq_if (by omega)]
    split
    · rename_i h; exact ⟨n, [], by omega, h, rfl⟩
    · rename_i h
      have : n / b ≠ 0 := by
        have : 0 < n / b := Nat.div_pos (by omega) (by omega)
        omega
      obtain ⟨d, t, h1, h2, h3⟩ := ih _ (Nat.div_lt_self (by omega) (by omega)) this
      exact ⟨d, t ++ [Nat.digitChar (n % b)], h1, h2, by rw [h3]; rfl⟩

theorem digitChar_ne_zero {d : Nat} (h : 0 < d) : Nat.digitChar d ≠ '0' := by
  intro he
  by_cases h16 : d < 16
  · interval_cases d <;> simp [Nat.digitChar] at he
  · rw [Nat.digitChar] at he
    simp (disch := omega) [show d ≠ 0 by omega, show d ≠ 1 by omega, show d ≠ 2 by omega, show d ≠ 3 by omega,
      show d ≠ 4 by omega, show d ≠ 5 by omega, show d ≠ 6 by omega, show d ≠ 7 by omega,
      show d ≠ 8 by omega, show d ≠ 9 by omega, show d ≠ 10 by omega, show d ≠ 11 by omega,
      show d ≠ 12 by omega, show d ≠ 13 by omega, show d ≠ 14 by omega, show d ≠ 15 by omega] at he

theorem digitChar_ten_isDigit {d : Nat} (h : d < 10) : (Nat.digitChar d).isDigit = true := by
  interval_cases d <;> decide

theorem toDigits_isDigit (n : Nat) (c : Char) (h : c ∈ Nat.toDigits 10 n) : c.isDigit = true := by
  obtain ⟨d, hd, rfl⟩ := mem_toDigits 10 (by omega) n c h
  exact digitChar_ten_isDigit hd

/-! ### Separators -/

theorem intercalate_cons_head (sep c : Char) (h : Str) (t : List Str) :
    List.intercalate [sep] ((c :: h) :: t) = c :: List.intercalate [sep] (h :: t) := by
  cases t <;> simp [List.intercalate, List.intersperse]

theorem intercalate_new_head (sep c : Char) (ck : Str) (t : List Str) :
    List.intercalate [sep] ([c] :: ck :: t) = c :: sep :: List.intercalate [sep] (ck :: t) := by
  cases t <;> simp [List.intercalate, List.intersperse]

/-- State of the separator loop while all positions are below the limit. -/
theorem sepU_inv (sep : Char) (g : Nat) (lim : Int) (hg : 1 ≤ g) (r : Str) :
    (r.length : Int) ≤ lim →
    ∃ chunks : List Str, ∃ i,
      chunks.flatten = r.reverse ∧
      (∀ ck ∈ chunks.tail, ck.length = g) ∧
      (∀ ck, chunks.head? = some ck → 1 ≤ ck.length ∧ ck.length ≤ g ∧ ck.length = i) ∧
      (chunks = [] → i = 0) ∧
      r.foldl (addUSepStep sep g lim) ([], 0, 0) = (List.intercalate [sep] chunks, i, r.length) := by
  induction r using List.reverseRecOn with
  | nil => intro _; exact ⟨[], 0, by simp [List.intercalate]⟩
  | append_singleton r c ih =>
    intro hlen
    simp only [List.length_append, List.length_singleton] at hlen
    obtain ⟨chunks, i, h1, h2, h3, h4, h5⟩ := ih (by omega)
    rw [List.foldl_append, h5]
    cases chunks with
    | nil =>
      have hi := h4 rfl
      subst hi
      refine ⟨[[c]], 1, ?_⟩
      have h0 : ¬ (0 = g) := by omega
      simp [← h1, addUSepStep, List.intercalate, h0, hg]
    | cons ck t =>
      obtain ⟨h31, h32, h33⟩ := h3 ck rfl
      by_cases hig : i = g
      · refine ⟨[c] :: ck :: t, 1, ?_, ?_, ?_, ?_, ?_⟩
        · simp [← h1]
        · simp only [List.tail_cons, List.mem_cons]
          rintro x (rfl | hx)
          · omega
          · exact h2 x hx
        · simp; omega
        · simp
        · have hl : (r.length : Int) < lim := by omega
          simp [addUSepStep, hig, hl]
      · refine ⟨(c :: ck) :: t, i + 1, ?_, ?_, ?_, ?_, ?_⟩
        · simp [← h1]
        · simpa using h2
        · simp; omega
        · simp
        · simp [addUSepStep, hig]

/-- Beyond the limit characters are copied. -/
theorem sepU_tail (sep : Char) (g : Nat) (lim : Int) (r : Str) : ∀ (a : Str) (i cc : Nat),
    lim ≤ cc →
    (r.foldl (addUSepStep sep g lim) (a, i, cc)).1 = r.reverse ++ a := by
  induction r with
  | nil => simp
  | cons c r ih =>
    intro a i cc h
    have hl : ¬ ((cc : Int) < lim) := by omega
    rw [List.foldl_cons]
    simp only [addUSepStep, hl, and_false, if_false]
    rw [ih _ _ _ (by omega)]
    simp

theorem sepU_grouped (sep : Char) (g : Nat) (hg : 1 ≤ g) (pre body : Str) :
    ∃ out, Grouped g sep body out ∧
      ((pre ++ body).reverse.foldl (addUSepStep sep g (body.length : Int)) ([], 0, 0)).1 = pre ++ out := by
  obtain ⟨chunks, i, h1, h2, h3, _, h5⟩ := sepU_inv sep g body.length hg body.reverse (by simp)
  refine ⟨List.intercalate [sep] chunks, ⟨chunks, by simpa using h1, h2,
    fun ck hk => ⟨(h3 ck hk).1, (h3 ck hk).2.1⟩, rfl⟩, ?_⟩
  rw [List.reverse_append, List.foldl_append, h5, sepU_tail _ _ _ _ _ _ _ (by simp)]
  simp

theorem sepI_eq_sepU (sep : Char) (r : Str) : ∀ (a : Str) (i cc : Nat) (lim : Int),
    (cc : Int) + r.length ≤ lim →
    (r.foldl (addISepStep sep) (a, i)).1 = (r.foldl (addUSepStep sep 3 lim) (a, i, cc)).1 := by
  induction r with
  | nil => simp
  | cons c r ih =>
    intro a i cc lim h
    simp only [List.length_cons] at h
    have hl : (cc : Int) < lim := by omega
    rw [List.foldl_cons, List.foldl_cons]
    by_cases hi : i = 3
    · simp only [addISepStep, addUSepStep, hi, hl, if_true, and_self]
      exact ih _ _ _ _ (by push_cast at *; omega)
    · simp only [addISepStep, addUSepStep, hi, false_and, if_false]
      exact ih _ _ _ _ (by push_cast at *; omega)

theorem sepI_grouped (sep : Char) (body : Str) :
    Grouped 3 sep body (body.reverse.foldl (addISepStep sep) ([], 0)).1 := by
  obtain ⟨out, h1, h2⟩ := sepU_grouped sep 3 (by omega) [] body
  rw [sepI_eq_sepU sep _ [] 0 0 body.length (by simp)]
  simp only [List.nil_append] at h2
  rw [h2]; exact h1

theorem grouped_filter {g : Nat} {sep : Char} {body out : Str} (h : Grouped g sep body out) :
    out.filter (· ≠ sep) = body.filter (· ≠ sep) := by
  obtain ⟨chunks, h1, h2, h3, rfl⟩ := h
  clear h2 h3
  subst h1
  induction chunks with
  | nil => rfl
  | cons ck t ih =>
    cases t with
    | nil => simp [List.intercalate]
    | cons x t =>
      rw [List.flatten_cons, List.filter_append, ← ih]
      simp [List.intercalate, List.intersperse]

end SoDa
