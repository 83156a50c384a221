import Verif.Model.Split
import Verif.Spec.Split
namespace SoDa
open Spec

/-! ### fields, words, join -/

theorem fields_ne_nil (d : Char → Bool) (s : Str) : fields d s ≠ [] := by
  induction s with
  | nil => simp [fields]
  | cons c cs ih =>
    simp only [fields]; split
    · simp
    · split <;> simp

theorem fields_cons_of (d : Char → Bool) {c : Char} (h : d c = true) (cs : Str) :
    fields d (c :: cs) = [] :: fields d cs := by simp [fields, h]

theorem fields_eq_cons (d : Char → Bool) (s : Str) : ∃ f fs, fields d s = f :: fs := by
  cases h : fields d s with
  | nil => exact absurd h (fields_ne_nil d s)
  | cons f fs => exact ⟨f, fs, rfl⟩

theorem fields_cons_not (d : Char → Bool) {c : Char} (h : d c = false) {cs : Str} {f fs}
    (hf : fields d cs = f :: fs) : fields d (c :: cs) = (c :: f) :: fs := by
  simp [fields, h, hf]

/-- Fields of a delimiter-free prefix followed by more text. -/
theorem fields_append_not (d : Char → Bool) (a s : Str) (h : ∀ c ∈ a, d c = false) {f fs}
    (hf : fields d s = f :: fs) : fields d (a ++ s) = (a ++ f) :: fs := by
  induction a with
  | nil => simpa
  | cons c cs ih =>
    exact fields_cons_not d (h c (by simp)) (ih (fun x hx => h x (by simp [hx])))

theorem fields_append_delim (d : Char → Bool) (a s : Str) (c : Char) (h : ∀ c ∈ a, d c = false)
    (hc : d c = true) : fields d (a ++ c :: s) = a :: fields d s := by
  rw [fields_append_not d a (c :: s) h (fields_cons_of d hc s)]; simp

theorem fields_free (d : Char → Bool) (a : Str) (h : ∀ c ∈ a, d c = false) : fields d a = [a] := by
  have := fields_append_not d a [] h (f := []) (fs := []) rfl
  simpa using this

@[simp] theorem join_nil (sep : Str) : join sep [] = [] := rfl
@[simp] theorem join_one (sep w : Str) : join sep [w] = w := rfl
theorem join_cons (sep w : Str) {ws : List Str} (h : ws ≠ []) :
    join sep (w :: ws) = w ++ sep ++ join sep ws := by
  cases ws with
  | nil => exact absurd rfl h
  | cons x xs => rfl

theorem words_cons_space (s : Str) : words (' ' :: s) = words s := by
  simp [words, fields]

theorem fields_append_single (d : Char → Bool) (s : Str) (c : Char) (h : d c = true) :
    fields d (s ++ [c]) = fields d s ++ [[]] := by
  induction s with
  | nil => simp [fields, h]
  | cons x xs ih =>
    rw [List.cons_append]
    cases hx : d x with
    | true => simp [fields, hx, ih]
    | false =>
      obtain ⟨f, fs, hf⟩ := fields_eq_cons d xs
      rw [hf] at ih
      rw [fields_cons_not d hx hf, fields_cons_not d hx ih]; rfl

theorem words_append_space (s : Str) : words (s ++ [' ']) = words s := by
  simp [words, fields_append_single]

/-! ### structural version of the squashing loop -/

/-- Drop every space that is directly followed by a space. -/
def sq : Str → Str
  | [] => []
  | c :: cs => if c = ' ' ∧ cs.head? = some ' ' then sq cs else c :: sq cs

theorem sq_append_nospace (a b : Str) (h : ∀ c ∈ a, c ≠ ' ') : sq (a ++ b) = a ++ sq b := by
  induction a with
  | nil => rfl
  | cons c cs ih =>
    simp [sq, h c (by simp), ih (fun x hx => h x (by simp [hx]))]

theorem findIdx?_split {p : Char → Bool} {s : Str} {k : Nat} (h : s.findIdx? p = some k) :
    ∃ a c b, s = a ++ c :: b ∧ a.length = k ∧ p c = true ∧ ∀ x ∈ a, p x = false := by
  induction s generalizing k with
  | nil => simp at h
  | cons x xs ih =>
    rw [List.findIdx?_cons] at h
    cases hx : p x with
    | true =>
      simp [hx] at h; subst h
      exact ⟨[], x, xs, rfl, rfl, hx, by simp⟩
    | false =>
      simp [hx] at h
      obtain ⟨j, hj, rfl⟩ := h
      obtain ⟨a, c, b, h1, h2, h3, h4⟩ := ih hj
      exact ⟨x :: a, c, b, by simp [h1], by simp [h2], h3, by simpa [hx] using h4⟩

theorem squashLoop_eq (n : Nat) : ∀ (pre rest : Str), rest.length ≤ n →
    squashLoop (pre ++ rest) pre.length = pre ++ sq rest := by
  induction n with
  | zero =>
    intro pre rest h
    have : rest = [] := List.length_eq_zero_iff.mp (by omega)
    subst this
    rw [squashLoop]
    split
    · simp [sq]
    · rename_i p hp; simp [findChar] at hp
  | succ n ih =>
    intro pre rest h
    rw [squashLoop]
    have hf : findChar (pre ++ rest) ' ' pre.length = (rest.findIdx? (· == ' ')).map (· + pre.length) := by
      simp [findChar]
    split
    · rename_i h1
      rw [hf] at h1
      simp only [Option.map_eq_none_iff] at h1
      have := List.findIdx?_eq_none_iff.mp h1
      have hh : sq (rest ++ []) = rest ++ sq [] := sq_append_nospace rest [] (by
        intro c hc; simpa using this c hc)
      simp [sq] at hh; rw [hh]
    · rename_i p h1
      rw [hf] at h1
      simp only [Option.map_eq_some_iff] at h1
      obtain ⟨k, hk, rfl⟩ := h1
      obtain ⟨a, c, b, rfl, rfl, hc, ha⟩ := findIdx?_split hk
      have hc : c = ' ' := by simpa using hc
      have ha : ∀ x ∈ a, x ≠ ' ' := by intro x hx; simpa using ha x hx
      subst hc
      have hget : (pre ++ (a ++ ' ' :: b))[a.length + pre.length + 1]? = b.head? := by
        rw [List.getElem?_append_right (by omega), List.getElem?_append_right (by omega)]
        have : a.length + pre.length + 1 - pre.length - a.length = 1 := by omega
        rw [this]; cases b <;> simp
      have hlt : (a.length + pre.length < (pre ++ (a ++ ' ' :: b)).length - 1) ↔ b ≠ [] := by
        cases b <;> simp <;> omega
      rw [hget, sq_append_nospace a _ ha]; simp only [hlt]
      split
      · rename_i h2
        have he : (pre ++ (a ++ ' ' :: b)).eraseIdx (a.length + pre.length) = (pre ++ a) ++ b := by
          rw [List.eraseIdx_append_of_length_le (by omega), List.eraseIdx_append_of_length_le (by omega)]
          simp
        rw [he]
        have := ih (pre ++ a) b (by simp at h; omega)
        have hl : (pre ++ a).length = a.length + pre.length := by simp; omega
        rw [hl] at this
        rw [this]; simp [sq, h2.2]
      · rename_i h2
        have := ih (pre ++ a ++ [' ']) b (by simp at h; omega)
        have hl : (pre ++ a ++ [' ']).length = a.length + pre.length + 1 := by simp; omega
        rw [hl] at this
        have he : pre ++ a ++ [' '] ++ b = pre ++ (a ++ ' ' :: b) := by simp
        rw [he] at this
        rw [this]
        have hb : ¬ (b.head? = some ' ') := by
          intro hb; exact h2 ⟨by intro h0; simp [h0] at hb, hb⟩
        simp [sq, hb]

theorem squashLoop_zero (s : Str) : squashLoop s 0 = sq s := by
  simpa using squashLoop_eq s.length [] s (by omega)

/-! ### trimming -/

theorem trimFront_words : ∀ s : Str,
    (trimFront s = .ub ∧ (∀ c ∈ s, c = ' ')) ∨
    (∃ t, trimFront s = .ok t ∧ t.head? ≠ some ' ' ∧ t ≠ [] ∧ words t = words s ∧ ∃ c ∈ s, c ≠ ' ')
  | [] => by simp [trimFront]
  | c :: cs => by
    by_cases hc : c = ' '
    · subst hc
      simp only [trimFront, if_true, words_cons_space]
      rcases trimFront_words cs with ⟨h1, h2⟩ | ⟨t, h1, h2, h3, h4, x, h5, h6⟩
      · left; exact ⟨h1, by simpa using h2⟩
      · right; exact ⟨t, h1, h2, h3, h4, x, by simp [h5], h6⟩
    · right
      exact ⟨c :: cs, by simp [trimFront, hc], by simpa using hc, by simp, rfl, c, by simp, hc⟩

theorem trimBack_words (n : Nat) : ∀ s : Str, s.length ≤ n → s.head? ≠ some ' ' → s ≠ [] →
    ∃ t, trimBack s = .ok t ∧ t.head? ≠ some ' ' ∧ t ≠ [] ∧ t.getLast? ≠ some ' ' ∧ words t = words s := by
  induction n with
  | zero => intro s h _ h3; exact absurd (List.length_eq_zero_iff.mp (by omega)) h3
  | succ n ih =>
    intro s h h1 h2
    rw [trimBack]
    obtain ⟨s', c, rfl⟩ : ∃ s' c, s = s' ++ [c] :=
      ⟨s.dropLast, s.getLast h2, (List.dropLast_concat_getLast h2).symm⟩
    split
    · simp_all
    · rename_i d hd
      have hdc : d = c := by simpa using hd.symm
      subst hdc
      by_cases hc : d = ' '
      · subst hc
        simp only [if_true, List.dropLast_concat]
        have hne : s' ≠ [] := by intro h0; simp [h0] at h1
        obtain ⟨t, a1, a2, a3, a4, a5⟩ := ih s' (by simp at h; omega)
          (by cases s' with
              | nil => exact absurd rfl hne
              | cons x xs => simpa using h1) hne
        exact ⟨t, a1, a2, a3, a4, by rw [a5, words_append_space]⟩
      · simp only [hc, if_false]
        exact ⟨s' ++ [d], rfl, h1, h2, by simpa using hc, rfl⟩

theorem words_ne_nil : ∀ (s : Str), (∃ c ∈ s, c ≠ ' ') → words s ≠ []
  | [], h => by simp at h
  | c :: cs, h => by
    by_cases hc : c = ' '
    · subst hc; rw [words_cons_space]; exact words_ne_nil cs (by simpa using h)
    · obtain ⟨f, fs, hf⟩ := fields_eq_cons (· = ' ') cs
      simp [words, fields_cons_not (· = ' ') (by simpa using hc) hf]

theorem words_cons_nonspace {c : Char} (hc : c ≠ ' ') (s : Str) :
    words (c :: s) = match s with
      | [] => [[c]]
      | x :: _ => if x = ' ' then [c] :: words s else
          match words s with
          | [] => []
          | f :: fs => (c :: f) :: fs := by
  have hd : (decide (c = ' ')) = false := by simpa using hc
  cases s with
  | nil => simp [words, fields, hc]
  | cons x xs =>
    by_cases hx : x = ' '
    · subst hx; simp [words, fields, hc]
    · have hx' : (decide (x = ' ')) = false := by simpa using hx
      obtain ⟨f, fs, hf⟩ := fields_eq_cons (· = ' ') xs
      have h1 := fields_cons_not (· = ' ') hx' hf
      simp [words, fields_cons_not (· = ' ') hd h1, h1, hx]

theorem sq_eq_join : ∀ t : Str, t ≠ [] → t.getLast? ≠ some ' ' →
    sq t = (if t.head? = some ' ' then [' '] else []) ++ join [' '] (words t)
  | [], h, _ => absurd rfl h
  | [c], _, h => by
    have hc : c ≠ ' ' := by simpa using h
    simp [sq, words_cons_nonspace hc, hc]
  | c :: x :: xs, _, h => by
    have ih := sq_eq_join (x :: xs) (by simp) (by simpa [List.getLast?_cons_cons] using h)
    have hw : words (x :: xs) ≠ [] := by
      apply words_ne_nil
      refine ⟨(x :: xs).getLast (by simp), List.getLast_mem _, ?_⟩
      intro h0; apply h
      rw [List.getLast?_cons_cons, List.getLast?_eq_some_getLast (by simp), h0]
    by_cases hc : c = ' '
    · subst hc
      rw [words_cons_space]
      by_cases hx : x = ' '
      · subst hx
        rw [show sq (' ' :: ' ' :: xs) = sq (' ' :: xs) by simp [sq]]
        rw [ih]; simp
      · rw [show sq (' ' :: x :: xs) = ' ' :: sq (x :: xs) by simp [sq, hx]]
        rw [ih]; simp [hx]
    · rw [show sq (c :: x :: xs) = c :: sq (x :: xs) by simp [sq, hc]]
      rw [words_cons_nonspace hc]
      by_cases hx : x = ' '
      · subst hx
        rw [ih]; simp [hc, join_cons _ _ hw]
      · rw [ih]
        simp only [List.head?_cons, Option.some.injEq, hx, if_false, hc, List.nil_append]
        generalize words (x :: xs) = l at hw
        cases l with
        | nil => exact absurd rfl hw
        | cons f fs => cases fs <;> simp [join]

theorem squashSpaces_cases (s : Str) :
    (squashSpaces s = .ub ∧ ∀ c ∈ s, c = ' ') ∨
    (squashSpaces s = .ok (join [' '] (words s)) ∧ ∃ c ∈ s, c ≠ ' ') := by
  rcases trimFront_words s with ⟨h1, h2⟩ | ⟨t, h1, h2, h3, h4, h5⟩
  · left; exact ⟨by simp [squashSpaces, h1], h2⟩
  · right
    obtain ⟨u, a1, a2, a3, a4, a5⟩ := trimBack_words t.length t (by omega) h2 h3
    refine ⟨?_, h5⟩
    simp only [squashSpaces, h1, a1, Res.bind_ok, squashLoop_zero]
    rw [sq_eq_join u a3 a4, a5, h4]; simp [a2]

/-! ### split -/

theorem splitLoop_eq (n : Nat) : ∀ (d : Str) (ne : Bool) (pre rest : Str) (acc : List Str),
    rest.length ≤ n →
    splitLoop (pre ++ rest) d ne pre.length acc =
      acc ++ (if rest = [] then [] else
        let f := dropFinalEmpty (fields (fun c => d.contains c) rest)
        if ne then f.filter (fun w => !w.isEmpty) else f) := by
  induction n with
  | zero =>
    intro d ne pre rest acc h
    have : rest = [] := List.length_eq_zero_iff.mp (by omega)
    subst this
    rw [splitLoop]
    split
    · rename_i p hp; simp [findFirstOf] at hp
    · simp
  | succ n ih =>
    intro d ne pre rest acc h
    rw [splitLoop]
    have hf : findFirstOf (pre ++ rest) d pre.length =
        (rest.findIdx? (fun c => d.contains c)).map (· + pre.length) := by
      simp [findFirstOf]
    split
    · rename_i p h1
      rw [hf] at h1
      simp only [Option.map_eq_some_iff] at h1
      obtain ⟨k, hk, rfl⟩ := h1
      obtain ⟨a, c, b, rfl, rfl, hc, ha⟩ := findIdx?_split hk
      have htk : List.take (a.length + pre.length - pre.length) (List.drop pre.length (pre ++ (a ++ c :: b))) = a := by
        simp
      simp only [htk]
      have := ih d ne (pre ++ a ++ [c]) b
        (if (ne && a.length == 0) = true then acc else acc ++ [a]) (by simp at h; omega)
      have hl : (pre ++ a ++ [c]).length = a.length + pre.length + 1 := by simp; omega
      rw [hl] at this
      have he : pre ++ a ++ [c] ++ b = pre ++ (a ++ c :: b) := by simp
      rw [he] at this
      rw [this, fields_append_delim (fun c => d.contains c) a b c ha hc]
      have hne := fields_ne_nil (fun c => d.contains c) b
      have hd : dropFinalEmpty (a :: fields (fun c => d.contains c) b) =
          a :: dropFinalEmpty (fields (fun c => d.contains c) b) := by
        generalize fields (fun c => d.contains c) b = l at hne
        cases l with
        | nil => exact absurd rfl hne
        | cons _ _ => rfl
      rw [hd]
      have hb : b = [] → dropFinalEmpty (fields (fun c => d.contains c) b) = [] := by
        rintro rfl; simp [fields, dropFinalEmpty]
      cases ne <;> by_cases hb0 : b = [] <;> cases a <;> simp [hb0, fields, dropFinalEmpty]
    · rename_i h1
      rw [hf] at h1
      simp only [Option.map_eq_none_iff] at h1
      have hfree := List.findIdx?_eq_none_iff.mp h1
      rw [fields_free _ rest hfree]
      cases rest with
      | nil => simp
      | cons x xs => cases ne <;> simp [dropFinalEmpty]

end SoDa

namespace SoDa
open Spec

/-- No leading, trailing or doubled spaces, and not empty. -/
def Clean (s : Str) : Prop :=
  s ≠ [] ∧ s.head? ≠ some ' ' ∧ s.getLast? ≠ some ' ' ∧ ¬ ∃ a b, s = a ++ ' ' :: ' ' :: b

theorem sq_id : ∀ s : Str, (¬ ∃ a b, s = a ++ ' ' :: ' ' :: b) → sq s = s
  | [], _ => rfl
  | c :: cs, h => by
    have ih := sq_id cs (fun ⟨a, b, e⟩ => h ⟨c :: a, b, by simp [e]⟩)
    have : ¬ (c = ' ' ∧ cs.head? = some ' ') := by
      rintro ⟨rfl, h2⟩
      cases cs with
      | nil => simp at h2
      | cons x xs => simp at h2; subst h2; exact h ⟨[], xs, rfl⟩
    simp [sq, this, ih]

theorem sq_no_double : ∀ s : Str, ¬ ∃ a b, sq s = a ++ ' ' :: ' ' :: b
  | [] => by simp [sq]
  | c :: cs => by
    have ih := sq_no_double cs
    by_cases h : c = ' ' ∧ cs.head? = some ' '
    · simpa [sq, h] using ih
    · rintro ⟨a, b, e⟩
      simp only [sq, h, if_false] at e
      cases a with
      | nil =>
        simp at e
        obtain ⟨rfl, e⟩ := e
        cases cs with
        | nil => simp [sq] at e
        | cons x xs =>
          simp at h
          have : sq (x :: xs) = x :: sq xs := by simp [sq, h]
          rw [this] at e; simp at e; exact h e.1
      | cons y ys => simp at e; exact ih ⟨ys, b, e.2⟩

theorem squashSpaces_clean_fix {s : Str} (h : Clean s) : squashSpaces s = .ok s := by
  obtain ⟨h1, h2, h3, h4⟩ := h
  have e1 : trimFront s = .ok s := by
    cases s with
    | nil => exact absurd rfl h1
    | cons c cs => have : c ≠ ' ' := by simpa using h2
                   simp [trimFront, this]
  have e2 : trimBack s = .ok s := by
    rw [trimBack]; split
    · simp_all
    · rename_i c hc
      have : c ≠ ' ' := by rintro rfl; exact h3 hc
      simp [this]
  simp [squashSpaces, e1, e2, squashLoop_zero, sq_id s h4]

theorem squashSpaces_clean {s r : Str} (h : squashSpaces s = .ok r) : Clean r := by
  rcases trimFront_words s with ⟨h1, _⟩ | ⟨t, h1, h2, h3, _, _⟩
  · simp [squashSpaces, h1] at h
  · obtain ⟨u, a1, a2, a3, a4, _⟩ := trimBack_words t.length t (by omega) h2 h3
    simp only [squashSpaces, h1, a1, Res.bind_ok, squashLoop_zero, Res.ok.injEq] at h
    subst h
    have hsq := sq_eq_join u a3 a4
    have key : ∀ v : Str, v ≠ [] → v.getLast? ≠ some ' ' →
        sq v ≠ [] ∧ (sq v).head? = v.head? ∧ (sq v).getLast? = v.getLast? := by
      intro v
      induction v with
      | nil => intro h; exact absurd rfl h
      | cons c cs ih =>
        intro _ hl
        cases cs with
        | nil => simp [sq]
        | cons x xs =>
          have ih := ih (by simp) (by simpa [List.getLast?_cons_cons] using hl)
          by_cases h : c = ' ' ∧ (x :: xs).head? = some ' '
          · have e : sq (c :: x :: xs) = sq (x :: xs) := by rw [sq]; simp only [h, and_self, if_true]
            rw [e]
            refine ⟨ih.1, ?_, by rw [ih.2.2, List.getLast?_cons_cons]⟩
            rw [ih.2.1, h.2, h.1]; rfl
          · have e : sq (c :: x :: xs) = c :: sq (x :: xs) := by rw [sq]; simp only [h, if_false]
            rw [e]
            refine ⟨by simp, by simp, ?_⟩
            obtain ⟨y, ys, hy⟩ := List.exists_cons_of_ne_nil ih.1
            rw [hy, List.getLast?_cons_cons, ← hy, ih.2.2, List.getLast?_cons_cons]
    obtain ⟨k1, k2, k3⟩ := key u a3 a4
    exact ⟨k1, by rw [k2]; exact a2, by rw [k3]; exact a4, sq_no_double u⟩

theorem sq_filter : ∀ s : Str, (sq s).filter (· ≠ ' ') = s.filter (· ≠ ' ')
  | [] => rfl
  | c :: cs => by
    have ih := sq_filter cs
    by_cases h : c = ' ' ∧ cs.head? = some ' '
    · rw [sq]; simp only [h, and_self, if_true]; rw [ih]; simp
    · rw [sq]; simp only [h, if_false]; rw [List.filter_cons, List.filter_cons, ih]

theorem filter_dropFinalEmpty : ∀ l : List Str,
    (dropFinalEmpty l).filter (fun w => !w.isEmpty) = l.filter (fun w => !w.isEmpty)
  | [] => rfl
  | [f] => by cases f <;> simp [dropFinalEmpty]
  | f :: g :: gs => by
    simp only [dropFinalEmpty, List.filter_cons, filter_dropFinalEmpty (g :: gs)]

theorem split_of_squash {s r d : Str} (ne : Bool) (h : squashSpaces s = .ok r) :
    split s d ne = .ok (
      let f := dropFinalEmpty (fields (fun c => d.contains c) r)
      if ne then f.filter (fun w => !w.isEmpty) else f) := by
  have hr := (squashSpaces_clean h).1
  have := splitLoop_eq r.length d ne [] r [] (by omega)
  simp [hr] at this
  simp [split, h, this]

theorem fields_join (d : Char → Bool) (c : Char) (hc : d c = true) : ∀ ts : List Str, ts ≠ [] →
    (∀ t ∈ ts, ∀ x ∈ t, d x = false) → fields d (join [c] ts) = ts
  | [], h, _ => absurd rfl h
  | [t], _, h => by simpa using fields_free d t (h t (by simp))
  | t :: u :: us, _, h => by
    have ih := fields_join d c hc (u :: us) (by simp) (fun t ht => h t (by simp [ht]))
    rw [join_cons _ _ (by simp)]
    have := fields_append_delim d t (join [c] (u :: us)) c (h t (by simp)) hc
    simp only [List.append_assoc, List.singleton_append]
    rw [this, ih]

theorem dropFinalEmpty_id : ∀ ts : List Str, ts.getLast? ≠ some [] → dropFinalEmpty ts = ts
  | [], _ => rfl
  | [f], h => by
    have : f ≠ [] := by simpa using h
    cases f with
    | nil => exact absurd rfl this
    | cons _ _ => rfl
  | f :: g :: gs, h => by
    have := dropFinalEmpty_id (g :: gs) (by simpa [List.getLast?_cons_cons] using h)
    simp only [dropFinalEmpty, this]

end SoDa

namespace SoDa
open Spec

theorem sq_append_cons {c : Char} (hc : c ≠ ' ') (r : Str) : ∀ t : Str, sq (t ++ c :: r) = sq t ++ c :: sq r
  | [] => by simp [sq, hc]
  | x :: xs => by
    have ih := sq_append_cons hc r xs
    have hh : (xs ++ c :: r).head? = some ' ' ↔ xs.head? = some ' ' := by
      cases xs with
      | nil => simp [hc]
      | cons y ys => simp
    simp only [List.cons_append, sq, hh, ih]
    split <;> rfl

theorem sq_join {c : Char} (hc : c ≠ ' ') : ∀ ts : List Str, (∀ t ∈ ts, sq t = t) → sq (join [c] ts) = join [c] ts
  | [], _ => rfl
  | [t], h => h t (by simp)
  | t :: u :: us, h => by
    have ih := sq_join hc (u :: us) (fun t ht => h t (by simp [ht]))
    rw [join_cons _ _ (by simp)]
    simp only [List.append_assoc, List.singleton_append]
    rw [sq_append_cons hc, ih, h t (by simp)]

theorem clean_join {c : Char} (hc : c ≠ ' ') : ∀ ts : List Str, ts ≠ [] → ts.getLast? ≠ some [] →
    (∀ t ∈ ts, t.head? ≠ some ' ' ∧ t.getLast? ≠ some ' ' ∧ ¬ ∃ a b, t = a ++ ' ' :: ' ' :: b) →
    Clean (join [c] ts) := by
  intro ts hne hl ht
  have h4 : ¬ ∃ a b, join [c] ts = a ++ ' ' :: ' ' :: b := by
    rw [← sq_join hc ts (fun t h => sq_id t (ht t h).2.2)]
    exact sq_no_double _
  have key : ∀ ts : List Str, ts ≠ [] → ts.getLast? ≠ some [] →
      (∀ t ∈ ts, t.head? ≠ some ' ' ∧ t.getLast? ≠ some ' ') →
      join [c] ts ≠ [] ∧ (join [c] ts).head? ≠ some ' ' ∧ (join [c] ts).getLast? ≠ some ' ' := by
    intro ts
    induction ts with
    | nil => intro h; exact absurd rfl h
    | cons t us ih =>
      intro _ hl ht
      cases us with
      | nil =>
        simp only [join_one]
        exact ⟨by simpa using hl, (ht t (by simp)).1, (ht t (by simp)).2⟩
      | cons u us =>
        obtain ⟨i1, i2, i3⟩ := ih (by simp) (by simpa [List.getLast?_cons_cons] using hl)
          (fun t h => ht t (by simp [h]))
        rw [join_cons _ _ (by simp)]
        refine ⟨by simp, ?_, ?_⟩
        · have h0 := (ht t (by simp)).1
          cases t with
          | nil => simpa using hc
          | cons x xs => simpa using h0
        · obtain ⟨y, ys, hy⟩ := List.exists_cons_of_ne_nil i1
          rw [hy] at i3 ⊢
          rw [List.getLast?_append]; simp only [List.getLast?_cons, Option.some_or] at i3 ⊢; exact i3
  obtain ⟨k1, k2, k3⟩ := key ts hne hl (fun t h => ⟨(ht t h).1, (ht t h).2.1⟩)
  exact ⟨k1, k2, k3, h4⟩

theorem copyToVec_toList (l : List Str) : (copyToVec l).toList = l := by
  simp [copyToVec]

end SoDa
