import Verif.Proof.Locale
import Verif.Proof.FormatNum
import Verif.Proof.FormatFSci
/-!
Property C129: what `Format` inserts for numbers in a program that has set another locale.
-/
namespace SoDa
open Spec

/-- A number is written in the same way whatever the locale is. -/
def C129_claim : Prop := ∀ L : Locale,
  (∀ v w sep fill, L.textI v w sep fill = textI v w sep fill) ∧
  (∀ v fmt w sep g, L.textU v fmt w sep g = textU v fmt w sep g) ∧
  (∀ A fuel radix v fmt w sig, L.textF A fuel radix v fmt w sig = textF A fuel radix v fmt w sig) ∧
  (∀ segs, L.assemble segs = Fmt.assemble segs)

/-! ### Without grouping and with a point -/

theorem Locale.group_nil {L : Locale} (h : L.grouping = []) (ds : Str) : L.group ds = ds :=
  L.group_none ds fun k _ _ => by rw [h]; exact isCut_nil k

theorem Locale.showInt_nil {L : Locale} (h : L.grouping = []) (v : Int) : L.showInt v = SoDa.showInt v := by
  cases v <;> simp only [Locale.showInt, SoDa.showInt, Locale.group_nil h]

theorem Locale.real_point {L : Locale} (hg : ∀ ds, L.group ds = ds) (hp : L.point = '.') (s : Str) : L.real s = s := by
  unfold Locale.real
  simp only [hg, hp]
  have hs : s.takeWhile (· ≠ '.') ++ s.dropWhile (· ≠ '.') = s := List.takeWhile_append_dropWhile
  cases hd : s.dropWhile (· ≠ '.') with
  | nil => simp
  | cons c fp =>
    have hc : c = '.' := by
      have := List.head?_dropWhile_not (fun x : Char => decide (x ≠ '.')) s
      rw [hd] at this
      simpa using this
    rw [hd, hc] at hs
    exact hs

theorem drop_sign (neg : Bool) (x : Str) : (if neg then '-' :: (((if neg then ['-'] else []) ++ x).drop 1) else ((if neg then ['-'] else []) ++ x)) =
    (if neg then ['-'] else []) ++ x := by cases neg <;> simp

/-- In a locale without grouping and with a point, such as the "C" locale, the texts are those of the other properties. -/
theorem C129_classic_partial (L : Locale) (hg : L.grouping = []) (hp : L.point = '.') :
    (∀ v w sep fill, L.textI v w sep fill = textI v w sep fill) ∧
    (∀ v fmt w sep g, L.textU v fmt w sep g = textU v fmt w sep g) ∧
    (∀ A fuel radix v fmt w sig, L.textF A fuel radix v fmt w sig = textF A fuel radix v fmt w sig) ∧
    (∀ segs, L.assemble segs = Fmt.assemble segs) := by
  have h1 := fun v => Locale.showInt_nil hg v
  have h2 := fun ds => Locale.group_nil hg ds
  have h3 := fun s => Locale.real_point h2 hp s
  refine ⟨fun v w sep fill => ?_, fun v fmt w sep g => ?_, fun A fuel radix v fmt w sig => ?_, fun segs => ?_⟩
  · simp only [Locale.textI, textI, h1]
  · simp only [Locale.textU, textU, Locale.toHex, Locale.toOct, toHex, toOct, Locale.showHex, Locale.showOctBase, Locale.showNat,
      SoDa.showOctBase, h2]
  · unfold Locale.textF textF
    cases v with
    | nan => rfl
    | inf _ => rfl
    | fin neg q =>
      simp only [Locale.signedReal, h3, Locale.engText, engText, h1, showFixed, showSci, showGeneral, List.append_assoc, drop_sign]
      rfl
  · induction segs with
    | nil => rfl
    | cons seg segs ih =>
      cases seg with
      | lit v => simp only [Locale.assemble, Fmt.assemble, ih]
      | fld idx => simp only [Locale.assemble, Fmt.assemble, ih, Locale.showNat, h2]

/-! ### What is written -/

/-- `addI` without width and separator: the sign and the digits, with the separators of the locale. -/
theorem C129_written_partial (L : Locale) (v : Int) (fill : Char) :
    L.textI v 0 nul fill =
      (if v < 0 then ['-'] else []) ++ spelled L.thousands (IsCut L.grouping) (Nat.toDigits 10 v.natAbs) ∧
    (L.thousands.isDigit = false → L.thousands ≠ '-' → (L.textI v 0 nul fill).filter (· ≠ L.thousands) = textI v 0 nul fill) := by
  have h1 : L.textI v 0 nul fill = (if v < 0 then ['-'] else []) ++ spelled L.thousands (IsCut L.grouping) (Nat.toDigits 10 v.natAbs) := by
    simp only [Locale.textI, if_true, ne_eq, not_true_eq_false, if_false, padLeft, Nat.zero_sub, List.replicate_zero, List.nil_append]
    cases v with
    | ofNat n =>
      rw [if_neg (by simp)]
      exact L.group_spelled _
    | negSucc n =>
      rw [if_pos (by omega)]
      simp only [Locale.showInt, L.group_spelled]
      rfl
  refine ⟨h1, fun hd hm => ?_⟩
  have hmem : ∀ n, L.thousands ∉ Nat.toDigits 10 n := fun n hn => by
    rw [toDigits_isDigit n _ hn] at hd; cases hd
  rw [h1]
  simp only [textI, if_true, ne_eq, not_true_eq_false, if_false, padLeft, Nat.zero_sub, List.replicate_zero, List.nil_append]
  cases v with
  | ofNat n =>
    rw [if_neg (by simp), List.nil_append]
    exact spelled_filter _ _ _ (hmem _)
  | negSucc n =>
    rw [if_pos (by omega), List.singleton_append,
      List.filter_cons_of_pos (p := fun c : Char => decide (¬ c = L.thousands)) (by simpa using fun e => hm e.symm)]
    exact congrArg ('-' :: ·) (spelled_filter _ _ _ (hmem _))

/-! ### Exactly when nothing changes -/

/-- `addI`, with any width, separator and fill character: the text is the one of the "C" locale exactly if the locale puts no separator
into a number with that many digits. -/
theorem C129_addI_exact (L : Locale) (v : Int) (w : Nat) (sep fill : Char) (hd : L.thousands.isDigit = false) :
    L.textI v w sep fill = textI v w sep fill ↔ ∀ k, 0 < k → k < (Nat.toDigits 10 v.natAbs).length → ¬ IsCut L.grouping k := by
  have h1 : L.showInt v = (if v < 0 then ['-'] else []) ++ L.group (Nat.toDigits 10 v.natAbs) := by
    cases v with
    | ofNat n => rw [if_neg (by simp)]; rfl
    | negSucc n => rw [if_pos (by omega)]; rfl
  have h2 : SoDa.showInt v = (if v < 0 then ['-'] else []) ++ Nat.toDigits 10 v.natAbs := by
    cases v with
    | ofNat n => rw [if_neg (by simp)]; rfl
    | negSucc n => rw [if_pos (by omega)]; rfl
  constructor
  · intro h k h0 hk hc
    obtain ⟨g, X, hg, hX⟩ := L.group_last _ hk hc
    obtain ⟨b, Y, hb, hY⟩ := reverse_split _ hg
    have hb' := toDigits_isDigit _ _ hb
    have e1 : (L.showInt v).reverse = ((Nat.toDigits 10 v.natAbs).reverse.take g) ++ L.thousands :: (X ++ (if v < 0 then ['-'] else []).reverse) := by
      rw [h1, List.reverse_append, hX]; simp
    have e2 : (SoDa.showInt v).reverse = ((Nat.toDigits 10 v.natAbs).reverse.take g) ++ b :: (Y ++ (if v < 0 then ['-'] else []).reverse) := by
      rw [h2, List.reverse_append]
      conv_lhs => rw [hY]
      simp
    have : L.thousands = b := by
      unfold Locale.textI textI at h
      by_cases hs : sep = nul
      · simp only [if_pos hs] at h
        exact padLeft_differ e1 e2 h
      · simp only [if_neg hs] at h
        obtain ⟨Q, hQ⟩ := sepRev_prefix sep ((Nat.toDigits 10 v.natAbs).reverse.take g) 0
        obtain ⟨X', hX'⟩ := hQ L.thousands (X ++ (if v < 0 then ['-'] else []).reverse)
        obtain ⟨Y', hY'⟩ := hQ b (Y ++ (if v < 0 then ['-'] else []).reverse)
        refine padLeft_differ (Q := Q) (X := X') (Y := Y') ?_ ?_ h
        · rw [addISep_fold, e1, hX']; rfl
        · rw [addISep_fold, e2, hY']; rfl
    rw [this, hb'] at hd
    cases hd
  · intro h
    have : L.showInt v = SoDa.showInt v := by rw [h1, h2, L.group_none _ h]
    simp only [Locale.textI, textI, this]

/-- The digits that `addU` writes. -/
def digitsU (v : Nat) (fmt : Char) : Str :=
  if fmt = 'x' ∨ fmt = 'X' ∨ fmt = 'h' ∨ fmt = 'H' then showHex (decide (fmt = 'X') || decide (fmt = 'H')) v
  else if fmt = 'o' ∨ fmt = 'O' then Nat.toDigits 8 v
  else Nat.toDigits 10 v

theorem Locale.group_length (L : Locale) (ds : Str) : ds.length ≤ (L.group ds).length := by
  rw [L.group_spelled]; exact spelled_length _ _ _

/-- `addU` in terms of the digits `s`: something before them, and `off` characters before which it puts no separator. -/
def around (pre : Str → Str) (off : Nat) (sep : Char) (gc : Nat) (s : Str) : Str :=
  if sep = nul then pre s ++ s
  else ((pre s ++ s).reverse.foldl (addUSepStep sep gc (((pre s ++ s).length : Int) - off)) ([], 0, 0)).1

theorem around_differ (L : Locale) {pre : Str → Str} {off : Nat} (hoff : ∀ s, off ≤ (pre s).length) (sep : Char) (gc : Nat) {ds : Str}
    (hd : L.thousands ∉ ds) (h : around pre off sep gc (L.group ds) = around pre off sep gc ds) {k : Nat} (hk : k < ds.length) :
    ¬ IsCut L.grouping k := by
  intro hc
  obtain ⟨g, X, hg, hX⟩ := L.group_last _ hk hc
  obtain ⟨b, Y, hb, hY⟩ := reverse_split _ hg
  have hlen := L.group_length ds
  have hgl : (ds.reverse.take g).length = g := by simp; omega
  have e1 : (pre (L.group ds) ++ L.group ds).reverse = ds.reverse.take g ++ L.thousands :: (X ++ (pre (L.group ds)).reverse) := by
    rw [List.reverse_append, hX]; simp
  have e2 : (pre ds ++ ds).reverse = ds.reverse.take g ++ b :: (Y ++ (pre ds).reverse) := by
    rw [List.reverse_append]
    conv_lhs => rw [hY]
    simp
  have : L.thousands = b := by
    unfold around at h
    by_cases hs : sep = nul
    · simp only [if_pos hs] at h
      have h' := congrArg List.reverse h
      rw [e1, e2] at h'
      exact (List.cons.inj (List.append_cancel_left h')).1
    · simp only [if_neg hs] at h
      have h' := congrArg List.reverse h
      rw [addUSep_fold, addUSep_fold, e1, e2] at h'
      obtain ⟨Q, hQ⟩ := sepRevU_prefix sep gc (ds.reverse.take g) 0 0
      have o1 := hoff (L.group ds)
      have o2 := hoff ds
      obtain ⟨X', hX'⟩ := hQ (((pre (L.group ds) ++ L.group ds).length : Int) - off) L.thousands (X ++ (pre (L.group ds)).reverse)
        (by rw [hgl, List.length_append]; omega)
      obtain ⟨Y', hY'⟩ := hQ (((pre ds ++ ds).length : Int) - off) b (Y ++ (pre ds).reverse)
        (by rw [hgl, List.length_append]; omega)
      rw [hX', hY'] at h'
      exact (List.cons.inj (List.append_cancel_left (List.append_cancel_left h'))).1
  rw [this] at hd
  exact hd hb

/-- The same for `addU`, in any notation, with any width, separator and size of groups. -/
theorem C129_addU_exact (L : Locale) (v : Nat) (fmt : Char) (w : Nat) (sep : Char) (gc : Nat) (hd : L.thousands ∉ digitsU v fmt) :
    L.textU v fmt w sep gc = textU v fmt w sep gc ↔ ∀ k, 0 < k → k < (digitsU v fmt).length → ¬ IsCut L.grouping k := by
  by_cases hx : fmt = 'x' ∨ fmt = 'X' ∨ fmt = 'h' ∨ fmt = 'H'
  · have hds : digitsU v fmt = showHex (decide (fmt = 'X') || decide (fmt = 'H')) v := by rw [digitsU, if_pos hx]
    rw [hds] at hd ⊢
    generalize hdd : showHex (decide (fmt = 'X') || decide (fmt = 'H')) v = ds at hd
    have t1 : L.textU v fmt w sep gc = around (fun s => "0x".toList ++ List.replicate (setwWidth w - s.length) '0') 2 sep gc (L.group ds) := by
      simp only [Locale.textU, if_pos hx, Locale.toHex, padLeft, Locale.showHex, hdd, around, List.append_assoc]
      rfl
    have t2 : textU v fmt w sep gc = around (fun s => "0x".toList ++ List.replicate (setwWidth w - s.length) '0') 2 sep gc ds := by
      simp only [textU, if_pos hx, toHex, padLeft, hdd, around, List.append_assoc]
      rfl
    rw [t1, t2]
    constructor
    · intro h k _ hk
      exact around_differ L (by intro s; simp) sep gc hd h hk
    · intro h; rw [L.group_none _ h]
  · by_cases ho : fmt = 'o' ∨ fmt = 'O'
    · have hds : digitsU v fmt = Nat.toDigits 8 v := by rw [digitsU, if_neg hx, if_pos ho]
      rw [hds] at hd ⊢
      by_cases h0 : v = 0
      · have hno : ∀ k, 0 < k → k < (Nat.toDigits 8 v).length → ¬ IsCut L.grouping k := by
          intro k hk0 hk
          rw [h0] at hk
          have : (Nat.toDigits 8 0).length = 1 := by decide
          omega
        refine ⟨fun _ => hno, fun _ => ?_⟩
        simp only [Locale.textU, textU, if_neg hx, if_pos ho, Locale.toOct, toOct, Locale.showOctBase, SoDa.showOctBase, if_pos h0,
          L.group_none _ hno]
      · have t1 : L.textU v fmt w sep gc = around (fun s => List.replicate (setwWidth w - (s.length + 1)) '0' ++ ['0']) 1 sep gc
            (L.group (Nat.toDigits 8 v)) := by
          simp only [Locale.textU, if_neg hx, if_pos ho, Locale.toOct, padLeft, Locale.showOctBase, if_neg h0, around, List.append_assoc]
          rfl
        have t2 : textU v fmt w sep gc = around (fun s => List.replicate (setwWidth w - (s.length + 1)) '0' ++ ['0']) 1 sep gc
            (Nat.toDigits 8 v) := by
          simp only [textU, if_neg hx, if_pos ho, toOct, padLeft, SoDa.showOctBase, if_neg h0, around, List.append_assoc]
          rfl
        rw [t1, t2]
        constructor
        · intro h k _ hk
          exact around_differ L (by intro s; simp) sep gc hd h hk
        · intro h; rw [L.group_none _ h]
    · have hds : digitsU v fmt = Nat.toDigits 10 v := by rw [digitsU, if_neg hx, if_neg ho]
      rw [hds] at hd ⊢
      have t1 : L.textU v fmt w sep gc = around (fun s => List.replicate ((if w ≠ 0 then setwWidth w else 0) - s.length) ' ') 0 sep gc
          (L.group (Nat.toDigits 10 v)) := by
        simp only [Locale.textU, if_neg hx, if_neg ho, padLeft, Locale.showNat, around]
        rfl
      have t2 : textU v fmt w sep gc = around (fun s => List.replicate ((if w ≠ 0 then setwWidth w else 0) - s.length) ' ') 0 sep gc
          (Nat.toDigits 10 v) := by
        simp only [textU, if_neg hx, if_neg ho, padLeft, around]
        rfl
      rw [t1, t2]
      constructor
      · intro h k _ hk
        exact around_differ L (by intro s; simp) sep gc hd h hk
      · intro h; rw [L.group_none _ h]

/-! ### Floating point numbers -/

theorem takeWhile_point (a b : Str) (h : '.' ∉ a) : (a ++ '.' :: b).takeWhile (· ≠ '.') = a ∧ (a ++ '.' :: b).dropWhile (· ≠ '.') = '.' :: b := by
  induction a with
  | nil => simp
  | cons c a ih =>
    simp only [List.mem_cons, not_or] at h
    have hc : decide (c ≠ '.') = true := by simpa using fun e => h.1 e.symm
    have := ih h.2
    simp only [List.cons_append, List.takeWhile_cons, List.dropWhile_cons, hc, if_true]
    exact ⟨by rw [this.1], this.2⟩

theorem takeWhile_nopoint (a : Str) (h : '.' ∉ a) : a.dropWhile (· ≠ '.') = [] := by
  induction a with
  | nil => rfl
  | cons c a ih =>
    simp only [List.mem_cons, not_or] at h
    have hc : decide (c ≠ '.') = true := by simpa using fun e => h.1 e.symm
    simp only [List.dropWhile_cons, hc, if_true]
    exact ih h.2

theorem notin_toDigits (n : Nat) : '.' ∉ Nat.toDigits 10 n := fun h => by
  have := toDigits_isDigit n _ h
  revert this; decide

theorem Locale.real_pointed (L : Locale) (ip fp : Str) (h : '.' ∉ ip) : L.real (ip ++ '.' :: fp) = L.group ip ++ L.point :: fp := by
  unfold Locale.real
  obtain ⟨h1, h2⟩ := takeWhile_point ip fp h
  simp only [h1, h2]

theorem Locale.real_digits (L : Locale) (n : Nat) : L.real (Nat.toDigits 10 n) = L.group (Nat.toDigits 10 n) := by
  unfold Locale.real
  simp only [takeWhile_nopoint _ (notin_toDigits n)]
  by_cases hl : (Nat.toDigits 10 n).length < 3
  · rw [if_pos (.inl hl)]
  · rw [if_pos]
    right
    have h1 : 1 < (Nat.toDigits 10 n).length := by omega
    have h2 : 2 < (Nat.toDigits 10 n).length := by omega
    rw [List.getElem?_eq_getElem h1, List.getElem?_eq_getElem h2]
    exact ⟨toDigits_isDigit n _ (List.getElem_mem h1), toDigits_isDigit n _ (List.getElem_mem h2)⟩

/-- Fixed notation: the digits before the point with separators, the point of the locale, and the digits after it without separators. -/
theorem C129_fixed_partial (L : Locale) (A : Arith) (fuel : Nat) (radix : Char) (neg : Bool) (q : ℚ) (w sig : Nat) :
    L.textF A fuel radix (.fin neg q) 'f' w sig =
      let n := roundHalfEven (q * 10 ^ precision sig)
      let width := if w = 0 then (sig + 4) % u32 else w
      some (.ok (padRight ' ' (if width ≠ 0 then setwWidth width else 0)
        ((if neg then ['-'] else []) ++ spelled L.thousands (IsCut L.grouping) (Nat.toDigits 10 (n / 10 ^ precision sig)) ++
          (if precision sig = 0 then [] else
            L.point :: padLeft '0' (precision sig) (Nat.toDigits 10 (n % 10 ^ precision sig)))))) := by
  have hreal : ∀ n d, L.real (showScaled n d) = spelled L.thousands (IsCut L.grouping) (Nat.toDigits 10 (n / 10 ^ d)) ++
      (if d = 0 then [] else L.point :: padLeft '0' d (Nat.toDigits 10 (n % 10 ^ d))) := by
    intro n d
    rw [← L.group_spelled]
    by_cases hd : d = 0
    · subst hd
      simp [showScaled, L.real_digits]
    · rw [showScaled, if_neg hd, if_neg hd, L.real_pointed _ _ (notin_toDigits _)]
  have hs : ∀ n d, L.signedReal neg ((if neg then ['-'] else []) ++ showScaled n d) = (if neg then ['-'] else []) ++ L.real (showScaled n d) := by
    intro n d
    cases neg <;> simp [Locale.signedReal]
  simp only [Locale.textF, if_true, showFixed, hs, hreal, List.append_assoc]

/-- In notation 'f' the text is the one of the "C" locale if there is a point and no separator for the number. -/
theorem C129_fixed_same_partial (L : Locale) (A : Arith) (fuel : Nat) (radix : Char) (neg : Bool) (q : ℚ) (w sig : Nat) (hp : L.point = '.')
    (h : ∀ k, 0 < k → k < (Nat.toDigits 10 (roundHalfEven (q * 10 ^ precision sig) / 10 ^ precision sig)).length → ¬ IsCut L.grouping k) :
    L.textF A fuel radix (.fin neg q) 'f' w sig = textF A fuel radix (.fin neg q) 'f' w sig := by
  rw [C129_fixed_partial]
  simp only [textF, if_true, showFixed, showScaled]
  rw [spelled_none _ _ h, hp]
  by_cases hd : precision sig = 0
  · simp [hd]
  · rw [if_neg hd, if_neg hd, List.append_assoc]

/-- The fraction with its point, if there is one. -/
def pointed (p : Char) (fp : Str) : Str := if fp = [] then [] else p :: fp

/-- What follows a fraction: nothing, or an exponent after a number with one digit before the point. -/
def Ends (n : Nat) (ex : Str) : Prop := ex = [] ∨ (∃ c, Nat.toDigits 10 n = [c]) ∧ ∃ x, ex = showExp x

theorem Locale.real_exp (L : Locale) (c : Char) (hc : c.isDigit = true) (x : Int) : L.real (c :: showExp x) = c :: showExp x := by
  have hp : '.' ∉ c :: showExp x := by
    simp only [showExp, List.mem_cons, not_or]
    refine ⟨?_, by decide, ?_, point_notin_pad _ _⟩
    · rintro rfl; revert hc; decide
    · split <;> decide
  unfold Locale.real
  simp only [takeWhile_nopoint _ hp]
  rw [if_neg]
  rintro (h | h)
  · simp [showExp, padLeft] at h
    have := Nat.length_toDigits_pos (b := 10) (n := x.natAbs)
    omega
  · simp [showExp] at h

theorem Locale.real_shape (L : Locale) (n : Nat) (fp ex : Str) (hex : Ends n ex) :
    L.real (Nat.toDigits 10 n ++ pointed '.' fp ++ ex) = L.group (Nat.toDigits 10 n) ++ pointed L.point fp ++ ex := by
  unfold pointed
  by_cases hf : fp = []
  · rw [if_pos hf, if_pos hf, List.append_nil, List.append_nil]
    rcases hex with rfl | ⟨⟨c, hc⟩, x, rfl⟩
    · rw [List.append_nil, List.append_nil, L.real_digits]
    · have hg : L.group [c] = [c] := L.group_none _ fun k h1 h2 => by simp at h2; omega
      rw [hc, hg]
      exact L.real_exp c (toDigits_isDigit n c (by rw [hc]; simp)) x
  · rw [if_neg hf, if_neg hf, List.append_assoc, List.append_assoc, List.cons_append, List.cons_append,
      L.real_pointed _ _ (notin_toDigits n)]

theorem general_shape (fmt : Char) (hfmt : fmt = 'f' ∨ fmt = 's' ∨ fmt = 'g') (neg : Bool) (q : ℚ) (hq : 0 ≤ q) (d : Nat) :
    ∃ n fp ex, Ends n ex ∧
      (if fmt = 'f' then showFixed neg q d else if fmt = 's' then showSci neg q d else showGeneral neg q d) =
        (if neg then ['-'] else []) ++ (Nat.toDigits 10 n ++ pointed '.' fp ++ ex) := by
  have scaled : ∀ n d, ∃ fp, showScaled n d = Nat.toDigits 10 (n / 10 ^ d) ++ pointed '.' fp := by
    intro n d
    by_cases hd : d = 0
    · exact ⟨[], by simp [showScaled, hd, pointed]⟩
    · refine ⟨padLeft '0' d (Nat.toDigits 10 (n % 10 ^ d)), ?_⟩
      rw [showScaled, if_neg hd, pointed, if_neg]
      simp [padLeft, Nat.toDigits_ne_nil]
  have single : ∀ d, ∃ c, Nat.toDigits 10 ((sciParts q d).1 / 10 ^ d) = [c] := by
    intro d
    by_cases h : q = 0
    · exact ⟨'0', by simp [sciParts, h]⟩
    · obtain ⟨h1, h2, _⟩ := sciParts_spec (lt_of_le_of_ne hq (Ne.symm h)) d
      obtain ⟨c, hc, _⟩ := toDigits_single h1 h2
      exact ⟨c, hc⟩
  rcases hfmt with rfl | rfl | rfl
  · obtain ⟨fp, h⟩ := scaled (roundHalfEven (q * 10 ^ d)) d
    exact ⟨_, fp, [], .inl rfl, by rw [if_pos rfl, showFixed, h, List.append_nil]⟩
  · obtain ⟨fp, h⟩ := scaled (sciParts q d).1 d
    refine ⟨_, fp, showExp (sciParts q d).2, .inr ⟨single d, _, rfl⟩, ?_⟩
    rw [if_neg (by decide), if_pos rfl, showSci, h]
    simp
  · rw [if_neg (by decide), if_neg (by decide), showGeneral]
    generalize (if d = 0 then 1 else d) = p
    simp only
    by_cases hx : -4 ≤ (sciParts q (p - 1)).2 ∧ (sciParts q (p - 1)).2 < p
    · rw [if_pos hx]
      obtain ⟨fp, m, h1, _⟩ := stripZeros_scaled (roundHalfEven (q * 10 ^ ((p : Int) - 1 - (sciParts q (p - 1)).2).toNat))
        ((p : Int) - 1 - (sciParts q (p - 1)).2).toNat
      exact ⟨_, fp, [], .inl rfl, by rw [h1, List.append_nil]; rfl⟩
    · rw [if_neg hx]
      obtain ⟨fp, m, h1, _⟩ := stripZeros_scaled (sciParts q (p - 1)).1 (p - 1)
      exact ⟨_, fp, showExp (sciParts q (p - 1)).2, .inr ⟨single _, _, rfl⟩, by rw [h1]; rfl⟩

/-- What `addF` writes in notations 'f', 's' and 'g': a sign, the digits before the point with separators, the point of the locale and the
digits after it if there are any, an exponent in some cases, and spaces. -/
theorem C129_real_partial (L : Locale) (A : Arith) (fuel : Nat) (radix : Char) (neg : Bool) (q : ℚ) (hq : 0 ≤ q) (fmt : Char)
    (hfmt : fmt = 'f' ∨ fmt = 's' ∨ fmt = 'g') (w sig : Nat) : ∃ n fp ex W, Ends n ex ∧
      textF A fuel radix (.fin neg q) fmt w sig =
        some (.ok (padRight ' ' W ((if neg then ['-'] else []) ++ (Nat.toDigits 10 n ++ pointed '.' fp ++ ex)))) ∧
      L.textF A fuel radix (.fin neg q) fmt w sig =
        some (.ok (padRight ' ' W ((if neg then ['-'] else []) ++
          (spelled L.thousands (IsCut L.grouping) (Nat.toDigits 10 n) ++ pointed L.point fp ++ ex)))) := by
  obtain ⟨n, fp, ex, hex, hb⟩ := general_shape fmt hfmt neg q hq (precision sig)
  have hs : L.signedReal neg ((if neg then ['-'] else []) ++ (Nat.toDigits 10 n ++ pointed '.' fp ++ ex)) =
      (if neg then ['-'] else []) ++ (spelled L.thousands (IsCut L.grouping) (Nat.toDigits 10 n) ++ pointed L.point fp ++ ex) := by
    rw [← L.group_spelled, ← L.real_shape n fp ex hex]
    cases neg <;> simp [Locale.signedReal]
  refine ⟨n, fp, ex, if (if w = 0 then (sig + 4) % u32 else w) ≠ 0 then setwWidth (if w = 0 then (sig + 4) % u32 else w) else 0, hex,
    ?_, ?_⟩
  · rw [← hb]
    rcases hfmt with rfl | rfl | rfl <;> simp only [textF, if_true, Char.reduceEq, if_false]
  · rw [← hs, ← hb]
    rcases hfmt with rfl | rfl | rfl <;> simp only [Locale.textF, if_true, Char.reduceEq, if_false]

theorem spelled_takeWhile (sep : Char) (hsep : sep.isDigit = false) (p : Nat → Prop) (ds t : Str) (hd : ∀ c ∈ ds, c.isDigit = true)
    (h : (spelled sep p ds ++ t).takeWhile Char.isDigit = ds) : ∀ k, 0 < k → k < ds.length → ¬ p k := by
  induction ds with
  | nil => intro k _ hk; simp at hk
  | cons d ds ih =>
    have hdd := hd d (by simp)
    rw [spelled] at h
    by_cases hc : ds ≠ [] ∧ p ds.length
    · rw [if_pos hc, List.cons_append, List.cons_append, List.takeWhile_cons, if_pos hdd, List.takeWhile_cons, if_neg (by simp [hsep])] at h
      exact absurd (List.cons.inj h).2.symm hc.1
    · rw [if_neg hc, List.cons_append, List.takeWhile_cons, if_pos hdd] at h
      intro k h0 hk
      by_cases he : k = ds.length
      · subst he
        exact fun hp => hc ⟨by rintro rfl; simp at h0, hp⟩
      · exact ih (fun c hc => hd c (by simp [hc])) (List.cons.inj h).2 k h0 (by simp at hk; omega)

/-- Notations 'f', 's' and 'g': exactly when the text is the one of the "C" locale (`n` is the integer part, `fp` the fraction). -/
theorem C129_real_exact (L : Locale) (hd : L.thousands.isDigit = false) (A : Arith) (fuel : Nat) (radix : Char) (neg : Bool) (q : ℚ)
    (hq : 0 ≤ q) (fmt : Char) (hfmt : fmt = 'f' ∨ fmt = 's' ∨ fmt = 'g') (w sig : Nat) : ∃ n fp ex W, Ends n ex ∧
      textF A fuel radix (.fin neg q) fmt w sig =
        some (.ok (padRight ' ' W ((if neg then ['-'] else []) ++ (Nat.toDigits 10 n ++ pointed '.' fp ++ ex)))) ∧
      (L.textF A fuel radix (.fin neg q) fmt w sig = textF A fuel radix (.fin neg q) fmt w sig ↔
        (fp ≠ [] → L.point = '.') ∧ ∀ k, 0 < k → k < (Nat.toDigits 10 n).length → ¬ IsCut L.grouping k) := by
  obtain ⟨n, fp, ex, W, hex, h1, h2⟩ := C129_real_partial L A fuel radix neg q hq fmt hfmt w sig
  refine ⟨n, fp, ex, W, hex, h1, ?_⟩
  rw [h1, h2]
  constructor
  · intro h
    simp only [Option.some.injEq, Res.ok.injEq, padRight, List.append_assoc] at h
    have h' := List.append_cancel_left h
    have htw : ∀ t : Str, (pointed '.' fp ++ (ex ++ List.replicate t.length ' ')).takeWhile Char.isDigit = [] := by
      intro t
      unfold pointed
      split
      · rcases hex with rfl | ⟨_, x, rfl⟩
        · cases t <;> simp [List.replicate_succ, Char.isDigit]
        · simp [showExp]
      · simp
    have hno : ∀ k, 0 < k → k < (Nat.toDigits 10 n).length → ¬ IsCut L.grouping k := by
      have ht := congrArg (List.takeWhile Char.isDigit) h'
      rw [List.takeWhile_append_of_pos (l₁ := Nat.toDigits 10 n) (toDigits_isDigit n)] at ht
      have := htw (List.replicate (W - ((if neg = true then ['-'] else []) ++ (Nat.toDigits 10 n ++ (pointed '.' fp ++ ex))).length) ' ')
      rw [List.length_replicate] at this
      rw [this, List.append_nil] at ht
      exact spelled_takeWhile L.thousands hd _ _ _ (toDigits_isDigit n) ht
    refine ⟨fun hf => ?_, hno⟩
    rw [spelled_none _ _ hno] at h'
    have h'' := List.append_cancel_left h'
    rw [pointed, if_neg hf, pointed, if_neg hf] at h''
    exact (List.cons.inj h'').1
  · rintro ⟨hp, hc⟩
    rw [spelled_none _ _ hc]
    unfold pointed
    by_cases hf : fp = []
    · rw [if_pos hf, if_pos hf]
    · rw [if_neg hf, if_neg hf, hp hf]

/-- Notation 'e': the text is the one of the "C" locale if there are no separators in the three numbers it is made of. -/
theorem C129_engineering_partial (L : Locale) (A : Arith) (fuel : Nat) (radix : Char) (neg : Bool) (q : ℚ) (w sig : Nat)
    (h : ∀ m e r, q ≠ 0 → log1k A fuel q sig = some (m, e) → fractionate A fuel m sig = some (.ok r) →
      ∀ v ∈ [r.intPart, r.fracPart, e], ∀ k, 0 < k → k < (Nat.toDigits 10 v.natAbs).length → ¬ IsCut L.grouping k) :
    L.textF A fuel radix (.fin neg q) 'e' w sig = textF A fuel radix (.fin neg q) 'e' w sig := by
  have hshow : ∀ v : Int, (∀ k, 0 < k → k < (Nat.toDigits 10 v.natAbs).length → ¬ IsCut L.grouping k) → L.showInt v = SoDa.showInt v := by
    intro v hv
    cases v with
    | ofNat n => exact L.group_none _ hv
    | negSucc n => exact congrArg ('-' :: ·) (L.group_none _ hv)
  simp only [Locale.textF, textF, Char.reduceEq, if_false, if_true]
  by_cases h0 : q = 0
  · rw [if_pos h0, if_pos h0, hshow 0 (fun k h1 h2 => by simp at h2; omega)]
    rfl
  · rw [if_neg h0, if_neg h0]
    cases hl : log1k A fuel q sig with
    | none => rfl
    | some p =>
      obtain ⟨m, e⟩ := p
      simp only [Option.bind_some]
      cases hf : fractionate A fuel m sig with
      | none => rfl
      | some r =>
        cases r with
        | ub => rfl
        | throw x => rfl
        | ok r =>
          have hh := h m e r h0 hl hf
          simp only [Option.map_some, Res.bind, Locale.engText, engText]
          rw [hshow _ (hh r.intPart (by simp)), hshow _ (hh r.fracPart (by simp)), hshow _ (hh e (by simp)),
            hshow (-e) (by rw [Int.natAbs_neg]; exact hh e (by simp))]

/-- A separator where digits should stand. -/
theorem spelled_digits (sep : Char) (hsep : sep.isDigit = false) (p : Nat → Prop) (ds E t1 t2 : Str) (hE : ∀ c ∈ E, c.isDigit = true)
    (hl : ds.length ≤ E.length) (h : spelled sep p ds ++ t1 = E ++ t2) : ∀ k, 0 < k → k < ds.length → ¬ p k := by
  induction ds generalizing E with
  | nil => intro k _ hk; simp at hk
  | cons d ds ih =>
    cases E with
    | nil => simp at hl
    | cons e E =>
      rw [spelled] at h
      by_cases hc : ds ≠ [] ∧ p ds.length
      · rw [if_pos hc, List.cons_append, List.cons_append, List.cons_append] at h
        have h' := (List.cons.inj h).2
        cases E with
        | nil => have := List.length_pos_iff.2 hc.1; simp at hl; exact absurd hl hc.1
        | cons e' E =>
          have := (List.cons.inj h').1
          rw [this, hE e' (by simp)] at hsep
          exact absurd hsep (by decide)
      · rw [if_neg hc, List.cons_append, List.cons_append] at h
        intro k h0 hk
        by_cases he : k = ds.length
        · subst he
          exact fun hp => hc ⟨by rintro rfl; simp at h0, hp⟩
        · exact ih E (fun c hc => hE c (by simp [hc])) (by simpa using hl) (List.cons.inj h).2 k h0 (by simp at hk; omega)

/-- A number filled up with zeros in front, as in the fraction of notation 'e': the separators show. -/
theorem zeros_differ (L : Locale) (hd : L.thousands.isDigit = false) (w : Nat) (v : Int) (t1 t2 : Str)
    (h : padLeft '0' w (L.showInt v) ++ t1 = padLeft '0' w (SoDa.showInt v) ++ t2) :
    ∀ k, 0 < k → k < (Nat.toDigits 10 v.natAbs).length → ¬ IsCut L.grouping k := by
  have hz : ∀ n : Nat, ∀ c ∈ List.replicate n '0', c.isDigit = true := fun n c hc => by rw [(List.mem_replicate.1 hc).2]; decide
  have hlen : ∀ ds : Str, ds.length ≤ (L.group ds).length := fun ds => by
    rw [L.group_spelled]
    generalize IsCut L.grouping = p
    induction ds with
    | nil => simp
    | cons d ds ih => rw [spelled]; split <;> simp <;> omega
  simp only [padLeft, List.append_assoc] at h
  cases v with
  | ofNat n =>
    simp only [Locale.showInt, SoDa.showInt, Int.natAbs_natCast, Int.ofNat_eq_natCast] at h ⊢
    have hg := hlen (Nat.toDigits 10 n)
    have hs : List.replicate (w - (Nat.toDigits 10 n).length) '0' = List.replicate (w - (L.group (Nat.toDigits 10 n)).length) '0' ++
        List.replicate ((w - (Nat.toDigits 10 n).length) - (w - (L.group (Nat.toDigits 10 n)).length)) '0' := by
      rw [← List.replicate_add]
      congr 1
      omega
    rw [hs, List.append_assoc] at h
    have h' := List.append_cancel_left h
    rw [L.group_spelled, ← List.append_assoc] at h'
    refine spelled_digits _ hd _ _ _ _ _ (fun c hc => ?_) ?_ h'
    · rcases List.mem_append.1 hc with hc | hc
      · exact hz _ c hc
      · exact toDigits_isDigit n c hc
    · simp
  | negSucc n =>
    simp only [Locale.showInt, SoDa.showInt, Int.natAbs_negSucc, List.length_cons, List.cons_append] at h ⊢
    have hg := hlen (Nat.toDigits 10 (n + 1))
    by_cases he : w - ((L.group (Nat.toDigits 10 (n + 1))).length + 1) = w - ((Nat.toDigits 10 (n + 1)).length + 1)
    · rw [he] at h
      have h' := (List.cons.inj (List.append_cancel_left h)).2
      rw [L.group_spelled] at h'
      exact spelled_digits _ hd _ _ _ _ _ (toDigits_isDigit (n + 1)) le_rfl h'
    · obtain ⟨j, hj⟩ : ∃ j, w - ((Nat.toDigits 10 (n + 1)).length + 1) =
          w - ((L.group (Nat.toDigits 10 (n + 1))).length + 1) + (j + 1) := ⟨_, (by omega :
          w - ((Nat.toDigits 10 (n + 1)).length + 1) = w - ((L.group (Nat.toDigits 10 (n + 1))).length + 1) +
            ((w - ((Nat.toDigits 10 (n + 1)).length + 1) - (w - ((L.group (Nat.toDigits 10 (n + 1))).length + 1)) - 1) + 1))⟩
      rw [hj, List.replicate_add, List.append_assoc] at h
      have h' := List.append_cancel_left h
      rw [List.replicate_succ, List.cons_append] at h'
      exact absurd (List.cons.inj h').1 (by decide)

/-- Notation 'e': exactly when the text is the one of the "C" locale.  The fraction counts only if it is written. -/
theorem C129_engineering_exact (L : Locale) (hd : L.thousands.isDigit = false) (A : Arith) (fuel : Nat) (radix : Char) (neg : Bool)
    (q : ℚ) (w sig : Nat) :
    L.textF A fuel radix (.fin neg q) 'e' w sig = textF A fuel radix (.fin neg q) 'e' w sig ↔
      ∀ m e r, q ≠ 0 → log1k A fuel q sig = some (m, e) → fractionate A fuel m sig = some (.ok r) →
        ∀ v ∈ r.intPart :: e :: (if 0 < r.fracWid then [r.fracPart] else []),
          ∀ k, 0 < k → k < (Nat.toDigits 10 v.natAbs).length → ¬ IsCut L.grouping k := by
  have hshow : ∀ v : Int, (∀ k, 0 < k → k < (Nat.toDigits 10 v.natAbs).length → ¬ IsCut L.grouping k) → L.showInt v = SoDa.showInt v := by
    intro v hv
    cases v with
    | ofNat n => exact L.group_none _ hv
    | negSucc n => exact congrArg ('-' :: ·) (L.group_none _ hv)
  have hpad : ∀ (v : Int) (W : Nat) (t1 t2 : Str), padRight ' ' W (L.showInt v) ++ t1 = padRight ' ' W (SoDa.showInt v) ++ t2 →
      (∀ k, 0 < k → k < (Nat.toDigits 10 v.natAbs).length → ¬ IsCut L.grouping k) ∧ t1 = t2 := by
    intro v W t1 t2 h
    have hn := zeros_differ L hd 0 v (List.replicate (W - (L.showInt v).length) ' ' ++ t1)
      (List.replicate (W - (SoDa.showInt v).length) ' ' ++ t2) (by simpa [padLeft, padRight] using h)
    refine ⟨hn, ?_⟩
    rw [hshow v hn] at h
    exact List.append_cancel_left h
  simp only [Locale.textF, textF, Char.reduceEq, if_false, if_true]
  by_cases h0 : q = 0
  · rw [if_pos h0, if_pos h0, hshow 0 (fun k h1 h2 => by simp at h2; omega)]
    exact ⟨fun _ _ _ _ h => absurd h0 h, fun _ => rfl⟩
  · rw [if_neg h0, if_neg h0]
    cases hl : log1k A fuel q sig with
    | none => exact ⟨fun _ _ _ _ _ h => (by cases h), fun _ => rfl⟩
    | some p =>
      obtain ⟨m, e⟩ := p
      simp only [Option.bind_some]
      cases hf : fractionate A fuel m sig with
      | none =>
        refine ⟨fun _ m' e' r' _ h1 h2 => ?_, fun _ => rfl⟩
        cases h1
        rw [hf] at h2
        cases h2
      | some r =>
        cases r with
        | ub =>
          refine ⟨fun _ m' e' r' _ h1 h2 => ?_, fun _ => rfl⟩
          cases h1
          rw [hf] at h2
          cases h2
        | throw x => exact x.elim
        | ok r =>
          simp only [Option.map_some, Res.bind, Locale.engText, engText, Option.some.injEq, Res.ok.injEq]
          constructor
          · intro h m' e' r' _ h1 h2
            cases h1
            rw [hf] at h2
            cases h2
            simp only [List.append_assoc, List.cons_append, List.nil_append, List.cons.injEq, true_and] at h
            obtain ⟨a1, h⟩ := hpad _ _ _ _ h
            have a2 : (0 < r.fracWid → ∀ k, 0 < k → k < (Nat.toDigits 10 r.fracPart.natAbs).length → ¬ IsCut L.grouping k) ∧
                (∀ k, 0 < k → k < (Nat.toDigits 10 e.natAbs).length → ¬ IsCut L.grouping k) := by
              have he : ∀ t : Str, (if e < 0 then '-' :: padRight ' ' 2 (L.showInt (-e)) else '+' :: padRight ' ' 2 (L.showInt e)) ++ t =
                  (if e < 0 then '-' :: padRight ' ' 2 (SoDa.showInt (-e)) else '+' :: padRight ' ' 2 (SoDa.showInt e)) ++ t →
                  ∀ k, 0 < k → k < (Nat.toDigits 10 e.natAbs).length → ¬ IsCut L.grouping k := by
                intro t h
                by_cases hn : e < 0
                · rw [if_pos hn, if_pos hn] at h
                  have := (hpad (-e) 2 t t (List.cons.inj h).2).1
                  rwa [Int.natAbs_neg] at this
                · rw [if_neg hn, if_neg hn] at h
                  exact (hpad e 2 t t (List.cons.inj h).2).1
              by_cases hw : 0 < r.fracWid
              · rw [if_pos hw, if_pos hw] at h
                have h' := (List.cons.inj h).2
                have hz := zeros_differ L hd _ _ _ _ h'
                rw [hshow _ hz] at h'
                exact ⟨fun _ => hz, he _ (List.cons.inj (List.append_cancel_left h')).2⟩
              · rw [if_neg hw, if_neg hw] at h
                exact ⟨fun h => absurd h hw, he _ (List.cons.inj h).2⟩
            intro v hv
            simp only [List.mem_cons] at hv
            rcases hv with rfl | rfl | hv
            · exact a1
            · exact a2.2
            · split at hv
              · rename_i hw
                rw [List.mem_singleton] at hv
                subst hv
                exact a2.1 hw
              · cases hv
          · intro h
            have hh := h m e r h0 rfl hf
            have hfr : (if 0 < r.fracWid then '.' :: padLeft '0' r.fracWid (L.showInt r.fracPart) else []) =
                (if 0 < r.fracWid then '.' :: padLeft '0' r.fracWid (SoDa.showInt r.fracPart) else []) := by
              by_cases hw : 0 < r.fracWid
              · rw [hshow _ (hh r.fracPart (by simp [hw]))]
              · rw [if_neg hw, if_neg hw]
            rw [hfr, hshow _ (hh r.intPart (by simp)), hshow _ (hh e (by simp)),
              hshow (-e) (by rw [Int.natAbs_neg]; exact hh e (by simp))]

/-! ### Examples -/

/-- Groups of three with commas, as in many English locales. -/
def english : Locale := ⟨',', '.', [3]⟩

/-- Groups of three with points, and a decimal comma. -/
def german : Locale := ⟨'.', ',', [3]⟩

/-- Groups of three and then of two. -/
def indian : Locale := ⟨',', '.', [3, 2]⟩

/-- `addI(-1234567)`; `addI(1234567)` with groups of two; a width; a separator of `addI` and one of the locale; `addU` in base 16 and 8;
a field number; numbers with a decimal comma, and one in notation 'e', whose fraction gets separators. -/
theorem C129_refuted : ¬ C129_claim ∧
    english.textI (-1234567) 0 nul nul = "-1,234,567".toList ∧
    indian.textI 1234567 0 nul nul = "12,34,567".toList ∧
    english.textI 1234 7 nul '0' = "001,234".toList ∧
    english.textI 1234 0 '_' nul = "1,_234".toList ∧
    english.textU 4660 'x' 0 nul 4 = "0x1,234".toList ∧
    english.textU 668 'o' 0 nul 4 = "01,234".toList ∧
    (english.assemble (initialScan "%1000".toList)).1 = "%1,000".toList ∧
    german.textF exactArith 100 '.' (.fin false (5/2)) 'f' 0 1 = some (.ok "2,5  ".toList) ∧
    german.textF exactArith 100 '.' (.fin true 1234567) 'f' 0 1 = some (.ok "-1.234.567,0".toList) ∧
    german.textF exactArith 100 '.' (.fin false (1234567/1000000)) 'e' 0 7 = some (.ok " 1.234.567e+0 ".toList) := by
  have a1 : english.textI (-1234567) 0 nul nul = "-1,234,567".toList := by decide +kernel
  refine ⟨fun h => ?_, a1, by decide +kernel, by decide +kernel, by decide +kernel, by decide +kernel, by decide +kernel,
    by decide +kernel, by decide +kernel, by decide +kernel, by decide +kernel⟩
  have h1 := (h english).1 (-1234567) 0 nul nul
  rw [a1] at h1
  revert h1
  decide +kernel

/-- The hypothesis of `C129_engineering_partial` holds for 2.5 with two digits. -/
example : english.textF exactArith 100 '.' (.fin false (5/2)) 'e' 9 2 = textF exactArith 100 '.' (.fin false (5/2)) 'e' 9 2 := by
  refine C129_engineering_partial english exactArith 100 '.' false (5/2) 9 2 fun m e r _ h1 h2 v hv k h0 hk => ?_
  have hl : (v.natAbs < 10 : Prop) := by
    have e1 : (log1k exactArith 100 (5/2) 2).map (fun p => (decide (p.2.natAbs < 10), (fractionate exactArith 100 p.1 2).map fun r =>
        match r with
        | .ok r => decide (r.intPart.natAbs < 10) && decide (r.fracPart.natAbs < 10)
        | _ => false)) = some (true, some true) := by decide +kernel
    rw [h1] at e1
    simp only [Option.map_some, Option.some.injEq, Prod.mk.injEq, decide_eq_true_eq, h2, Bool.and_eq_true] at e1
    simp only [List.mem_cons, List.not_mem_nil, or_false] at hv
    rcases hv with rfl | rfl | rfl
    · exact e1.2.1
    · exact e1.2.2
    · exact e1.1
  rw [Nat.toDigits_of_lt_base hl] at hk
  simp at hk
  omega

/-- The hypothesis of the exact statement is not always met: 1.234567 with seven digits, where the fraction gets separators, and 1.2 with
two, where nothing does. -/
example : english.textF exactArith 100 '.' (.fin false (1234567/1000000)) 'e' 0 7 ≠ textF exactArith 100 '.' (.fin false (1234567/1000000)) 'e' 0 7 ∧
    english.textF exactArith 100 '.' (.fin false (6/5)) 'e' 0 2 = textF exactArith 100 '.' (.fin false (6/5)) 'e' 0 2 := by
  constructor <;> decide +kernel

end SoDa
