import Verif.Props.PropertyLocale
/-!
Property C130, continued: numbers with a decimal point '.' as values of floating point options, in a program that has set another global
locale.
-/
namespace SoDa
open Spec Opts

variable {V : Type}

theorem read_of_get {A : Type} (T : Prop.Ty A) (s : Str) (x : Option A) (h : (Prop.Ref.root (leaf s)).get T false = .ok x) :
    T.read s = x := by
  have hv : (Prop.Ref.root (leaf s)).node.val = s := rfl
  unfold Prop.Ref.get at h
  rw [hv] at h
  cases hq : T.read s with
  | none => rw [hq] at h; simpa using h
  | some y => rw [hq] at h; simpa using h

theorem read_realIn (L : Locale) (rnd : ℚ → Option ℚ) (big : ℚ) (inj : Dbl → V) (s : Str) :
    (L.realTy rnd big inj).read s = ((Prop.realIn L [] rnd).read s).map inj := by
  simp only [Locale.realTy, Prop.realIn]
  split <;> simp_all

/-- A locale whose point is not '.' and that does not separate digits by '.': `-f 2.5e6` is accepted as 2, `-f .5` is refused. -/
theorem C130_point_ends {L : Locale} (h : Distinct L) (hpt : L.point ≠ '.') (hth : L.useGrouping = false ∨ L.thousands ≠ '.')
    (rnd : ℚ → Option ℚ) (big : ℚ) (inj : Dbl → V) (o : Options V) (ho : Ready o) (sw : Str) (i : Nat)
    (d : Decl V) (hd : Denotes o.decls sw i d) (hh : ¬ HelpSwitch sw) (hk : d.kind = .scalar)
    (hr : d.read = (L.realTy rnd big inj).read) (hsg : d.isSigned = true) (hte : ∀ v, d.test v = true)
    (s ip fp : Str) (neg : Bool) (q : ℚ) (hy : YamlFloat s ip fp neg q) (hp : '.' ∈ s) :
    (∀ m x, numeral 10 ip = some m → rnd m = some x → ∃ o', o.parse [sw, s] = (o', true) ∧ o'.sc d.target = inj (.fin neg x)) ∧
    (ip = [] → (o.parse [sw, s]).2 = false) := by
  have key := Prop.C145_point_ends h hpt hth (Prop.Ref.root (leaf s)) false [] rnd ip fp neg q hy hp
  constructor
  · intro m x hm hx
    refine C33_signed_scalar_partial o ho sw _ i d _ hd hh hk hsg ⟨?_, hte _⟩
    rw [hr, read_realIn, read_of_get _ _ _ (key.1 m x hm hx)]
    rfl
  · intro hip
    refine parse_pair_rejected o ho hd hh (by simp [hk]) (.inl (.inl hsg)) ?_
    rintro v ⟨ha, -⟩
    rw [hr, read_realIn, read_of_get _ _ _ (key.2 hip)] at ha
    cases ha

/-- A locale that separates digits by '.': `-f 3.14` is refused; `-f 144.200` is accepted as 144200. -/
theorem C130_point_separates {L : Locale} (h : Distinct L) (hth : L.thousands = '.') (g : Nat) (gs : List Nat)
    (hg : L.grouping = g :: gs) (hg0 : 0 < g ∧ g < 127)
    (rnd : ℚ → Option ℚ) (big : ℚ) (inj : Dbl → V) (o : Options V) (ho : Ready o) (sw : Str) (i : Nat)
    (d : Decl V) (hd : Denotes o.decls sw i d) (hh : ¬ HelpSwitch sw) (hk : d.kind = .scalar)
    (hr : d.read = (L.realTy rnd big inj).read) (hsg : d.isSigned = true) (hte : ∀ v, d.test v = true)
    (s ip fp : Str) (neg : Bool) (q : ℚ) (hy : YamlFloat s ip fp neg q) (hp : '.' ∈ s) :
    (∀ x, ip ≠ [] → fp.length = g → (limited (gs.headD g) = true → ip.length ≤ gs.headD g) → rnd (q * 10 ^ g) = some x →
      ∃ o', o.parse [sw, s] = (o', true) ∧ o'.sc d.target = inj (.fin neg x)) ∧
    (¬ (ip ≠ [] ∧ fp.length = g ∧ (limited (gs.headD g) = true → ip.length ≤ gs.headD g)) → (o.parse [sw, s]).2 = false) := by
  have key := Prop.C145_point_separates h hth g gs hg hg0 (Prop.Ref.root (leaf s)) false [] rnd ip fp neg q hy hp
  constructor
  · intro x h1 h2 h3 hx
    refine C33_signed_scalar_partial o ho sw _ i d _ hd hh hk hsg ⟨?_, hte _⟩
    rw [hr, read_realIn, read_of_get _ _ _ (key.1 x h1 h2 h3 hx)]
    rfl
  · intro hno
    refine parse_pair_rejected o ho hd hh (by simp [hk]) (.inl (.inl hsg)) ?_
    rintro v ⟨ha, -⟩
    rw [hr, read_realIn, read_of_get _ _ _ (key.2 hno)] at ha
    cases ha

/-- `-g 144.200e1` is accepted as 1442000, `-g 1.5` is refused. -/
example : (∃ o', germanSample.parse ["-g".toList, "144.200e1".toList] = (o', true) ∧ o'.sc 0 = .fin false 1442000) ∧
    (germanSample.parse ["-g".toList, "1.5".toList]).2 = false := by
  have h := C130_point_separates plain_german rfl 3 [] rfl (by decide) some 0 id germanSample germanSample_ready "-g".toList 0 germanSample.decls[0]
    (.short (c := 'g') (r := []) (by decide) (isLast_of_findAb germanSample_ready.wf (by decide) rfl)) (not_help (by decide) (by decide))
    rfl rfl rfl (fun _ => rfl)
  have e3 : "200".toList.length = 3 := by decide
  have e1 : "5".toList.length = 1 := by decide
  constructor
  · exact (h "144.200e1".toList "144".toList "200".toList false 1442
      ⟨[], ".200".toList, "e1".toList, 144200, 1, by decide, by decide, by decide, by decide, by decide +kernel,
        .inl ⟨'e', [], "1".toList, 1, by decide, by decide, by decide, by decide +kernel, by decide⟩, by rw [e3]; norm_num⟩ (by decide)).1 1442000
      (by decide) e3 (by decide) (by norm_num)
  · refine (h "1.5".toList "1".toList "5".toList false (3 / 2)
      ⟨[], ".5".toList, [], 15, 0, by decide, by decide, by decide, by decide, by decide +kernel, .inr ⟨rfl, rfl⟩, by rw [e1]; norm_num⟩
      (by decide)).2 fun hh => ?_
    have := hh.2.1
    rw [e1] at this
    cases this

end SoDa
