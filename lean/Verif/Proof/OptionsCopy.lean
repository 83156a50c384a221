import Verif.Spec.OptionsCopy
import Verif.Proof.StdMap
import Mathlib.Data.List.Forall2
import Mathlib.Data.List.Induction
/-!
Two `Options` states that cannot be told apart (`Agree`), and what a call leaves alone (`Frame`).
-/
namespace SoDa.Opts

variable {V : Type}

/-! ### Agreement -/

/-- Corresponding entries of two tables. -/
def SameTable {K : Type} (ρ : Nat → Nat → Prop) (m1 m2 : List (K × Nat)) : Prop :=
  List.Forall₂ (fun x y => x.1 = y.1 ∧ ρ x.2 y.2) m1 m2

/-- The states differ at most in the numbering of the option objects (`ρ`), in the `present` flags
outside `pr`, in the target variables outside `A` and in what was written to `std::cerr`. -/
structure Agree (pr : Nat → Prop) (A : Nat → Prop) (ρ : Nat → Nat → Prop) (o1 o2 : Options V) : Prop where
  long : SameTable ρ o1.longMap o2.longMap
  ab : SameTable ρ o1.abMap o2.abMap
  info : o1.info = o2.info
  pos : o1.pos = o2.pos
  isKvp : o1.isKvp = o2.isKvp
  waiting : o1.waiting = o2.waiting
  decl : ∀ p q, ρ p q → ∃ d, o1.decls[p]? = some d ∧ o2.decls[q]? = some d
  inj : ∀ p q p' q', ρ p q → ρ p' q' → (p = p' ↔ q = q')
  pres : ∀ p q, ρ p q → pr q → o1.pres p = o2.pres q
  presLe : ∀ p q, ρ p q → o1.pres p = true → o2.pres q = true
  sc : ∀ a, A a → o1.sc a = o2.sc a
  vec : ∀ a, A a → o1.vec a = o2.vec a

variable {pr : Nat → Prop} {A : Nat → Prop} {ρ : Nat → Nat → Prop} {o1 o2 : Options V}

theorem SameTable.find {K : Type} {less : K → K → Bool} {m1 m2 : List (K × Nat)}
    (h : SameTable ρ m1 m2) (k : K) :
    (mapFind less k m1 = none ∧ mapFind less k m2 = none) ∨
    ∃ p q, ρ p q ∧ mapFind less k m1 = some p ∧ mapFind less k m2 = some q := by
  unfold SameTable at h
  induction h with
  | nil => left; exact ⟨rfl, rfl⟩
  | @cons x y l1 l2 hxy hl ih =>
    obtain ⟨a, p⟩ := x
    obtain ⟨b, q⟩ := y
    obtain ⟨rfl, hr⟩ := hxy
    simp only [mapFind]
    split
    · right; exact ⟨p, q, hr, rfl, rfl⟩
    · exact ih

theorem SameTable.set {K : Type} {less : K → K → Bool} {m1 m2 : List (K × Nat)}
    (h : SameTable ρ m1 m2) (k : K) {p q : Nat} (hpq : ρ p q) :
    SameTable ρ (mapSet less k p m1) (mapSet less k q m2) := by
  unfold SameTable at h ⊢
  induction h with
  | nil => exact .cons ⟨rfl, hpq⟩ .nil
  | @cons x y l1 l2 hxy hl ih =>
    obtain ⟨a, p'⟩ := x
    obtain ⟨b, q'⟩ := y
    obtain ⟨rfl, hr⟩ := hxy
    simp only [mapSet]
    split
    · exact .cons ⟨rfl, hpq⟩ (.cons ⟨rfl, hr⟩ hl)
    · split
      · exact .cons ⟨rfl, hr⟩ ih
      · exact .cons ⟨rfl, hpq⟩ hl

theorem SameTable.mono {K : Type} {ρ' : Nat → Nat → Prop} (hρ : ∀ p q, ρ p q → ρ' p q)
    {m1 m2 : List (K × Nat)} (h : SameTable ρ m1 m2) : SameTable ρ' m1 m2 :=
  List.Forall₂.imp (fun _ _ h => ⟨h.1, hρ _ _ h.2⟩) h

theorem Agree.setPresent (h : Agree pr A ρ o1 o2) {p q : Nat} (hpq : ρ p q) (d : Decl V) :
    Agree pr A ρ (o1.setPresent p d) (o2.setPresent q d) := by
  refine { h with pres := ?_, presLe := ?_, sc := ?_ }
  · intro p' q' h' hp
    have h1 := h.inj _ _ _ _ h' hpq
    simp only [Options.setPresent, update]
    by_cases hq : q' = q
    · rw [if_pos hq, if_pos (h1.2 hq)]
    · rw [if_neg hq, if_neg (fun e => hq (h1.1 e))]; exact h.pres _ _ h' hp
  · intro p' q' h'
    have h1 := h.inj _ _ _ _ h' hpq
    simp only [Options.setPresent, update]
    by_cases hq : q' = q
    · rw [if_pos hq]; simp
    · rw [if_neg hq, if_neg (fun e => hq (h1.1 e))]; exact h.presLe _ _ h'
  · intro a ha
    simp only [Options.setPresent]
    split
    · simp only [update]; split
      · rfl
      · exact h.sc a ha
    · exact h.sc a ha

theorem Agree.setVal (h : Agree pr A ρ o1 o2) {p q : Nat} (hpq : ρ p q) (d : Decl V) (t : Str) :
    (o1.setVal p d t).2 = (o2.setVal q d t).2 ∧
      Agree pr A ρ (o1.setVal p d t).1 (o2.setVal q d t).1 := by
  have hsc : ∀ f1 f2 : V, (A d.target → f1 = f2) →
      Agree pr A ρ { o1 with sc := update o1.sc d.target f1 }
        { o2 with sc := update o2.sc d.target f2 } := by
    intro f1 f2 hf
    refine { h with sc := ?_ }
    intro a ha
    simp only [update]
    split
    · next e => subst e; exact hf ha
    · exact h.sc a ha
  unfold Options.setVal
  cases d.kind with
  | presence => exact ⟨rfl, h.setPresent hpq d⟩
  | scalar =>
    cases d.read t with
    | none => exact ⟨rfl, hsc _ _ fun ha => by rw [h.sc _ ha]⟩
    | some v =>
      simp only
      split
      · exact ⟨rfl, hsc v v fun _ => rfl⟩
      · exact ⟨rfl, (hsc v v fun _ => rfl).setPresent hpq d⟩
  | vector =>
    cases d.read t with
    | none => exact ⟨rfl, h⟩
    | some v =>
      simp only
      split
      · exact ⟨rfl, h⟩
      · refine ⟨rfl, { h with pres := ?_, presLe := ?_, vec := ?_ }⟩
        · exact (h.setPresent hpq d).pres
        · exact (h.setPresent hpq d).presLe
        · intro a ha
          simp only [update]
          split
          · next e => subst e; rw [h.vec _ ha]
          · exact h.vec a ha

theorem Agree.withWaiting (h : Agree pr A ρ o1 o2) (b : Bool) :
    Agree pr A ρ { o1 with waiting := b } { o2 with waiting := b } := { h with waiting := rfl }

theorem Agree.withCerr (h : Agree pr A ρ o1 o2) (l1 l2 : List Diag) :
    Agree pr A ρ { o1 with cerr := l1 } { o2 with cerr := l2 } := { h with }

theorem Agree.withPos (h : Agree pr A ρ o1 o2) (t : Str) :
    Agree pr A ρ { o1 with pos := o1.pos ++ [t] } { o2 with pos := o2.pos ++ [t] } :=
  { h with pos := by simp [h.pos] }

/-- The same new messages. -/
def SameNews (c1 c1' c2 c2' : List Diag) : Prop := ∃ ds, c1' = c1 ++ ds ∧ c2' = c2 ++ ds

/-- The option looked up by the two states. -/
theorem Agree.found (h : Agree pr A ρ o1 o2) {f1 f2 : Option Nat}
    (hf : (f1 = none ∧ f2 = none) ∨ ∃ p q, ρ p q ∧ f1 = some p ∧ f2 = some q) :
    ((f1.bind fun p => (o1.decls[p]?).map fun d => (p, d)) = none ∧
      (f2.bind fun p => (o2.decls[p]?).map fun d => (p, d)) = none) ∨
    ∃ p q d, ρ p q ∧ (f1.bind fun p => (o1.decls[p]?).map fun d => (p, d)) = some (p, d) ∧
      (f2.bind fun p => (o2.decls[p]?).map fun d => (p, d)) = some (q, d) := by
  rcases hf with ⟨rfl, rfl⟩ | ⟨p, q, hpq, rfl, rfl⟩
  · left; exact ⟨rfl, rfl⟩
  · obtain ⟨d, h1, h2⟩ := h.decl p q hpq
    right; exact ⟨p, q, d, hpq, by simp [h1], by simp [h2]⟩

theorem setPresent_cerr (o : Options V) (p : Nat) (d : Decl V) : (o.setPresent p d).cerr = o.cerr := rfl

theorem setVal_cerr (o : Options V) (p : Nat) (d : Decl V) (t : Str) :
    (o.setVal p d t).1.cerr = o.cerr := by
  unfold Options.setVal
  cases d.kind <;> simp only [setPresent_cerr]
  all_goals
    cases d.read t with
    | none => rfl
    | some v => simp only; split <;> rfl

theorem Agree.parseLoop (ts : List Str) : ∀ {o1 o2 : Options V} {a1 a2 : Option (Nat × Decl V)},
    Agree pr A ρ o1 o2 →
    ((a1 = none ∧ a2 = none) ∨ ∃ p q d, ρ p q ∧ a1 = some (p, d) ∧ a2 = some (q, d)) →
    (o1.parseLoop a1 ts).2 = (o2.parseLoop a2 ts).2 ∧
      Agree pr A ρ (o1.parseLoop a1 ts).1 (o2.parseLoop a2 ts).1 ∧
      SameNews o1.cerr (o1.parseLoop a1 ts).1.cerr o2.cerr (o2.parseLoop a2 ts).1.cerr := by
  induction ts with
  | nil => intro o1 o2 a1 a2 h _; exact ⟨rfl, h, [], by simp [Options.parseLoop], by simp [Options.parseLoop]⟩
  | cons t ts ih =>
    intro o1 o2 a1 a2 h ha
    -- what follows once a switch is recognised
    have switch : ∀ {o1 o2 : Options V} (n : Nat), Agree pr A ρ o1 o2 →
        let r := fun o : Options V =>
          if n = 1 ∧ t[1]? = some 'h' then ({ o with cerr := o.cerr ++ [.help] }, false)
          else if n ≠ 1 ∧ t = "--help".toList then ({ o with cerr := o.cerr ++ [.help] }, false)
          else
            let found := if n = 1 then (t[1]?).bind o.findAb else o.findLong (t.drop 2)
            match found.bind fun p => (o.decls[p]?).map fun d => (p, d) with
            | none => ({ o with cerr := o.cerr ++ [.badName t, .help] }, false)
            | some (p, d) =>
              let o := if d.isSigned then { o with waiting := true } else o
              if d.kind = .presence then Options.parseLoop (o.setPresent p d) none ts
              else Options.parseLoop o (some (p, d)) ts
        (r o1).2 = (r o2).2 ∧ Agree pr A ρ (r o1).1 (r o2).1 ∧
          SameNews o1.cerr (r o1).1.cerr o2.cerr (r o2).1.cerr := by
      intro o1 o2 n h
      simp only
      split
      · exact ⟨rfl, h.withCerr _ _, _, rfl, rfl⟩
      · split
        · exact ⟨rfl, h.withCerr _ _, _, rfl, rfl⟩
        · have hf : ((if n = 1 then (t[1]?).bind o1.findAb else o1.findLong (t.drop 2)) = none ∧
              (if n = 1 then (t[1]?).bind o2.findAb else o2.findLong (t.drop 2)) = none) ∨
              ∃ p q, ρ p q ∧
                (if n = 1 then (t[1]?).bind o1.findAb else o1.findLong (t.drop 2)) = some p ∧
                (if n = 1 then (t[1]?).bind o2.findAb else o2.findLong (t.drop 2)) = some q := by
            split
            · cases t[1]? with
              | none => left; exact ⟨rfl, rfl⟩
              | some c => exact h.ab.find c
            · exact h.long.find _
          rcases h.found hf with ⟨e1, e2⟩ | ⟨p, q, d, hpq, e1, e2⟩
          · rw [e1, e2]; exact ⟨rfl, h.withCerr _ _, _, rfl, rfl⟩
          · rw [e1, e2]
            simp only
            by_cases hs : d.isSigned = true
            · rw [if_pos hs, if_pos hs]
              split
              · have := ih ((h.withWaiting true).setPresent hpq d) (.inl ⟨rfl, rfl⟩)
                exact this
              · have := ih (h.withWaiting true) (.inr ⟨p, q, d, hpq, rfl, rfl⟩)
                exact this
            · rw [if_neg hs, if_neg hs]
              split
              · have := ih (h.setPresent hpq d) (.inl ⟨rfl, rfl⟩)
                exact this
              · exact ih h (.inr ⟨p, q, d, hpq, rfl, rfl⟩)
    rcases ha with ⟨rfl, rfl⟩ | ⟨p, q, d, hpq, rfl, rfl⟩
    · simp only [Options.parseLoop]
      rw [show Options.isSwitch o2.waiting t = Options.isSwitch o1.waiting t by rw [h.waiting]]
      by_cases h0 : Options.isSwitch o1.waiting t = 0
      · rw [if_pos h0, if_pos h0]
        exact ih (h.withPos t) (.inl ⟨rfl, rfl⟩)
      · rw [if_neg h0, if_neg h0]
        exact switch _ h
    · simp only [Options.parseLoop]
      rw [show Options.isSwitch o2.waiting t = Options.isSwitch o1.waiting t by rw [h.waiting]]
      by_cases h0 : (if d.hasDefault = true then Options.isSwitch o1.waiting t else 0) = 0
      · rw [if_pos h0, if_pos h0]
        have hv := h.setVal hpq d t
        have c1 := setVal_cerr o1 p d t
        have c2 := setVal_cerr o2 q d t
        generalize o1.setVal p d t = r1 at hv c1 ⊢
        generalize o2.setVal q d t = r2 at hv c2 ⊢
        obtain ⟨r1, b1⟩ := r1
        obtain ⟨r2, b2⟩ := r2
        simp only at hv c1 c2 ⊢
        obtain ⟨rfl, hv⟩ := hv
        cases b1 with
        | true =>
          simp only
          have := ih (hv.withWaiting false) (.inl ⟨rfl, rfl⟩)
          rw [← c1, ← c2]
          exact this
        | false =>
          exact ⟨rfl, hv.withCerr _ _, [.badValue d.long t d.err], congrArg (· ++ _) c1,
            congrArg (· ++ _) c2⟩
      · rw [if_neg h0, if_neg h0]
        have := switch (if d.hasDefault = true then Options.isSwitch o1.waiting t else 0)
          ((h.setPresent hpq d).withWaiting d.isSigned)
        exact this

/-- Registering an option adds its number to the correspondence. -/
def grow (ρ : Nat → Nat → Prop) (a b : Nat) : Nat → Nat → Prop := fun p q => ρ p q ∨ (p = a ∧ q = b)

theorem Agree.registerOpt (h : Agree pr A ρ o1 o2) (d : Decl V) :
    Agree pr A (grow ρ o1.decls.length o2.decls.length) (o1.registerOpt d) (o2.registerOpt d) := by
  have hlt : ∀ p q, ρ p q → p < o1.decls.length ∧ q < o2.decls.length := by
    intro p q hpq
    obtain ⟨d, h1, h2⟩ := h.decl p q hpq
    exact ⟨(List.getElem?_eq_some_iff.1 h1).1, (List.getElem?_eq_some_iff.1 h2).1⟩
  refine { h with long := ?_, ab := ?_, decl := ?_, inj := ?_, pres := ?_, presLe := ?_ }
  · exact SameTable.set (h.long.mono fun _ _ => .inl) _ (.inr ⟨rfl, rfl⟩)
  · exact SameTable.set (h.ab.mono fun _ _ => .inl) _ (.inr ⟨rfl, rfl⟩)
  · rintro p q (hpq | ⟨rfl, rfl⟩)
    · obtain ⟨e, h1, h2⟩ := h.decl p q hpq
      obtain ⟨l1, l2⟩ := hlt p q hpq
      refine ⟨e, ?_, ?_⟩
      · simp only [Options.registerOpt]; rw [List.getElem?_append_left l1]; exact h1
      · simp only [Options.registerOpt]; rw [List.getElem?_append_left l2]; exact h2
    · exact ⟨d, by simp [Options.registerOpt], by simp [Options.registerOpt]⟩
  · rintro p q p' q' (hpq | ⟨rfl, rfl⟩) (hpq' | ⟨rfl, rfl⟩)
    · exact h.inj _ _ _ _ hpq hpq'
    · have := hlt p q hpq; omega
    · have := hlt _ _ hpq'; omega
    · simp
  · rintro p q (hpq | ⟨rfl, rfl⟩) hp
    · have := hlt p q hpq
      simp only [Options.registerOpt, update]
      rw [if_neg (show p ≠ o1.decls.length by omega), if_neg (show q ≠ o2.decls.length by omega)]
      exact h.pres _ _ hpq hp
    · simp [Options.registerOpt, update]
  · rintro p q (hpq | ⟨rfl, rfl⟩)
    · have := hlt p q hpq
      simp only [Options.registerOpt, update]
      rw [if_neg (show p ≠ o1.decls.length by omega), if_neg (show q ≠ o2.decls.length by omega)]
      exact h.presLe _ _ hpq
    · simp [Options.registerOpt, update]

theorem Agree.withSc (h : Agree pr A ρ o1 o2) (a : Nat) (v : V) :
    Agree pr A ρ { o1 with sc := update o1.sc a v } { o2 with sc := update o2.sc a v } := by
  refine { h with sc := ?_ }
  intro b hb
  simp only [update]
  split
  · rfl
  · exact h.sc b hb

/-- `ρ'` has the pairs of `ρ`, and else at most pairs with the new option object `n`. -/
def Extends (ρ ρ' : Nat → Nat → Prop) (n : Nat) : Prop :=
  (∀ p q, ρ p q → ρ' p q) ∧ ∀ p q, ρ' p q → ρ p q ∨ q = n

theorem Extends.refl (ρ : Nat → Nat → Prop) (n : Nat) : Extends ρ ρ n := ⟨fun _ _ => id, fun _ _ => .inl⟩

theorem Extends.grow (ρ : Nat → Nat → Prop) (p q : Nat) : Extends ρ (grow ρ p q) q :=
  ⟨fun _ _ => .inl, fun _ _ h => h.imp id (·.2)⟩

/-- The answers to one call agree, and so do the states after it. -/
def SameAnswer (pr : Nat → Prop) (A : Nat → Prop) (ρ : Nat → Nat → Prop) (o1 o2 : Options V)
    (r1 r2 : Res Empty (Options V × Bool)) : Prop :=
  (r1 = .ub ∧ r2 = .ub) ∨ ∃ o1' o2' b ρ', r1 = .ok (o1', b) ∧ r2 = .ok (o2', b) ∧
    Agree pr A ρ' o1' o2' ∧ Extends ρ ρ' o2.decls.length ∧ SameNews o1.cerr o1'.cerr o2.cerr o2'.cerr

theorem Agree.parse (h : Agree pr A ρ o1 o2) (ts : List Str) :
    SameAnswer pr A ρ o1 o2 (.ok (o1.parse ts)) (.ok (o2.parse ts)) := by
  obtain ⟨h1, h2, h3⟩ := Agree.parseLoop ts h (.inl ⟨rfl, rfl⟩)
  right
  refine ⟨(o1.parse ts).1, (o2.parse ts).1, (o1.parse ts).2, ρ, rfl, ?_, h2, .refl _ _, h3⟩
  have : (o1.parse ts).2 = (o2.parse ts).2 := h1
  rw [this]

theorem Agree.parseKeyValueList (h : Agree pr A ρ o1 o2) (l : List Str) :
    SameAnswer pr A ρ o1 o2 (o1.parseKeyValueList l) (o2.parseKeyValueList l) := by
  unfold Options.parseKeyValueList
  cases Options.kvTokens l with
  | ub => left; exact ⟨rfl, rfl⟩
  | throw e => exact nomatch e
  | ok ts => exact h.parse ts

theorem Agree.silent (h : Agree pr A ρ o1 o2) (b : Bool) :
    SameAnswer pr A ρ o1 o2 (.ok (o1, b)) (.ok (o2, b)) :=
  .inr ⟨o1, o2, b, ρ, rfl, rfl, h, .refl _ _, [], by simp, by simp⟩

theorem Agree.parseKeyValue (h : Agree pr A ρ o1 o2) (s : Str) :
    SameAnswer pr A ρ o1 o2 (o1.parseKeyValue s) (o2.parseKeyValue s) := by
  unfold Options.parseKeyValue
  split
  · exact h.silent false
  · cases split s "=".toList with
    | _ =>
      cases SoDa.split s ",".toList with
      | ub => left; exact ⟨rfl, rfl⟩
      | throw e => exact nomatch e
      | ok l =>
        simp only [Res.bind]
        split
        · exact h.silent false
        · exact h.parseKeyValueList l

theorem Agree.run (h : Agree pr A ρ o1 o2) (c : OptCall V) :
    SameAnswer pr A ρ o1 o2 (c.run o1) (c.run o2) := by
  cases c with
  | addInfo s =>
    exact .inr ⟨_, _, true, ρ, rfl, rfl, { h with info := by simp [Options.addInfo, h.info] },
      .refl _ _, [],
      by simp [Options.addInfo], by simp [Options.addInfo]⟩
  | addDef T val long ab dv doc test err =>
    exact .inr ⟨_, _, true, _, rfl, rfl, (h.withSc val dv).registerOpt _, .grow _ _ _, [],
      by simp [Options.addDef, Options.registerOpt], by simp [Options.addDef, Options.registerOpt]⟩
  | add T val long ab doc test err =>
    exact .inr ⟨_, _, true, _, rfl, rfl, (h.withSc val T.zero).registerOpt _, .grow _ _ _, [],
      by simp [Options.add, Options.registerOpt], by simp [Options.add, Options.registerOpt]⟩
  | addP ff tt val long ab doc =>
    exact .inr ⟨_, _, true, _, rfl, rfl, (h.withSc val ff).registerOpt _, .grow _ _ _, [],
      by simp [Options.addP, Options.registerOpt], by simp [Options.addP, Options.registerOpt]⟩
  | addV T val long ab doc test err =>
    exact .inr ⟨_, _, true, _, rfl, rfl, h.registerOpt _, .grow _ _ _, [],
      by simp [Options.addV, Options.registerOpt], by simp [Options.addV, Options.registerOpt]⟩
  | parse ts => exact h.parse ts
  | parseArgv a =>
    simp only [OptCall.run, Options.parseArgv, h.isKvp]
    split
    · exact h.parseKeyValueList _
    · exact h.parse _
  | parseString s =>
    simp only [OptCall.run, Options.parseString, h.isKvp]
    split
    · exact h.parseKeyValue _
    · exact h.parse _
  | parseKeyValue s => exact h.parseKeyValue s
  | parseKeyValueList l => exact h.parseKeyValueList l

theorem Agree.isPresent (h : Agree pr A ρ o1 o2) (hp : ∀ q, pr q) (n : Str) :
    o1.isPresent n = o2.isPresent n := by
  unfold Options.isPresent Options.findLong
  rcases h.long.find (less := strLess) n with ⟨e1, e2⟩ | ⟨p, q, hpq, e1, e2⟩
  · rw [e1, e2]
  · rw [e1, e2]; exact h.pres p q hpq (hp q)

theorem Agree.isPresent_le (h : Agree pr A ρ o1 o2) (n : Str) (hn : o1.isPresent n = true) :
    o2.isPresent n = true := by
  unfold Options.isPresent Options.findLong at *
  rcases h.long.find (less := strLess) n with ⟨e1, e2⟩ | ⟨p, q, hpq, e1, e2⟩
  · rw [e1] at hn; cases hn
  · rw [e1] at hn; rw [e2]; exact h.presLe p q hpq hn

theorem Agree.isPresentAb_le (h : Agree pr A ρ o1 o2) (c : Char) (hn : o1.isPresentAb c = true) :
    o2.isPresentAb c = true := by
  unfold Options.isPresentAb Options.findAb at *
  rcases h.ab.find (less := charLess) c with ⟨e1, e2⟩ | ⟨p, q, hpq, e1, e2⟩
  · rw [e1] at hn; cases hn
  · rw [e1] at hn; rw [e2]; exact h.presLe p q hpq hn

theorem Agree.isPresentAb (h : Agree pr A ρ o1 o2) (hp : ∀ q, pr q) (c : Char) :
    o1.isPresentAb c = o2.isPresentAb c := by
  unfold Options.isPresentAb Options.findAb
  rcases h.ab.find (less := charLess) c with ⟨e1, e2⟩ | ⟨p, q, hpq, e1, e2⟩
  · rw [e1, e2]
  · rw [e1, e2]; exact h.pres p q hpq (hp q)

theorem Agree.printHelp (h : Agree pr A ρ o1 o2) : o1.printHelp = o2.printHelp := by
  have : ∀ m1 m2, SameTable ρ m1 m2 → o1.helpLoop m1 = o2.helpLoop m2 := by
    intro m1 m2 hm
    unfold SameTable at hm
    induction hm with
    | nil => rfl
    | @cons x y l1 l2 hxy hl ih =>
      obtain ⟨a, p⟩ := x
      obtain ⟨b, q⟩ := y
      obtain ⟨rfl, hr⟩ := hxy
      obtain ⟨d, h1, h2⟩ := h.decl p q hr
      simp only [Options.helpLoop]
      rw [h1, h2, ih, h.isKvp]
  unfold Options.printHelp
  rw [this _ _ h.long, h.info]

/-! ### What a call leaves alone -/

/-- The object refers to option object `p`. -/
def Refers (o : Options V) (p : Nat) : Prop :=
  (∃ n, o.findLong n = some p) ∨ ∃ c, o.findAb c = some p

/-- `o'` comes from `o` by changing nothing but the flags and targets of the options `o` refers to,
the positional arguments, `waiting` and the messages. -/
structure Frame (o o' : Options V) : Prop where
  decls : o'.decls = o.decls
  longMap : o'.longMap = o.longMap
  abMap : o'.abMap = o.abMap
  info : o'.info = o.info
  isKvp : o'.isKvp = o.isKvp
  pres : ∀ p, ¬ Refers o p → o'.pres p = o.pres p
  presLe : ∀ p, o.pres p = true → o'.pres p = true
  sc : ∀ a, (∀ p d, Refers o p → o.decls[p]? = some d → d.target ≠ a) → o'.sc a = o.sc a
  vec : ∀ a, (∀ p d, Refers o p → o.decls[p]? = some d → d.target ≠ a) → o'.vec a = o.vec a

theorem Frame.refl (o : Options V) : Frame o o :=
  ⟨rfl, rfl, rfl, rfl, rfl, fun _ _ => rfl, fun _ h => h, fun _ _ => rfl, fun _ _ => rfl⟩

theorem Frame.refers {o o' : Options V} (h : Frame o o') (p : Nat) : Refers o' p ↔ Refers o p := by
  unfold Refers Options.findLong Options.findAb
  rw [h.longMap, h.abMap]

theorem Frame.trans {o o' o'' : Options V} (h : Frame o o') (h' : Frame o' o'') : Frame o o'' where
  decls := h'.decls.trans h.decls
  longMap := h'.longMap.trans h.longMap
  abMap := h'.abMap.trans h.abMap
  info := h'.info.trans h.info
  isKvp := h'.isKvp.trans h.isKvp
  pres p hp := (h'.pres p fun e => hp ((h.refers p).1 e)).trans (h.pres p hp)
  presLe p hp := h'.presLe p (h.presLe p hp)
  sc a ha := (h'.sc a fun p d hp hd => ha p d ((h.refers p).1 hp) (h.decls ▸ hd)).trans (h.sc a ha)
  vec a ha := (h'.vec a fun p d hp hd => ha p d ((h.refers p).1 hp) (h.decls ▸ hd)).trans (h.vec a ha)

theorem Frame.withWaiting (o : Options V) (b : Bool) : Frame o { o with waiting := b } :=
  ⟨rfl, rfl, rfl, rfl, rfl, fun _ _ => rfl, fun _ h => h, fun _ _ => rfl, fun _ _ => rfl⟩

theorem Frame.withCerr (o : Options V) (l : List Diag) : Frame o { o with cerr := l } :=
  ⟨rfl, rfl, rfl, rfl, rfl, fun _ _ => rfl, fun _ h => h, fun _ _ => rfl, fun _ _ => rfl⟩

theorem Frame.withPos (o : Options V) (l : List Str) : Frame o { o with pos := l } :=
  ⟨rfl, rfl, rfl, rfl, rfl, fun _ _ => rfl, fun _ h => h, fun _ _ => rfl, fun _ _ => rfl⟩

theorem update_ne {B : Type} (f : Nat → B) {a b : Nat} (v : B) (h : b ≠ a) : update f a v b = f b := by
  simp [update, h]

theorem update_true {f : Nat → Bool} (a : Nat) {b : Nat} (h : f b = true) : update f a true b = true := by
  unfold update; split
  · rfl
  · exact h

theorem Frame.setPresent {o : Options V} {p : Nat} {d : Decl V} (hp : Refers o p)
    (hd : o.decls[p]? = some d) : Frame o (o.setPresent p d) := by
  refine ⟨rfl, rfl, rfl, rfl, rfl, ?_, fun _ h => update_true _ h, ?_, fun _ _ => rfl⟩
  · intro q hq
    exact update_ne _ _ (fun e => hq (e ▸ hp))
  · intro a ha
    simp only [Options.setPresent]
    split
    · exact update_ne _ _ (fun e => ha p d hp hd e.symm)
    · rfl

theorem Frame.withSc {o : Options V} {p : Nat} {d : Decl V} (hp : Refers o p)
    (hd : o.decls[p]? = some d) (v : V) : Frame o { o with sc := update o.sc d.target v } :=
  ⟨rfl, rfl, rfl, rfl, rfl, fun _ _ => rfl, fun _ h => h,
    fun _ ha => update_ne _ _ (fun e => ha p d hp hd e.symm), fun _ _ => rfl⟩

theorem Frame.setVal {o : Options V} {p : Nat} {d : Decl V} (hp : Refers o p)
    (hd : o.decls[p]? = some d) (t : Str) : Frame o (o.setVal p d t).1 := by
  unfold Options.setVal
  cases d.kind with
  | presence => exact .setPresent hp hd
  | scalar =>
    cases d.read t with
    | none => exact .withSc hp hd _
    | some v =>
      simp only
      split
      · exact .withSc hp hd _
      · exact (Frame.withSc hp hd v).trans (.setPresent hp hd)
  | vector =>
    cases d.read t with
    | none => exact .refl o
    | some v =>
      simp only
      split
      · exact .refl o
      · refine ⟨rfl, rfl, rfl, rfl, rfl, ?_, fun _ h => update_true _ h, fun _ _ => rfl, ?_⟩
        · intro q hq
          exact update_ne _ _ (fun e => hq (e ▸ hp))
        · intro a ha
          exact update_ne _ _ (fun e => ha p d hp hd e.symm)

theorem Frame.parseLoop (ts : List Str) : ∀ (o : Options V) (arg : Option (Nat × Decl V)),
    (∀ p d, arg = some (p, d) → Refers o p ∧ o.decls[p]? = some d) →
    Frame o (o.parseLoop arg ts).1 := by
  induction ts with
  | nil => intro o arg _; exact .refl o
  | cons t ts ih =>
    intro o arg harg
    have after : ∀ {o o' : Options V}, Frame o o' → Frame o (o'.parseLoop none ts).1 :=
      fun h => h.trans (ih _ none (by simp))
    have switch : ∀ {o o' : Options V} (n : Nat), Frame o o' →
        Frame o (if n = 1 ∧ t[1]? = some 'h' then ({ o' with cerr := o'.cerr ++ [.help] }, false)
          else if n ≠ 1 ∧ t = "--help".toList then ({ o' with cerr := o'.cerr ++ [.help] }, false)
          else
            let found := if n = 1 then (t[1]?).bind o'.findAb else o'.findLong (t.drop 2)
            match found.bind fun p => (o'.decls[p]?).map fun d => (p, d) with
            | none => ({ o' with cerr := o'.cerr ++ [.badName t, .help] }, false)
            | some (p, d) =>
              let o := if d.isSigned then { o' with waiting := true } else o'
              if d.kind = .presence then Options.parseLoop (o.setPresent p d) none ts
              else Options.parseLoop o (some (p, d)) ts).1 := by
      intro o o' n h
      split
      · exact h.trans (.withCerr _ _)
      · split
        · exact h.trans (.withCerr _ _)
        · simp only
          have hfound : ∀ p, (if n = 1 then (t[1]?).bind o'.findAb else o'.findLong (t.drop 2)) = some p →
              Refers o' p := by
            intro p
            split
            · cases t[1]? with
              | none => simp
              | some c => intro hc; exact .inr ⟨c, hc⟩
            · intro hc; exact .inl ⟨_, hc⟩
          generalize (if n = 1 then (t[1]?).bind o'.findAb else o'.findLong (t.drop 2)) = f at hfound
          cases f with
          | none => exact h.trans (.withCerr _ _)
          | some p =>
            simp only [Option.bind_some]
            cases hd : o'.decls[p]? with
            | none => exact h.trans (.withCerr _ _)
            | some d =>
              simp only [Option.map_some]
              have hr := hfound p rfl
              have hw : Frame o' (if d.isSigned then { o' with waiting := true } else o') := by
                split
                · exact .withWaiting _ _
                · exact .refl _
              have hr' := (hw.refers p).2 hr
              have hd' : (if d.isSigned then { o' with waiting := true } else o').decls[p]? = some d := by
                rw [hw.decls]; exact hd
              split
              · exact after (h.trans (hw.trans (.setPresent hr' hd')))
              · refine (h.trans hw).trans (ih _ _ ?_)
                rintro p' d' he
                cases he
                exact ⟨hr', hd'⟩
    cases arg with
    | none =>
      simp only [Options.parseLoop]
      split
      · exact after (.withPos _ _)
      · exact switch _ (.refl o)
    | some x =>
      obtain ⟨p, d⟩ := x
      obtain ⟨hp, hd⟩ := harg p d rfl
      simp only [Options.parseLoop]
      by_cases h0 : (if d.hasDefault = true then Options.isSwitch o.waiting t else 0) = 0
      · rw [if_pos h0]
        have hv := Frame.setVal hp hd t
        generalize o.setVal p d t = r at hv ⊢
        obtain ⟨r, b⟩ := r
        cases b with
        | true => exact after (hv.trans (.withWaiting _ _))
        | false => exact hv.trans (.withCerr _ _)
      · rw [if_neg h0]
        have := switch (if d.hasDefault = true then Options.isSwitch o.waiting t else 0)
          ((Frame.setPresent hp hd).trans (.withWaiting _ d.isSigned))
        exact this

theorem Frame.parse (o : Options V) (ts : List Str) : Frame o (o.parse ts).1 :=
  Frame.parseLoop ts o none (by simp)

/-! ### The effect of any call -/
open Spec

/-- What `o'` can differ in from `o`, when options are registered at most for the targets `T`. -/
structure Effect (T : Nat → Prop) (o o' : Options V) : Prop where
  decls : ∃ l, o'.decls = o.decls ++ l ∧ ∀ d ∈ l, T d.target
  refers : ∀ p, Refers o' p → Refers o p ∨ (o.decls.length ≤ p ∧ p < o'.decls.length)
  pres : ∀ p, p < o.decls.length → ¬ Refers o p → o'.pres p = o.pres p
  presLe : ∀ p, p < o.decls.length → o.pres p = true → o'.pres p = true
  sc : ∀ a, ¬ T a → (∀ p d, Refers o p → o.decls[p]? = some d → d.target ≠ a) → o'.sc a = o.sc a
  vec : ∀ a, ¬ T a → (∀ p d, Refers o p → o.decls[p]? = some d → d.target ≠ a) → o'.vec a = o.vec a

theorem Frame.effect {o o' : Options V} (h : Frame o o') (T : Nat → Prop) : Effect T o o' where
  decls := ⟨[], by simp [h.decls], by simp⟩
  refers p hp := .inl ((h.refers p).1 hp)
  pres p _ hp := h.pres p hp
  presLe p _ hp := h.presLe p hp
  sc a _ ha := h.sc a ha
  vec a _ ha := h.vec a ha

theorem refers_registerOpt {o : Options V} {d : Decl V} {p : Nat} (h : Refers (o.registerOpt d) p) :
    Refers o p ∨ p = o.decls.length := by
  rcases h with ⟨n, hn⟩ | ⟨c, hc⟩
  · simp only [Options.findLong, Options.registerOpt] at hn
    rw [mapFind_mapSet strLess_order] at hn
    split at hn
    · right; simpa using hn.symm
    · exact .inl (.inl ⟨n, hn⟩)
  · simp only [Options.findAb, Options.registerOpt] at hc
    rw [mapFind_mapSet charLess_order] at hc
    split at hc
    · right; simpa using hc.symm
    · exact .inl (.inr ⟨c, hc⟩)

theorem Effect.registerOpt {T : Nat → Prop} (o : Options V) (f : Nat → V) (d : Decl V)
    (hd : T d.target) (hf : ∀ a, ¬ T a → f a = o.sc a) :
    Effect T o ({ o with sc := f }.registerOpt d) where
  decls := ⟨[d], rfl, by simpa using hd⟩
  refers p hp := by
    rcases refers_registerOpt hp with h | h
    · exact .inl h
    · right; simp only at h; subst h; simp [Options.registerOpt]
  pres p hp _ := by
    simp only [Options.registerOpt]
    exact update_ne _ _ (by omega)
  presLe p hp h := by
    simp only [Options.registerOpt]
    rw [update_ne _ _ (by omega)]; exact h
  sc a ha _ := hf a ha
  vec _ _ _ := rfl

theorem Effect.withSc {T : Nat → Prop} (o : Options V) (v : V) (d : Decl V) (hd : T d.target) :
    Effect T o ({ o with sc := update o.sc d.target v }.registerOpt d) :=
  .registerOpt o _ d hd fun _ ha => update_ne _ _ (fun e => ha (e ▸ hd))

theorem Effect.keyValueList {T : Nat → Prop} {o o' : Options V} {l : List Str} {b : Bool}
    (h : o.parseKeyValueList l = .ok (o', b)) : Effect T o o' := by
  unfold Options.parseKeyValueList at h
  cases hk : Options.kvTokens l with
  | ub => rw [hk] at h; cases h
  | throw e => exact nomatch e
  | ok ts =>
    rw [hk] at h
    simp only [Res.bind, Res.ok.injEq] at h
    have := Frame.parse o ts
    rw [h] at this
    exact this.effect T

theorem Effect.keyValue {T : Nat → Prop} {o o' : Options V} {s : Str} {b : Bool}
    (h : o.parseKeyValue s = .ok (o', b)) : Effect T o o' := by
  unfold Options.parseKeyValue at h
  split at h
  · cases h; exact (Frame.refl o).effect T
  · cases hs : split s ",".toList with
    | ub => rw [hs] at h; cases h
    | throw e => exact nomatch e
    | ok l =>
      rw [hs] at h
      simp only [Res.bind] at h
      split at h
      · cases h; exact (Frame.refl o).effect T
      · exact Effect.keyValueList h

theorem Effect.parse {T : Nat → Prop} {o o' : Options V} {ts : List Str} {b : Bool}
    (h : (Res.ok (o.parse ts) : Res Empty _) = .ok (o', b)) : Effect T o o' := by
  have := Frame.parse o ts
  rw [Res.ok.inj h] at this
  exact this.effect T

theorem Effect.run {o o' : Options V} {b : Bool} (c : OptCall V) (h : c.run o = .ok (o', b)) :
    Effect (fun a => Registers a c) o o' := by
  cases c with
  | addInfo s =>
    cases h
    exact ⟨⟨[], by simp [Options.addInfo], by simp⟩, fun _ h => .inl h, fun _ _ _ => rfl,
      fun _ _ h => h, fun _ _ _ => rfl, fun _ _ _ => rfl⟩
  | addDef T val long ab dv doc test err => cases h; exact Effect.withSc o dv _ rfl
  | add T val long ab doc test err => cases h; exact Effect.withSc o T.zero _ rfl
  | addP ff tt val long ab doc => cases h; exact Effect.withSc o ff _ rfl
  | addV T val long ab doc test err => cases h; exact Effect.registerOpt o o.sc _ rfl fun _ _ => rfl
  | parse ts => exact Effect.parse h
  | parseArgv a =>
    simp only [OptCall.run, Options.parseArgv] at h
    split at h
    · exact Effect.keyValueList h
    · exact Effect.parse h
  | parseString s =>
    simp only [OptCall.run, Options.parseString] at h
    split at h
    · exact Effect.keyValue h
    · exact Effect.parse h
  | parseKeyValue s => exact Effect.keyValue h
  | parseKeyValueList l => exact Effect.keyValueList h

/-! ### Programs -/

theorem past_snoc (as : List (OptAct V)) (a : OptAct V) : past (as ++ [a]) = pastStep (past as) a := by
  simp [past]

theorem _root_.SoDa.Spec.Alone.of_snoc {as : List (OptAct V)} {a : OptAct V} {j : Nat} (h : Alone (as ++ [a]) j) : Alone as j := by
  intro i
  obtain ⟨h1, h2, h3, h4⟩ := h i
  simp only [List.mem_append, not_or] at h1 h2 h3 h4
  exact ⟨h1.1, h2.1, h3.1, h4.1⟩

theorem _root_.SoDa.Spec.Owns.of_snoc {as : List (OptAct V)} {a : OptAct V} {j b : Nat} (h : Owns (as ++ [a]) j b) : Owns as j b :=
  ⟨h.1.of_snoc, fun e => h.2.1 (List.mem_append_left _ e),
    fun i c hc => h.2.2 i c (List.mem_append_left _ hc)⟩

theorem Agree.mono {pr' : Nat → Prop} {A' : Nat → Prop} (h : Agree pr A ρ o1 o2) (hp : ∀ q, pr' q → pr q)
    (hA : ∀ a, A' a → A a) : Agree pr' A' ρ o1 o2 :=
  { h with pres := fun p q hpq e => h.pres p q hpq (hp q e), sc := fun a e => h.sc a (hA a e), vec := fun a e => h.vec a (hA a e) }

theorem acts_snoc (w w' : World V) (as : List (OptAct V)) (a : OptAct V)
    (h : w.acts (as ++ [a]) = .ok w') : ∃ w1, w.acts as = .ok w1 ∧ w1.act a = .ok w' := by
  induction as generalizing w with
  | nil =>
    simp only [List.nil_append, World.acts] at h ⊢
    cases ha : w.act a with
    | ub => rw [ha] at h; cases h
    | throw e => exact nomatch e
    | ok w1 => rw [ha] at h; simp only [Res.bind] at h; cases h; exact ⟨w, rfl, ha⟩
  | cons b as ih =>
    simp only [List.cons_append, World.acts] at h ⊢
    cases ha : w.act b with
    | ub => rw [ha] at h; cases h
    | throw e => exact nomatch e
    | ok w1 =>
      rw [ha] at h
      simp only [Res.bind] at h ⊢
      exact ih w1 h

/-- The objects of a world after the program `as`. -/
structure Inv (sc : Nat → V) (vec : Nat → List V) (as : List (OptAct V)) (w : World V) : Prop where
  bound : ∀ i m, w.objs i = some m → ∀ p, Refers (w.view m) p → p < w.decls.length
  obj : ∀ j m, w.objs j = some m → ∃ k cs o ρ, past as j = some (k, cs) ∧
    Lives (Options.new k sc vec) cs o ∧ Agree (fun _ => Alone as j) (Owns as j) ρ o (w.view m) ∧
    (Alone as j → ∀ i mi, i ≠ j → w.objs i = some mi → ∀ p q, Refers (w.view mi) q → ¬ ρ p q)
  target : ∀ j a, Owns as j a → ∀ i m, i ≠ j → w.objs i = some m → ∀ p d, Refers (w.view m) p →
    w.decls[p]? = some d → d.target ≠ a
  fresh : ∀ j a, Owns as j a → w.objs j = none → w.sc a = sc a ∧ w.vec a = vec a

theorem Agree.new (k : Bool) (o : Options V) (hl : o.longMap = []) (ha : o.abMap = []) (hi : o.info = [])
    (hp : o.pos = []) (hk : o.isKvp = k) (hw : o.waiting = false) (sc : Nat → V) (vec : Nat → List V)
    (hsc : ∀ a, A a → sc a = o.sc a) (hvec : ∀ a, A a → vec a = o.vec a) :
    Agree pr A (fun _ _ => False) (Options.new k sc vec) o where
  long := by rw [hl]; exact .nil
  ab := by rw [ha]; exact .nil
  info := hi.symm
  pos := hp.symm
  isKvp := hk.symm
  waiting := hw.symm
  decl _ _ h := h.elim
  inj _ _ _ _ h := h.elim
  pres _ _ h := h.elim
  presLe _ _ h := h.elim
  sc := hsc
  vec := hvec

/-- Another object's call leaves an agreement alone. -/
theorem Agree.other {T : Nat → Prop} {o : Options V} {w w' : World V} {m mi : Members}
    (h : Agree pr A ρ o (w.view m)) (he : Effect T (w.view mi) (w'.view mi))
    (hrho : ∀ p q, pr q → Refers (w.view mi) q → ¬ ρ p q)
    (hA : ∀ a, A a → ¬ T a ∧ ∀ p d, Refers (w.view mi) p → w.decls[p]? = some d → d.target ≠ a) :
    Agree pr A ρ o (w'.view m) where
  long := h.long
  ab := h.ab
  info := h.info
  pos := h.pos
  isKvp := h.isKvp
  waiting := h.waiting
  decl p q hpq := by
    obtain ⟨d, h1, h2⟩ := h.decl p q hpq
    obtain ⟨l, hl, _⟩ := he.decls
    refine ⟨d, h1, ?_⟩
    have hl' : w'.decls = w.decls ++ l := hl
    have h2' : w.decls[q]? = some d := h2
    show w'.decls[q]? = some d
    rw [hl', List.getElem?_append_left (List.getElem?_eq_some_iff.1 h2').1]; exact h2'
  inj := h.inj
  pres p q hpq hp := by
    obtain ⟨d, h1, h2⟩ := h.decl p q hpq
    rw [h.pres p q hpq hp]
    exact (he.pres q (List.getElem?_eq_some_iff.1 h2).1 fun hr => hrho p q hp hr hpq).symm
  presLe p q hpq hp := by
    obtain ⟨d, h1, h2⟩ := h.decl p q hpq
    exact he.presLe q (List.getElem?_eq_some_iff.1 h2).1 (h.presLe p q hpq hp)
  sc a ha := (h.sc a ha).trans (he.sc a (hA a ha).1 (hA a ha).2).symm
  vec a ha := (h.vec a ha).trans (he.vec a (hA a ha).1 (hA a ha).2).symm

theorem Inv.start (sc : Nat → V) (vec : Nat → List V) : Inv sc vec [] (World.start sc vec) where
  bound _ _ h := by cases h
  obj _ _ h := by cases h
  target _ _ _ _ _ _ h := by cases h
  fresh _ _ _ _ := ⟨rfl, rfl⟩

theorem update_same {B : Type} (f : Nat → B) (a : Nat) (v : B) : update f a v a = v := by simp [update]

/-- An action after which every object has the members of an object before it. -/
theorem Inv.members {sc : Nat → V} {vec : Nat → List V} {as : List (OptAct V)} {w : World V}
    (h : Inv sc vec as w) (a : OptAct V) (objs : Nat → Option Members) (src : Nat → Nat)
    (hsrc : ∀ j m, objs j = some m → w.objs (src j) = some m ∧ pastStep (past as) a j = past as (src j))
    (halone : ∀ j, Alone (as ++ [a]) j → ∀ i, src i = j ↔ i = j)
    (hnone : ∀ j b, Owns (as ++ [a]) j b → objs j = none → w.objs j = none) :
    Inv sc vec (as ++ [a]) { w with objs := objs } where
  bound i m hm := h.bound (src i) m (hsrc i m hm).1
  obj j m hm := by
    obtain ⟨h1, h2⟩ := hsrc j m hm
    obtain ⟨k, cs, o, ρ, hp, hl, hag, hrho⟩ := h.obj (src j) m h1
    refine ⟨k, cs, o, ρ, by rw [past_snoc, h2]; exact hp, hl, hag.mono ?_ ?_, ?_⟩
    · intro _ hj; rw [(halone j hj j).2 rfl]; exact hj.of_snoc
    · intro b hb; rw [(halone j hb.1 j).2 rfl]; exact hb.of_snoc
    · intro hj i mi hij hmi p q
      have hsj := (halone j hj j).2 rfl
      rw [hsj] at hrho
      exact hrho hj.of_snoc (src i) mi (fun e => hij ((halone j hj i).1 e)) (hsrc i mi hmi).1 p q
  target j b hb i m hij hm :=
    h.target j b hb.of_snoc (src i) m (fun e => hij ((halone j hb.1 i).1 e)) (hsrc i m hm).1
  fresh j b hb hn := h.fresh j b hb.of_snoc (hnone j b hb hn)

theorem refers_empty (w : World V) (k : Bool) (p : Nat) : ¬ Refers (w.view ⟨[], [], [], [], k, false⟩) p := by
  rintro (⟨n, hn⟩ | ⟨c, hc⟩)
  · cases hn
  · cases hc

theorem Inv.act {sc : Nat → V} {vec : Nat → List V} {as : List (OptAct V)} {w w' : World V}
    (h : Inv sc vec as w) (a : OptAct V) (ha : w.act a = .ok w') : Inv sc vec (as ++ [a]) w' := by
  cases a with
  | new i k =>
    simp only [World.act] at ha
    split at ha
    · cases ha
    next hi =>
    cases ha
    have hobj : ({ w with objs := update w.objs i (some ⟨[], [], [], [], k, false⟩) } : World V).objs i =
        some ⟨[], [], [], [], k, false⟩ := update_same _ _ _
    have hother : ∀ j, j ≠ i →
        ({ w with objs := update w.objs i (some ⟨[], [], [], [], k, false⟩) } : World V).objs j = w.objs j :=
      fun j hj => update_ne _ _ hj
    constructor
    · intro j m hm p hp
      by_cases hj : j = i
      · subst hj
        rw [hobj] at hm
        cases hm
        exact absurd hp (refers_empty w k p)
      · rw [hother j hj] at hm
        exact h.bound j m hm p hp
    · intro j m hm
      by_cases hj : j = i
      · subst hj
        rw [hobj] at hm
        cases hm
        refine ⟨k, [], _, _, by rw [past_snoc]; simp [pastStep], .nil _, Agree.new k _ rfl rfl rfl rfl rfl rfl
          sc vec ?_ ?_, fun _ _ _ _ _ _ _ _ => id⟩
        · intro b hb; exact (h.fresh j b hb.of_snoc hi).1.symm
        · intro b hb; exact (h.fresh j b hb.of_snoc hi).2.symm
      · rw [hother j hj] at hm
        obtain ⟨k', cs, o, ρ, hp, hl, hag, hrho⟩ := h.obj j m hm
        refine ⟨k', cs, o, ρ, by rw [past_snoc]; simpa [pastStep, hj] using hp, hl,
          hag.mono (fun _ => (·.of_snoc)) (fun _ => (·.of_snoc)), ?_⟩
        intro hal i' mi hij hmi p q hq
        by_cases hi' : i' = i
        · subst hi'
          rw [hobj] at hmi
          cases hmi
          exact absurd hq (refers_empty w k q)
        · rw [hother i' hi'] at hmi
          exact hrho hal.of_snoc i' mi hij hmi p q hq
    · intro j b hb i' m hij hm p d hp
      by_cases hi' : i' = i
      · subst hi'
        rw [hobj] at hm
        cases hm
        exact absurd hp (refers_empty w k p)
      · rw [hother i' hi'] at hm
        exact h.target j b hb.of_snoc i' m hij hm p d hp
    · intro j b hb hn
      have hj : j ≠ i := by
        rintro rfl
        rw [hobj] at hn
        cases hn
      rw [hother j hj] at hn
      exact h.fresh j b hb.of_snoc hn
  | copy i j0 =>
    simp only [World.act] at ha
    split at ha
    next m0 h1 h2 =>
      cases ha
      refine h.members _ _ (fun j => if j = j0 then i else j) ?_ ?_ ?_
      · intro j m hm
        by_cases hj : j = j0
        · subst hj
          rw [update_same] at hm
          simp only [if_true, pastStep]
          exact ⟨h1.trans hm, trivial⟩
        · rw [update_ne _ _ hj] at hm
          simp only [if_neg hj, pastStep]
          exact ⟨hm, trivial⟩
      · intro j hal i'
        have n1 : j ≠ j0 := by rintro rfl; exact (hal i).1 (by simp)
        have n2 : i ≠ j := by rintro rfl; exact (hal j0).2.1 (by simp)
        split
        next e => subst e; exact ⟨fun e => absurd e n2, fun e => absurd e.symm n1⟩
        · exact Iff.rfl
      · intro j b hb hn
        have n1 : j ≠ j0 := by rintro rfl; exact (hb.1 i).1 (by simp)
        rw [update_ne _ _ n1] at hn; exact hn
    · cases ha
  | assign i j0 =>
    simp only [World.act] at ha
    split at ha
    next m0 m1 h1 h2 =>
      cases ha
      refine h.members _ _ (fun j => if j = i then j0 else j) ?_ ?_ ?_
      · intro j m hm
        by_cases hj : j = i
        · subst hj
          rw [update_same] at hm
          simp only [if_true, pastStep]
          exact ⟨h2.trans hm, trivial⟩
        · rw [update_ne _ _ hj] at hm
          simp only [if_neg hj, pastStep]
          exact ⟨hm, trivial⟩
      · intro j hal i'
        have n1 : j ≠ i := by rintro rfl; exact (hal j0).2.2.2 (by simp)
        have n2 : j0 ≠ j := by rintro rfl; exact (hal i).2.2.1 (by simp)
        split
        next e => subst e; exact ⟨fun e => absurd e n2, fun e => absurd e.symm n1⟩
        · exact Iff.rfl
      · intro j b hb hn
        have n1 : j ≠ i := by rintro rfl; exact (hb.1 j0).2.2.2 (by simp)
        rw [update_ne _ _ n1] at hn; exact hn
    · cases ha
  | destroy i =>
    simp only [World.act] at ha
    split at ha
    · cases ha
      refine h.members _ _ id ?_ ?_ ?_
      · intro j m hm
        have hj : j ≠ i := by rintro rfl; rw [update_same] at hm; cases hm
        rw [update_ne _ _ hj] at hm
        simp only [id, pastStep, if_neg hj]
        exact ⟨hm, trivial⟩
      · intro j _ i'; exact Iff.rfl
      · intro j b hb hn
        have hj : j ≠ i := by rintro rfl; exact hb.2.1 (by simp)
        rw [update_ne _ _ hj] at hn; exact hn
    · cases ha
  | call i c =>
    simp only [World.act, World.call] at ha
    split at ha
    · cases ha
    next m0 hm0 =>
    cases hr : c.run (w.view m0) with
    | ub => rw [hr] at ha; cases ha
    | throw e => exact nomatch e
    | ok r =>
      obtain ⟨o', b⟩ := r
      rw [hr] at ha
      simp only [Res.bind] at ha
      cases ha
      have he := Effect.run c hr
      have he' : Effect (fun a => Registers a c) (w.view m0) ((w.put i o').view m0) :=
        ⟨he.decls, fun _ h => .inl h, he.pres, he.presLe, he.sc, he.vec⟩
      obtain ⟨l, hl, hlT⟩ := he.decls
      have hl' : o'.decls = w.decls ++ l := hl
      have hle : w.decls.length ≤ o'.decls.length := by rw [hl']; simp
      have hobj : (w.put i o').objs i = some ⟨o'.longMap, o'.abMap, o'.info, o'.pos, o'.isKvp, o'.waiting⟩ :=
        update_same _ _ _
      have hother : ∀ j, j ≠ i → (w.put i o').objs j = w.objs j := fun j hj => update_ne _ _ hj
      have hold : ∀ p d, p < w.decls.length → o'.decls[p]? = some d → w.decls[p]? = some d := by
        intro p d hp hd
        rw [hl', List.getElem?_append_left hp] at hd; exact hd
      constructor
      · intro j m hm p hp
        show p < o'.decls.length
        by_cases hj : j = i
        · subst hj
          rw [hobj] at hm
          cases hm
          rcases he.refers p hp with h1 | h1
          · exact Nat.lt_of_lt_of_le (h.bound j m0 hm0 p h1) hle
          · exact h1.2
        · rw [hother j hj] at hm
          exact Nat.lt_of_lt_of_le (h.bound j m hm p hp) hle
      · intro j m hm
        by_cases hj : j = i
        · subst hj
          rw [hobj] at hm
          cases hm
          obtain ⟨k, cs, o, ρ, hp, hl, hag, hrho⟩ := h.obj j m0 hm0
          rcases hag.run c with ⟨_, e2⟩ | ⟨o1', o2', b', ρ', e1, e2, hag', hρ, _⟩
          · rw [hr] at e2; cases e2
          · rw [hr] at e2
            cases e2
            refine ⟨k, cs ++ [c], o1', ρ', by rw [past_snoc]; simp [pastStep, hp], .snoc hl e1,
              hag'.mono (fun _ => (·.of_snoc)) (fun _ => (·.of_snoc)), ?_⟩
            intro hal i' mi hij hmi p q hq hpq
            rw [hother i' hij] at hmi
            rcases hρ.2 p q hpq with h1 | h1
            · exact hrho hal.of_snoc i' mi hij hmi p q hq h1
            · have := h.bound i' mi hmi q hq
              have h1' : q = w.decls.length := h1
              omega
        · rw [hother j hj] at hm
          obtain ⟨k, cs, o, ρ, hp, hl, hag, hrho⟩ := h.obj j m hm
          refine ⟨k, cs, o, ρ, by rw [past_snoc]; simpa [pastStep, hj] using hp, hl, ?_, ?_⟩
          · refine (hag.mono (pr' := fun _ => Alone (as ++ [.call i c]) j) (A' := Owns (as ++ [.call i c]) j)
              (fun _ => (·.of_snoc)) (fun _ => (·.of_snoc))).other he' ?_ ?_
            · intro p q hal; exact hrho hal.of_snoc i m0 (Ne.symm hj) hm0 p q
            · intro a hO
              exact ⟨hO.2.2 i c (by simp) (Ne.symm hj), h.target j a hO.of_snoc i m0 (Ne.symm hj) hm0⟩
          · intro hal i' mi hij hmi p q hq hpq
            by_cases hi' : i' = i
            · subst hi'
              rw [hobj] at hmi
              cases hmi
              rcases he.refers q hq with h1 | h1
              · exact hrho hal.of_snoc i' m0 hij hm0 p q h1 hpq
              · obtain ⟨d, _, h2⟩ := hag.decl p q hpq
                have h3 := (List.getElem?_eq_some_iff.1 h2).1
                have h4 : w.decls.length ≤ q := h1.1
                have h5 : q < w.decls.length := h3
                omega
            · rw [hother i' hi'] at hmi
              exact hrho hal.of_snoc i' mi hij hmi p q hq hpq
      · intro j a hO i' m hij hm p d hp hd
        by_cases hi' : i' = i
        · subst hi'
          rw [hobj] at hm
          cases hm
          rcases he.refers p hp with h1 | h1
          · exact h.target j a hO.of_snoc i' m0 hij hm0 p d h1 (hold p d (h.bound i' m0 hm0 p h1) hd)
          · have hd' : o'.decls[p]? = some d := hd
            have h4 : w.decls.length ≤ p := h1.1
            rw [hl', List.getElem?_append_right h4] at hd'
            have := hlT d (List.mem_of_getElem? hd')
            rintro rfl
            exact hO.2.2 i' c (by simp) hij this
        · rw [hother i' hi'] at hm
          exact h.target j a hO.of_snoc i' m hij hm p d hp (hold p d (h.bound i' m hm p hp) hd)
      · intro j a hO hn
        have hj : j ≠ i := by rintro rfl; rw [hobj] at hn; cases hn
        rw [hother j hj] at hn
        obtain ⟨f1, f2⟩ := h.fresh j a hO.of_snoc hn
        have hT := hO.2.2 i c (by simp) (Ne.symm hj)
        have htg := h.target j a hO.of_snoc i m0 (Ne.symm hj) hm0
        exact ⟨(he.sc a hT htg).trans f1, (he.vec a hT htg).trans f2⟩

theorem Inv.acts {sc : Nat → V} {vec : Nat → List V} (as : List (OptAct V)) :
    ∀ w, (World.start sc vec).acts as = .ok w → Inv sc vec as w := by
  induction as using List.reverseRecOn with
  | nil => intro w h; cases h; exact Inv.start sc vec
  | append_singleton as a ih =>
    intro w h
    obtain ⟨w1, h1, h2⟩ := acts_snoc _ _ _ _ h
    exact (ih w1 h1).act a h2

end SoDa.Opts
