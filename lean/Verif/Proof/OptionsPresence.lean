import Verif.Spec.OptionsPresence
import Verif.Proof.OptionsThreads
/-!
Copies of `Options` objects: the correspondence of option objects with the times of their registration.
-/
namespace SoDa.Opts
open Spec

variable {V : Type}

/-! ### Calls -/

theorem noRegistration_of {c : OptCall V} (h : registered c = none) : NoRegistration c := by
  intro a
  cases c <;> simp [registered] at h <;> exact id

theorem run_decls {c : OptCall V} (h : registered c = none) {o o' : Options V} {b : Bool} (hr : c.run o = .ok (o', b)) :
    o'.decls = o.decls := by
  obtain ⟨l, hl, hT⟩ := (Effect.run c hr).decls
  cases l with
  | nil => simpa using hl
  | cons d l => exact absurd (hT d (by simp)) (noRegistration_of h _)

theorem run_registered {c : OptCall V} {x : Str × Char × Str} (h : registered c = some x) {o o' : Options V} {b : Bool}
    (hr : c.run o = .ok (o', b)) :
    ∃ (f : Nat → V) (d : Decl V), o' = { o with sc := f }.registerOpt d ∧ x = (d.long, d.ab, d.doc) := by
  cases c <;> simp only [registered, Option.some.injEq, reduceCtorEq] at h <;> subst h <;> cases hr
  · exact ⟨_, _, rfl, rfl⟩
  · exact ⟨_, _, rfl, rfl⟩
  · exact ⟨_, _, rfl, rfl⟩
  · exact ⟨o.sc, _, rfl, rfl⟩

theorem findLong_registerOpt (o : Options V) (f : Nat → V) (d : Decl V) (n : Str) :
    ({ o with sc := f }.registerOpt d).findLong n = if n = d.long then some o.decls.length else o.findLong n := by
  simp only [Options.findLong, Options.registerOpt]
  rw [mapFind_mapSet strLess_order]

theorem findAb_registerOpt (o : Options V) (f : Nat → V) (d : Decl V) (c : Char) :
    ({ o with sc := f }.registerOpt d).findAb c = if c = d.ab then some o.decls.length else o.findAb c := by
  simp only [Options.findAb, Options.registerOpt]
  rw [mapFind_mapSet charLess_order]

/-- The call, with the correspondence known. -/
theorem Agree.run_known {pr A : Nat → Prop} {ρ : Nat → Nat → Prop} {o1 o2 : Options V} (h : Agree pr A ρ o1 o2)
    {c : OptCall V} {o2' : Options V} {b : Bool} (h2 : c.run o2 = .ok (o2', b)) :
    ∃ o1', c.run o1 = .ok (o1', b) ∧
      Agree pr A (if (registered c).isSome then grow ρ o1.decls.length o2.decls.length else ρ) o1' o2' := by
  rcases h.run c with ⟨-, e2⟩ | ⟨p1, p2, b', ρ', e1, e2, hag, hρ, -⟩
  · rw [h2] at e2; cases e2
  rw [h2] at e2
  cases e2
  refine ⟨p1, e1, ?_⟩
  cases hc : registered c with
  | none =>
    have : ρ' = ρ := by
      funext p q
      refine propext ⟨fun hpq => (hρ.2 p q hpq).resolve_right fun hq => ?_, hρ.1 p q⟩
      obtain ⟨d, -, hd⟩ := hag.decl p q hpq
      rw [run_decls hc h2] at hd
      have := (List.getElem?_eq_some_iff.1 hd).1
      omega
    subst this
    simpa [hc] using hag
  | some x =>
    simp only [Option.isSome_some, if_true]
    cases c <;> simp only [registered, reduceCtorEq] at hc <;> cases e1 <;> cases h2
    · exact (h.withSc _ _).registerOpt _
    · exact (h.withSc _ _).registerOpt _
    · exact (h.withSc _ _).registerOpt _
    · exact h.registerOpt _

/-! ### One life -/

/-- The times of the registrations. -/
def regs (cs : List (Nat × OptCall V)) : List Nat :=
  cs.filterMap fun x => if (registered x.2).isSome then some x.1 else none

theorem regs_snoc (cs : List (Nat × OptCall V)) (t : Nat) (c : OptCall V) :
    regs (cs ++ [(t, c)]) = regs cs ++ if (registered c).isSome then [t] else [] := by
  simp only [regs, List.filterMap_append, List.filterMap_cons, List.filterMap_nil]
  cases registered c <;> simp

theorem lastTime_snoc (f : Str × Char × Str → Bool) (cs : List (Nat × OptCall V)) (t : Nat) (c : OptCall V) :
    lastTime f (cs ++ [(t, c)]) = if (registered c).any f then some t else lastTime f cs := by
  unfold lastTime
  rw [List.filter_append]
  cases h : (registered c).any f with
  | true => simp [h]
  | false => simp [h]

theorem lives_snoc_inv {s o : Options V} {cs : List (OptCall V)} {c : OptCall V} (h : Lives s (cs ++ [c]) o) :
    ∃ o' b, Lives s cs o' ∧ c.run o' = .ok (o, b) := by
  generalize hl : cs ++ [c] = l at h
  cases h with
  | nil => simp at hl
  | snoc h hr =>
    obtain ⟨rfl, e⟩ := List.append_inj' hl rfl
    cases e
    exact ⟨_, _, h, hr⟩

theorem lives_unique {s o o' : Options V} {cs : List (OptCall V)} (h : Lives s cs o) (h' : Lives s cs o') : o = o' := by
  induction cs using List.reverseRecOn generalizing o o' with
  | nil =>
    have : ∀ {o : Options V}, Lives s [] o → o = s := by
      intro o h
      generalize hl : ([] : List (OptCall V)) = l at h
      cases h with
      | nil => rfl
      | snoc => simp at hl
    rw [this h, this h']
  | append_singleton cs c ih =>
    obtain ⟨p, b, h1, h2⟩ := lives_snoc_inv h
    obtain ⟨p', b', h1', h2'⟩ := lives_snoc_inv h'
    have := ih h1 h1'
    subst this
    rw [h2] at h2'
    cases h2'
    rfl

/-- The names of an object and the times at which the options with these names were registered. -/
structure Names (cs : List (Nat × OptCall V)) (o : Options V) : Prop where
  len : o.decls.length = (regs cs).length
  long : ∀ n t, LongAt cs n t ↔ ∃ p, o.findLong n = some p ∧ (regs cs)[p]? = some t
  letter : ∀ c t, LetterAt cs c t ↔ ∃ p, o.findAb c = some p ∧ (regs cs)[p]? = some t
  longLt : ∀ n p, o.findLong n = some p → p < o.decls.length
  letterLt : ∀ c p, o.findAb c = some p → p < o.decls.length

theorem Names.snoc {cs : List (Nat × OptCall V)} {o o' : Options V} (h : Names cs o) (t : Nat) {c : OptCall V} {b : Bool}
    (hr : c.run o = .ok (o', b)) : Names (cs ++ [(t, c)]) o' := by
  cases hc : registered c with
  | none =>
    obtain ⟨h1, h2⟩ := run_maps (noRegistration_of hc) hr
    have h3 := run_decls hc hr
    have e1 : ∀ n, o'.findLong n = o.findLong n := fun n => by simp only [Options.findLong, h1]
    have e2 : ∀ n, o'.findAb n = o.findAb n := fun n => by simp only [Options.findAb, h2]
    have e3 : regs (cs ++ [(t, c)]) = regs cs := by rw [regs_snoc, hc]; simp
    constructor
    · rw [h3, e3]; exact h.len
    · intro n t'; rw [LongAt, lastTime_snoc, hc, e1, e3]; exact h.long n t'
    · intro n t'; rw [LetterAt, lastTime_snoc, hc, e2, e3]; exact h.letter n t'
    · intro n p; rw [e1, h3]; exact h.longLt n p
    · intro n p; rw [e2, h3]; exact h.letterLt n p
  | some x =>
    obtain ⟨f, d, rfl, rfl⟩ := run_registered hc hr
    have e3 : regs (cs ++ [(t, c)]) = regs cs ++ [t] := by rw [regs_snoc, hc]; simp
    have hl : (({ o with sc := f } : Options V).registerOpt d).decls.length = o.decls.length + 1 := by
      simp [Options.registerOpt]
    constructor
    · rw [hl, e3, h.len]; simp
    · intro n t'
      rw [LongAt, lastTime_snoc, hc, e3, findLong_registerOpt]
      by_cases hn : n = d.long
      · subst hn
        simp [h.len]
      · simp only [Option.any_some, beq_iff_eq, Ne.symm hn, if_false, if_neg hn]
        refine (h.long n t').trans ⟨fun ⟨p, e1, e2⟩ => ⟨p, e1, ?_⟩, fun ⟨p, e1, e2⟩ => ⟨p, e1, ?_⟩⟩
        · rw [List.getElem?_append_left (List.getElem?_eq_some_iff.1 e2).1]; exact e2
        · rw [List.getElem?_append_left (by rw [← h.len]; exact h.longLt n p e1)] at e2; exact e2
    · intro n t'
      rw [LetterAt, lastTime_snoc, hc, e3, findAb_registerOpt]
      by_cases hn : n = d.ab
      · subst hn
        simp [h.len]
      · simp only [Option.any_some, beq_iff_eq, Ne.symm hn, if_false, if_neg hn]
        refine (h.letter n t').trans ⟨fun ⟨p, e1, e2⟩ => ⟨p, e1, ?_⟩, fun ⟨p, e1, e2⟩ => ⟨p, e1, ?_⟩⟩
        · rw [List.getElem?_append_left (List.getElem?_eq_some_iff.1 e2).1]; exact e2
        · rw [List.getElem?_append_left (by rw [← h.len]; exact h.letterLt n p e1)] at e2; exact e2
    · intro n p
      rw [findLong_registerOpt, hl]
      split
      · rintro ⟨⟩; omega
      · intro e; have := h.longLt n p e; omega
    · intro n p
      rw [findAb_registerOpt, hl]
      split
      · rintro ⟨⟩; omega
      · intro e; have := h.letterLt n p e; omega

theorem Names.new (k : Bool) (sc : Nat → V) (vec : Nat → List V) : Names [] (Options.new k sc vec) where
  len := rfl
  long n t := by simp [LongAt, lastTime, regs]
  letter n t := by simp [LetterAt, lastTime, regs]
  longLt n p h := by cases h
  letterLt n p h := by cases h

/-! ### Programs -/

theorem story_snoc (as : List (OptAct V)) (a : OptAct V) :
    story (as ++ [a]) = storyStep (story as) (a, as.length) := by
  simp [story, List.zipIdx_append]

/-- The times of the registrations of all objects. -/
def allRegs (as : List (OptAct V)) : List Nat :=
  as.zipIdx.filterMap fun x => match x.1 with
    | .call _ c => if (registered c).isSome then some x.2 else none
    | _ => none

/-- The registrations of one action. -/
def regsOf (t : Nat) : OptAct V → List Nat
  | .call _ c => if (registered c).isSome then [t] else []
  | _ => []

theorem allRegs_snoc (as : List (OptAct V)) (a : OptAct V) : allRegs (as ++ [a]) = allRegs as ++ regsOf as.length a := by
  simp only [allRegs, List.zipIdx_append, List.filterMap_append]
  congr 1
  cases a <;> simp only [regsOf, List.zipIdx_singleton, List.filterMap_cons, List.filterMap_nil]
  rename_i c
  cases registered c <;> simp

/-- Option objects registered at the same time. -/
def sameTime (l l' : List Nat) (p q : Nat) : Prop := ∃ t, l[p]? = some t ∧ l'[q]? = some t

theorem sameTime_grow {l l' : List Nat} {t : Nat} (h : ∀ x ∈ l, x < t) (h' : ∀ x ∈ l', x < t) :
    sameTime (l ++ [t]) (l' ++ [t]) = grow (sameTime l l') l.length l'.length := by
  have key : ∀ (l : List Nat) (p x : Nat), (l ++ [t])[p]? = some x ↔ l[p]? = some x ∨ (p = l.length ∧ x = t) := by
    intro l p x
    by_cases hp : p < l.length
    · rw [List.getElem?_append_left hp]
      exact ⟨.inl, fun h => h.elim id fun h => by omega⟩
    · by_cases hp' : p = l.length
      · subst hp'
        simp [eq_comm]
      · rw [List.getElem?_eq_none (by simp; omega), List.getElem?_eq_none (by omega)]
        simp [hp']
  funext p q
  refine propext ⟨?_, ?_⟩
  · rintro ⟨x, h1, h2⟩
    rcases (key l p x).1 h1 with h1 | ⟨rfl, rfl⟩ <;> rcases (key l' q x).1 h2 with h2 | ⟨rfl, e⟩
    · exact .inl ⟨x, h1, h2⟩
    · have := h x (List.mem_of_getElem? h1); omega
    · have := h' x (List.mem_of_getElem? h2); omega
    · exact .inr ⟨rfl, rfl⟩
  · rintro (⟨x, h1, h2⟩ | ⟨rfl, rfl⟩)
    · exact ⟨x, (key l p x).2 (.inl h1), (key l' q x).2 (.inl h2)⟩
    · exact ⟨t, (key _ _ _).2 (.inr ⟨rfl, rfl⟩), (key _ _ _).2 (.inr ⟨rfl, rfl⟩)⟩

theorem sameTime_other {l l' : List Nat} {t : Nat} (h : ∀ x ∈ l, x < t) : sameTime l (l' ++ [t]) = sameTime l l' := by
  funext p q
  refine propext ⟨?_, ?_⟩
  · rintro ⟨x, h1, h2⟩
    refine ⟨x, h1, ?_⟩
    have hx := h x (List.mem_of_getElem? h1)
    by_cases hq : q < l'.length
    · rwa [List.getElem?_append_left hq] at h2
    · rw [List.getElem?_append_right (by omega)] at h2
      have := List.mem_of_getElem? h2
      simp at this
      omega
  · rintro ⟨x, h1, h2⟩
    exact ⟨x, h1, by rw [List.getElem?_append_left (List.getElem?_eq_some_iff.1 h2).1]; exact h2⟩

theorem allRegs_lt (as : List (OptAct V)) : ∀ t ∈ allRegs as, t < as.length := by
  induction as using List.reverseRecOn with
  | nil => simp [allRegs]
  | append_singleton as a ih =>
    intro t ht
    rw [allRegs_snoc] at ht
    simp only [List.length_append, List.length_singleton]
    rcases List.mem_append.1 ht with h | h
    · have := ih t h; omega
    · have : t = as.length := by
        revert h
        cases a <;> simp only [regsOf, List.not_mem_nil, false_imp_iff]
        split
        · exact List.mem_singleton.1
        · exact fun h => absurd h (List.not_mem_nil)
      omega

/-- An object with its past. -/
structure Knows (sc : Nat → V) (vec : Nat → List V) (as : List (OptAct V)) (w : World V) (m : Members) (k : Bool)
    (cs : List (Nat × OptCall V)) (o : Options V) : Prop where
  lives : Lives (Options.new k sc vec) (cs.map (·.2)) o
  names : Names cs o
  agree : Agree (fun _ => False) (fun _ => False) (sameTime (regs cs) (allRegs as)) o (w.view m)
  old : ∀ t ∈ regs cs, t < as.length

structure Told (sc : Nat → V) (vec : Nat → List V) (as : List (OptAct V)) (w : World V) : Prop where
  len : w.decls.length = (allRegs as).length
  gone : ∀ j, w.objs j = none → story as j = none
  obj : ∀ j m, w.objs j = some m → ∃ k cs o, story as j = some (k, cs) ∧ Knows sc vec as w m k cs o
  flag : ∀ q t, (allRegs as)[q]? = some t → (w.pres q = true ↔ Given sc vec as t)

theorem given_snoc {sc : Nat → V} {vec : Nat → List V} {as : List (OptAct V)} (a : OptAct V) (t : Nat) :
    Given sc vec (as ++ [a]) t ↔ Given sc vec as t ∨ ∃ i k cs o, story (as ++ [a]) i = some (k, cs) ∧
      Lives (Options.new k sc vec) (cs.map (·.2)) o ∧
      ((∃ n, LongAt cs n t ∧ o.isPresent n = true) ∨ ∃ c, LetterAt cs c t ∧ o.isPresentAb c = true) := by
  constructor
  · rintro ⟨s, hs, i, k, cs, o, h1, h2⟩
    simp only [List.length_append, List.length_singleton] at hs
    by_cases hs' : s ≤ as.length
    · rw [List.take_append_of_le_length hs'] at h1
      exact .inl ⟨s, hs', i, k, cs, o, h1, h2⟩
    · rw [List.take_of_length_le (by simp; omega)] at h1
      exact .inr ⟨i, k, cs, o, h1, h2⟩
  · rintro (⟨s, hs, i, k, cs, o, h1, h2⟩ | ⟨i, k, cs, o, h1, h2⟩)
    · exact ⟨s, by simp; omega, i, k, cs, o, by rw [List.take_append_of_le_length hs]; exact h1, h2⟩
    · exact ⟨(as ++ [a]).length, Nat.le_refl _, i, k, cs, o, by rw [List.take_length]; exact h1, h2⟩

theorem story_lt (as : List (OptAct V)) : ∀ j k cs, story as j = some (k, cs) → ∀ x ∈ cs, x.1 < as.length := by
  induction as using List.reverseRecOn with
  | nil => intro j k cs h; cases h
  | append_singleton as a ih =>
    intro j k cs h x hx
    rw [story_snoc] at h
    simp only [List.length_append, List.length_singleton]
    have use : ∀ i k cs, story as i = some (k, cs) → x ∈ cs → x.1 < as.length + 1 := fun i k cs h hx => by
      have := ih i k cs h x hx; omega
    cases a with
    | new i k' =>
      simp only [storyStep] at h
      split at h
      · cases h; cases hx
      · exact use _ _ _ h hx
    | copy i j' =>
      simp only [storyStep] at h
      split at h <;> exact use _ _ _ h hx
    | assign i j' =>
      simp only [storyStep] at h
      split at h <;> exact use _ _ _ h hx
    | destroy i =>
      simp only [storyStep] at h
      split at h
      · cases h
      · exact use _ _ _ h hx
    | call i c =>
      simp only [storyStep] at h
      split at h
      · cases hs : story as i with
        | none => rw [hs] at h; cases h
        | some y =>
          rw [hs] at h
          cases h
          rcases List.mem_append.1 hx with hx | hx
          · exact use i _ _ hs hx
          · rw [List.mem_singleton.1 hx]; exact Nat.lt_succ_self _
      · exact use _ _ _ h hx

theorem lastTime_mem {f : Str × Char × Str → Bool} {cs : List (Nat × OptCall V)} {t : Nat} (h : lastTime f cs = some t) :
    ∃ x ∈ cs, x.1 = t := by
  unfold lastTime at h
  cases hl : (cs.filter fun x => (registered x.2).any f).getLast? with
  | none => rw [hl] at h; cases h
  | some x =>
    rw [hl] at h
    cases h
    exact ⟨x, (List.mem_filter.1 (List.mem_of_getLast? hl)).1, rfl⟩

theorem given_lt {sc : Nat → V} {vec : Nat → List V} {as : List (OptAct V)} {t : Nat} (h : Given sc vec as t) : t < as.length := by
  obtain ⟨s, hs, i, k, cs, o, h1, -, h3⟩ := h
  have : ∃ x ∈ cs, x.1 = t := by
    rcases h3 with ⟨n, h, -⟩ | ⟨c, h, -⟩ <;> exact lastTime_mem h
  obtain ⟨x, hx, rfl⟩ := this
  have := story_lt _ _ _ _ h1 x hx
  rw [List.length_take] at this
  omega

/-- What an object by itself would report, the object reports. -/
theorem Knows.flag {sc : Nat → V} {vec : Nat → List V} {as : List (OptAct V)} {w : World V} {m : Members} {k : Bool}
    {cs : List (Nat × OptCall V)} {o : Options V} (h : Knows sc vec as w m k cs o) {t q : Nat}
    (hq : (allRegs as)[q]? = some t)
    (hg : (∃ n, LongAt cs n t ∧ o.isPresent n = true) ∨ ∃ c, LetterAt cs c t ∧ o.isPresentAb c = true) : w.pres q = true := by
  rcases hg with ⟨n, hn, hp⟩ | ⟨c, hn, hp⟩
  · obtain ⟨p, h1, h2⟩ := (h.names.long n t).1 hn
    rw [Options.isPresent, h1] at hp
    exact h.agree.presLe p q ⟨t, h2, hq⟩ hp
  · obtain ⟨p, h1, h2⟩ := (h.names.letter c t).1 hn
    rw [Options.isPresentAb, h1] at hp
    exact h.agree.presLe p q ⟨t, h2, hq⟩ hp

theorem Told.start (sc : Nat → V) (vec : Nat → List V) : Told sc vec [] (World.start sc vec) where
  len := rfl
  gone _ _ := rfl
  obj _ _ h := by cases h
  flag q t h := by cases h

/-- The flags, once everything else is known. -/
theorem Told.finish {sc : Nat → V} {vec : Nat → List V} {as : List (OptAct V)} {w w' : World V} {a : OptAct V}
    (h : Told sc vec as w) (len : w'.decls.length = (allRegs (as ++ [a])).length)
    (gone : ∀ j, w'.objs j = none → story (as ++ [a]) j = none)
    (obj : ∀ j m, w'.objs j = some m → ∃ k cs o, story (as ++ [a]) j = some (k, cs) ∧ Knows sc vec (as ++ [a]) w' m k cs o)
    (up : ∀ q, q < w.decls.length → w.pres q = true → w'.pres q = true)
    (new : ∀ q t, (allRegs (as ++ [a]))[q]? = some t → w'.pres q = true →
      (q < w.decls.length ∧ w.pres q = true) ∨ ∃ i k cs o, story (as ++ [a]) i = some (k, cs) ∧
        Lives (Options.new k sc vec) (cs.map (·.2)) o ∧
        ((∃ n, LongAt cs n t ∧ o.isPresent n = true) ∨ ∃ c, LetterAt cs c t ∧ o.isPresentAb c = true)) :
    Told sc vec (as ++ [a]) w' := by
  refine ⟨len, gone, obj, fun q t hq => ?_⟩
  have oldq : q < w.decls.length → (allRegs as)[q]? = some t := by
    intro hlt
    rwa [allRegs_snoc, List.getElem?_append_left (by rw [← h.len]; exact hlt)] at hq
  rw [given_snoc]
  constructor
  · intro hp
    rcases new q t hq hp with ⟨h1, h2⟩ | h1
    · exact .inl ((h.flag q t (oldq h1)).1 h2)
    · exact .inr h1
  · rintro (hg | ⟨i, k, cs, o, h1, h2, h3⟩)
    · have hlt : q < w.decls.length := by
        by_contra hge
        rw [allRegs_snoc, List.getElem?_append_right (by rw [← h.len]; omega)] at hq
        have ht : t = as.length := by
          have := List.mem_of_getElem? hq
          revert this
          cases a <;> simp only [regsOf, List.not_mem_nil, false_imp_iff]
          split
          · exact List.mem_singleton.1
          · exact fun h => absurd h (List.not_mem_nil)
        have := given_lt hg
        omega
      exact up q hlt ((h.flag q t (oldq hlt)).2 hg)
    · cases hm : w'.objs i with
      | none => rw [gone i hm] at h1; cases h1
      | some m =>
        obtain ⟨k', cs', o', e1, e2⟩ := obj i m hm
        rw [h1] at e1
        cases e1
        rw [lives_unique h2 e2.lives] at h3
        exact e2.flag hq h3

theorem Knows.later {sc : Nat → V} {vec : Nat → List V} {as : List (OptAct V)} {w w' : World V} {m : Members} {k : Bool}
    {cs : List (Nat × OptCall V)} {o : Options V} (h : Knows sc vec as w m k cs o) (a : OptAct V)
    (ha : Agree (fun _ => False) (fun _ => False) (sameTime (regs cs) (allRegs as)) o (w'.view m)) :
    Knows sc vec (as ++ [a]) w' m k cs o := by
  refine ⟨h.lives, h.names, ?_, fun t ht => ?_⟩
  · have : sameTime (regs cs) (allRegs (as ++ [a])) = sameTime (regs cs) (allRegs as) := by
      rw [allRegs_snoc]
      cases a <;> simp only [regsOf, List.append_nil]
      split
      · exact sameTime_other h.old
      · rw [List.append_nil]
    rw [this]
    exact ha
  · have := h.old t ht
    simp only [List.length_append, List.length_singleton]
    omega

theorem Told.plain {sc : Nat → V} {vec : Nat → List V} {as : List (OptAct V)} {w : World V} {a : OptAct V} {x : Nat}
    {v : Option Members} (h : Told sc vec as w) (hp : Plain w a x v) :
    Told sc vec (as ++ [a]) { w with objs := update w.objs x v } := by
  have hr : allRegs (as ++ [a]) = allRegs as := by
    rw [allRegs_snoc]
    cases hp <;> simp [regsOf]
  have other : ∀ j, j ≠ x → story (as ++ [a]) j = story as j := by
    intro j hj
    rw [story_snoc]
    cases hp <;> simp [storyStep, hj]
  refine h.finish (by rw [hr]; exact h.len) ?_ ?_ (fun _ _ h => h) ?_
  · intro j hj
    by_cases hjx : j = x
    · subst hjx
      simp only [update_same] at hj
      subst hj
      cases hp
      rw [story_snoc]
      simp [storyStep]
    · rw [other j hjx]
      simp only [update_ne _ _ hjx] at hj
      exact h.gone j hj
  · intro j m hj
    by_cases hjx : j = x
    · subst hjx
      simp only [update_same] at hj
      subst hj
      have src : ∀ y, w.objs y = some m → story (as ++ [a]) j = story as y →
          ∃ k cs o, story (as ++ [a]) j = some (k, cs) ∧
            Knows sc vec (as ++ [a]) { w with objs := update w.objs j (some m) } m k cs o := by
        intro y hy e
        obtain ⟨k, cs, o, h1, h2⟩ := h.obj y m hy
        exact ⟨k, cs, o, e.trans h1, h2.later a h2.agree⟩
      cases hp with
      | @new _ k h0 =>
        refine ⟨k, [], _, by rw [story_snoc]; simp [storyStep], .nil _, Names.new k sc vec, ?_, by simp [regs]⟩
        have : sameTime (regs ([] : List (Nat × OptCall V))) (allRegs (as ++ [.new j k])) = fun _ _ => False := by
          funext p q
          simp [sameTime, regs]
        rw [this]
        exact Agree.new k _ rfl rfl rfl rfl rfl rfl sc vec (fun _ h => h.elim) fun _ h => h.elim
      | @copy i _ _ h1 h2 => exact src i h1 (by rw [story_snoc]; simp [storyStep])
      | @assign _ i _ _ h1 h2 => exact src i h2 (by rw [story_snoc]; simp [storyStep])
    · rw [other j hjx]
      simp only [update_ne _ _ hjx] at hj
      obtain ⟨k, cs, o, h1, h2⟩ := h.obj j m hj
      exact ⟨k, cs, o, h1, h2.later a h2.agree⟩
  · intro q t hq hp
    refine .inl ⟨?_, hp⟩
    rw [hr] at hq
    rw [h.len]
    exact (List.getElem?_eq_some_iff.1 hq).1

theorem Told.call {sc : Nat → V} {vec : Nat → List V} {as : List (OptAct V)} {w : World V} {i : Nat} {c : OptCall V}
    {m0 : Members} {o' : Options V} {b : Bool} (h : Told sc vec as w) (hi : w.objs i = some m0)
    (hr : c.run (w.view m0) = .ok (o', b)) : Told sc vec (as ++ [.call i c]) (w.put i o') := by
  have he := Effect.run c hr
  have he' : Effect (fun a => Registers a c) (w.view m0) ((w.put i o').view m0) :=
    ⟨he.decls, fun _ h => .inl h, he.pres, he.presLe, he.sc, he.vec⟩
  obtain ⟨k, cs, o, hs, hk⟩ := h.obj i m0 hi
  -- the object, with the flags that were not set
  have ha : Agree (fun q => w.pres q = false) (fun _ => False) (sameTime (regs cs) (allRegs as)) o (w.view m0) :=
    { hk.agree with
      pres := fun p q hpq hf => by
        have := hk.agree.presLe p q hpq
        have hf' : (w.view m0).pres q = false := hf
        rw [hf'] at this ⊢
        cases ho : o.pres p with
        | false => rfl
        | true => exact absurd (this ho) (by simp) }
  obtain ⟨o1, hr1, hag⟩ := ha.run_known hr
  have hst : story (as ++ [.call i c]) i = some (k, cs ++ [(as.length, c)]) := by
    rw [story_snoc]; simp [storyStep, hs]
  have hlives : Lives (Options.new k sc vec) ((cs ++ [(as.length, c)]).map (·.2)) o1 := by
    rw [List.map_append]; exact .snoc hk.lives hr1
  have hnames := hk.names.snoc as.length hr1
  have hρ : sameTime (regs (cs ++ [(as.length, c)])) (allRegs (as ++ [.call i c])) =
      if (registered c).isSome then grow (sameTime (regs cs) (allRegs as)) o.decls.length (w.view m0).decls.length
      else sameTime (regs cs) (allRegs as) := by
    rw [regs_snoc, allRegs_snoc, hk.names.len, show (w.view m0).decls.length = (allRegs as).length from h.len]
    simp only [regsOf]
    split
    · exact sameTime_grow hk.old (allRegs_lt as)
    · simp
  rw [← hρ] at hag
  have other : ∀ j, j ≠ i → story (as ++ [.call i c]) j = story as j ∧ (w.put i o').objs j = w.objs j := by
    intro j hj
    refine ⟨?_, update_ne _ _ hj⟩
    rw [story_snoc]; simp [storyStep, hj]
  have hself : (w.put i o').objs i = some (membersOf o') := update_same _ _ _
  have hlen : o'.decls.length = (allRegs (as ++ [.call i c])).length := by
    rw [allRegs_snoc, List.length_append, ← h.len]
    simp only [regsOf]
    cases hc : registered c with
    | none => rw [run_decls hc hr]; simp [World.view]
    | some x =>
      obtain ⟨f, d, rfl, -⟩ := run_registered hc hr
      simp [Options.registerOpt, World.view]
  refine h.finish hlen ?_ ?_ (fun q hq hp => he.presLe q hq hp) ?_
  · intro j hj
    by_cases hji : j = i
    · subst hji; rw [hself] at hj; cases hj
    · rw [(other j hji).1]; rw [(other j hji).2] at hj; exact h.gone j hj
  · intro j m hj
    by_cases hji : j = i
    · subst hji
      rw [hself] at hj
      cases hj
      refine ⟨k, _, o1, hst, hlives, hnames, hag.mono (fun _ h => h.elim) (fun _ h => h), fun t ht => ?_⟩
      rw [regs_snoc] at ht
      simp only [List.length_append, List.length_singleton]
      rcases List.mem_append.1 ht with ht | ht
      · have := hk.old t ht; omega
      · split at ht
        · rw [List.mem_singleton.1 ht]; omega
        · cases ht
    · rw [(other j hji).1]
      rw [(other j hji).2] at hj
      obtain ⟨k', cs', o2, h1, h2⟩ := h.obj j m hj
      exact ⟨k', cs', o2, h1, h2.later _ (h2.agree.other he' (fun _ _ h => h.elim) fun _ h => h.elim)⟩
  · intro q t hq hp
    by_cases hlt : q < w.decls.length
    · cases hw : w.pres q with
      | true => exact .inl ⟨hlt, rfl⟩
      | false =>
        right
        have hp' : o'.pres q = true := hp
        cases hc : registered c with
        | some x =>
          obtain ⟨f, d, rfl, -⟩ := run_registered hc hr
          simp only [Options.registerOpt] at hp'
          rw [update_ne _ _ (show q ≠ (w.view m0).decls.length from Nat.ne_of_lt hlt)] at hp'
          exact absurd (hp'.symm.trans hw) (by simp)
        | none =>
          have href : Refers (w.view m0) q := by
            by_contra hno
            have := he.pres q hlt hno
            rw [hp'] at this
            exact absurd (this.trans hw) (by simp)
          obtain ⟨e1, e2⟩ := run_maps (noRegistration_of hc) hr1
          have htime : (allRegs as)[q]? = some t := by
            rwa [allRegs_snoc, List.getElem?_append_left (by rw [← h.len]; exact hlt)] at hq
          have hregs : regs (cs ++ [(as.length, c)]) = regs cs := by rw [regs_snoc, hc]; simp
          have fl : ∀ p, sameTime (regs cs) (allRegs as) p q → o1.pres p = true ∧ (regs (cs ++ [(as.length, c)]))[p]? = some t := by
            rintro p ⟨t', h1, h2⟩
            rw [htime] at h2
            cases h2
            refine ⟨?_, by rw [hregs]; exact h1⟩
            rw [hag.pres p q ⟨t, by rw [hregs]; exact h1, hq⟩ hw]
            exact hp'
          refine ⟨i, k, _, o1, hst, hlives, ?_⟩
          rcases href with ⟨n, hn⟩ | ⟨n, hn⟩
          · left
            rcases hk.agree.long.find (less := strLess) n with ⟨-, e⟩ | ⟨p, q', hpq, f1, f2⟩
            · rw [Options.findLong, e] at hn; cases hn
            · rw [Options.findLong, f2] at hn
              cases hn
              obtain ⟨g1, g2⟩ := fl p hpq
              have g3 : o1.findLong n = some p := by rw [Options.findLong, e1]; exact f1
              exact ⟨n, (hnames.long n t).2 ⟨p, g3, g2⟩, by rw [Options.isPresent, g3]; exact g1⟩
          · right
            rcases hk.agree.ab.find (less := charLess) n with ⟨-, e⟩ | ⟨p, q', hpq, f1, f2⟩
            · rw [Options.findAb, e] at hn; cases hn
            · rw [Options.findAb, f2] at hn
              cases hn
              obtain ⟨g1, g2⟩ := fl p hpq
              have g3 : o1.findAb n = some p := by rw [Options.findAb, e2]; exact f1
              exact ⟨n, (hnames.letter n t).2 ⟨p, g3, g2⟩, by rw [Options.isPresentAb, g3]; exact g1⟩
    · exfalso
      have hp' : o'.pres q = true := hp
      have hq' : q < o'.decls.length := by rw [hlen]; exact (List.getElem?_eq_some_iff.1 hq).1
      cases hc : registered c with
      | none => rw [run_decls hc hr] at hq'; exact hlt hq'
      | some x =>
        obtain ⟨f, d, rfl, -⟩ := run_registered hc hr
        simp only [Options.registerOpt, List.length_append, List.length_singleton] at hq' hp'
        have : q = (w.view m0).decls.length := by
          have : (w.view m0).decls.length = w.decls.length := rfl
          omega
        subst this
        rw [update_same] at hp'
        cases hp'

theorem Told.acts {sc : Nat → V} {vec : Nat → List V} (as : List (OptAct V)) :
    ∀ w, (World.start sc vec).acts as = .ok w → Told sc vec as w := by
  induction as using List.reverseRecOn with
  | nil => intro w h; cases h; exact Told.start sc vec
  | append_singleton as a ih =>
    intro w h
    obtain ⟨w1, h1, h2⟩ := acts_snoc _ _ _ _ h
    obtain ⟨b, h3⟩ := answer_act h2
    rcases answer_cases h3 with ⟨i, c, m, o', rfl, hi, hr, rfl⟩ | ⟨x, v, hp, rfl, -⟩
    · exact (ih w1 h1).call hi hr
    · exact (ih w1 h1).plain hp

end SoDa.Opts
