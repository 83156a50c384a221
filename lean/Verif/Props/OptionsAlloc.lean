import Verif.Model.OptionsAlloc
import Verif.Proof.OptionsCopy
import Verif.Props.Options
/-!
Property C115: registering options when memory runs out.
-/
namespace SoDa.Opts
open Spec

variable {V : Type}

/-! ### Trying again -/

theorem mapSet_mapSet {K W : Type} {less : K → K → Bool} (ho : StrictOrder less) (k : K) (v w : W) (m : List (K × W)) :
    mapSet less k v (mapSet less k w m) = mapSet less k v m := by
  induction m with
  | nil => simp [mapSet, ho.irrefl]
  | cons x m ih =>
    obtain ⟨k', v'⟩ := x
    simp only [mapSet]
    split
    · simp [mapSet, ho.irrefl]
    · rename_i h1
      split
      · rename_i h2
        simp [mapSet, h1, h2, ih]
      · rename_i h2
        simp [mapSet, h1, h2]

theorem run_registration {c : OptCall V} {a : Option (Nat × V)} {d : Decl V} (h : c.registration = some (a, d)) (o : Options V) :
    c.run o = .ok ({ o with sc := assigned a o.sc }.registerOpt d, true) := by
  cases c <;> simp only [OptCall.registration, Option.some.injEq, Prod.mk.injEq, reduceCtorEq] at h
  all_goals (obtain ⟨rfl, rfl⟩ := h; rfl)

/-- `o2` is where attempts to register `d` have led, which failed; `o1` is where none was made. -/
structure Halfway (ρ : Nat → Nat → Prop) (a : Option (Nat × V)) (d : Decl V) (o1 o2 : Options V) : Prop where
  long : ∃ m, SameTable ρ o1.longMap m ∧ (o2.longMap = m ∨ ∃ q, o2.longMap = mapSet strLess d.long q m)
  ab : SameTable ρ o1.abMap o2.abMap
  info : o1.info = o2.info
  pos : o1.pos = o2.pos
  isKvp : o1.isKvp = o2.isKvp
  waiting : o1.waiting = o2.waiting
  decl : ∀ p q, ρ p q → ∃ d, o1.decls[p]? = some d ∧ o2.decls[q]? = some d
  inj : ∀ p q p' q', ρ p q → ρ p' q' → (p = p' ↔ q = q')
  pres : ∀ p q, ρ p q → o1.pres p = o2.pres q
  sc : assigned a o1.sc = assigned a o2.sc
  vec : o1.vec = o2.vec
  cerr : o1.cerr = o2.cerr

variable {ρ : Nat → Nat → Prop} {o1 o2 : Options V} {a : Option (Nat × V)} {d : Decl V}

theorem assigned_twice (a : Option (Nat × V)) (sc : Nat → V) : assigned a (assigned a sc) = assigned a sc := by
  cases a with
  | none => rfl
  | some x =>
    funext b
    simp only [assigned, update]
    split <;> rfl

theorem Halfway.start (h : Agree (fun _ => True) (fun _ => True) ρ o1 o2) (hc : o1.cerr = o2.cerr) (a : Option (Nat × V)) (d : Decl V) :
    Halfway ρ a d o1 o2 where
  long := ⟨_, h.long, .inl rfl⟩
  ab := h.ab
  info := h.info
  pos := h.pos
  isKvp := h.isKvp
  waiting := h.waiting
  decl := h.decl
  inj := h.inj
  pres := fun p q e => h.pres p q e trivial
  sc := by rw [show o1.sc = o2.sc from funext fun b => h.sc b trivial]
  vec := funext fun b => h.vec b trivial
  cerr := hc

theorem Halfway.attempt (h : Halfway ρ a d o1 o2) {c : OptCall V} (hc : c.registration = some (a, d)) {f : RegFail} {o' : Options V}
    (ho : c.attempt o2 f = some o') : Halfway ρ a d o1 o' := by
  simp only [OptCall.attempt, hc] at ho
  have hsc : assigned a o1.sc = assigned a (assigned a o2.sc) := by rw [assigned_twice]; exact h.sc
  cases f with
  | make => simp only [Option.some.injEq] at ho; rw [← ho]; exact h
  | names =>
    simp only at ho
    split at ho
    · simp only [Option.some.injEq] at ho; rw [← ho]; exact { h with sc := hsc }
    · cases ho
  | long =>
    simp only at ho
    split at ho
    · simp only [Option.some.injEq] at ho; rw [← ho]; exact { h with sc := hsc }
    · cases ho
  | ab =>
    simp only at ho
    split at ho
    · simp only [Option.some.injEq] at ho
      rw [← ho]
      refine { h with sc := hsc, long := ?_, decl := ?_, pres := ?_ }
      · obtain ⟨m, hm, hq⟩ := h.long
        refine ⟨m, hm, .inr ⟨o2.decls.length, ?_⟩⟩
        rcases hq with hq | ⟨q, hq⟩
        · simp only [hq]
        · simp only [hq, mapSet_mapSet strLess_order]
      · intro p q hpq
        obtain ⟨e, h1, h2⟩ := h.decl p q hpq
        refine ⟨e, h1, ?_⟩
        rw [List.getElem?_append_left (List.getElem?_eq_some_iff.1 h2).1]
        exact h2
      · intro p q hpq
        obtain ⟨e, h1, h2⟩ := h.decl p q hpq
        have : q < o2.decls.length := (List.getElem?_eq_some_iff.1 h2).1
        simp only [update]
        rw [if_neg (by omega)]
        exact h.pres p q hpq
    · cases ho

/-- Whatever the attempts before have left, the registration leads to the same. -/
theorem Halfway.run (h : Halfway ρ a d o1 o2) : Agree (fun _ => True) (fun _ => True) (grow ρ o1.decls.length o2.decls.length)
    ({ o1 with sc := assigned a o1.sc }.registerOpt d) ({ o2 with sc := assigned a o2.sc }.registerOpt d) := by
  obtain ⟨m, hm, hq⟩ := h.long
  have A : Agree (fun _ => True) (fun _ => True) ρ { o1 with sc := assigned a o1.sc } { o2 with sc := assigned a o2.sc, longMap := m } :=
    { long := hm, ab := h.ab, info := h.info, pos := h.pos, isKvp := h.isKvp, waiting := h.waiting, decl := h.decl, inj := h.inj,
      pres := fun p q e _ => h.pres p q e, presLe := fun p q hpq hp => (h.pres p q hpq) ▸ hp, sc := fun b _ => congrFun h.sc b,
      vec := fun b _ => congrFun h.vec b }
  have B := A.registerOpt d
  have : ({ o2 with sc := assigned a o2.sc, longMap := m } : Options V).registerOpt d = { o2 with sc := assigned a o2.sc }.registerOpt d := by
    simp only [Options.registerOpt]
    rcases hq with hq | ⟨q, hq⟩
    · rw [hq]
    · rw [hq, mapSet_mapSet strLess_order]
  rw [this] at B
  exact B

theorem Halfway.tried {c : OptCall V} (hc : c.registration = some (a, d)) (fs : List RegFail) : ∀ {o2 : Options V}, Halfway ρ a d o1 o2 →
    ∃ o1' o2' ρ', c.run o1 = .ok (o1', true) ∧ c.tried o2 fs = .ok (o2', true) ∧ Agree (fun _ => True) (fun _ => True) ρ' o1' o2' ∧ o1'.cerr = o2'.cerr := by
  induction fs with
  | nil =>
    intro o2 h
    exact ⟨_, _, _, run_registration hc o1, run_registration hc o2, h.run, h.cerr⟩
  | cons f fs ih =>
    intro o2 h
    simp only [OptCall.tried]
    cases ho : c.attempt o2 f with
    | none => exact ⟨_, _, _, run_registration hc o1, run_registration hc o2, h.run, h.cerr⟩
    | some o' => exact ih (h.attempt hc ho)

theorem tried_other {c : OptCall V} (hc : c.registration = none) (o : Options V) (fs : List RegFail) : c.tried o fs = c.run o := by
  induction fs with
  | nil => rfl
  | cons f fs ih =>
    simp only [OptCall.tried]
    cases h : c.attempt o f with
    | none => rfl
    | some o' =>
      have : o' = o := by
        simp only [OptCall.attempt, hc] at h
        split at h
        · simp only [Option.some.injEq] at h; exact h.symm
        · cases h
      rw [this]; exact ih

theorem tryAll_agree (l : List (OptCall V × List RegFail)) : ∀ (ρ : Nat → Nat → Prop) (o1 o2 : Options V),
    Agree (fun _ => True) (fun _ => True) ρ o1 o2 → o1.cerr = o2.cerr →
    (o1.tryAll (l.map fun x => (x.1, [])) = .ub ∧ o2.tryAll l = .ub) ∨
    ∃ o1' o2' bs ρ', o1.tryAll (l.map fun x => (x.1, [])) = .ok (o1', bs) ∧ o2.tryAll l = .ok (o2', bs) ∧
      Agree (fun _ => True) (fun _ => True) ρ' o1' o2' ∧ o1'.cerr = o2'.cerr := by
  induction l with
  | nil => intro ρ o1 o2 h hc; exact .inr ⟨o1, o2, [], ρ, rfl, rfl, h, hc⟩
  | cons x l ih =>
    obtain ⟨c, fs⟩ := x
    intro ρ o1 o2 h hc
    simp only [List.map_cons, Options.tryAll, OptCall.tried]
    have key : (c.run o1 = .ub ∧ c.tried o2 fs = .ub) ∨ ∃ o1' o2' b ρ', c.run o1 = .ok (o1', b) ∧ c.tried o2 fs = .ok (o2', b) ∧
        Agree (fun _ => True) (fun _ => True) ρ' o1' o2' ∧ o1'.cerr = o2'.cerr := by
      cases hr : c.registration with
      | some x =>
        obtain ⟨a, d⟩ := x
        obtain ⟨o1', o2', ρ', h1, h2, h3, h4⟩ := Halfway.tried hr fs (Halfway.start h hc a d)
        exact .inr ⟨o1', o2', true, ρ', h1, h2, h3, h4⟩
      | none =>
        rw [tried_other hr]
        rcases h.run c with ⟨h1, h2⟩ | ⟨o1', o2', b, ρ', h1, h2, h3, _, ds, hd1, hd2⟩
        · exact .inl ⟨h1, h2⟩
        · exact .inr ⟨o1', o2', b, ρ', h1, h2, h3, by rw [hd1, hd2, hc]⟩
    rcases key with ⟨h1, h2⟩ | ⟨o1', o2', b, ρ', h1, h2, h3, h4⟩
    · left; rw [h1, h2]; exact ⟨rfl, rfl⟩
    · rw [h1, h2]
      simp only [Res.bind]
      rcases ih ρ' o1' o2' h3 h4 with ⟨e1, e2⟩ | ⟨p1, p2, bs, ρ2, e1, e2, e3, e4⟩
      · left; rw [e1, e2]; exact ⟨rfl, rfl⟩
      · right
        rw [e1, e2]
        exact ⟨p1, p2, b :: bs, ρ2, rfl, rfl, e3, e4⟩

/-- C115.  A program that registers options and parses command lines, and tries every registration again until it succeeds: what the
calls return, the variables, the positional arguments, the options present, the help and the messages are what they would have been if
memory had sufficed. -/
theorem C115_retried (k : Bool) (sc : Nat → V) (vec : Nat → List V) (l : List (OptCall V × List RegFail)) :
    ((Options.new k sc vec).tryAll (l.map fun x => (x.1, [])) = .ub ∧ (Options.new k sc vec).tryAll l = .ub) ∨
    ∃ o1 o2 bs, (Options.new k sc vec).tryAll (l.map fun x => (x.1, [])) = .ok (o1, bs) ∧ (Options.new k sc vec).tryAll l = .ok (o2, bs) ∧
      Alike o1 o2 ∧ SamePresence o1 o2 ∧ o1.sc = o2.sc ∧ o1.vec = o2.vec ∧ o1.cerr = o2.cerr := by
  have h0 : Agree (fun _ => True) (fun _ => True) (fun _ _ => False) (Options.new k sc vec) (Options.new k sc vec) :=
    { long := .nil, ab := .nil, info := rfl, pos := rfl, isKvp := rfl, waiting := rfl, decl := fun _ _ h => h.elim,
      inj := fun _ _ _ _ h => h.elim, pres := fun _ _ h => h.elim, presLe := fun _ _ h => h.elim, sc := fun _ _ => rfl, vec := fun _ _ => rfl }
  rcases tryAll_agree l _ _ _ h0 rfl with h | ⟨o1, o2, bs, ρ', e1, e2, e3, e4⟩
  · exact .inl h
  · refine .inr ⟨o1, o2, bs, e1, e2, ⟨e3.pos, e3.printHelp, fun c => ?_⟩, ⟨fun n => e3.isPresent (fun _ => trivial) n, fun c => e3.isPresentAb (fun _ => trivial) c⟩,
      funext fun b => e3.sc b trivial, funext fun b => e3.vec b trivial, e4⟩
    rcases e3.run c with ⟨h1, h2⟩ | ⟨p1, p2, b, ρ2, h1, h2, _, _, ds, hd1, hd2⟩
    · exact .inl ⟨h1, h2⟩
    · exact .inr ⟨p1, p2, b, ds, h1, h2, hd1, hd2⟩

/-! ### A registration that fails -/

/-- The full statement: a registration that runs out of memory cannot be noticed afterwards. -/
def C115_claim (V : Type) : Prop := ∀ (o o' : Options V) (c : OptCall V) (f : RegFail), Reachable o → c.attempt o f = some o' →
  Alike o o' ∧ SamePresence o o' ∧ o.sc = o'.sc ∧ o.vec = o'.vec

/-- C115.  Nothing can be noticed if the registration fails before its entry for the letter and the target already has its initial
value, or is a vector. -/
theorem C115_unchanged_partial (o o' : Options V) (c : OptCall V) (f : RegFail) (h : c.attempt o f = some o') (hf : f ≠ .ab)
    (hv : ∀ a d, c.registration = some (a, d) → ∀ t v, a = some (t, v) → o.sc t = v) : o' = o := by
  have hs : ∀ a d, c.registration = some (a, d) → assigned a o.sc = o.sc := by
    intro a d hr
    cases a with
    | none => rfl
    | some x =>
      obtain ⟨t, v⟩ := x
      funext b
      simp only [assigned, update]
      split
      · rename_i hb; rw [hb]; exact (hv _ d hr t v rfl).symm
      · rfl
  unfold OptCall.attempt at h
  cases hr : c.registration with
  | none =>
    simp only [hr] at h
    split at h
    · simp only [Option.some.injEq] at h; exact h.symm
    · cases h
  | some x =>
    obtain ⟨a, d⟩ := x
    simp only [hr] at h
    have := hs a d hr
    cases f with
    | make => simp only [Option.some.injEq] at h; exact h.symm
    | names =>
      simp only [this] at h
      split at h
      · simp only [Option.some.injEq] at h; exact h.symm
      · cases h
    | long =>
      simp only [this] at h
      split at h
      · simp only [Option.some.injEq] at h; exact h.symm
      · cases h
    | ab => exact absurd rfl hf

/-- C115.  A registration that fails before its entry for the letter changes nothing but the target variable. -/
theorem C115_target_only (o o' : Options V) (c : OptCall V) (f : RegFail) (h : c.attempt o f = some o') (hf : f ≠ .ab) :
    ∃ sc, o' = { o with sc } ∧ ∀ b, (∀ a d, c.registration = some (a, d) → d.target ≠ b) → sc b = o.sc b := by
  have ht : ∀ a d, c.registration = some (a, d) → ∀ t v, a = some (t, v) → d.target = t := by
    intro a d hr t v hv
    subst hv
    cases c <;> simp only [OptCall.registration, Option.some.injEq, Prod.mk.injEq, reduceCtorEq, false_and] at hr
    all_goals (obtain ⟨⟨rfl, _⟩, rfl⟩ := hr; rfl)
  have hs : ∀ a d, c.registration = some (a, d) → ∀ b, (∀ a d, c.registration = some (a, d) → d.target ≠ b) → assigned a o.sc b = o.sc b := by
    intro a d hr b hb
    cases a with
    | none => rfl
    | some x =>
      obtain ⟨t, v⟩ := x
      simp only [assigned, update]
      rw [if_neg]
      intro e
      exact hb _ d hr ((ht _ d hr t v rfl).trans e.symm)
  unfold OptCall.attempt at h
  cases hr : c.registration with
  | none =>
    simp only [hr] at h
    split at h
    · simp only [Option.some.injEq] at h; exact ⟨o.sc, h.symm, fun _ _ => rfl⟩
    · cases h
  | some x =>
    obtain ⟨a, d⟩ := x
    have := hs a d hr
    simp only [hr] at h this
    cases f with
    | make => simp only [Option.some.injEq] at h; exact ⟨o.sc, h.symm, fun _ _ => rfl⟩
    | names =>
      simp only at h
      split at h
      · simp only [Option.some.injEq] at h; exact ⟨_, h.symm, this⟩
      · cases h
    | long =>
      simp only at h
      split at h
      · simp only [Option.some.injEq] at h; exact ⟨_, h.symm, this⟩
      · cases h
    | ab => exact absurd rfl hf

/-- C115.  A registration that fails at its entry for the letter leaves half an option: it is known by its long name, its letter is
still unknown.  The other options are as before. -/
theorem C115_half (o o' : Options V) (c : OptCall V) (a : Option (Nat × V)) (d : Decl V) (ho : Reachable o)
    (hc : c.registration = some (a, d)) (h : c.attempt o .ab = some o') :
    (∀ n, o'.isPresent n = if n = d.long then false else o.isPresent n) ∧ (∀ x, o'.isPresentAb x = o.isPresentAb x) ∧
    (o.waiting = false → d.ab ≠ 'h' → d.ab ≠ '-' →
      o'.parse [['-', d.ab]] = ({ o' with cerr := o.cerr ++ [.badName ['-', d.ab], .help] }, false)) ∧
    (o.waiting = false → d.long ≠ [] → d.long ≠ "help".toList → (o'.parse ["--".toList ++ d.long]).2 = true) := by
  have hw := ho.wf
  simp only [OptCall.attempt, hc] at h
  split at h
  · rename_i hab
    simp only [Option.some.injEq] at h
    have hfl : ∀ n, o'.findLong n = if n = d.long then some o.decls.length else o.findLong n := by
      intro n
      rw [← h]
      simp only [Options.findLong]
      rw [mapFind_mapSet strLess_order]
    have hfa : ∀ x, o'.findAb x = o.findAb x := by intro x; rw [← h]; rfl
    have hp : ∀ p, o'.pres p = if p = o.decls.length then false else o.pres p := by intro p; rw [← h]; rfl
    have hwt : o'.waiting = o.waiting := by rw [← h]
    have hce : o'.cerr = o.cerr := by rw [← h]
    have hde : o'.decls = o.decls ++ [d] := by rw [← h]
    clear h
    refine ⟨fun n => ?_, fun x => ?_, fun h0 h1 h2 => ?_, fun h0 h1 h2 => ?_⟩
    · simp only [Options.isPresent, hfl]
      by_cases hn : n = d.long
      · simp [hn, hp]
      · simp only [hn, if_false]
        cases hf : o.findLong n with
        | none => rfl
        | some p =>
          obtain ⟨e, he⟩ := (hw.long n p).1 hf
          have : p < o.decls.length := (List.getElem?_eq_some_iff.1 he.1).1
          simp only [hp]
          rw [if_neg (by omega)]
    · simp only [Options.isPresentAb, hfa]
      cases hf : o.findAb x with
      | none => rfl
      | some p =>
        obtain ⟨e, he⟩ := (hw.ab x p).1 hf
        have : p < o.decls.length := (List.getElem?_eq_some_iff.1 he.1).1
        simp only [hp]
        rw [if_neg (by omega)]
    · have hfa' : o'.findAb d.ab = none := (hfa d.ab).trans hab
      have hs : Options.isSwitch o'.waiting ['-', d.ab] = 1 := by
        simp [Options.isSwitch, hwt, h0, h2]
      simp only [Options.parse, Options.parseLoop, hs, Nat.one_ne_zero, if_false, List.getElem?_cons_succ, List.getElem?_cons_zero, true_and,
        Option.some.injEq, h1, ne_eq, not_true_eq_false, false_and, if_true, Option.bind_some, hfa', Option.bind_none, hce]
    · have hs : Options.isSwitch o'.waiting ("--".toList ++ d.long) = 2 := by
        cases hl : d.long with
        | nil => exact absurd hl h1
        | cons x l =>
          simp only [Options.isSwitch, hwt, h0, Bool.false_eq_true, if_false]
          rw [if_neg (by simp), if_neg (by simp), if_pos (by simp), if_neg (by simp)]
      have hne : "--".toList ++ d.long ≠ "--help".toList := by
        intro e
        apply h2
        exact List.append_cancel_left (as := "--".toList) e
      have hd : ("--".toList ++ d.long).drop 2 = d.long := rfl
      have hf' : o'.findLong d.long = some o.decls.length := by rw [hfl]; simp
      have hdd : o'.decls[o.decls.length]? = some d := by rw [hde]; simp
      simp only [Options.parse, Options.parseLoop, hs, OfNat.ofNat_ne_zero, if_false, OfNat.ofNat_ne_one, false_and, ne_eq, not_false_eq_true,
        hne, and_false, hd, hf', Option.bind_some, hdd, Option.map_some]
      split <;> rfl
  · cases h

theorem parse_cerr {o : Options V} (h : o.Wf) (ts : List Str) : ∃ m, (o.parse ts).1.cerr = o.cerr ++ m := by
  cases hw : o.waiting with
  | true => exact ⟨[], by rw [parse_waiting hw]; simp⟩
  | false =>
    obtain ⟨its, e, hr⟩ := reads_total o.decls _ ts (le_refl _)
    rw [parse_reads h hw hr, ← (items_keep its o).2.2.2.2.2.2]
    cases e with
    | done => exact ⟨[], (List.append_nil _).symm⟩
    | dangling => exact ⟨[], (List.append_nil _).symm⟩
    | unknown => exact ⟨_, rfl⟩
    | help => exact ⟨_, rfl⟩
    | rejected => exact ⟨_, rfl⟩

theorem alike_refl {o : Options V} (h : o.Wf) : Alike o o := by
  refine ⟨rfl, rfl, fun c => ?_⟩
  suffices hs : c.run o = .ub ∨ ∃ o' b m, c.run o = .ok (o', b) ∧ o'.cerr = o.cerr ++ m by
    rcases hs with hs | ⟨o', b, m, h1, h2⟩
    · exact .inl ⟨hs, hs⟩
    · exact .inr ⟨o', o', b, m, h1, h1, h2, h2⟩
  have hp : ∀ ts, ∃ (o' : Options V) (b : Bool) (m : List Diag), (Res.ok (o.parse ts) : Res Empty (Options V × Bool)) = .ok (o', b) ∧ o'.cerr = o.cerr ++ m := by
    intro ts
    obtain ⟨m, hm⟩ := parse_cerr h ts
    exact ⟨_, _, m, rfl, hm⟩
  have hl : ∀ l, o.parseKeyValueList l = .ub ∨ ∃ o' b m, o.parseKeyValueList l = .ok (o', b) ∧ o'.cerr = o.cerr ++ m := by
    intro l
    unfold Options.parseKeyValueList
    cases Options.kvTokens l with
    | ub => exact .inl rfl
    | throw e => exact e.elim
    | ok ts => exact .inr (hp ts)
  have hk : ∀ s, o.parseKeyValue s = .ub ∨ ∃ o' b m, o.parseKeyValue s = .ok (o', b) ∧ o'.cerr = o.cerr ++ m := by
    intro s
    unfold Options.parseKeyValue
    split
    · exact .inr ⟨o, false, [], rfl, by simp⟩
    · cases split s ",".toList with
      | ub => exact .inl rfl
      | throw e => exact e.elim
      | ok l =>
        simp only [Res.bind]
        split
        · exact .inr ⟨o, false, [], rfl, by simp⟩
        · exact hl l
  cases c with
  | addInfo s => exact .inr ⟨_, _, [], rfl, by simp [Options.addInfo]⟩
  | addDef => exact .inr ⟨_, _, [], rfl, by simp [Options.addDef, Options.registerOpt]⟩
  | add => exact .inr ⟨_, _, [], rfl, by simp [Options.add, Options.registerOpt]⟩
  | addP => exact .inr ⟨_, _, [], rfl, by simp [Options.addP, Options.registerOpt]⟩
  | addV => exact .inr ⟨_, _, [], rfl, by simp [Options.addV, Options.registerOpt]⟩
  | parse ts => exact .inr (hp ts)
  | parseArgv a =>
    simp only [OptCall.run, Options.parseArgv]
    split
    · exact hl _
    · exact .inr (hp _)
  | parseString s =>
    simp only [OptCall.run, Options.parseString]
    split
    · exact hk s
    · exact .inr (hp _)
  | parseKeyValue s => exact hk s
  | parseKeyValueList l => exact hl l

/-- C115.  Exactly when a failing registration of an option with a new name cannot be noticed: it did not get as far as the entry for
the letter, and it did not get as far as the target variable or this has its initial value already. -/
theorem C115_exact (o o' : Options V) (c : OptCall V) (a : Option (Nat × V)) (d : Decl V) (f : RegFail) (ho : Reachable o)
    (hc : c.registration = some (a, d)) (h : c.attempt o f = some o') (hw : o.waiting = false) (h1 : d.long ≠ []) (h2 : d.long ≠ "help".toList)
    (hnew : (o.parse ["--".toList ++ d.long]).2 = false) :
    (Alike o o' ∧ SamePresence o o' ∧ o.sc = o'.sc ∧ o.vec = o'.vec) ↔ f ≠ .ab ∧ (f = .make ∨ ∀ t v, a = some (t, v) → o.sc t = v) := by
  constructor
  · rintro ⟨al, _, hsc, _⟩
    refine ⟨?_, ?_⟩
    · rintro rfl
      have := (C115_half o o' c a d ho hc h).2.2.2 hw h1 h2
      rcases al.next (.parse ["--".toList ++ d.long]) with ⟨hu, _⟩ | ⟨p1, p2, b, _, e1, e2, _, _⟩
      · simp [OptCall.run] at hu
      · simp only [OptCall.run, Res.ok.injEq] at e1 e2
        rw [e1] at hnew
        rw [e2] at this
        simp only at hnew this
        rw [hnew] at this
        cases this
    · by_cases hf : f = .make
      · exact .inl hf
      · right
        rintro t v rfl
        have hs : o'.sc = update o.sc t v := by
          simp only [OptCall.attempt, hc] at h
          cases f with
          | make => exact absurd rfl hf
          | names => dsimp only at h; split at h <;> cases h; rfl
          | long => dsimp only at h; split at h <;> cases h; rfl
          | ab => dsimp only at h; split at h <;> cases h; rfl
        rw [hsc, hs]; simp [update]
  · rintro ⟨hf, hv⟩
    have e : o' = o := by
      rcases hv with rfl | hv
      · simp only [OptCall.attempt, hc] at h
        cases h; rfl
      · refine C115_unchanged_partial o o' c f h hf ?_
        intro a' d' hc' t v ht
        rw [hc] at hc'
        cases hc'
        exact hv t v ht
    subst e
    exact ⟨alike_refl ho.wf, ⟨fun _ => rfl, fun _ => rfl⟩, rfl, rfl⟩

/-- `opts.add<int>(&x, "a-rather-long-name", 'a', 5)` into a variable `x` that holds 1. -/
def allocSample : OptCall Val :=
  .addDef intTy 0 "a-rather-long-name".toList 'a' (.int 5) [] (fun _ => true) []

/-- The name cannot be copied: the variable has been changed all the same. -/
theorem C115_refuted : ¬ C115_claim Val := by
  intro h
  have := (h (Options.new false (fun _ => .int 1) (fun _ => [])) _ allocSample .names (.new _ _ _) rfl).2.2.1
  have := congrFun this 0
  simp [Options.new, assigned, update] at this

/-- There is no memory for the entry of the letter: `--a-rather-long-name 7` is accepted, `-a 7` is not. -/
theorem C115_half_refuted : ∃ o' : Options Val, allocSample.attempt (Options.new false (fun _ => .int 1) (fun _ => [])) .ab = some o' ∧
    (o'.parse ["--a-rather-long-name".toList, "7".toList]).2 = true ∧ (o'.parse ["-a".toList, "7".toList]).2 = false := by
  refine ⟨_, rfl, ?_, ?_⟩ <;> decide +kernel

/-- The hypotheses of `C115_exact` can be met. -/
example : ∃ (o' : Options Val) (a : Option (Nat × Val)) (d : Decl Val), allocSample.registration = some (a, d) ∧
    allocSample.attempt (Options.new false (fun _ => .int 5) (fun _ => [])) .long = some o' ∧
    ((Options.new false (fun _ => Val.int 5) (fun _ => [])).parse ["--".toList ++ d.long]).2 = false ∧ o'.sc 0 = .int 5 := by
  refine ⟨_, _, _, rfl, rfl, ?_, ?_⟩ <;> decide +kernel

/-- The cases of the theorems happen: a program whose first registration fails three times. -/
example : ∃ o bs, (Options.new false (fun _ => Val.int 1) (fun _ => [])).tryAll
    [(allocSample, [.long, .ab, .names]), (.parse ["-a".toList, "7".toList], [])] = .ok (o, bs) ∧ bs = [true, true] ∧ o.sc 0 = .int 7 ∧
    o.isPresent "a-rather-long-name".toList = true := by
  refine ⟨_, _, rfl, ?_, ?_, ?_⟩ <;> decide +kernel

end SoDa.Opts
