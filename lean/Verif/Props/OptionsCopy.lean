import Verif.Proof.OptionsCopy
import Verif.Props.Options
/-!
C103: several `Options` objects in one program, and copies of them.  C39: the help in terms of the
calls.
-/
namespace SoDa.Opts
open Spec

variable {V : Type}

/-! ## C103  several objects -/

/-- Every object of every program answers like an object that lives by itself and got the calls of
its own past; nothing that happens to other objects can be noticed. -/
def C103_claim (V : Type) : Prop :=
  ∀ (sc : Nat → V) (vec : Nat → List V) (as : List (OptAct V)) (w : World V) (j : Nat) (m : Members),
    (World.start sc vec).acts as = .ok w → w.objs j = some m →
    ∃ k cs o, past as j = some (k, cs) ∧ Lives (Options.new k sc vec) cs o ∧
      Alike o (w.view m) ∧ SamePresence o (w.view m)

theorem Agree.alike {pr : Nat → Prop} {A : Nat → Prop} {ρ : Nat → Nat → Prop} {o1 o2 : Options V}
    (h : Agree pr A ρ o1 o2) : Alike o1 o2 where
  posArgs := h.pos
  help := h.printHelp
  next c := by
    rcases h.run c with h | ⟨o1', o2', b, _, e1, e2, _, _, ds, d1, d2⟩
    · exact .inl h
    · exact .inr ⟨o1', o2', b, ds, e1, e2, d1, d2⟩

/-- What holds of all objects, copies or not: positional arguments, help, the answers and the
messages of the next call are those of an object that lives by itself, and every option such an
object reports as present is reported as present.  (Missing: no other option is;
this is not so.  Which ones are is in `C103_presence`.) -/
theorem C103_replies_partial (sc : Nat → V) (vec : Nat → List V) (as : List (OptAct V)) (w : World V)
    (j : Nat) (m : Members) (h : (World.start sc vec).acts as = .ok w) (hj : w.objs j = some m) :
    ∃ k cs o, past as j = some (k, cs) ∧ Lives (Options.new k sc vec) cs o ∧ Alike o (w.view m) ∧
      (∀ n, o.isPresent n = true → (w.view m).isPresent n = true) ∧
      ∀ c, o.isPresentAb c = true → (w.view m).isPresentAb c = true := by
  obtain ⟨k, cs, o, ρ, h1, h2, h3, _⟩ := (Inv.acts as w h).obj j m hj
  exact ⟨k, cs, o, h1, h2, h3.alike, h3.isPresent_le, h3.isPresentAb_le⟩

/-- An object that is neither copied nor assigned also reports the same options as present. -/
theorem C103_alone (sc : Nat → V) (vec : Nat → List V) (as : List (OptAct V)) (w : World V)
    (j : Nat) (m : Members) (h : (World.start sc vec).acts as = .ok w) (hj : w.objs j = some m)
    (hal : Alone as j) :
    ∃ k cs o, past as j = some (k, cs) ∧ Lives (Options.new k sc vec) cs o ∧
      Alike o (w.view m) ∧ SamePresence o (w.view m) := by
  obtain ⟨k, cs, o, ρ, h1, h2, h3, _⟩ := (Inv.acts as w h).obj j m hj
  exact ⟨k, cs, o, h1, h2, h3.alike, h3.isPresent fun _ => hal, h3.isPresentAb fun _ => hal⟩

/-- The target variables that only such an object uses hold what they would hold if the object lived
by itself, and so they do after its next call. -/
theorem C103_targets (sc : Nat → V) (vec : Nat → List V) (as : List (OptAct V)) (w : World V)
    (j : Nat) (m : Members) (h : (World.start sc vec).acts as = .ok w) (hj : w.objs j = some m) :
    ∃ k cs o, past as j = some (k, cs) ∧ Lives (Options.new k sc vec) cs o ∧
      ∀ a, Owns as j a → o.sc a = w.sc a ∧ o.vec a = w.vec a ∧
        ∀ c o' b w' b', c.run o = .ok (o', b) → w.call j c = .ok (w', b') →
          b' = b ∧ o'.sc a = w'.sc a ∧ o'.vec a = w'.vec a := by
  obtain ⟨k, cs, o, ρ, h1, h2, h3, _⟩ := (Inv.acts as w h).obj j m hj
  refine ⟨k, cs, o, h1, h2, fun a ha => ⟨h3.sc a ha, h3.vec a ha, ?_⟩⟩
  intro c o' b w' b' hr hc
  simp only [World.call, hj] at hc
  rcases h3.run c with ⟨e1, _⟩ | ⟨o1', o2', b1, ρ', e1, e2, h4, _⟩
  · rw [hr] at e1; cases e1
  · rw [hr] at e1
    cases e1
    rw [e2] at hc
    simp only [Res.bind] at hc
    cases hc
    exact ⟨rfl, h4.sc a ha, h4.vec a ha⟩

theorem run_maps {c : OptCall V} (hn : NoRegistration c) {o o' : Options V} {b : Bool}
    (h : c.run o = .ok (o', b)) : o'.longMap = o.longMap ∧ o'.abMap = o.abMap := by
  have hp : ∀ ts, o.parse ts = (o', b) → o'.longMap = o.longMap ∧ o'.abMap = o.abMap := by
    intro ts e
    have := Frame.parse o ts
    rw [e] at this
    exact ⟨this.longMap, this.abMap⟩
  have hkl : ∀ l, o.parseKeyValueList l = .ok (o', b) → o'.longMap = o.longMap ∧ o'.abMap = o.abMap := by
    intro l e
    unfold Options.parseKeyValueList at e
    cases hk : Options.kvTokens l with
    | ub => rw [hk] at e; cases e
    | throw e => exact nomatch e
    | ok ts => rw [hk] at e; exact hp ts (Res.ok.inj e)
  have hkv : ∀ s, o.parseKeyValue s = .ok (o', b) → o'.longMap = o.longMap ∧ o'.abMap = o.abMap := by
    intro s e
    unfold Options.parseKeyValue at e
    split at e
    · cases e; exact ⟨rfl, rfl⟩
    · cases hs : split s ",".toList with
      | ub => rw [hs] at e; cases e
      | throw e => exact nomatch e
      | ok l =>
        rw [hs] at e
        simp only [Res.bind] at e
        split at e
        · cases e; exact ⟨rfl, rfl⟩
        · exact hkl l e
  cases c with
  | addInfo s => cases h; exact ⟨rfl, rfl⟩
  | addDef T val long ab dv doc test err => exact absurd rfl (hn val)
  | add T val long ab doc test err => exact absurd rfl (hn val)
  | addP ff tt val long ab doc => exact absurd rfl (hn val)
  | addV T val long ab doc test err => exact absurd rfl (hn val)
  | parse ts => exact hp ts (Res.ok.inj h)
  | parseArgv a =>
    simp only [OptCall.run, Options.parseArgv] at h
    split at h
    · exact hkl _ h
    · exact hp _ (Res.ok.inj h)
  | parseString s =>
    simp only [OptCall.run, Options.parseString] at h
    split at h
    · exact hkv _ h
    · exact hp _ (Res.ok.inj h)
  | parseKeyValue s => exact hkv s h
  | parseKeyValueList l => exact hkl l h

/-- Nothing is done to the object but calls that register nothing. -/
def OnlyUsed (i : Nat) (a : OptAct V) : Prop :=
  a ≠ .destroy i ∧ (∀ j, a ≠ .assign i j) ∧ ∀ c, a = .call i c → NoRegistration c

/-- Such an action keeps the tables of the object. -/
theorem tables_kept {w w' : World V} {i : Nat} {a : OptAct V} (hu : OnlyUsed i a) (ha : w.act a = .ok w')
    {m : Members} (hm : w.objs i = some m) :
    ∃ m', w'.objs i = some m' ∧ m'.longMap = m.longMap ∧ m'.abMap = m.abMap := by
  cases a with
  | new i' k =>
    simp only [World.act] at ha
    split at ha
    · cases ha
    next h0 =>
    cases ha
    have : i ≠ i' := by rintro rfl; rw [hm] at h0; cases h0
    exact ⟨m, (update_ne _ _ this).trans hm, rfl, rfl⟩
  | copy i' j' =>
    simp only [World.act] at ha
    split at ha
    next h1 h2 =>
      cases ha
      have : i ≠ j' := by rintro rfl; rw [hm] at h2; cases h2
      exact ⟨m, (update_ne _ _ this).trans hm, rfl, rfl⟩
    · cases ha
  | assign i' j' =>
    have : i ≠ i' := by rintro rfl; exact hu.2.1 j' rfl
    simp only [World.act] at ha
    split at ha
    · cases ha; exact ⟨m, (update_ne _ _ this).trans hm, rfl, rfl⟩
    · cases ha
  | destroy i' =>
    have : i ≠ i' := by rintro rfl; exact hu.1 rfl
    simp only [World.act] at ha
    split at ha
    · cases ha; exact ⟨m, (update_ne _ _ this).trans hm, rfl, rfl⟩
    · cases ha
  | call i' c =>
    simp only [World.act, World.call] at ha
    split at ha
    · cases ha
    next m0 hm0 =>
    cases hr : c.run (w.view m0) with
    | ub => rw [hr] at ha; cases ha
    | throw e => exact nomatch e
    | ok r =>
      obtain ⟨o', b⟩ := r
      rw [hr] at ha
      simp only [Res.bind] at ha
      cases ha
      by_cases hi : i = i'
      · subst hi
        rw [hm] at hm0
        cases hm0
        have := run_maps (hu.2.2 c rfl) hr
        exact ⟨_, update_same _ _ _, this.1, this.2⟩
      · exact ⟨m, (update_ne _ _ hi).trans hm, rfl, rfl⟩

/-- Why the claim fails: a copy and its original report the same options as present, whichever of
the two was given the command lines, as long as no more options are registered with them. -/
theorem C103_copies_share (w w1 w' : World V) (i j : Nat) (as : List (OptAct V))
    (h1 : w.act (.copy i j) = .ok w1) (h2 : w1.acts as = .ok w')
    (hi : ∀ a ∈ as, OnlyUsed i a) (hj : ∀ a ∈ as, OnlyUsed j a) :
    ∃ mi mj, w'.objs i = some mi ∧ w'.objs j = some mj ∧ SamePresence (w'.view mi) (w'.view mj) := by
  have key : ∃ mi mj, w1.objs i = some mi ∧ w1.objs j = some mj ∧ mi.longMap = mj.longMap ∧
      mi.abMap = mj.abMap := by
    simp only [World.act] at h1
    split at h1
    next m e1 e2 =>
      cases h1
      have : i ≠ j := by rintro rfl; rw [e1] at e2; cases e2
      exact ⟨m, m, (update_ne _ _ this).trans e1, update_same _ _ _, rfl, rfl⟩
    · cases h1
  clear h1
  induction as generalizing w1 with
  | nil =>
    simp only [World.acts] at h2
    cases h2
    obtain ⟨mi, mj, e1, e2, e3, e4⟩ := key
    refine ⟨mi, mj, e1, e2, fun n => ?_, fun c => ?_⟩
    · simp only [Options.isPresent, Options.findLong, World.view, e3]
    · simp only [Options.isPresentAb, Options.findAb, World.view, e4]
  | cons a as ih =>
    simp only [World.acts] at h2
    cases ha : w1.act a with
    | ub => rw [ha] at h2; cases h2
    | throw e => exact nomatch e
    | ok w2 =>
      rw [ha] at h2
      obtain ⟨mi, mj, e1, e2, e3, e4⟩ := key
      obtain ⟨mi', f1, f2, f3⟩ := tables_kept (hi a (by simp)) ha e1
      obtain ⟨mj', g1, g2, g3⟩ := tables_kept (hj a (by simp)) ha e2
      exact ih w2 h2 (fun b hb => hi b (by simp [hb])) (fun b hb => hj b (by simp [hb]))
        ⟨mi', mj', f1, g1, by rw [f2, g2, e3], by rw [f3, g3, e4]⟩

/-- `Options a; a.addP(&v, "all", 'a'); Options b(a); a.parse({"--all"});` -/
def copySample : List (OptAct Val) :=
  [.new 0 false, .call 0 (.addP (.bool false) (.bool true) 7 "all".toList 'a' []), .copy 0 1,
    .call 0 (.parse ["--all".toList])]

/-- The members of both objects in the end. -/
def copyMembers : Members := ⟨[("all".toList, 0)], [('a', 0)], [], [], false, false⟩

def copyWorld : World Val where
  objs := update (update (update (update (fun _ => none) 0 (some ⟨[], [], [], [], false, false⟩)) 0
    (some copyMembers)) 1 (some copyMembers)) 0 (some copyMembers)
  decls := ((Options.new false (fun _ => Val.int 0) (fun _ => [])).addP (.bool false) (.bool true) 7
    "all".toList 'a' []).decls
  pres := update (update (fun _ => false) 0 false) 0 true
  sc := update (update (fun _ => Val.int 0) 7 (.bool false)) 7 (.bool true)
  vec := fun _ => []
  cerr := []

theorem copySample_runs : (World.start (fun _ => Val.int 0) (fun _ => [])).acts copySample = .ok copyWorld := rfl

/-- After the copy was made, the original is given `--all`: the copy says that `all` is present,
although it never saw a command line. -/
theorem C103_refuted : ¬ C103_claim Val := by
  intro h
  obtain ⟨k, cs, o, h1, h2, _, h4⟩ := h _ _ copySample copyWorld 1 copyMembers copySample_runs rfl
  have hp : past copySample 1 = some (false, [.addP (.bool false) (.bool true) 7 "all".toList 'a' []]) := rfl
  rw [hp] at h1
  cases h1
  have hlives : ∀ o : Options Val, Lives (Options.new false (fun _ => Val.int 0) (fun _ => []))
      [.addP (.bool false) (.bool true) 7 "all".toList 'a' []] o → o.isPresent "all".toList = false := by
    intro o ho
    generalize hcs : ([.addP (.bool false) (.bool true) 7 "all".toList 'a' []] : List (OptCall Val)) = cs at ho
    cases ho with
    | nil => cases hcs
    | @snoc o' _ c b cs' hl hr =>
      have := List.append_inj' (s₁ := ([] : List (OptCall Val))) (t₁ := [_]) hcs rfl
      obtain ⟨rfl, e⟩ := this
      cases e
      generalize hc0 : ([] : List (OptCall Val)) = c0 at hl
      cases hl with
      | nil => cases hr; rfl
      | snoc => simp at hc0
  have := h4.1 "all".toList
  rw [hlives o h2] at this
  exact absurd this (by decide)

/-- The hypotheses of the other theorems hold in such programs: object 2 is alone. -/
def twoSample : List (OptAct Val) :=
  [.new 2 false, .new 0 false, .call 2 (.addP (.bool false) (.bool true) 5 "all".toList 'a' []),
    .call 0 (.addP (.bool false) (.bool true) 7 "all".toList 'a' []), .copy 0 1,
    .call 1 (.parse ["--all".toList, "x".toList])]

example : Alone twoSample 2 ∧ Owns twoSample 2 5 := by
  have h : Alone twoSample 2 := by intro i; simp [twoSample]
  refine ⟨h, h, by simp [twoSample], ?_⟩
  intro i c hc hi
  simp only [twoSample, List.mem_cons, List.not_mem_nil, or_false, reduceCtorEq, false_or,
    OptAct.call.injEq] at hc
  rcases hc with ⟨rfl, _⟩ | ⟨_, rfl⟩ | ⟨_, rfl⟩
  · exact absurd rfl hi
  · simp [Registers]
  · simp [Registers]

example : ∃ w m, (World.start (fun _ => Val.int 0) (fun _ => [])).acts twoSample = .ok w ∧
    w.objs 2 = some m ∧ (w.view m).isPresent "all".toList = false ∧
    ∃ m0 m1, w.objs 0 = some m0 ∧ w.objs 1 = some m1 ∧ (w.view m0).isPresent "all".toList = true ∧
      (w.view m1).isPresent "all".toList = true ∧ (w.view m0).getPosArgs = [] ∧
      (w.view m1).getPosArgs = ["x".toList] :=
  ⟨_, _, rfl, rfl, by decide, _, _, rfl, rfl, by decide, by decide, by decide, by decide⟩

example : ∀ a ∈ ([.call 0 (.parse ["--all".toList])] : List (OptAct Val)), OnlyUsed 0 a ∧ OnlyUsed 1 a := by
  intro a ha
  rw [List.mem_singleton.1 ha]
  refine ⟨⟨by simp, by simp, ?_⟩, ⟨by simp, by simp, by simp⟩⟩
  intro c hc
  cases hc
  intro x hx
  exact hx

/-! ## C39  the help in terms of the calls -/

theorem lives_reachable {k : Bool} {sc : Nat → V} {vec : Nat → List V} {cs : List (OptCall V)} {o : Options V}
    (h : Lives (Options.new k sc vec) cs o) :
    Reachable o ∧ o.isKvp = k ∧ o.info = infoLines cs ∧
      o.decls.map (fun d => (d.long, d.ab, d.doc)) = cs.filterMap registered := by
  generalize hs : Options.new k sc vec = s at h
  induction h with
  | nil => subst hs; exact ⟨.new k sc vec, rfl, rfl, rfl⟩
  | @snoc o' o'' c b cs _ hr ih =>
    obtain ⟨h1, h2, h3, h4⟩ := ih
    have hp : ∀ ts, o'.parse ts = (o'', b) → infoLines [c] = [] → registered c = none →
        Reachable o'' ∧ o''.isKvp = k ∧ o''.info = infoLines (cs ++ [c]) ∧
          o''.decls.map (fun d => (d.long, d.ab, d.doc)) = (cs ++ [c]).filterMap registered := by
      intro ts e hi hc
      have hf := Frame.parse o' ts
      have hre := Reachable.parse ts h1
      rw [e] at hf hre
      refine ⟨hre, hf.isKvp.trans h2, ?_, ?_⟩
      · rw [hf.info, h3]; simp only [infoLines, List.filterMap_append] at hi ⊢; rw [hi]; simp
      · rw [hf.decls, h4]; simp [hc]
    have hsame : o'' = o' → infoLines [c] = [] → registered c = none →
        Reachable o'' ∧ o''.isKvp = k ∧ o''.info = infoLines (cs ++ [c]) ∧
          o''.decls.map (fun d => (d.long, d.ab, d.doc)) = (cs ++ [c]).filterMap registered := by
      rintro rfl hi hc
      refine ⟨h1, h2, ?_, ?_⟩
      · rw [h3]; simp only [infoLines, List.filterMap_append] at hi ⊢; rw [hi]; simp
      · rw [h4]; simp [hc]
    have hkl : ∀ l, o'.parseKeyValueList l = .ok (o'', b) → infoLines [c] = [] → registered c = none →
        Reachable o'' ∧ o''.isKvp = k ∧ o''.info = infoLines (cs ++ [c]) ∧
          o''.decls.map (fun d => (d.long, d.ab, d.doc)) = (cs ++ [c]).filterMap registered := by
      intro l e
      unfold Options.parseKeyValueList at e
      cases hk : Options.kvTokens l with
      | ub => rw [hk] at e; cases e
      | throw e => exact nomatch e
      | ok ts => rw [hk] at e; exact hp ts (Res.ok.inj e)
    have hkv : ∀ s, o'.parseKeyValue s = .ok (o'', b) → infoLines [c] = [] → registered c = none →
        Reachable o'' ∧ o''.isKvp = k ∧ o''.info = infoLines (cs ++ [c]) ∧
          o''.decls.map (fun d => (d.long, d.ab, d.doc)) = (cs ++ [c]).filterMap registered := by
      intro s e
      unfold Options.parseKeyValue at e
      split at e
      · cases e; exact hsame rfl
      · cases hs : split s ",".toList with
        | ub => rw [hs] at e; cases e
        | throw e => exact nomatch e
        | ok l =>
          rw [hs] at e
          simp only [Res.bind] at e
          split at e
          · cases e; exact hsame rfl
          · exact hkl l e
    cases c with
    | addInfo s =>
      cases hr
      exact ⟨.addInfo s h1, h2, by simp [Options.addInfo, h3, infoLines],
        by simp [Options.addInfo, h4, registered]⟩
    | addDef T val long ab dv doc test err =>
      cases hr
      exact ⟨.addDef T val long ab dv doc test err h1, h2,
        by simp [Options.addDef, Options.registerOpt, h3, infoLines],
        by simp [Options.addDef, Options.registerOpt, h4, registered]⟩
    | add T val long ab doc test err =>
      cases hr
      exact ⟨.add T val long ab doc test err h1, h2,
        by simp [Options.add, Options.registerOpt, h3, infoLines],
        by simp [Options.add, Options.registerOpt, h4, registered]⟩
    | addP ff tt val long ab doc =>
      cases hr
      exact ⟨.addP ff tt val long ab doc h1, h2,
        by simp [Options.addP, Options.registerOpt, h3, infoLines],
        by simp [Options.addP, Options.registerOpt, h4, registered]⟩
    | addV T val long ab doc test err =>
      cases hr
      exact ⟨.addV T val long ab doc test err h1, h2,
        by simp [Options.addV, Options.registerOpt, h3, infoLines],
        by simp [Options.addV, Options.registerOpt, h4, registered]⟩
    | parse ts => exact hp ts (Res.ok.inj hr) rfl rfl
    | parseArgv a =>
      simp only [OptCall.run, Options.parseArgv] at hr
      split at hr
      · exact hkl _ hr rfl rfl
      · exact hp _ (Res.ok.inj hr) rfl rfl
    | parseString s =>
      simp only [OptCall.run, Options.parseString] at hr
      split at hr
      · exact hkv _ hr rfl rfl
      · exact hp _ (Res.ok.inj hr) rfl rfl
    | parseKeyValue s => exact hkv s hr rfl rfl
    | parseKeyValueList l => exact hkl l hr rfl rfl

/-- The help of an object after any calls: the information lines in the order in which they were
given, then one line for each registered name, in ascending order of the names, each with the short
name and the description given last for that name. -/
theorem C39_calls (k : Bool) (sc : Nat → V) (vec : Nat → List V) (cs : List (OptCall V)) (o : Options V)
    (h : Lives (Options.new k sc vec) cs o)
    (hlen : ∀ x ∈ cs.filterMap registered, x.1.length < 2 ^ 31) :
    ∃ xs : List (Str × Char × Str),
      o.printHelp = .ok ((infoLines cs).flatMap (· ++ "\n".toList) ++ xs.flatMap (helpText k)) ∧
      xs.Pairwise (fun a b => a.1 < b.1) ∧
      (∀ n, (∃ x ∈ xs, x.1 = n) ↔ ∃ x ∈ cs.filterMap registered, x.1 = n) ∧
      ∀ x ∈ xs, ∃ i, IsLast (cs.filterMap registered) (fun y => y.1 = x.1) i x := by
  obtain ⟨h1, h2, h3, h4⟩ := lives_reachable h
  obtain ⟨ds, d1, d2, d3, d4⟩ := C39_help o h1 (by
    intro d hd
    exact hlen (d.long, d.ab, d.doc) (by rw [← h4]; exact List.mem_map.2 ⟨d, hd, rfl⟩))
  refine ⟨ds.map fun d => (d.long, d.ab, d.doc), ?_, ?_, ?_, ?_⟩
  · rw [d1, h2, h3]
    congr 2
    rw [List.flatMap_map]
    rfl
  · rw [List.pairwise_map]; exact d2
  · intro n
    rw [← h4]
    simp only [List.mem_map, exists_exists_and_eq_and]
    exact d3 n
  · intro x hx
    obtain ⟨d, hd, rfl⟩ := List.mem_map.1 hx
    obtain ⟨i, e1, e2, e3⟩ := d4 d hd
    refine ⟨i, ?_, rfl, ?_⟩
    · rw [← h4, List.getElem?_map, e1]; rfl
    · intro j y hij hy
      rw [← h4, List.getElem?_map] at hy
      cases hd' : o.decls[j]? with
      | none => rw [hd'] at hy; cases hy
      | some d' => rw [hd'] at hy; cases hy; exact e3 j d' hij hd'

example : Lives (Options.new false (fun _ => Val.int 0) (fun _ => []))
    [.addInfo "one".toList, .addP (.bool false) (.bool true) 7 "all".toList 'a' "d".toList, .addInfo "two".toList]
    ((((Options.new false (fun _ => Val.int 0) (fun _ => [])).addInfo "one".toList).addP (.bool false)
      (.bool true) 7 "all".toList 'a' "d".toList).addInfo "two".toList) :=
  .snoc (cs := [_, _]) (.snoc (cs := [_]) (.snoc (cs := []) (.nil _) rfl) rfl) rfl

end SoDa.Opts
