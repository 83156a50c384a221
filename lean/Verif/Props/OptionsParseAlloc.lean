import Verif.Model.OptionsParseAlloc
import Verif.Proof.Options
/-!
Property C116: `Options::parse` when memory runs out.
-/
namespace SoDa.Opts
open Spec

variable {V : Type}

/-- The loop passes one token after the other. -/
theorem parseLoop_step (o : Options V) (arg : Option (Nat × Decl V)) (tkn : Str) (ts : List Str) : o.parseLoop arg (tkn :: ts) =
    match o.parseStep arg tkn with
    | .inl (o', arg') => o'.parseLoop arg' ts
    | .inr r => r := by
  have rest : ∀ (o2 : Options V) (sw : Nat),
      (if sw = 1 ∧ tkn[1]? = some 'h' then ({ o2 with cerr := o2.cerr ++ [.help] }, false)
      else if sw ≠ 1 ∧ tkn = "--help".toList then ({ o2 with cerr := o2.cerr ++ [.help] }, false)
      else
        match (if sw = 1 then (tkn[1]?).bind o2.findAb else o2.findLong (tkn.drop 2)).bind fun p => (o2.decls[p]?).map fun d => (p, d) with
        | none => ({ o2 with cerr := o2.cerr ++ [.badName tkn, .help] }, false)
        | some (p, d) =>
          if d.kind = .presence then ((if d.isSigned then { o2 with waiting := true } else o2).setPresent p d).parseLoop none ts
          else (if d.isSigned then { o2 with waiting := true } else o2).parseLoop (some (p, d)) ts) =
      match (if sw = 1 ∧ tkn[1]? = some 'h' then .inr ({ o2 with cerr := o2.cerr ++ [.help] }, false)
        else if sw ≠ 1 ∧ tkn = "--help".toList then .inr ({ o2 with cerr := o2.cerr ++ [.help] }, false)
        else
          match (if sw = 1 then (tkn[1]?).bind o2.findAb else o2.findLong (tkn.drop 2)).bind fun p => (o2.decls[p]?).map fun d => (p, d) with
          | none => .inr ({ o2 with cerr := o2.cerr ++ [.badName tkn, .help] }, false)
          | some (p, d) =>
            if d.kind = .presence then .inl ((if d.isSigned then { o2 with waiting := true } else o2).setPresent p d, none)
            else .inl ((if d.isSigned then { o2 with waiting := true } else o2), some (p, d)) :
          (Options V × Option (Nat × Decl V)) ⊕ (Options V × Bool)) with
      | .inl (o', arg') => o'.parseLoop arg' ts
      | .inr r => r := by
    intro o2 sw
    by_cases h1 : sw = 1 ∧ tkn[1]? = some 'h'
    · rw [if_pos h1, if_pos h1]
    · rw [if_neg h1, if_neg h1]
      by_cases h2 : sw ≠ 1 ∧ tkn = "--help".toList
      · rw [if_pos h2, if_pos h2]
      · rw [if_neg h2, if_neg h2]
        cases (if sw = 1 then (tkn[1]?).bind o2.findAb else o2.findLong (tkn.drop 2)).bind fun p => (o2.decls[p]?).map fun d => (p, d) with
        | none => rfl
        | some x =>
          obtain ⟨p, d⟩ := x
          dsimp only
          by_cases h3 : d.kind = .presence
          · rw [if_pos h3, if_pos h3]
          · rw [if_neg h3, if_neg h3]
  cases arg with
  | none =>
    rw [Options.parseLoop.eq_def]
    simp only [Options.parseStep]
    by_cases h0 : Options.isSwitch o.waiting tkn = 0
    · rw [if_pos h0, if_pos (show o.swLen none tkn = 0 from h0)]
    · rw [if_neg h0, if_neg (show ¬ o.swLen none tkn = 0 from h0)]
      exact rest o _
  | some x =>
    obtain ⟨p, d⟩ := x
    rw [Options.parseLoop.eq_def]
    simp only [Options.parseStep]
    by_cases h0 : (if d.hasDefault = true then Options.isSwitch o.waiting tkn else 0) = 0
    · rw [if_pos h0, if_pos (show o.swLen (some (p, d)) tkn = 0 from h0)]
      rcases o.setVal p d tkn with ⟨o', b⟩
      cases b <;> rfl
    · rw [if_neg h0, if_neg (show ¬ o.swLen (some (p, d)) tkn = 0 from h0)]
      exact rest { o.setPresent p d with waiting := d.isSigned } _

/-! ### What is left -/

theorem parseStep_pending {o o' : Options V} {arg : Option (Nat × Decl V)} {tkn : Str} {p : Nat} {d : Decl V}
    (h : o.parseStep arg tkn = .inl (o', some (p, d))) : d.kind ≠ .presence := by
  have rest : ∀ (r : Option (Nat × Decl V)) (o2 : Options V) (x : Options V × Bool), (match r with
      | none => .inr x
      | some (p, d) =>
        if d.kind = .presence then .inl ((if d.isSigned then { o2 with waiting := true } else o2).setPresent p d, none)
        else .inl ((if d.isSigned then { o2 with waiting := true } else o2), some (p, d)) :
          (Options V × Option (Nat × Decl V)) ⊕ (Options V × Bool)) = .inl (o', some (p, d)) → d.kind ≠ .presence := by
    intro r o2 x hr
    cases r with
    | none => cases hr
    | some y =>
      obtain ⟨q, e⟩ := y
      simp only at hr
      split at hr
      · cases hr
      · rename_i hk; cases hr; exact hk
  unfold Options.parseStep at h
  split at h
  · split at h
    · split at h <;> cases h
    · cases h
  · dsimp only at h
    split at h
    · cases h
    · split at h
      · cases h
      · exact rest _ _ _ h

/-- Where a call is that runs out of memory at token `n`. -/
theorem parseLoopFails_at (ts : List Str) : ∀ (n : Nat) (o o' : Options V) (arg : Option (Nat × Decl V)) (pt : ParsePoint),
    (∀ p d, arg = some (p, d) → d.kind ≠ .presence) → o.parseLoopFails arg ts n pt = some o' →
    ∃ (t : Str) (oN : Options V) (argN : Option (Nat × Decl V)), ts[n]? = some t ∧ oN.outOfMemory argN t pt = some o' ∧ (∀ p d, argN = some (p, d) → d.kind ≠ .presence) ∧
      ∀ us, o.parseLoop arg (ts.take n ++ us) = oN.parseLoop argN us := by
  induction ts with
  | nil => intro n o o' arg pt _ h; simp [Options.parseLoopFails] at h
  | cons t ts ih =>
    intro n o o' arg pt ha h
    cases n with
    | zero => exact ⟨t, o, arg, rfl, h, ha, fun us => rfl⟩
    | succ n =>
      simp only [Options.parseLoopFails] at h
      cases hs : o.parseStep arg t with
      | inr r => simp [hs] at h
      | inl x =>
        obtain ⟨o1, arg1⟩ := x
        simp only [hs] at h
        obtain ⟨t', oN, argN, h1, h2, h3, h4⟩ := ih n o1 o' arg1 pt (fun p d e => parseStep_pending (e ▸ hs)) h
        refine ⟨t', oN, argN, by simpa using h1, h2, h3, fun us => ?_⟩
        rw [List.take_succ_cons, List.cons_append, parseLoop_step, hs]
        exact h4 us

/-- C116.  A call that runs out of memory before it uses token number `n` leaves what parsing the tokens before it leaves. -/
theorem C116_prefix (o o' : Options V) (ts : List Str) (n : Nat) (h : o.parseFails ts n .start = some o') :
    o.parse (ts.take n) = (o', true) := by
  obtain ⟨t, oN, argN, _, h2, _, h4⟩ := parseLoopFails_at ts n o o' none .start (by simp) h
  have := h4 []
  simp only [Options.outOfMemory, Option.some.injEq] at h2
  rw [List.append_nil] at this
  rw [Options.parse, this, h2]
  rfl

theorem setPresent_sc {o : Options V} {p : Nat} {d : Decl V} (h : d.kind ≠ .presence) : (o.setPresent p d).sc = o.sc := by
  simp [Options.setPresent, h]

theorem getElem?_take {l : List Str} {n : Nat} {t : Str} (h : l[n]? = some t) : l.take (n + 1) = l.take n ++ [t] := by
  rw [List.take_add_one, h]; rfl

/-- What `parse` leaves when the last token is a switch, in terms of the state in which the option before was marked. -/
theorem parseStep_switch {o : Options V} {arg : Option (Nat × Decl V)} {tkn : Str} (h0 : o.swLen arg tkn ≠ 0) :
    let o2 := o.release arg
    let r := (o.parseLoop arg [tkn]).1
    r.pos = o2.pos ∧ r.vec = o2.vec ∧ r.longMap = o2.longMap ∧ r.abMap = o2.abMap ∧ ∀ p, o2.pres p = true → r.pres p = true := by
  have key : ∀ o2 : Options V, ∀ r : Option (Nat × Decl V),
      let x : Options V × Bool := match (match r with
        | none => .inr ({ o2 with cerr := o2.cerr ++ [.badName tkn, .help] }, false)
        | some (p, d) =>
          if d.kind = .presence then .inl ((if d.isSigned then { o2 with waiting := true } else o2).setPresent p d, none)
          else .inl ((if d.isSigned then { o2 with waiting := true } else o2), some (p, d)) :
            (Options V × Option (Nat × Decl V)) ⊕ (Options V × Bool)) with
        | .inl (o', arg') => o'.parseLoop arg' []
        | .inr r => r
      x.1.pos = o2.pos ∧ x.1.vec = o2.vec ∧ x.1.longMap = o2.longMap ∧ x.1.abMap = o2.abMap ∧ ∀ p, o2.pres p = true → x.1.pres p = true := by
    intro o2 r
    cases r with
    | none => simp
    | some y =>
      obtain ⟨p, d⟩ := y
      dsimp only
      by_cases hk : d.kind = .presence
      · rw [if_pos hk]
        simp only [Options.parseLoop, Options.setPresent]
        refine ⟨by split <;> rfl, by split <;> rfl, by split <;> rfl, by split <;> rfl, fun q hq => ?_⟩
        simp only [update]
        split
        · rfl
        · split <;> exact hq
      · rw [if_neg hk]
        simp only [Options.parseLoop]
        refine ⟨by split <;> rfl, by split <;> rfl, by split <;> rfl, by split <;> rfl, fun q hq => ?_⟩
        split <;> exact hq
  rw [parseLoop_step]
  unfold Options.parseStep
  rw [if_neg h0]
  dsimp only
  generalize o.release arg = o2
  by_cases h1 : o.swLen arg tkn = 1 ∧ tkn[1]? = some 'h'
  · rw [if_pos h1]; simp
  · rw [if_neg h1]
    by_cases h2 : o.swLen arg tkn ≠ 1 ∧ tkn = "--help".toList
    · rw [if_pos h2]; simp
    · rw [if_neg h2]
      exact key o2 _

/-- C116.  Wherever a call runs out of memory while it deals with token number `n`: positional arguments and vectors are those after
parsing the tokens before it, every variable and every `isPresent` is as after these, or as after these and the token itself. -/
theorem C116_between (o o' : Options V) (ts : List Str) (n : Nat) (pt : ParsePoint) (h : o.parseFails ts n pt = some o') :
    let before := (o.parse (ts.take n)).1
    let after := (o.parse (ts.take (n + 1))).1
    (o.parse (ts.take n)).2 = true ∧ o'.getPosArgs = before.getPosArgs ∧ o'.vec = before.vec ∧
    (∀ a, o'.sc a = before.sc a ∨ o'.sc a = after.sc a) ∧
    (∀ x, o'.isPresent x = before.isPresent x ∨ o'.isPresent x = after.isPresent x) ∧
    (∀ c, o'.isPresentAb c = before.isPresentAb c ∨ o'.isPresentAb c = after.isPresentAb c) := by
  obtain ⟨t, oN, argN, h1, h2, h3, h4⟩ := parseLoopFails_at ts n o o' none pt (by simp) h
  have e1 : o.parse (ts.take n) = (oN, true) := by
    have := h4 []
    rw [List.append_nil] at this
    rw [Options.parse, this]; rfl
  have e2 : o.parse (ts.take (n + 1)) = oN.parseLoop argN [t] := by
    rw [Options.parse, getElem?_take h1]; exact h4 [t]
  rw [e1, e2]
  refine ⟨rfl, ?_⟩
  simp only [Options.getPosArgs]
  cases pt with
  | start =>
    simp only [Options.outOfMemory, Option.some.injEq] at h2
    subst h2
    exact ⟨rfl, rfl, fun _ => .inl rfl, fun _ => .inl rfl, fun _ => .inl rfl⟩
  | value =>
    simp only [Options.outOfMemory] at h2
    split at h2
    · rename_i h0
      split at h2
      · rename_i p d
        split at h2
        · rename_i hk
          simp only [Option.some.injEq] at h2
          rw [← h2]
          refine ⟨rfl, rfl, fun a => .inr ?_, fun _ => .inl rfl, fun _ => .inl rfl⟩
          rw [parseLoop_step]
          simp only [Options.parseStep, h0, if_true, Options.setVal, hk]
          cases hr : d.read t with
          | none => simp
          | some v =>
            simp only
            cases d.test v <;> simp [Options.setPresent, hk, Options.parseLoop]
        · cases h2
      · cases h2
    · cases h2
  | released =>
    simp only [Options.outOfMemory] at h2
    split at h2
    · cases h2
    · rename_i h0
      simp only [Option.some.injEq] at h2
      obtain ⟨_, _, g3, g4, g5⟩ := parseStep_switch h0
      rw [h2] at g3 g4 g5
      have hs : o'.pos = oN.pos ∧ o'.vec = oN.vec ∧ o'.sc = oN.sc ∧ o'.longMap = oN.longMap ∧ o'.abMap = oN.abMap ∧
          ∀ q, o'.pres q = oN.pres q ∨ o'.pres q = true := by
        rw [← h2]
        cases argN with
        | none => exact ⟨rfl, rfl, rfl, rfl, rfl, fun q => .inl rfl⟩
        | some x =>
          obtain ⟨p, d⟩ := x
          refine ⟨rfl, rfl, setPresent_sc (p := p) (h3 p d rfl), rfl, rfl, fun q => ?_⟩
          simp only [Options.release, Options.setPresent, update]
          split
          · right; rfl
          · left; rfl
      obtain ⟨f1, f2, f3, f4, f5, f6⟩ := hs
      refine ⟨f1, f2, fun a => .inl (congrFun f3 a), fun x => ?_, fun c => ?_⟩
      · simp only [Options.isPresent, Options.findLong, g3, f4]
        cases mapFind strLess x oN.longMap with
        | none => exact .inl rfl
        | some q =>
          rcases f6 q with hq | hq
          · exact .inl hq
          · right; simp only [hq, g5 q hq]
      · simp only [Options.isPresentAb, Options.findAb, g4, f5]
        cases mapFind charLess c oN.abMap with
        | none => exact .inl rfl
        | some q =>
          rcases f6 q with hq | hq
          · exact .inl hq
          · right; simp only [hq, g5 q hq]

/-! ### Trying again -/

/-- The full statement: parsing again after a call that ran out of memory gives what the call would have given. -/
def C116_claim (V : Type) : Prop := ∀ (o o' : Options V) (ts : List Str) (n : Nat) (pt : ParsePoint), Ready o → o.parseFails ts n pt = some o' →
  o'.parse ts = o.parse ts

/-- Items that set variables and flags only have no further effect the second time. -/
theorem items_again {its1 : List (LineItem V)} {regs : List (Decl V)} {ts e} (hr : Reads regs ts its1 e) (o : Options V)
    (hw : words' its1 = []) (hv : ∀ a, vectorValues a its1 = []) :
    its1.foldl applyItem (its1.foldl applyItem o) = its1.foldl applyItem o := by
  have k1 := items_keep its1 o
  have k2 := items_keep its1 (its1.foldl applyItem o)
  have p1 := items_pos its1 (its1.foldl applyItem o)
  have hp : ∀ i, (its1.foldl applyItem (its1.foldl applyItem o)).pres i = (its1.foldl applyItem o).pres i := by
    intro i
    rw [Bool.eq_iff_iff, items_pres i its1 (its1.foldl applyItem o), items_pres i its1 o]
    tauto
  have hs : ∀ a, (its1.foldl applyItem (its1.foldl applyItem o)).sc a = (its1.foldl applyItem o).sc a := by
    intro a
    rw [items_sc hr a (its1.foldl applyItem o), items_sc hr a o]
    cases (scalarValues a its1).getLast? <;> rfl
  have hvv : ∀ a, (its1.foldl applyItem (its1.foldl applyItem o)).vec a = (its1.foldl applyItem o).vec a := by
    intro a
    rw [items_vec its1 a (its1.foldl applyItem o), hv]; simp
  rw [hw, List.append_nil] at p1
  generalize its1.foldl applyItem (its1.foldl applyItem o) = x at *
  generalize its1.foldl applyItem o = y at *
  obtain ⟨a1, a2, a3, a4, a5, a6, a7⟩ := k2
  obtain ⟨x1, x2, x3, x4, x5, x6, x7, x8, x9, x10, x11⟩ := x
  obtain ⟨y1, y2, y3, y4, y5, y6, y7, y8, y9, y10, y11⟩ := y
  simp only at a1 a2 a3 a4 a5 a6 a7 p1 hp hs hvv
  obtain rfl := funext hp
  obtain rfl := funext hs
  obtain rfl := funext hvv
  subst a1 a2 a3 a4 a5 a6 a7 p1
  rfl

/-- A longer line begins with the same items. -/
theorem reads_longer {regs : List (Decl V)} {ts its e} (h : Reads regs ts its e) (he : e = .done ∨ ∃ sw i d, e = .dangling sw i d)
    (us : List Str) : ∃ its' e', Reads regs (ts ++ us) (its ++ its') e' := by
  induction h with
  | done => exact reads_total regs _ us (le_refl _)
  | word h1 _ ih =>
    obtain ⟨its', e', hr⟩ := ih he
    exact ⟨its', e', .word h1 hr⟩
  | flag h1 h2 h3 _ ih =>
    obtain ⟨its', e', hr⟩ := ih he
    exact ⟨its', e', .flag h1 h2 h3 hr⟩
  | value h1 h2 h3 h4 h5 _ ih =>
    obtain ⟨its', e', hr⟩ := ih he
    exact ⟨its', e', .value h1 h2 h3 h4 h5 hr⟩
  | bare h1 h2 h3 h4 h5 _ ih =>
    obtain ⟨its', e', hr⟩ := ih he
    exact ⟨its', e', .bare h1 h2 h3 h4 h5 hr⟩
  | @dangling sw i d _ _ _ => exact reads_total regs _ (sw :: us) (le_refl _)
  | unknown => rcases he with he | ⟨_, _, _, he⟩ <;> cases he
  | help => rcases he with he | ⟨_, _, _, he⟩ <;> cases he
  | rejected => rcases he with he | ⟨_, _, _, he⟩ <;> cases he

/-- C116.  Parsing again after a call that ran out of memory before it used a token gives what the call would have given, if the tokens
before gave no positional argument and no vector element, and the last of them was not the switch of an option of a signed type.
Missing: the other points, and see `C116_refuted`. -/
theorem C116_again_partial (o o' : Options V) (ts : List Str) (n : Nat) (ho : Ready o) (h : o.parseFails ts n .start = some o')
    (hp : o'.getPosArgs = o.getPosArgs) (hv : o'.vec = o.vec) (hw : o'.waiting = false) : o'.parse ts = o.parse ts := by
  have P := C116_prefix o o' ts n h
  obtain ⟨its1, e1, hr1⟩ := reads_total o.decls _ (ts.take n) (le_refl _)
  rw [parse_reads ho.wf ho.waiting hr1] at P
  have hk := items_keep its1 o
  have he : (e1 = .done ∨ ∃ sw i d, e1 = .dangling sw i d) ∧ o' = its1.foldl applyItem o := by
    cases e1 with
    | done => exact ⟨.inl rfl, ((Prod.mk.injEq _ _ _ _).mp P).1.symm⟩
    | dangling sw i d =>
      refine ⟨.inr ⟨sw, i, d, rfl⟩, ?_⟩
      simp only [finish, Prod.mk.injEq, and_true] at P
      rw [← P] at hw ⊢
      simp only at hw
      rw [hw, ← ho.waiting, ← hk.2.2.2.1]
    | unknown => simp [finish] at P
    | help => simp [finish] at P
    | rejected => simp [finish] at P
  obtain ⟨he, rfl⟩ := he
  obtain ⟨its', e', hr⟩ := reads_longer hr1 he (ts.drop n)
  rw [List.take_append_drop] at hr
  have hw1 : words' its1 = [] := by
    have := items_pos its1 o
    simp only [Options.getPosArgs] at hp
    rw [hp] at this
    simpa using this
  have hv1 : ∀ a, vectorValues a its1 = [] := by
    intro a
    have := items_vec its1 a o
    rw [hv] at this
    simpa using this
  rw [parse_reads ho.wf ho.waiting hr, parse_reads (ho.wf.congr hk.1 hk.2.1 hk.2.2.1) (hk.2.2.2.1.trans ho.waiting) (by rw [hk.1]; exact hr)]
  rw [List.foldl_append, List.foldl_append, items_again hr1 o hw1 hv1]

/-- `opts.add<int>(&x, "num", 'n', 5)`. -/
def parseAllocSample : Options Val :=
  (Options.new false (fun _ => .int 1) (fun _ => [])).addDef intTy 0 "num".toList 'n' (.int 5)

theorem parseAllocSample_ready : Ready parseAllocSample := .addDef _ _ _ _ _ _ _ _ (.new _ _ _)

/-- The line `a b`, memory runs out at `b`: in the end there are three positional arguments. -/
theorem C116_refuted : ¬ C116_claim Val := by
  intro h
  have := h parseAllocSample _ ["a".toList, "b".toList] 1 .start parseAllocSample_ready rfl
  have := congrArg (fun r => r.1.pos) this
  revert this
  decide +kernel

/-- The line `--num 7 -n 8`, memory runs out at `7`: parsing again takes all four tokens for positional arguments, `parse` returns
`true`, the variable keeps its default. -/
theorem C116_positional_refuted : ∃ o', parseAllocSample.parseFails ["--num".toList, "7".toList, "-n".toList, "8".toList] 1 .start = some o' ∧
    (o'.parse ["--num".toList, "7".toList, "-n".toList, "8".toList]).2 = true ∧
    (o'.parse ["--num".toList, "7".toList, "-n".toList, "8".toList]).1.pos = ["--num".toList, "7".toList, "-n".toList, "8".toList] ∧
    (o'.parse ["--num".toList, "7".toList, "-n".toList, "8".toList]).1.sc 0 = .int 5 ∧
    (parseAllocSample.parse ["--num".toList, "7".toList, "-n".toList, "8".toList]).1.sc 0 = .int 8 := by
  refine ⟨_, rfl, ?_, ?_, ?_, ?_⟩ <;> decide +kernel

/-- The hypotheses of `C116_again_partial` can be met: memory runs out at the second switch. -/
example : ∃ o', parseAllocSample.parseFails ["--num".toList, "7".toList, "-n".toList, "8".toList] 2 .start = some o' ∧
    o'.getPosArgs = parseAllocSample.getPosArgs ∧ o'.vec = parseAllocSample.vec ∧ o'.waiting = false ∧ o'.sc 0 = .int 7 := by
  refine ⟨_, rfl, ?_, rfl, ?_, ?_⟩ <;> decide +kernel

/-- All three points occur. -/
example : (parseAllocSample.parseFails ["--num".toList, "7".toList] 1 .value).isSome = true ∧
    (parseAllocSample.parseFails ["7".toList, "--num".toList] 1 .released).isSome = true := by decide +kernel

end SoDa.Opts
