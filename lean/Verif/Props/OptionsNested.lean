import Verif.Proof.OptionsNested
import Verif.Props.OptionsTests
/-!
Property C128: options whose test functions use the `Options` object that is parsing, for example to parse the contents of a file.
-/
namespace SoDa.Opts
open Spec

variable {V E : Type} {T : Nat → V → Body V E}

theorem Ready.here {o : Options V} (h : Ready o) : At o.decls false ⟨o.sc, o.vec, o.getPosArgs, o.pres⟩ o :=
  ⟨h.wf, rfl, h.waiting, rfl⟩

/-- For every line: what the variables, the positional words and the options that are present are in the end, what has been written
to the error stream and what `parse` returns is what the line says when the test functions are executed one after the other, each
seeing what the items before it have left, the lines that they parse included. -/
theorem C128_line (n : Nat) (o : Options V) (ho : Ready o) (ts : List Str) (s' : LineState V) (w : Bool) (ms : List Diag) (r : Ret E)
    (hr : NestedLine o.decls T n false ⟨o.sc, o.vec, o.getPosArgs, o.pres⟩ ts s' w ms r) :
    ∃ o', o.parseN T n ts = some (o', r) ∧ o'.sc = s'.sc ∧ o'.vec = s'.vec ∧ o'.getPosArgs = s'.words ∧ o'.pres = s'.present ∧
      o'.cerr = o.cerr ++ ms ∧ o'.waiting = w ∧ o'.decls = o.decls :=
  ⟨_, parseN_runs n hr o ho.here, rfl, rfl, rfl, rfl, rfl, rfl, rfl⟩

/-- This says what happens for every line, unless calls of `parse` are nested deeper than `n`. -/
theorem C128_every_line (n : Nat) (o : Options V) (ho : Ready o) (ts : List Str) :
    o.parseN T n ts = none ↔ ¬ ∃ s' w ms r, NestedLine o.decls T n false ⟨o.sc, o.vec, o.getPosArgs, o.pres⟩ ts s' w ms r := by
  constructor
  · rintro h ⟨s', w, ms, r, hr⟩
    rw [parseN_runs n hr o ho.here] at h
    cases h
  · intro h
    rcases nested_total (T := T) o.decls n false ⟨o.sc, o.vec, o.getPosArgs, o.pres⟩ ts with h1 | h1
    · exact absurd h1 h
    · exact h1 o ho.here

/-- How deep they may be nested does not matter otherwise. -/
theorem C128_depth (n m : Nat) (hnm : n ≤ m) (o : Options V) (ho : Ready o) (ts : List Str) (x : Options V × Ret E)
    (h : o.parseN T n ts = some x) : o.parseN T m ts = some x := by
  have : ∃ s' w ms r, NestedLine o.decls T n false ⟨o.sc, o.vec, o.getPosArgs, o.pres⟩ ts s' w ms r :=
    Classical.byContradiction fun hn => by rw [(C128_every_line n o ho ts).2 hn] at h; cases h
  obtain ⟨s', w, ms, r, hr⟩ := this
  rw [parseN_runs n hr o ho.here] at h
  obtain ⟨k, rfl⟩ := Nat.exists_eq_add_of_le hnm
  have : ∀ k, NestedLine o.decls T (n + k) false ⟨o.sc, o.vec, o.getPosArgs, o.pres⟩ ts s' w ms r := by
    intro k
    induction k with
    | zero => exact hr
    | succ k ih => exact nested_succ _ _ ih
  rw [parseN_runs _ (this k) o ho.here, h]

/-- A line that a test function parses is read like any other line. -/
def C128_claim : Prop := ∀ {V E : Type} (T : Nat → V → Body V E) (n : Nat) (o : Options V), Ready o → ∀ ts s' w ms r,
  PlainLine o.decls T n ⟨o.sc, o.vec, o.getPosArgs, o.pres⟩ ts s' w ms r →
  ∃ o', o.parseN T n ts = some (o', r) ∧ o'.sc = s'.sc ∧ o'.vec = s'.vec ∧ o'.getPosArgs = s'.words ∧ o'.pres = s'.present ∧
    o'.cerr = o.cerr ++ ms

/-- It is if the test functions of options of signed types parse no lines, and the others at most one for each value. -/
theorem C128_partial (n : Nat) (o : Options V) (ho : Ready o)
    (hT : ∀ i d, o.decls[i]? = some d → ∀ v, AtMost (if d.isSigned then 0 else 1) (T i v)) (ts : List Str) (s' : LineState V) (w : Bool)
    (ms : List Diag) (r : Ret E) (hr : PlainLine o.decls T n ⟨o.sc, o.vec, o.getPosArgs, o.pres⟩ ts s' w ms r) :
    ∃ o', o.parseN T n ts = some (o', r) ∧ o'.sc = s'.sc ∧ o'.vec = s'.vec ∧ o'.getPosArgs = s'.words ∧ o'.pres = s'.present ∧
      o'.cerr = o.cerr ++ ms :=
  ⟨_, parseN_runs n (plain_nested hT n hr) o ho.here, rfl, rfl, rfl, rfl, rfl⟩

/-- Otherwise it depends on the place: with an option of a signed type, all tokens of the line are positional words, switches
included, and `parse` returns true. -/
theorem C128_signed (n : Nat) (o : Options V) (ho : Ready o) (sw txt : Str) (i : Nat) (d : Decl V) (v : V) (hden : Denotes o.decls sw i d)
    (hh : ¬ HelpSwitch sw) (hk : d.kind ≠ .presence) (hs : d.isSigned = true) (hr : d.read txt = some v)
    (line : List Str) (x : Ret E → Verdict E) (hT : T i v = .parse line fun r => .done (x r)) (hx : x (.returned true) = .accept)
    (rest : List Str) :
    o.parseN T (n + 2) (sw :: txt :: rest) =
      Options.parseN T (n + 2) { o with
        pos := o.pos ++ line
        sc := if d.kind = .scalar then update o.sc d.target v else o.sc
        vec := if d.kind = .scalar then o.vec else update o.vec d.target (o.vec d.target ++ [v])
        pres := update o.pres i true } rest := by
  rw [Options.parseN, loopN_option ho.here hden hh hk (.inl (.inl hs)) hr, hT]
  simp only [Options.runBody]
  rw [Options.parseN, loopN_waiting line (later o _ d.isSigned []) hs]
  simp only [Option.bind_some, hx, Verdict.isAccept, if_true]
  rw [Options.parseN]
  refine congrArg (fun q : Options V => q.parseLoopN (Options.parseN T (n + 1)) T none rest) ?_
  have hw := ho.waiting
  cases hd : d.kind with
  | presence => exact absurd hd hk
  | scalar =>
    simp [later, withState, view, LineState.tried, LineState.taken, LineState.put, LineState.see, hd, hw, Options.getPosArgs]
    exact ⟨funext fun j => by by_cases h : j = i <;> simp [update, h], rfl⟩
  | vector =>
    simp [later, withState, view, LineState.tried, LineState.taken, LineState.push, LineState.see, hd, hw, Options.getPosArgs]
    exact ⟨funext fun j => by by_cases h : j = i <;> simp [update, h], rfl⟩

/-- A test function that parses a line for each value (say, the contents of the file of that name) and accepts the value if this
returns true. -/
def reading (line : V → List Str) (v : V) : Body V E :=
  .parse (line v) fun r => .done (match r with | .returned true => .accept | .returned false => .refuse | .thrown e => .throws e)

/-- An option like this, of a type that is not signed: the line is parsed where the option stands, with the variable of the option
already set; if this returns true, the option is marked as present and the rest of the line is read; if false, the value is reported
as well; an exception goes through. -/
theorem C128_include (n : Nat) (o : Options V) (ho : Ready o) (sw txt : Str) (i : Nat) (d : Decl V) (v : V) (hden : Denotes o.decls sw i d)
    (hh : ¬ HelpSwitch sw) (hk : d.kind = .scalar) (hs : d.isSigned = false) (hg : d.hasDefault = false ∨ ¬ SwitchLike txt)
    (hr : d.read txt = some v) (line : V → List Str) (hT : T i v = reading line v) (rest : List Str) :
    o.parseN T (n + 1) (sw :: txt :: rest) =
      match Options.parseN T n { o with sc := update o.sc d.target v } (line v) with
      | none => none
      | some (o1, .returned true) => Options.parseN T (n + 1) { o1 with pres := update o1.pres i true, waiting := false } rest
      | some (o1, .returned false) => some ({ o1 with cerr := o1.cerr ++ [.badValue d.long txt d.err] }, .returned false)
      | some (o1, .thrown e) => some (o1, .thrown e) := by
  have hg' : Greedy d ∨ ¬ SwitchLike txt := by
    rcases hg with h | h
    · exact .inl (.inr h)
    · exact .inr h
  rw [Options.parseN, loopN_option ho.here hden hh (by rw [hk]; decide) hg' hr, hT]
  have e1 : later o (LineState.tried ⟨o.sc, o.vec, o.getPosArgs, o.pres⟩ d v) d.isSigned [] = { o with sc := update o.sc d.target v } := by
    have hw := ho.waiting
    simp [later, withState, LineState.tried, LineState.put, hk, hs, hw, Options.getPosArgs]
    rfl
  rw [e1]
  simp only [Options.runBody, reading]
  cases Options.parseN T n { o with sc := update o.sc d.target v } (line v) with
  | none => rfl
  | some q =>
    obtain ⟨o1, r⟩ := q
    cases r with
    | thrown e => rfl
    | returned b =>
      cases b with
      | false => rfl
      | true =>
        simp only [Option.bind_some, Verdict.isAccept, if_true, LineState.taken, hk]
        rfl

/-- Nothing stops a file that names itself: the calls are nested deeper than any `n`. -/
theorem C128_endless (o : Options V) (ho : Ready o) (sw txt : Str) (i : Nat) (d : Decl V) (v : V) (hden : Denotes o.decls sw i d)
    (hh : ¬ HelpSwitch sw) (hk : d.kind ≠ .presence) (hs : d.isSigned = false) (hg : d.hasDefault = false ∨ ¬ SwitchLike txt)
    (hr : d.read txt = some v) (line : V → List Str) (hT : T i v = reading line v) (more : List Str) (hl : line v = sw :: txt :: more)
    (n : Nat) (rest : List Str) : o.parseN T n (sw :: txt :: rest) = none := by
  have hg' : Greedy d ∨ ¬ SwitchLike txt := by
    rcases hg with h | h
    · exact .inl (.inr h)
    · exact .inr h
  have : ∀ (n : Nat) (rest : List Str) (s : LineState V) (q : Options V), At o.decls false s q → q.parseN T n (sw :: txt :: rest) = none := by
    intro n
    induction n with
    | zero => intro rest s q _; rfl
    | succ n ih =>
      intro rest s q hq
      rw [Options.parseN, loopN_option hq hden hh hk hg' hr, hT]
      simp only [Options.runBody, reading]
      rw [hl, ih more _ _ (by have := hq.later (s.tried d v) d.isSigned []; rw [hs] at this ⊢; exact this)]
      rfl
  exact this n rest _ o ho.here

/-! ### Test functions that do not use the object -/

/-- The test functions of C111, as descriptions. -/
def plainBody (T : Tests V E) (i : Nat) (v : V) : Body V E :=
  .look fun x => .write (T i v x.sc x.vec).2.1 (T i v x.sc x.vec).2.2 (.done (T i v x.sc x.vec).1)

theorem setValN_plain (T : Tests V E) (nested : Options V → List Str → Option (Options V × Ret E)) (o : Options V) (p : Nat) (d : Decl V)
    (t : Str) : o.setValN nested (plainBody T) p d t = some (o.setValT T p d t) := by
  unfold Options.setValN Options.setValT
  cases d.kind with
  | scalar =>
    cases d.read t with
    | none => rfl
    | some v =>
      simp only [plainBody, Options.runBody, Options.look, Option.bind_some]
      rcases hq : T p v (update o.sc d.target v) o.vec with ⟨x, sc, vec⟩
      cases x <;> rfl
  | vector =>
    cases d.read t with
    | none => rfl
    | some v =>
      simp only [plainBody, Options.runBody, Options.look, Option.bind_some]
      rcases hq : T p v o.sc o.vec with ⟨x, sc, vec⟩
      cases x <;> rfl
  | presence => rfl

theorem loopN_plain (T : Tests V E) (nested : Options V → List Str → Option (Options V × Ret E)) (ts : List Str) :
    ∀ (o : Options V) (arg : Option (Nat × Decl V)), o.parseLoopN nested (plainBody T) arg ts = some (o.parseLoopT T arg ts) := by
  induction ts with
  | nil => intro o arg; rfl
  | cons t ts ih =>
    intro o arg
    cases arg with
    | none =>
      rw [Options.parseLoopN, Options.parseLoopT]
      simp only
      split
      · exact ih _ _
      · split
        · rfl
        · split
          · rfl
          · split
            · rename_i hf
              rw [hf]
            · rename_i p d hf
              rw [hf]
              simp only
              split
              · exact ih _ _
              · exact ih _ _
    | some a =>
      obtain ⟨p, d⟩ := a
      rw [Options.parseLoopN, Options.parseLoopT]
      simp only
      generalize (if d.hasDefault = true then Options.isSwitch o.waiting t else 0) = n
      split
      · rw [setValN_plain]
        rcases hsv : o.setValT T p d t with ⟨o', x⟩
        cases x with
        | accept => exact ih _ _
        | _ => rfl
      · split
        · rfl
        · split
          · rfl
          · split
            · rename_i hf
              rw [hf]
            · rename_i q d' hf
              rw [hf]
              simp only
              split
              · exact ih _ _
              · exact ih _ _

/-- With test functions that do not use the object, `parse` is what C111 says about it. -/
theorem C128_plain (T : Tests V E) (n : Nat) (o : Options V) (ts : List Str) :
    o.parseN (plainBody T) (n + 1) ts = some (o.parseT T ts) := loopN_plain T _ ts o none

/-! ### An example -/

/-- `int` options `--num` (default 0, address 0) and a string option `--file` (address 1), a flag `--fast` (address 2) and an `int`
option `--profile` (default 0, address 3). -/
def site : Options Val :=
  (((Options.new false (fun _ => .int 0) (fun _ => [])).addDef intTy 0 "num".toList 'n' (.int 0)).add
    strTy 1 "file".toList 'f' |>.addP (.int 0) (.int 1) 2 "fast".toList 'q').addDef intTy 3 "profile".toList 'p' (.int 0)

theorem site_ready : Ready site :=
  .addDef _ _ _ _ _ _ _ _ (.addP _ _ _ _ _ _ (.add _ _ _ _ _ _ _ (.addDef _ _ _ _ _ _ _ _ (.new _ _ _))))

/-- The files `a` and `b`; `loop` names itself. -/
def siteFile : Val → List Str
  | .str t =>
    if t = "a".toList then ["--num".toList, "5".toList, "w".toList]
    else if t = "b".toList then ["--num".toList, "x".toList]
    else if t = "loop".toList then ["--file".toList, "loop".toList]
    else []
  | _ => []

/-- `--file` parses the file; `--profile` parses `--fast`; `--num` must not be given twice. -/
def siteTests (i : Nat) (v : Val) : Body Val Unit :=
  if i = 1 then reading siteFile v
  else if i = 3 then reading (fun _ => ["--fast".toList]) v
  else if i = 0 then .look fun x => .done (if x.isPresent "num".toList then .refuse else .accept)
  else .done .accept

/-- The variables 0 and 2, the positional words and the result. -/
def siteRun (n : Nat) (ts : List Str) : Option (Val × Val × List Str × Ret Unit) :=
  (site.parseN siteTests n ts).map fun x => (x.1.sc 0, x.1.sc 2, x.1.getPosArgs, x.2)

/-- A file among other words; a test function that looks at what came before it; a file with a mistake; a file that does not end. -/
example : siteRun 2 ["u".toList, "--file".toList, "a".toList, "v".toList] =
      some (.int 5, .int 0, ["u".toList, "w".toList, "v".toList], .returned true) ∧
    siteRun 2 ["--file".toList, "a".toList, "--num".toList, "6".toList] =
      some (.int 6, .int 0, ["w".toList], .returned false) ∧
    siteRun 2 ["--file".toList, "b".toList, "v".toList] = some (.int 0, .int 0, [], .returned false) :=
  ⟨by decide +kernel, by decide +kernel, by decide +kernel⟩

theorem site_file : Denotes site.decls "--file".toList 1 site.decls[1] :=
  .long (n := "file".toList) (by simp) (isLast_of_findLong site_ready.wf (by decide) rfl)

theorem site_profile : Denotes site.decls "--profile".toList 3 site.decls[3] :=
  .long (n := "profile".toList) (by simp) (isLast_of_findLong site_ready.wf (by decide) rfl)

/-- The hypotheses of `C128_endless` are met by `--file loop`. -/
example (n : Nat) : site.parseN siteTests n ["--file".toList, "loop".toList] = none :=
  C128_endless site site_ready _ _ 1 _ (.str "loop".toList) site_file (not_help (by decide) (by decide)) (by decide) (by decide)
    (.inl (by decide)) (by decide) siteFile rfl [] rfl n []

/-- Those of `C128_include` by `--file a`. -/
example (rest : List Str) : site.parseN siteTests 2 ("--file".toList :: "a".toList :: rest) =
    match Options.parseN siteTests 1 { site with sc := update site.sc 1 (.str "a".toList) } ["--num".toList, "5".toList, "w".toList] with
    | none => none
    | some (o1, .returned true) => Options.parseN siteTests 2 { o1 with pres := update o1.pres 1 true, waiting := false } rest
    | some (o1, .returned false) => some ({ o1 with cerr := o1.cerr ++ [.badValue "file".toList "a".toList []] }, .returned false)
    | some (o1, .thrown e) => some (o1, .thrown e) :=
  C128_include 1 site site_ready _ _ 1 _ (.str "a".toList) site_file (not_help (by decide) (by decide)) (by decide) (by decide)
    (.inl (by decide)) (by decide) siteFile rfl rest

/-- Those of `C128_partial` if `--profile` is not used: without it the test functions parse at most one line. -/
example : ∀ i d, site.decls[i]? = some d → ∀ v, AtMost (if d.isSigned then 0 else 1) (if i = 3 then Body.done .accept else siteTests i v) := by
  intro i d hd v
  match i, hd with
  | 0, hd => cases hd; exact fun _ => trivial
  | 1, hd => cases hd; exact fun _ => trivial
  | 2, hd => cases hd; exact trivial
  | 3, hd => cases hd; exact trivial

/-- `--profile 1` ought to switch `--fast` on, but its type is signed: `--fast` is a positional word. -/
theorem C128_refuted : ¬ C128_claim ∧
    siteRun 2 ["--profile".toList, "1".toList] = some (.int 0, .int 0, ["--fast".toList], .returned true) := by
  have a1 : siteRun 2 ["--profile".toList, "1".toList] = some (.int 0, .int 0, ["--fast".toList], .returned true) := by decide +kernel
  refine ⟨?_, a1⟩
  intro h
  have hfast : Denotes site.decls "--fast".toList 2 site.decls[2] :=
    .long (n := "fast".toList) (by simp) (isLast_of_findLong site_ready.wf (by decide) rfl)
  have h1 := LineDoes.value (V := Val) (E := Unit)
    (A := fun i v w s s' w' ms x => Does site.decls (fun _ => PlainLine site.decls siteTests 1) w s (siteTests i v) s' w' ms x)
    (s := ⟨site.sc, site.vec, site.getPosArgs, site.pres⟩) (ts := []) (v := .int 1)
    (txt := "1".toList) site_profile (not_help (by decide) (by decide)) (by decide) (.inl (.inl (by decide))) (by decide)
    (.line (.flag hfast (not_help (by decide) (by decide)) (by decide) .done) .done) .done
  obtain ⟨o', h2, -, -, h3, -⟩ := h siteTests 2 site site_ready _ _ _ _ _ h1
  unfold siteRun at a1
  rw [h2] at a1
  simp only [Option.map_some, Option.some.injEq, Prod.mk.injEq] at a1
  rw [a1.2.2.1] at h3
  cases h3

end SoDa.Opts
