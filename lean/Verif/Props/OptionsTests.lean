import Verif.Proof.OptionsTests
import Verif.Props.Options
/-!
Property C111: options whose test functions look at the variables of the program, change them, or throw.
-/
namespace SoDa.Opts
open Spec

variable {V E : Type} {T : Tests V E}

/-- The test functions of the other properties: they only look at the value. -/
def pureTests (regs : List (Decl V)) : Tests V E := fun i v sc vec =>
  (match regs[i]? with
    | some d => if d.test v then .accept else .refuse
    | none => .refuse, sc, vec)

theorem Ready.idle {o : Options V} (h : Ready o) : Idle o.decls o := ⟨h.wf, h.waiting, rfl⟩

/-- For every line: the variables, the positional words and the options that are present are what the line says when the test
functions are asked one after the other, each in the variables that the preceding ones have left; `parse` returns true, false,
or lets an exception of a test function out. -/
theorem C111_line (o : Options V) (ho : Ready o) (ts : List Str) (s' : LineState V) (e : Ended V E)
    (hr : LineRuns o.decls T ⟨o.sc, o.vec, o.getPosArgs, o.pres⟩ ts s' e) :
    (o.parseT T ts).2 = e.result ∧ (o.parseT T ts).1.sc = s'.sc ∧ (o.parseT T ts).1.vec = s'.vec ∧
      (o.parseT T ts).1.getPosArgs = s'.words ∧ (o.parseT T ts).1.pres = s'.present ∧
      (o.parseT T ts).1.cerr = o.cerr ++ e.says ∧ (o.parseT T ts).1.decls = o.decls := by
  unfold Options.parseT
  rw [loopT_runs hr o ho.idle rfl]
  exact ⟨rfl, rfl, rfl, rfl, rfl, rfl, rfl⟩

/-- This says what happens for every line. -/
theorem C111_every_line (regs : List (Decl V)) (T : Tests V E) (s : LineState V) (ts : List Str) :
    ∃ s' e, LineRuns regs T s ts s' e := runs_total regs T _ ts s (Nat.le_refl _)

theorem runs_stopped {regs : List (Decl V)} {s ts s' e} (hr : LineRuns regs T s ts s' e) :
    ∀ {d txt x}, e = .stopped d txt (.throws x) →
      ∃ s1 pre sw i v rest, ts = pre ++ sw :: txt :: rest ∧ Denotes regs sw i d ∧ d.kind ≠ .presence ∧ d.read txt = some v ∧
        (ask T s1 i d v).1 = .throws x ∧ s' = (s1.tried d v).after (ask T s1 i d v) := by
  induction hr with
  | @word _ w _ _ _ _ _ ih =>
    intro d txt x he
    obtain ⟨s1, pre, sw, i, v, rest, h1, h2⟩ := ih he
    exact ⟨s1, w :: pre, sw, i, v, rest, by rw [h1]; rfl, h2⟩
  | @flag _ w _ _ _ _ _ _ _ _ _ ih =>
    intro d txt x he
    obtain ⟨s1, pre, sw, i, v, rest, h1, h2⟩ := ih he
    exact ⟨s1, w :: pre, sw, i, v, rest, by rw [h1]; rfl, h2⟩
  | @value _ w _ _ u _ _ _ _ _ _ _ _ _ _ _ ih =>
    intro d txt x he
    obtain ⟨s1, pre, sw, i, v, rest, h1, h2⟩ := ih he
    exact ⟨s1, w :: u :: pre, sw, i, v, rest, by rw [h1]; rfl, h2⟩
  | @bare _ w _ _ _ _ _ _ _ _ _ _ _ _ ih =>
    intro d txt x he
    obtain ⟨s1, pre, sw, i, v, rest, h1, h2⟩ := ih he
    exact ⟨s1, w :: pre, sw, i, v, rest, by rw [h1]; rfl, h2⟩
  | @unread => intro d txt x he; simp at he
  | @stopped s sw i d txt v ts hden _ hk _ hrd _ =>
    intro d' txt' x he
    simp only [Ended.stopped.injEq] at he
    obtain ⟨rfl, rfl, hx⟩ := he
    exact ⟨s, [], sw, i, v, ts, rfl, hden, hk, hrd, hx, rfl⟩
  | _ => intro d txt x he; cases he

theorem Ended.result_thrown {e : Ended V E} {x : E} (h : e.result = .thrown x) : ∃ d txt, e = .stopped d txt (.throws x) := by
  cases e with
  | stopped d txt w => cases w <;> simp_all [Ended.result]
  | _ => simp [Ended.result] at h

/-- An exception that leaves `parse` comes from a test function: one of an option on the line, called with the value on the line;
a scalar variable held the value when it was called, and nothing after it has happened (what the test function has left is what
is in the variables, and nothing is reported on the error stream). -/
theorem C111_thrown (o : Options V) (ho : Ready o) (ts : List Str) (x : E) (h : (o.parseT T ts).2 = .thrown x) :
    ∃ (s1 : LineState V) (pre : List Str) (sw : Str) (i : Nat) (d : Decl V) (txt : Str) (v : V) (rest : List Str),
      ts = pre ++ sw :: txt :: rest ∧ Denotes o.decls sw i d ∧ d.kind ≠ .presence ∧ d.read txt = some v ∧
      (T i v (if d.kind = .scalar then fun b => if b = d.target then v else s1.sc b else s1.sc) s1.vec) =
        (.throws x, (o.parseT T ts).1.sc, (o.parseT T ts).1.vec) ∧
      (o.parseT T ts).1.pres = s1.present ∧ (o.parseT T ts).1.cerr = o.cerr := by
  obtain ⟨s', e, hr⟩ := C111_every_line o.decls T ⟨o.sc, o.vec, o.getPosArgs, o.pres⟩ ts
  obtain ⟨h1, h2, h3, h4, h5, h6, -⟩ := C111_line o ho ts s' e hr
  rw [h1] at h
  obtain ⟨d, txt, rfl⟩ := Ended.result_thrown h
  obtain ⟨s1, pre, sw, i, v, rest, g1, g2, gk, g3, g4, g5⟩ := runs_stopped hr rfl
  refine ⟨s1, pre, sw, i, d, txt, v, rest, g1, g2, gk, g3, ?_, ?_, ?_⟩
  · rw [h2, h3, g5]
    rw [← g4]
    unfold ask LineState.after LineState.tried LineState.put
    split <;> rfl
  · rw [h5, g5]
    unfold LineState.after LineState.tried LineState.put
    split <;> rfl
  · rw [h6]; simp [Ended.says]

theorem setValT_pure (regs : List (Decl V)) (o : Options V) (p : Nat) (d : Decl V) (hd : regs[p]? = some d) (t : Str) :
    o.setValT (E := E) (pureTests regs) p d t = ((o.setVal p d t).1, if (o.setVal p d t).2 then .accept else .refuse) := by
  unfold Options.setValT Options.setVal pureTests
  simp only [hd]
  cases d.kind with
  | scalar =>
    cases d.read t with
    | none => rfl
    | some v => cases h : d.test v <;> simp [h]
  | vector =>
    cases d.read t with
    | none => rfl
    | some v => cases h : d.test v <;> simp [h]
  | presence => rfl

theorem setVal_decls (o : Options V) (p : Nat) (d : Decl V) (t : Str) : (o.setVal p d t).1.decls = o.decls := by
  unfold Options.setVal
  repeat' split
  all_goals rfl

theorem loopT_pure (regs : List (Decl V)) (ts : List Str) : ∀ (o : Options V) (arg : Option (Nat × Decl V)), o.decls = regs →
    (∀ p d, arg = some (p, d) → regs[p]? = some d) →
    o.parseLoopT (E := E) (pureTests regs) arg ts = ((o.parseLoop arg ts).1, .returned (o.parseLoop arg ts).2) := by
  induction ts with
  | nil => intro o arg _ _; rfl
  | cons t ts ih =>
    intro o arg ho ha
    cases arg with
    | none =>
      rw [Options.parseLoopT, Options.parseLoop]
      simp only
      split
      · exact ih _ _ ho (fun _ _ h => by cases h)
      · split
        · rfl
        · split
          · rfl
          · split
            · rename_i hf
              rw [hf]
            · rename_i p d hf
              rw [hf]
              simp only
              have hpd : regs[p]? = some d := by
                subst ho
                simp only [Option.bind_eq_some_iff, Option.map_eq_some_iff, Prod.mk.injEq] at hf
                obtain ⟨q, -, d', h1, rfl, rfl⟩ := hf
                exact h1
              have hs : (if d.isSigned = true then { o with waiting := true } else o).decls = regs := by split <;> exact ho
              split
              · exact ih _ _ hs (fun _ _ h => by cases h)
              · exact ih _ _ hs (fun _ _ h => by cases h; exact hpd)
    | some a =>
      obtain ⟨p, d⟩ := a
      have hpd := ha p d rfl
      rw [Options.parseLoopT, Options.parseLoop]
      simp only
      generalize (if d.hasDefault = true then Options.isSwitch o.waiting t else 0) = n
      split
      · rw [setValT_pure regs o p d hpd t]
        have hdec := setVal_decls o p d t
        rcases hsv : o.setVal p d t with ⟨o', b⟩
        rw [hsv] at hdec
        cases b with
        | true =>
          exact ih _ _ (hdec.trans ho) (fun _ _ h => by cases h)
        | false => rfl
      · split
        · rfl
        · split
          · rfl
          · split
            · rename_i hf
              rw [hf]
            · rename_i q d' hf
              rw [hf]
              simp only
              have hpd : regs[q]? = some d' := by
                subst ho
                simp only [Option.bind_eq_some_iff, Option.map_eq_some_iff, Prod.mk.injEq] at hf
                obtain ⟨q, -, d', h1, rfl, rfl⟩ := hf
                exact h1
              split
              · refine ih _ _ ?_ (fun _ _ h => by cases h)
                split <;> exact ho
              · refine ih _ _ ?_ (fun _ _ h => by cases h; exact hpd)
                split <;> exact ho

/-- With test functions that only look at the value, `parse` is what the other properties say about it. -/
theorem C111_pure (o : Options V) (ts : List Str) :
    o.parseT (E := E) (pureTests o.decls) ts = ((o.parse ts).1, .returned (o.parse ts).2) :=
  loopT_pure o.decls ts o none rfl (fun _ _ h => by cases h)

/-! ### Several lines -/

/-- The lines one after the other, whatever the earlier calls have ended with. -/
def parseLines (T : Tests V E) (o : Options V) : List (List Str) → Options V × List (Ret E)
  | [] => (o, [])
  | ts :: lines => ((parseLines T (o.parseT T ts).1 lines).1, (o.parseT T ts).2 :: (parseLines T (o.parseT T ts).1 lines).2)

/-- Each line is read as such, whatever the lines before it have ended with. -/
def C111_claim : Prop := ∀ {V E : Type} (T : Tests V E) (o : Options V), Ready o → ∀ (lines : List (List Str)) s' es,
  LinesRun o.decls T ⟨o.sc, o.vec, o.getPosArgs, o.pres⟩ lines s' es →
  (parseLines T o lines).2 = es.map Ended.result ∧ (parseLines T o lines).1.sc = s'.sc ∧ (parseLines T o lines).1.vec = s'.vec ∧
    (parseLines T o lines).1.getPosArgs = s'.words ∧ (parseLines T o lines).1.pres = s'.present

/-- The line has not ended within an option of a signed type. -/
def Ended.Clean (e : Ended V E) : Prop := ∀ d, e.within = some d → d.isSigned = false

theorem outcome_idle {regs : List (Decl V)} {o : Options V} (h : Idle regs o) (s : LineState V) {e : Ended V E}
    (he : Ended.Clean e) : Idle regs (outcome o s e).1 := by
  refine ⟨h.wf.congr rfl rfl rfl, ?_, h.decls⟩
  unfold outcome
  simp only
  cases hw : e.within with
  | none => rfl
  | some d => exact he d hw

theorem lines_run {regs : List (Decl V)} {s lines s' es} (hr : LinesRun regs T s lines s' es) :
    ∀ o : Options V, Idle regs o → view o = s → (∀ e ∈ es.dropLast, Ended.Clean e) →
      (parseLines T o lines).2 = es.map Ended.result ∧ view (parseLines T o lines).1 = s' := by
  induction hr with
  | nil => intro o _ hv _; exact ⟨rfl, hv⟩
  | @cons s ts s1 e lines s2 es h1 h2 ih =>
    intro o ho hv hc
    have hp := loopT_runs h1 o ho hv
    have hp' : o.parseT T ts = outcome o s1 e := hp
    unfold parseLines
    rw [hp']
    cases es with
    | nil =>
      cases h2
      exact ⟨rfl, rfl⟩
    | cons e' es =>
      have := ih (outcome o s1 e).1 (outcome_idle ho s1 (hc e (by simp))) rfl
        (fun x hx => hc x (by rw [List.dropLast_cons_of_ne_nil (by simp)]; exact List.mem_cons_of_mem _ hx))
      exact ⟨by rw [this.1]; rfl, this.2⟩

/-- It holds as long as no line but the last has ended within an option of a signed type. -/
theorem C111_lines_partial (o : Options V) (ho : Ready o) (lines : List (List Str)) (s' : LineState V) (es : List (Ended V E))
    (hr : LinesRun o.decls T ⟨o.sc, o.vec, o.getPosArgs, o.pres⟩ lines s' es)
    (hc : ∀ e ∈ es.dropLast, ∀ d, e.within = some d → d.isSigned = false) :
    (parseLines T o lines).2 = es.map Ended.result ∧ (parseLines T o lines).1.sc = s'.sc ∧ (parseLines T o lines).1.vec = s'.vec ∧
    (parseLines T o lines).1.getPosArgs = s'.words ∧ (parseLines T o lines).1.pres = s'.present := by
  obtain ⟨h1, h2⟩ := lines_run hr o ho.idle rfl hc
  subst h2
  exact ⟨h1, rfl, rfl, rfl, rfl⟩

/-- Otherwise not: after a line that has ended within an option of a signed type, every token of all later lines is a positional
word, and `parse` returns true for each of them. -/
theorem C111_lines_exact (o : Options V) (ho : Ready o) (ts : List Str) (s' : LineState V) (e : Ended V E)
    (hr : LineRuns o.decls T ⟨o.sc, o.vec, o.getPosArgs, o.pres⟩ ts s' e) (d : Decl V) (he : e.within = some d)
    (hs : d.isSigned = true) (lines : List (List Str)) :
    (parseLines T (o.parseT T ts).1 lines).2 = lines.map (fun _ => .returned true) ∧
    (parseLines T (o.parseT T ts).1 lines).1 =
      { (o.parseT T ts).1 with pos := (o.parseT T ts).1.pos ++ lines.flatten } := by
  have hp : o.parseT T ts = outcome o s' e := loopT_runs hr o ho.idle rfl
  have hw : (o.parseT T ts).1.waiting = true := by
    rw [hp]; unfold outcome; simp only [he]; exact hs
  generalize (o.parseT T ts).1 = q at hw
  clear hp hr
  induction lines generalizing q with
  | nil => simp [parseLines]
  | cons l lines ih =>
    have h1 : q.parseT T l = ({ q with pos := q.pos ++ l }, .returned true) := loopT_waiting l q hw
    unfold parseLines
    rw [h1]
    obtain ⟨g1, g2⟩ := ih { q with pos := q.pos ++ l } hw
    refine ⟨by rw [g1]; rfl, ?_⟩
    simp only at g2
    rw [g2]
    simp

/-! ### Two options that belong together -/

/-- `int` options `--lo` (default 0, address 0), `--hi` (default 100, address 1) and `--at` (default 50, address 2), and a string
option `--name` (address 3). -/
def range : Options Val :=
  (((Options.new false (fun _ => .int 0) (fun _ => [])).addDef intTy 0 "lo".toList 'l' (.int 0)).addDef
    intTy 1 "hi".toList 'i' (.int 100) |>.addDef intTy 2 "at".toList 'a' (.int 50)).add strTy 3 "name".toList 'n'

theorem range_ready : Ready range :=
  .add _ _ _ _ _ _ _ (.addDef _ _ _ _ _ _ _ _ (.addDef _ _ _ _ _ _ _ _ (.addDef _ _ _ _ _ _ _ _ (.new _ _ _))))

def intOf : Val → Int
  | .int i => i
  | _ => 0

/-- `--hi` must not be below the variable of `--lo`; `--at` throws outside of the two; `--name` sets `--lo` to 1. -/
def rangeTests : Tests Val Unit := fun i v sc vec =>
  if i = 1 then (if intOf v < intOf (sc 0) then .refuse else .accept, sc, vec)
  else if i = 2 then (if intOf v < intOf (sc 0) ∨ intOf (sc 1) < intOf v then .throws () else .accept, sc, vec)
  else if i = 3 then (.accept, fun a => if a = 0 then .int 1 else sc a, vec)
  else (.accept, sc, vec)

/-- The order of the options on the line matters. -/
example : (range.parseT rangeTests ["--lo".toList, "5".toList, "--hi".toList, "3".toList]).2 = .returned false ∧
    (range.parseT rangeTests ["--hi".toList, "3".toList, "--lo".toList, "5".toList]).2 = .returned true := by
  decide

/-- A test function that throws: the exception leaves `parse`, the variable holds the value, and the options before it are in effect;
what is behind it is not read. -/
example : (range.parseT rangeTests ["--lo".toList, "5".toList, "--at".toList, "3".toList, "--hi".toList, "9".toList]).2 = .thrown () ∧
    (range.parseT rangeTests ["--lo".toList, "5".toList, "--at".toList, "3".toList, "--hi".toList, "9".toList]).1.sc 0 = .int 5 ∧
    (range.parseT rangeTests ["--lo".toList, "5".toList, "--at".toList, "3".toList, "--hi".toList, "9".toList]).1.sc 1 = .int 100 ∧
    (range.parseT rangeTests ["--lo".toList, "5".toList, "--at".toList, "3".toList, "--hi".toList, "9".toList]).1.sc 2 = .int 3 ∧
    (range.parseT rangeTests ["--lo".toList, "5".toList, "--at".toList, "3".toList]).1.isPresent "at".toList = false := by
  decide

/-- A test function that changes a variable. -/
example : (range.parseT rangeTests ["--lo".toList, "5".toList, "--name".toList, "x".toList, "--hi".toList, "3".toList]).2 = .returned true := by
  decide

/-- When the test function of `--at` has thrown, `--lo 7` on the next line is two positional words. -/
theorem C111_refuted : ¬ C111_claim ∧
    (parseLines rangeTests range [["--at".toList, "200".toList], ["--lo".toList, "7".toList]]).2 = [.thrown (), .returned true] ∧
    (parseLines rangeTests range [["--at".toList, "200".toList], ["--lo".toList, "7".toList]]).1.sc 0 = .int 0 ∧
    (parseLines rangeTests range [["--at".toList, "200".toList], ["--lo".toList, "7".toList]]).1.getPosArgs =
      ["--lo".toList, "7".toList] := by
  have a1 : (parseLines rangeTests range [["--at".toList, "200".toList], ["--lo".toList, "7".toList]]).1.getPosArgs =
      ["--lo".toList, "7".toList] := by decide
  refine ⟨?_, by decide, by decide, a1⟩
  intro h
  have hat : Denotes range.decls "--at".toList 2 range.decls[2] :=
    .long (n := "at".toList) (by simp) (isLast_of_findLong range_ready.wf (by decide) rfl)
  have hlo : Denotes range.decls "--lo".toList 0 range.decls[0] :=
    .long (n := "lo".toList) (by simp) (isLast_of_findLong range_ready.wf (by decide) rfl)
  have h1 := LineRuns.stopped (T := rangeTests) (s := ⟨range.sc, range.vec, range.getPosArgs, range.pres⟩) (ts := []) (v := .int 200)
    (txt := "200".toList) hat (not_help (by decide) (by decide)) (by decide) (.inl (.inl (by decide))) (by decide) (by decide)
  obtain ⟨s2, e2, h2⟩ := C111_every_line range.decls rangeTests
    (((⟨range.sc, range.vec, range.getPosArgs, range.pres⟩ : LineState Val).tried range.decls[2] (.int 200)).after
      (ask rangeTests ⟨range.sc, range.vec, range.getPosArgs, range.pres⟩ 2 range.decls[2] (.int 200)))
    ["--lo".toList, "7".toList]
  obtain ⟨-, -, -, h3, -⟩ := h rangeTests range range_ready _ _ _ (.cons h1 (.cons h2 .nil))
  rw [a1] at h3
  have h4 := loopT_runs h2 (withState range _) (range_ready.idle.withState _) rfl
  have h5 := congrArg (fun x : Options Val × Ret Unit => x.1.pos) h4
  have h6 : s2.words = [] := h5.symm.trans (by decide)
  rw [h6] at h3
  cases h3

end SoDa.Opts
