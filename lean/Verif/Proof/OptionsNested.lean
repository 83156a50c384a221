import Verif.Spec.OptionsNested
import Verif.Proof.OptionsTests
/-!
`parse` with test functions that use the object does what `NestedLine` says.
-/
namespace SoDa.Opts
open Spec

variable {V E : Type} {T : Nat → V → Body V E} {nested : Options V → List Str → Option (Options V × Ret E)}

theorem loopN_switch {o : Options V} (h : o.Wf) (hw : o.waiting = false) {sw : Str} {i : Nat}
    {d : Decl V} (hd : Denotes o.decls sw i d) (hh : ¬ HelpSwitch sw) (ts : List Str) :
    o.parseLoopN nested T none (sw :: ts) =
      if d.kind = .presence then
        ((if d.isSigned then { o with waiting := true } else o).setPresent i d).parseLoopN nested T none ts
      else (if d.isSigned then { o with waiting := true } else o).parseLoopN nested T (some (i, d)) ts := by
  cases hd with
  | @long n _ _ hn hl =>
    have h1 : ¬ (('-' :: '-' :: n) = "--help".toList) := fun he => hh (.inl he)
    simp only [Options.parseLoopN, hw, isSwitch_long hn]
    rw [if_neg (by simp), if_neg (by simp), if_neg (by simp only [h1]; simp)]
    simp only [List.drop_succ_cons, List.drop_zero, if_neg (show ¬ (2 : Nat) = 1 by decide),
      found_long h hl]
  | @short c r _ _ hc hl =>
    have h1 : c ≠ 'h' := by rintro rfl; exact hh (.inr ⟨r, rfl⟩)
    simp only [Options.parseLoopN, hw, isSwitch_short hc]
    rw [if_neg (by simp), if_neg (by simp [h1]), if_neg (by simp)]
    simp only [List.getElem?_cons_succ, List.getElem?_cons_zero, if_true, Option.bind_some,
      found_ab h hl]

theorem loopN_help {o : Options V} (hw : o.waiting = false) {sw : Str} (hh : HelpSwitch sw) (ts : List Str) :
    o.parseLoopN nested T none (sw :: ts) = some ({ o with cerr := o.cerr ++ [.help] }, .returned false) := by
  rcases hh with rfl | ⟨r, rfl⟩
  · simp [Options.parseLoopN, hw, Options.isSwitch]
  · simp [Options.parseLoopN, hw, isSwitch_short (show ('h' : Char) ≠ '-' by decide)]

theorem loopN_unknown {o : Options V} (h : o.Wf) (hw : o.waiting = false) {sw : Str}
    (hs : SwitchLike sw) (hh : ¬ HelpSwitch sw) (hno : ∀ i d, ¬ Denotes o.decls sw i d) (ts : List Str) :
    o.parseLoopN nested T none (sw :: ts) = some ({ o with cerr := o.cerr ++ [.badName sw, .help] }, .returned false) := by
  rcases hs with ⟨c, r, rfl, hc⟩ | ⟨n, rfl, hn⟩
  · have h1 : c ≠ 'h' := by rintro rfl; exact hh (.inr ⟨r, rfl⟩)
    have h2 := findAb_none h (c := c) fun i d hd => hno i d (.short hc hd)
    simp only [Options.parseLoopN, hw, isSwitch_short hc]
    rw [if_neg (by simp), if_neg (by simp [h1]), if_neg (by simp)]
    simp [h2]
  · have h1 : ¬ (('-' :: '-' :: n) = "--help".toList) := fun he => hh (.inl he)
    have h2 := findLong_none h (n := n) fun i d hd => hno i d (.long hn hd)
    simp only [Options.parseLoopN, hw, isSwitch_long hn]
    rw [if_neg (by simp), if_neg (by simp), if_neg (by simp only [h1]; simp)]
    simp [h2]

theorem loopN_word {o : Options V} (hw : o.waiting = false) {w : Str} (hs : ¬ SwitchLike w) (ts : List Str) :
    o.parseLoopN nested T none (w :: ts) = { o with pos := o.pos ++ [w] }.parseLoopN nested T none ts := by
  simp only [Options.parseLoopN, hw, isSwitch_not hs, if_true]

theorem loopN_value {o : Options V} {p : Nat} {d : Decl V} {txt : Str}
    (hv : d.hasDefault = false ∨ Options.isSwitch o.waiting txt = 0) (ts : List Str) :
    o.parseLoopN nested T (some (p, d)) (txt :: ts) =
      (o.setValN nested T p d txt).bind fun r =>
        if r.2.isAccept then { r.1 with waiting := false }.parseLoopN nested T none ts else some (r.1.handle d txt r.2) := by
  rw [Options.parseLoopN]
  rw [if_pos (by rcases hv with h | h <;> simp [h])]

theorem loopN_pending {o : Options V} (hw : o.waiting = false) {p : Nat} {d : Decl V}
    (hg : ¬ Greedy d) {t : Str} (hs : SwitchLike t) (ts : List Str) :
    o.parseLoopN nested T (some (p, d)) (t :: ts) = (o.setPresent p d).parseLoopN nested T none (t :: ts) := by
  simp only [Greedy, not_or, Bool.not_eq_true, Bool.not_eq_false] at hg
  have h0 : Options.isSwitch false t ≠ 0 := fun h => (isSwitch_zero_iff t).1 h hs
  have hw' : (o.setPresent p d).waiting = false := hw
  rw [Options.parseLoopN, Options.parseLoopN]
  generalize o.setPresent p d = o2 at hw' ⊢
  obtain ⟨decls, pres, lm, am, info, pos, kvp, w, sc, vec, cerr⟩ := o2
  simp only at hw'
  subst hw'
  simp only [hw, hg.1, hg.2, if_true, if_neg h0]

theorem loopN_waiting (ts : List Str) : ∀ o : Options V, o.waiting = true →
    o.parseLoopN nested T none ts = some ({ o with pos := o.pos ++ ts }, .returned true) := by
  induction ts with
  | nil => intro o _; simp [Options.parseLoopN]
  | cons t ts ih =>
    intro o hw
    rw [Options.parseLoopN]
    simp only [hw, isSwitch_waiting, if_true]
    rw [ih _ rfl]
    simp


/-- The object after a line or a test function. -/
def later (o : Options V) (s : LineState V) (w : Bool) (ms : List Diag) : Options V :=
  { withState o s with waiting := w, cerr := o.cerr ++ ms }

theorem later_wf {o : Options V} (h : o.Wf) (s : LineState V) (w : Bool) (ms : List Diag) : (later o s w ms).Wf := h.congr rfl rfl rfl

theorem later_later (o : Options V) (s s' : LineState V) (w w' : Bool) (ms ms' : List Diag) :
    later (later o s w ms) s' w' ms' = later o s' w' (ms ++ ms') := by
  simp only [later, withState, List.append_assoc]

theorem later_self {o : Options V} {w : Bool} (hw : o.waiting = w) : later o (view o) w [] = o := by
  subst hw
  simp only [later, withState, view, List.append_nil]

theorem look_shown {o : Options V} (h : o.Wf) : o.look = shown o.decls (view o) := by
  unfold Options.look shown
  congr 1
  · funext n
    rw [Bool.eq_iff_iff, @decide_eq_true_iff _ (Classical.propDecidable _)]
    simp only [Options.isPresent]
    cases hf : o.findLong n with
    | none =>
      simp only [Bool.false_eq_true, false_iff]
      rintro ⟨i, d, hl, _⟩
      rw [(h.long n i).2 ⟨d, hl⟩] at hf
      cases hf
    | some p =>
      obtain ⟨d, hd⟩ := (h.long n p).1 hf
      constructor
      · intro hp; exact ⟨p, d, hd, hp⟩
      · rintro ⟨i, d', hl, hp⟩
        rw [(h.long n i).2 ⟨d', hl⟩] at hf
        cases hf
        exact hp
  · funext n
    rw [Bool.eq_iff_iff, @decide_eq_true_iff _ (Classical.propDecidable _)]
    simp only [Options.isPresentAb]
    cases hf : o.findAb n with
    | none =>
      simp only [Bool.false_eq_true, false_iff]
      rintro ⟨i, d, hl, _⟩
      rw [(h.ab n i).2 ⟨d, hl⟩] at hf
      cases hf
    | some p =>
      obtain ⟨d, hd⟩ := (h.ab n p).1 hf
      constructor
      · intro hp; exact ⟨p, d, hd, hp⟩
      · rintro ⟨i, d', hl, hp⟩
        rw [(h.ab n i).2 ⟨d', hl⟩] at hf
        cases hf
        exact hp

/-- The object when `w` says whether a value of a signed type is expected and `s` what the line has done so far. -/
structure At (regs : List (Decl V)) (w : Bool) (s : LineState V) (o : Options V) : Prop where
  wf : o.Wf
  decls : o.decls = regs
  waiting : o.waiting = w
  view : view o = s

theorem At.later {regs : List (Decl V)} {w s} {o : Options V} (h : At regs w s o) (s' : LineState V) (w' : Bool) (ms : List Diag) :
    At regs w' s' (later o s' w' ms) := ⟨later_wf h.wf _ _ _, h.decls, rfl, rfl⟩

theorem body_runs {regs : List (Decl V)} {P : Bool → LineState V → List Str → LineState V → Bool → List Diag → Ret E → Prop}
    (hP : ∀ w s ts s1 w1 m1 r, P w s ts s1 w1 m1 r → ∀ o, At regs w s o → nested o ts = some (later o s1 w1 m1, r))
    {w s b s' w' ms x} (h : Does regs P w s b s' w' ms x) :
    ∀ o : Options V, At regs w s o → o.runBody nested b = some (later o s' w' ms, x) := by
  induction h with
  | done =>
    intro o ho
    obtain ⟨_, _, hw, rfl⟩ := ho
    rw [later_self hw]; rfl
  | look _ ih =>
    intro o ho
    have := ih o ho
    obtain ⟨h1, rfl, hw, rfl⟩ := ho
    rw [← look_shown h1] at this
    exact this
  | @write w s sc vec k s' w' ms x _ ih =>
    intro o ho
    obtain ⟨h1, h2, hw, rfl⟩ := ho
    exact ih { o with sc := sc, vec := vec } ⟨h1.congr rfl rfl rfl, h2, hw, rfl⟩
  | line h1 _ ih =>
    intro o ho
    simp only [Options.runBody]
    rw [hP _ _ _ _ _ _ _ h1 o ho]
    simp only [Option.bind_some]
    rw [ih _ (ho.later _ _ _), later_later]

/-- A value that can be converted. -/
theorem setValN_read {o : Options V} {i : Nat} {d : Decl V} {txt : Str} {v : V} (hk : d.kind ≠ .presence)
    (hr : d.read txt = some v) : o.setValN nested T i d txt =
      ((withState o ((view o).tried d v)).runBody nested (T i v)).bind fun r =>
        some (if r.2.isAccept then withState r.1 ((view r.1).taken i d v) else r.1, r.2) := by
  cases hd : d.kind with
  | presence => exact absurd hd hk
  | scalar =>
    have e1 : (view o).tried d v = (view o).put d.target v := by simp [LineState.tried, hd]
    simp only [Options.setValN, hd, hr, e1, LineState.taken, if_true]
    refine congrArg₂ Option.bind rfl (funext fun r => ?_)
    congr 2
    simp only [Options.setPresent, hd]
    rfl
  | vector =>
    have e1 : (view o).tried d v = view o := by simp [LineState.tried, hd]
    simp only [Options.setValN, hd, hr, e1, LineState.taken]
    rfl

theorem setValN_unread {o : Options V} {i : Nat} {d : Decl V} {txt : Str} (hk : d.kind ≠ .presence) (hr : d.read txt = none) :
    o.setValN nested T i d txt = some (withState o ((view o).spoilt d txt), .refuse) := by
  cases hd : d.kind with
  | presence => exact absurd hd hk
  | scalar => simp only [Options.setValN, hd, hr, LineState.spoilt, if_true]; rfl
  | vector => simp only [Options.setValN, hd, hr, LineState.spoilt]; rfl

theorem isAccept_iff {x : Verdict E} : x.isAccept = true ↔ x = .accept := by cases x <;> simp [Verdict.isAccept]

/-- An option and its value at the beginning of a line. -/
theorem loopN_option {regs : List (Decl V)} {s} {o : Options V} (ho : At regs false s o) {sw i d txt v} (hden : Denotes regs sw i d)
    (hh : ¬ HelpSwitch sw) (hk : d.kind ≠ .presence) (hg : Greedy d ∨ ¬ SwitchLike txt) (hr : d.read txt = some v) (ts : List Str) :
    o.parseLoopN nested T none (sw :: txt :: ts) =
      ((later o (s.tried d v) d.isSigned []).runBody nested (T i v)).bind fun r =>
        if r.2.isAccept then { withState r.1 ((view r.1).taken i d v) with waiting := false }.parseLoopN nested T none ts
        else some (r.1.handle d txt r.2) := by
  obtain ⟨h1, rfl, hw, rfl⟩ := ho
  rw [loopN_switch h1 hw hden hh, if_neg hk, signed_waiting o hw, loopN_value (greedy_or hg), setValN_read hk hr]
  have e : withState { o with waiting := d.isSigned } ((view { o with waiting := d.isSigned }).tried d v) = later o ((view o).tried d v) d.isSigned [] := by
    simp only [later, withState, List.append_nil]; rfl
  rw [e]
  cases (later o ((view o).tried d v) d.isSigned []).runBody nested (T i v) with
  | none => rfl
  | some r =>
    simp only [Option.bind_some]
    by_cases ha : r.2.isAccept = true
    · simp only [ha, if_true]
    · simp only [ha, if_false, Bool.false_eq_true]

theorem loopN_runs {regs : List (Decl V)} {A : Nat → V → Bool → LineState V → LineState V → Bool → List Diag → Verdict E → Prop}
    (hA : ∀ i v w s s' w' ms x, A i v w s s' w' ms x → ∀ o, At regs w s o → o.runBody nested (T i v) = some (later o s' w' ms, x))
    {s ts s' w ms r} (hr : LineDoes regs A s ts s' w ms r) :
    ∀ o : Options V, At regs false s o → o.parseLoopN nested T none ts = some (later o s' w ms, r) := by
  induction hr with
  | done =>
    intro o ho
    obtain ⟨_, _, hw, rfl⟩ := ho
    rw [later_self hw]; rfl
  | @word s t ts s' w ms r hs _ ih =>
    intro o ho
    rw [loopN_word ho.waiting hs]
    obtain ⟨h1, h2, hw, rfl⟩ := ho
    exact ih { o with pos := o.pos ++ [t] } ⟨h1.congr rfl rfl rfl, h2, hw, rfl⟩
  | @flag s sw i d ts s' w ms r hden hh hk _ ih =>
    intro o ho
    obtain ⟨h1, rfl, hw, rfl⟩ := ho
    rw [loopN_switch h1 hw hden hh, if_pos hk, h1.signed d (Denotes.mem hden) (by simp [hk])]
    have he : o.setPresent i d = withState o (((view o).put d.target d.mark).see i) := by
      simp only [Options.setPresent, if_pos hk]; rfl
    simp only [Bool.false_eq_true, if_false]
    rw [he]
    exact ih (withState o _) ⟨h1.congr rfl rfl rfl, rfl, hw, rfl⟩
  | @value s sw i d txt v s1 w1 m1 ts s' w ms r hden hh hk hg hrd ha _ ih =>
    intro o ho
    rw [loopN_option ho hden hh hk hg hrd, hA _ _ _ _ _ _ _ _ ha _ (ho.later _ _ _), Option.bind_some,
      if_pos (show Verdict.isAccept (Verdict.accept : Verdict E) = true from rfl)]
    have e : ({ withState (later (later o (s.tried d v) d.isSigned []) s1 w1 m1) ((view (later (later o (s.tried d v) d.isSigned []) s1 w1 m1)).taken i d v)
        with waiting := false } : Options V) = later o (s1.taken i d v) false m1 := by
      simp only [later, withState, List.append_nil]; rfl
    refine (congrArg (fun q : Options V => q.parseLoopN nested T none ts) e).trans ?_
    rw [ih _ (ho.later _ _ _), later_later]
  | @bare s sw i d t ts s' w ms r hden hh hk hg hs _ ih =>
    intro o ho
    obtain ⟨h1, rfl, hw, rfl⟩ := ho
    have hsg : d.isSigned = false := by
      cases hs : d.isSigned
      · rfl
      · exact absurd (.inl hs) hg
    rw [loopN_switch h1 hw hden hh, if_neg hk, hsg]
    simp only [Bool.false_eq_true, if_false]
    rw [loopN_pending hw hg hs]
    have he : o.setPresent i d = withState o ((view o).see i) := by simp only [Options.setPresent, if_neg hk]; rfl
    rw [he]
    exact ih (withState o _) ⟨h1.congr rfl rfl rfl, rfl, hw, rfl⟩
  | @dangling s sw i d hden hh hk =>
    intro o ho
    obtain ⟨h1, rfl, hw, rfl⟩ := ho
    rw [loopN_switch h1 hw hden hh, if_neg hk, signed_waiting o hw]
    simp only [Options.parseLoopN, later, withState, view, List.append_nil]
  | unknown hs hh hno =>
    intro o ho
    obtain ⟨h1, rfl, hw, rfl⟩ := ho
    rw [loopN_unknown h1 hw hs hh hno, ← hw]
    rfl
  | help hh =>
    intro o ho
    obtain ⟨h1, rfl, hw, rfl⟩ := ho
    rw [loopN_help hw hh, ← hw]
    rfl
  | @unread s sw i d txt ts hden hh hk hg hrd =>
    intro o ho
    obtain ⟨h1, rfl, hw, rfl⟩ := ho
    rw [loopN_switch h1 hw hden hh, if_neg hk, signed_waiting o hw, loopN_value (greedy_or hg), setValN_unread hk hrd]
    rfl
  | @stopped s sw i d txt v s1 w1 m1 x ts hden hh hk hg hrd ha hx =>
    intro o ho
    rw [loopN_option ho hden hh hk hg hrd, hA _ _ _ _ _ _ _ _ ha _ (ho.later _ _ _), Option.bind_some,
      if_neg (fun h => hx (isAccept_iff.mp h)), later_later, List.nil_append]
    cases x with
    | accept => exact absurd rfl hx
    | throws e => simp only [Options.handle, Ended.says, Ended.result, List.append_nil]
    | refuse => simp only [Options.handle, Ended.says, Ended.result, later, List.append_assoc]
    | badValue => simp only [Options.handle, Ended.says, Ended.result, later, List.append_assoc]
    | badName => simp only [Options.handle, Ended.says, Ended.result, later, List.append_assoc]

theorem parseN_runs {regs : List (Decl V)} : ∀ (n : Nat) {w s ts s' w' ms r}, NestedLine regs T n w s ts s' w' ms r →
    ∀ o : Options V, At regs w s o → o.parseN T n ts = some (later o s' w' ms, r) := by
  intro n
  induction n with
  | zero => intro w s ts s' w' ms r h; exact h.elim
  | succ n ih =>
    intro w s ts s' w' ms r h o ho
    cases w with
    | true =>
      obtain ⟨rfl, rfl, rfl, rfl⟩ := h
      rw [Options.parseN, loopN_waiting ts o ho.waiting]
      obtain ⟨h1, rfl, hw, rfl⟩ := ho
      rw [← hw]
      simp only [later, withState, view, List.append_nil]
    | false =>
      exact loopN_runs (A := fun i v w s s' w' ms x => Does regs (NestedLine regs T n) w s (T i v) s' w' ms x)
        (fun i v w s s' w' ms x hd o ho => body_runs (P := NestedLine regs T n) (fun w s ts s1 w1 m1 r hp o ho => ih hp o ho) hd o ho) h o ho

/-! ### The other way round -/

theorem body_total {regs : List (Decl V)} {P : Bool → LineState V → List Str → LineState V → Bool → List Diag → Ret E → Prop}
    (hP : ∀ w s ts, (∃ s1 w1 m1 r, P w s ts s1 w1 m1 r ∧ ∀ o, At regs w s o → nested o ts = some (later o s1 w1 m1, r)) ∨
      ∀ o, At regs w s o → nested o ts = none) (b : Body V E) :
    ∀ w s, (∃ s' w' ms x, Does regs P w s b s' w' ms x) ∨ ∀ o : Options V, At regs w s o → o.runBody nested b = none := by
  induction b with
  | done x => intro w s; exact .inl ⟨_, _, _, _, .done⟩
  | look k ih =>
    intro w s
    rcases ih (shown regs s) w s with ⟨s', w', ms, x, h⟩ | h
    · exact .inl ⟨_, _, _, _, .look h⟩
    · right
      intro o ho
      have := h o ho
      obtain ⟨h1, rfl, hw, rfl⟩ := ho
      rw [← look_shown h1] at this
      exact this
  | write sc vec k ih =>
    intro w s
    rcases ih w { s with sc := sc, vec := vec } with ⟨s', w', ms, x, h⟩ | h
    · exact .inl ⟨_, _, _, _, .write h⟩
    · right
      intro o ho
      obtain ⟨h1, h2, hw, rfl⟩ := ho
      exact h { o with sc := sc, vec := vec } ⟨h1.congr rfl rfl rfl, h2, hw, rfl⟩
  | parse ts k ih =>
    intro w s
    rcases hP w s ts with ⟨s1, w1, m1, r, h1, h2⟩ | h
    · rcases ih r w1 s1 with ⟨s', w', ms, x, h⟩ | h
      · exact .inl ⟨_, _, _, _, .line h1 h⟩
      · right
        intro o ho
        simp only [Options.runBody, h2 o ho, Option.bind_some]
        exact h _ (ho.later _ _ _)
    · right
      intro o ho
      simp only [Options.runBody, h o ho, Option.bind_none]

theorem line_total {regs : List (Decl V)} {A : Nat → V → Bool → LineState V → LineState V → Bool → List Diag → Verdict E → Prop}
    (hA : ∀ i v w s, (∃ s' w' ms x, A i v w s s' w' ms x ∧ ∀ o, At regs w s o → o.runBody nested (T i v) = some (later o s' w' ms, x)) ∨
      ∀ o, At regs w s o → o.runBody nested (T i v) = none) :
    ∀ (k : Nat) (ts : List Str) (s : LineState V), ts.length ≤ k → (∃ s' w ms r, LineDoes regs A s ts s' w ms r) ∨
      ∀ o : Options V, At regs false s o → o.parseLoopN nested T none ts = none := by
  intro k
  induction k with
  | zero =>
    intro ts s h
    have : ts = [] := List.length_eq_zero_iff.mp (by omega)
    subst this
    exact .inl ⟨_, _, _, _, .done⟩
  | succ k ih =>
    intro ts s h
    cases ts with
    | nil => exact .inl ⟨_, _, _, _, .done⟩
    | cons t ts =>
      simp only [List.length_cons] at h
      by_cases hs : SwitchLike t
      · by_cases hh : HelpSwitch t
        · exact .inl ⟨_, _, _, _, .help hh⟩
        · by_cases hd : ∃ i d, Denotes regs t i d
          · obtain ⟨i, d, hd⟩ := hd
            by_cases hk : d.kind = .presence
            · rcases ih ts ((s.put d.target d.mark).see i) (by omega) with ⟨s', w, ms, r, hr⟩ | hn
              · exact .inl ⟨_, _, _, _, .flag hd hh hk hr⟩
              · right
                intro o ho
                obtain ⟨h1, rfl, hw, rfl⟩ := ho
                rw [loopN_switch h1 hw hd hh, if_pos hk, h1.signed d (Denotes.mem hd) (by simp [hk])]
                have he : o.setPresent i d = withState o (((view o).put d.target d.mark).see i) := by
                  simp only [Options.setPresent, if_pos hk]; rfl
                simp only [Bool.false_eq_true, if_false]
                rw [he]
                exact hn (withState o _) ⟨h1.congr rfl rfl rfl, rfl, hw, rfl⟩
            · cases ts with
              | nil => exact .inl ⟨_, _, _, _, .dangling hd hh hk⟩
              | cons u us =>
                simp only [List.length_cons] at h
                by_cases hg : Greedy d ∨ ¬ SwitchLike u
                · cases hr : d.read u with
                  | none => exact .inl ⟨_, _, _, _, .unread hd hh hk hg hr⟩
                  | some v =>
                    rcases hA i v d.isSigned (s.tried d v) with ⟨s1, w1, m1, x, ha, ha'⟩ | hn
                    · by_cases hx : x = .accept
                      · subst hx
                        rcases ih us (s1.taken i d v) (by omega) with ⟨s', w, ms, r, hr'⟩ | hn
                        · exact .inl ⟨_, _, _, _, .value hd hh hk hg hr ha hr'⟩
                        · right
                          intro o ho
                          rw [loopN_option ho hd hh hk hg hr, ha' _ (ho.later _ _ _), Option.bind_some,
                            if_pos (show Verdict.isAccept (Verdict.accept : Verdict E) = true from rfl)]
                          have e : ({ withState (later (later o (s.tried d v) d.isSigned []) s1 w1 m1)
                              ((view (later (later o (s.tried d v) d.isSigned []) s1 w1 m1)).taken i d v) with waiting := false } : Options V) =
                              later o (s1.taken i d v) false m1 := by
                            simp only [later, withState, List.append_nil]; rfl
                          refine (congrArg (fun q : Options V => q.parseLoopN nested T none us) e).trans ?_
                          exact hn _ (ho.later _ _ _)
                      · exact .inl ⟨_, _, _, _, .stopped hd hh hk hg hr ha hx⟩
                    · right
                      intro o ho
                      rw [loopN_option ho hd hh hk hg hr, hn _ (ho.later _ _ _), Option.bind_none]
                · simp only [not_or, Classical.not_not] at hg
                  rcases ih (u :: us) (s.see i) (by simp only [List.length_cons]; omega) with ⟨s', w, ms, r, hr⟩ | hn
                  · exact .inl ⟨_, _, _, _, .bare hd hh hk hg.1 hg.2 hr⟩
                  · right
                    intro o ho
                    obtain ⟨h1, rfl, hw, rfl⟩ := ho
                    have hsg : d.isSigned = false := by
                      cases hs : d.isSigned
                      · rfl
                      · exact absurd (.inl hs) hg.1
                    rw [loopN_switch h1 hw hd hh, if_neg hk, hsg]
                    simp only [Bool.false_eq_true, if_false]
                    rw [loopN_pending hw hg.1 hg.2]
                    have he : o.setPresent i d = withState o ((view o).see i) := by simp only [Options.setPresent, if_neg hk]; rfl
                    rw [he]
                    exact hn (withState o _) ⟨h1.congr rfl rfl rfl, rfl, hw, rfl⟩
          · exact .inl ⟨_, _, _, _, .unknown hs hh (fun i d h' => hd ⟨i, d, h'⟩)⟩
      · rcases ih ts { s with words := s.words ++ [t] } (by omega) with ⟨s', w, ms, r, hr⟩ | hn
        · exact .inl ⟨_, _, _, _, .word hs hr⟩
        · right
          intro o ho
          rw [loopN_word ho.waiting hs]
          obtain ⟨h1, h2, hw, rfl⟩ := ho
          exact hn { o with pos := o.pos ++ [t] } ⟨h1.congr rfl rfl rfl, h2, hw, rfl⟩

theorem nested_total (regs : List (Decl V)) : ∀ (n : Nat) (w : Bool) (s : LineState V) (ts : List Str),
    (∃ s' w' ms r, NestedLine regs T n w s ts s' w' ms r) ∨ ∀ o : Options V, At regs w s o → o.parseN T n ts = none := by
  intro n
  induction n with
  | zero => intro w s ts; exact .inr fun o _ => rfl
  | succ n ih =>
    intro w s ts
    cases w with
    | true => exact .inl ⟨_, _, _, _, rfl, rfl, rfl, rfl⟩
    | false =>
      have hP : ∀ w s ts, (∃ s1 w1 m1 r, NestedLine regs T n w s ts s1 w1 m1 r ∧
          ∀ o, At regs w s o → o.parseN T n ts = some (later o s1 w1 m1, r)) ∨ ∀ o : Options V, At regs w s o → o.parseN T n ts = none := by
        intro w s ts
        rcases ih w s ts with ⟨s1, w1, m1, r, h⟩ | h
        · exact .inl ⟨s1, w1, m1, r, h, fun o ho => parseN_runs n h o ho⟩
        · exact .inr h
      refine line_total (fun i v w s => ?_) _ ts s (Nat.le_refl _)
      rcases body_total hP (T i v) w s with ⟨s', w', ms, x, h⟩ | h
      · exact .inl ⟨s', w', ms, x, h, fun o ho => body_runs (fun w s ts s1 w1 m1 r hp o ho => parseN_runs n hp o ho) h o ho⟩
      · exact .inr h

/-! ### Other ways to say what lines do -/

theorem does_mono {regs : List (Decl V)} {P Q : Bool → LineState V → List Str → LineState V → Bool → List Diag → Ret E → Prop}
    (h : ∀ w s ts s1 w1 m1 r, P w s ts s1 w1 m1 r → Q w s ts s1 w1 m1 r) {w s b s' w' ms x} (hd : Does regs P w s b s' w' ms x) :
    Does regs Q w s b s' w' ms x := by
  induction hd with
  | done => exact .done
  | look _ ih => exact .look ih
  | write _ ih => exact .write ih
  | line h1 _ ih => exact .line (h _ _ _ _ _ _ _ h1) ih

theorem lineDoes_mono {regs : List (Decl V)} {A B : Nat → V → Bool → LineState V → LineState V → Bool → List Diag → Verdict E → Prop}
    (h : ∀ sw i d v s s' w' ms x, Denotes regs sw i d → A i v d.isSigned s s' w' ms x → B i v d.isSigned s s' w' ms x) {s ts s' w ms r}
    (hr : LineDoes regs A s ts s' w ms r) : LineDoes regs B s ts s' w ms r := by
  induction hr with
  | done => exact .done
  | word h1 _ ih => exact .word h1 ih
  | flag h1 h2 h3 _ ih => exact .flag h1 h2 h3 ih
  | value h1 h2 h3 h4 h5 h6 _ ih => exact .value h1 h2 h3 h4 h5 (h _ _ _ _ _ _ _ _ _ h1 h6) ih
  | bare h1 h2 h3 h4 h5 _ ih => exact .bare h1 h2 h3 h4 h5 ih
  | dangling h1 h2 h3 => exact .dangling h1 h2 h3
  | unknown h1 h2 h3 => exact .unknown h1 h2 h3
  | help h1 => exact .help h1
  | unread h1 h2 h3 h4 h5 => exact .unread h1 h2 h3 h4 h5
  | stopped h1 h2 h3 h4 h5 h6 h7 => exact .stopped h1 h2 h3 h4 h5 (h _ _ _ _ _ _ _ _ _ h1 h6) h7

theorem nested_succ (regs : List (Decl V)) : ∀ (n : Nat) {w s ts s' w' ms r}, NestedLine regs T n w s ts s' w' ms r →
    NestedLine regs T (n + 1) w s ts s' w' ms r := by
  intro n
  induction n with
  | zero => intro w s ts s' w' ms r h; exact h.elim
  | succ n ih =>
    intro w s ts s' w' ms r h
    cases w with
    | true => exact h
    | false => exact lineDoes_mono (fun _ _ _ _ _ _ _ _ _ _ hd => does_mono (fun _ _ _ _ _ _ _ hp => ih hp) hd) h

theorem does_quiet {regs : List (Decl V)} {P Q : Bool → LineState V → List Str → LineState V → Bool → List Diag → Ret E → Prop}
    {w s b s' w' ms x} (hd : Does regs P w s b s' w' ms x) (hq : AtMost 0 b) : Does regs Q w s b s' w' ms x := by
  induction hd with
  | done => exact .done
  | look _ ih => exact .look (ih (hq _))
  | write _ ih => exact .write (ih hq)
  | line _ _ _ => exact hq.elim

theorem does_once {regs : List (Decl V)} {P Q : Bool → LineState V → List Str → LineState V → Bool → List Diag → Ret E → Prop}
    (h : ∀ s ts s1 w1 m1 r, P false s ts s1 w1 m1 r → Q false s ts s1 w1 m1 r)
    {s b s' w' ms x} {w : Bool} (hd : Does regs P w s b s' w' ms x) (hw : w = false) (hq : AtMost 1 b) : Does regs Q w s b s' w' ms x := by
  induction hd with
  | done => exact .done
  | look _ ih => exact .look (ih hw (hq _))
  | write _ ih => exact .write (ih hw hq)
  | line h1 h2 _ => subst hw; exact .line (h _ _ _ _ _ _ h1) (does_quiet h2 (hq _))

theorem denotes_getElem {regs : List (Decl V)} {t i d} (h : Denotes regs t i d) : regs[i]? = some d := by
  cases h with
  | long _ hl => exact hl.1
  | short _ hl => exact hl.1

theorem plain_nested {regs : List (Decl V)}
    (hT : ∀ i d, regs[i]? = some d → ∀ v, AtMost (if d.isSigned then 0 else 1) (T i v)) :
    ∀ (n : Nat) {s ts s' w' ms r}, PlainLine regs T n s ts s' w' ms r → NestedLine regs T n false s ts s' w' ms r := by
  intro n
  induction n with
  | zero => intro s ts s' w' ms r h; exact h
  | succ n ih =>
    intro s ts s' w' ms r h
    refine lineDoes_mono (fun sw i d v s s' w' ms x hden hd => ?_) h
    have ha := hT i d (denotes_getElem hden) v
    by_cases hs : d.isSigned = true
    · rw [if_pos hs] at ha
      exact does_quiet hd ha
    · rw [if_neg hs] at ha
      exact does_once (fun s ts s1 w1 m1 r hp => ih hp) hd (by simpa using hs) ha

end SoDa.Opts
