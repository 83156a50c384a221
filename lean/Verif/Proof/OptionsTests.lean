import Verif.Spec.OptionsTests
import Verif.Proof.Options
/-!
`parse` with arbitrary test functions does what `LineRuns` says.
-/
namespace SoDa.Opts
open Spec

variable {V E : Type} {T : Tests V E}

def view (o : Options V) : LineState V := ⟨o.sc, o.vec, o.pos, o.pres⟩

def withState (o : Options V) (s : LineState V) : Options V :=
  { o with sc := s.sc, vec := s.vec, pos := s.words, pres := s.present }

/-- The object after a line. -/
def outcome (o : Options V) (s : LineState V) (e : Ended V E) : Options V × Ret E :=
  ({ withState o s with
      waiting := match e.within with
        | some d => d.isSigned
        | none => false
      cerr := o.cerr ++ e.says }, e.result)

theorem loopT_switch {o : Options V} (h : o.Wf) (hw : o.waiting = false) {sw : Str} {i : Nat}
    {d : Decl V} (hd : Denotes o.decls sw i d) (hh : ¬ HelpSwitch sw) (ts : List Str) :
    o.parseLoopT T none (sw :: ts) =
      if d.kind = .presence then
        ((if d.isSigned then { o with waiting := true } else o).setPresent i d).parseLoopT T none ts
      else (if d.isSigned then { o with waiting := true } else o).parseLoopT T (some (i, d)) ts := by
  cases hd with
  | @long n _ _ hn hl =>
    have h1 : ¬ (('-' :: '-' :: n) = "--help".toList) := fun he => hh (.inl he)
    simp only [Options.parseLoopT, hw, isSwitch_long hn]
    rw [if_neg (by simp), if_neg (by simp), if_neg (by simp only [h1]; simp)]
    simp only [List.drop_succ_cons, List.drop_zero, if_neg (show ¬ (2 : Nat) = 1 by decide),
      found_long h hl]
  | @short c r _ _ hc hl =>
    have h1 : c ≠ 'h' := by rintro rfl; exact hh (.inr ⟨r, rfl⟩)
    simp only [Options.parseLoopT, hw, isSwitch_short hc]
    rw [if_neg (by simp), if_neg (by simp [h1]), if_neg (by simp)]
    simp only [List.getElem?_cons_succ, List.getElem?_cons_zero, if_true, Option.bind_some,
      found_ab h hl]

theorem loopT_help {o : Options V} (hw : o.waiting = false) {sw : Str} (hh : HelpSwitch sw) (ts : List Str) :
    o.parseLoopT T none (sw :: ts) = ({ o with cerr := o.cerr ++ [.help] }, .returned false) := by
  rcases hh with rfl | ⟨r, rfl⟩
  · simp [Options.parseLoopT, hw, Options.isSwitch]
  · simp [Options.parseLoopT, hw, isSwitch_short (show ('h' : Char) ≠ '-' by decide)]

theorem loopT_unknown {o : Options V} (h : o.Wf) (hw : o.waiting = false) {sw : Str}
    (hs : SwitchLike sw) (hh : ¬ HelpSwitch sw) (hno : ∀ i d, ¬ Denotes o.decls sw i d) (ts : List Str) :
    o.parseLoopT T none (sw :: ts) = ({ o with cerr := o.cerr ++ [.badName sw, .help] }, .returned false) := by
  rcases hs with ⟨c, r, rfl, hc⟩ | ⟨n, rfl, hn⟩
  · have h1 : c ≠ 'h' := by rintro rfl; exact hh (.inr ⟨r, rfl⟩)
    have h2 := findAb_none h (c := c) fun i d hd => hno i d (.short hc hd)
    simp only [Options.parseLoopT, hw, isSwitch_short hc]
    rw [if_neg (by simp), if_neg (by simp [h1]), if_neg (by simp)]
    simp [h2]
  · have h1 : ¬ (('-' :: '-' :: n) = "--help".toList) := fun he => hh (.inl he)
    have h2 := findLong_none h (n := n) fun i d hd => hno i d (.long hn hd)
    simp only [Options.parseLoopT, hw, isSwitch_long hn]
    rw [if_neg (by simp), if_neg (by simp), if_neg (by simp only [h1]; simp)]
    simp [h2]

theorem loopT_word {o : Options V} (hw : o.waiting = false) {w : Str} (hs : ¬ SwitchLike w) (ts : List Str) :
    o.parseLoopT T none (w :: ts) = { o with pos := o.pos ++ [w] }.parseLoopT T none ts := by
  simp only [Options.parseLoopT, hw, isSwitch_not hs, if_true]

theorem loopT_value {o : Options V} {p : Nat} {d : Decl V} {txt : Str}
    (hv : d.hasDefault = false ∨ Options.isSwitch o.waiting txt = 0) (ts : List Str) :
    o.parseLoopT T (some (p, d)) (txt :: ts) =
      match o.setValT T p d txt with
      | (o', .accept) => { o' with waiting := false }.parseLoopT T none ts
      | (o', x) => o'.handle d txt x := by
  rw [Options.parseLoopT]
  rw [if_pos (by rcases hv with h | h <;> simp [h])]
  rcases o.setValT T p d txt with ⟨o', x⟩
  cases x <;> rfl

theorem loopT_pending {o : Options V} (hw : o.waiting = false) {p : Nat} {d : Decl V}
    (hg : ¬ Greedy d) {t : Str} (hs : SwitchLike t) (ts : List Str) :
    o.parseLoopT T (some (p, d)) (t :: ts) = (o.setPresent p d).parseLoopT T none (t :: ts) := by
  simp only [Greedy, not_or, Bool.not_eq_true, Bool.not_eq_false] at hg
  have h0 : Options.isSwitch false t ≠ 0 := fun h => (isSwitch_zero_iff t).1 h hs
  have hw' : (o.setPresent p d).waiting = false := hw
  rw [Options.parseLoopT, Options.parseLoopT]
  generalize o.setPresent p d = o2 at hw' ⊢
  obtain ⟨decls, pres, lm, am, info, pos, kvp, w, sc, vec, cerr⟩ := o2
  simp only at hw'
  subst hw'
  simp only [hw, hg.1, hg.2, if_true, if_neg h0]

theorem loopT_waiting (ts : List Str) : ∀ o : Options V, o.waiting = true →
    o.parseLoopT T none ts = ({ o with pos := o.pos ++ ts }, .returned true) := by
  induction ts with
  | nil => intro o _; simp [Options.parseLoopT]
  | cons t ts ih =>
    intro o hw
    rw [Options.parseLoopT]
    simp only [hw, isSwitch_waiting, if_true]
    rw [ih _ rfl]
    simp

/-- A value that can be converted. -/
theorem setValT_read {o : Options V} {i : Nat} {d : Decl V} {txt : Str} {v : V} (hk : d.kind ≠ .presence)
    (hr : d.read txt = some v) :
    ((ask T (view o) i d v).1 = .accept → o.setValT T i d txt =
      (withState o ((((view o).tried d v).after (ask T (view o) i d v)).taken i d v), .accept)) ∧
    ((ask T (view o) i d v).1 ≠ .accept → o.setValT T i d txt =
      (withState o (((view o).tried d v).after (ask T (view o) i d v)), (ask T (view o) i d v).1)) := by
  cases hd : d.kind with
  | presence => exact absurd hd hk
  | scalar =>
    have e1 : (view o).tried d v = (view o).put d.target v := by simp [LineState.tried, hd]
    have e2 : ask T (view o) i d v = T i v (update o.sc d.target v) o.vec := by simp only [ask, e1]; rfl
    simp only [Options.setValT, hd, hr]
    rw [e1, e2]
    rcases T i v (update o.sc d.target v) o.vec with ⟨x, sc, vec⟩
    refine ⟨fun h => ?_, fun h => ?_⟩
    · simp only at h
      subst h
      simp only [withState, LineState.after, LineState.taken, LineState.see, hd, Options.setPresent]
      rfl
    · cases x with
      | accept => exact absurd rfl h
      | _ => rfl
  | vector =>
    have e1 : (view o).tried d v = view o := by simp [LineState.tried, hd]
    have e2 : ask T (view o) i d v = T i v o.sc o.vec := by simp only [ask, e1]; rfl
    simp only [Options.setValT, hd, hr]
    rw [e1, e2]
    rcases T i v o.sc o.vec with ⟨x, sc, vec⟩
    refine ⟨fun h => ?_, fun h => ?_⟩
    · simp only at h
      subst h
      simp only [withState, LineState.after, LineState.taken, LineState.see, hd]
      rfl
    · cases x with
      | accept => exact absurd rfl h
      | _ => rfl

theorem setValT_unread {o : Options V} {i : Nat} {d : Decl V} {txt : Str} (hk : d.kind ≠ .presence) (hr : d.read txt = none) :
    o.setValT T i d txt = (withState o ((view o).spoilt d txt), .refuse) := by
  cases hd : d.kind with
  | presence => exact absurd hd hk
  | scalar => simp only [Options.setValT, hd, hr, LineState.spoilt, if_true]; rfl
  | vector => simp only [Options.setValT, hd, hr, LineState.spoilt]; rfl

/-- A well-formed object in which no option waits for its value. -/
structure Idle (regs : List (Decl V)) (o : Options V) : Prop where
  wf : o.Wf
  waiting : o.waiting = false
  decls : o.decls = regs

theorem Idle.withState {regs : List (Decl V)} {o : Options V} (h : Idle regs o) (s : LineState V) : Idle regs (withState o s) :=
  ⟨h.wf.congr rfl rfl rfl, h.waiting, h.decls⟩

theorem loopT_runs {regs : List (Decl V)} {s ts s' e} (hr : LineRuns regs T s ts s' e) :
    ∀ o : Options V, Idle regs o → view o = s → o.parseLoopT T none ts = outcome o s' e := by
  induction hr with
  | done =>
    intro o h hv
    subst hv
    simp only [Options.parseLoopT, outcome, Ended.within, Ended.says, Ended.result, List.append_nil, ← h.waiting]
    rfl
  | @word s w ts s' e hs _ ih =>
    intro o h hv
    subst hv
    rw [loopT_word h.waiting hs]
    exact ih _ (h.withState { view o with words := o.pos ++ [w] }) rfl
  | @flag s sw i d ts s' e hden hh hk _ ih =>
    intro o h hv
    subst hv
    have hd := h.decls
    subst hd
    rw [loopT_switch h.wf h.waiting hden hh, if_pos hk, h.wf.signed d (Denotes.mem hden) (by simp [hk])]
    have he : o.setPresent i d = withState o (((view o).put d.target d.mark).see i) := by
      simp only [Options.setPresent, if_pos hk]; rfl
    simp only [Bool.false_eq_true, if_false]
    rw [he]
    exact ih _ (h.withState _) rfl
  | @value s sw i d txt v ts s' e hden hh hk hg hrd ha _ ih =>
    intro o h hv
    subst hv
    have hd := h.decls
    subst hd
    rw [loopT_switch h.wf h.waiting hden hh, if_neg hk, signed_waiting o h.waiting,
      loopT_value (greedy_or hg), (setValT_read (o := { o with waiting := d.isSigned }) hk hrd).1 ha]
    have he : ({ withState { o with waiting := d.isSigned }
          ((((view o).tried d v).after (ask T (view o) i d v)).taken i d v) with waiting := false } : Options V) =
        withState o ((((view o).tried d v).after (ask T (view o) i d v)).taken i d v) := by
      simp only [withState, ← h.waiting]
    exact (congrArg (fun x : Options V => x.parseLoopT T none ts) he).trans (ih _ (h.withState _) rfl)
  | @bare s sw i d t ts s' e hden hh hk hg hs _ ih =>
    intro o h hv
    subst hv
    have hd := h.decls
    subst hd
    have hsg : d.isSigned = false := by
      cases hs : d.isSigned
      · rfl
      · exact absurd (.inl hs) hg
    rw [loopT_switch h.wf h.waiting hden hh, if_neg hk, hsg]
    simp only [Bool.false_eq_true, if_false]
    rw [loopT_pending h.waiting hg hs]
    have he : o.setPresent i d = withState o ((view o).see i) := by simp only [Options.setPresent, if_neg hk]; rfl
    rw [he]
    exact ih _ (h.withState _) rfl
  | @dangling s sw i d hden hh hk =>
    intro o h hv
    subst hv
    have hd := h.decls
    subst hd
    rw [loopT_switch h.wf h.waiting hden hh, if_neg hk, signed_waiting o h.waiting]
    simp only [Options.parseLoopT, outcome, Ended.within, Ended.says, Ended.result, List.append_nil]
    rfl
  | unknown hs hh hno =>
    intro o h hv
    subst hv
    have hd := h.decls
    subst hd
    rw [loopT_unknown h.wf h.waiting hs hh hno]
    simp only [outcome, Ended.within, Ended.says, Ended.result, ← h.waiting]
    rfl
  | help hh =>
    intro o h hv
    subst hv
    rw [loopT_help h.waiting hh]
    simp only [outcome, Ended.within, Ended.says, Ended.result, ← h.waiting]
    rfl
  | @unread s sw i d txt ts hden hh hk hg hrd =>
    intro o h hv
    subst hv
    have hd := h.decls
    subst hd
    rw [loopT_switch h.wf h.waiting hden hh, if_neg hk, signed_waiting o h.waiting,
      loopT_value (greedy_or hg), setValT_unread hk hrd]
    rfl
  | @stopped s sw i d txt v ts hden hh hk hg hrd ha =>
    intro o h hv
    subst hv
    have hd := h.decls
    subst hd
    rw [loopT_switch h.wf h.waiting hden hh, if_neg hk, signed_waiting o h.waiting,
      loopT_value (greedy_or hg), (setValT_read (o := { o with waiting := d.isSigned }) hk hrd).2 ha]
    have hv : view { o with waiting := d.isSigned } = view o := rfl
    rw [hv]
    generalize hx : (ask T (view o) i d v).1 = x at ha ⊢
    cases x with
    | accept => exact absurd rfl ha
    | throws e => simp only [Options.handle, outcome, Ended.within, Ended.says, Ended.result, List.append_nil]; rfl
    | _ => rfl

/-- Every line runs in some way. -/
theorem runs_total (regs : List (Decl V)) (T : Tests V E) :
    ∀ (k : Nat) (ts : List Str) (s : LineState V), ts.length ≤ k → ∃ s' e, LineRuns regs T s ts s' e := by
  intro k
  induction k with
  | zero =>
    intro ts s h
    have : ts = [] := List.length_eq_zero_iff.mp (by omega)
    subst this
    exact ⟨_, _, .done⟩
  | succ k ih =>
    intro ts s h
    cases ts with
    | nil => exact ⟨_, _, .done⟩
    | cons t ts =>
      simp only [List.length_cons] at h
      by_cases hs : SwitchLike t
      · by_cases hh : HelpSwitch t
        · exact ⟨_, _, .help hh⟩
        · by_cases hd : ∃ i d, Denotes regs t i d
          · obtain ⟨i, d, hd⟩ := hd
            by_cases hk : d.kind = .presence
            · obtain ⟨s', e, hr⟩ := ih ts ((s.put d.target d.mark).see i) (by omega)
              exact ⟨_, _, .flag hd hh hk hr⟩
            · cases ts with
              | nil => exact ⟨_, _, .dangling hd hh hk⟩
              | cons u us =>
                simp only [List.length_cons] at h
                by_cases hg : Greedy d ∨ ¬ SwitchLike u
                · cases hr : d.read u with
                  | none => exact ⟨_, _, .unread hd hh hk hg hr⟩
                  | some v =>
                    by_cases ha : (ask T s i d v).1 = .accept
                    · obtain ⟨s', e', hr'⟩ := ih us _ (by omega)
                      exact ⟨_, _, .value hd hh hk hg hr ha hr'⟩
                    · exact ⟨_, _, .stopped hd hh hk hg hr ha⟩
                · simp only [not_or, Classical.not_not] at hg
                  obtain ⟨s', e, hr⟩ := ih (u :: us) (s.see i) (by simp only [List.length_cons]; omega)
                  exact ⟨_, _, .bare hd hh hk hg.1 hg.2 hr⟩
          · exact ⟨_, _, .unknown hs hh (fun i d h' => hd ⟨i, d, h'⟩)⟩
      · obtain ⟨s', e, hr⟩ := ih ts { s with words := s.words ++ [t] } (by omega)
        exact ⟨_, _, .word hs hr⟩

end SoDa.Opts
