import Verif.Proof.MailBoxTest
/-!
The invariant of the mailbox test program for its executions by threads.
-/
namespace SoDa.MailTest
open Spec Monitor
open Mail (Event Box Sub exec waiting historyOf)

variable {p : Params} {this : Mail.Addr} {name : Str}
variable {ls : List (Label Nat (Mail.Op Msg) (Mail.Resp Msg))} {evs : List (Bar.Ev (Fin p.threads))}
variable {mc mc' : Conf Nat (Box Msg) (Mail.Op Msg) (Mail.Resp Msg)} {bc : Bar.Conf (Fin p.threads)}
variable {loc : Fin p.threads → Loc}

abbrev Ph := Phase (Box Msg) (Mail.Op Msg) (Mail.Resp Msg)

/-- The call a thread is in. -/
def inCall : Ph → Option (Mail.Op Msg)
  | .idle => none
  | .wants o => some o
  | .runs o _ => some o
  | .leaving o _ => some o

/-- What a thread does next, once it knows the response of the call it is about to return from. -/
def known (ph : Ph) (l : Loc) : Loc :=
  match ph with
  | .leaving _ r => l.after r
  | _ => l

def eff (mc : Conf Nat (Box Msg) (Mail.Op Msg) (Mail.Resp Msg)) (loc : Fin p.threads → Loc) : Fin p.threads → Loc :=
  fun u => known (mc.phase u.val) (loc u)

/-- Before, in, or after the barrier. -/
inductive Stage where
  | before
  | inside
  | after
  deriving DecidableEq

def Loc.stage : Loc → Stage
  | .start | .ready _ => .before
  | .inBarrier _ => .inside
  | _ => .after

structure Whole (p : Params) (this : Mail.Addr) (name : Str) (ls : List (Label Nat (Mail.Op Msg) (Mail.Resp Msg)))
    (evs : List (Bar.Ev (Fin p.threads))) (mc : Conf Nat (Box Msg) (Mail.Op Msg) (Mail.Resp Msg))
    (bc : Bar.Conf (Fin p.threads)) (loc : Fin p.threads → Loc) : Prop where
  session : Session.Exec p.threads this name ls evs mc bc
  normal : ∀ e ∈ completed ls, e.2.2.Normal
  main : Main p this (historyOf ls) (eff mc loc)
  ops : ∀ t o, inCall (mc.phase t) = some o → ∃ u : Fin p.threads, u.val = t ∧ (loc u).op p t = some o
  before : ∀ u, (loc u).stage = .before → Bar.Ev.call u ∉ evs ∧ bc.pc u = .idle
  inside : ∀ u, (loc u).stage = .inside → Bar.Ev.call u ∈ evs ∧ Bar.Ev.ret u ∉ evs
  after : ∀ u, (loc u).stage = .after → Bar.Ev.ret u ∈ evs ∧ bc.pc u = .idle

theorem whole_init : Whole p this name [] [] (Conf.init (Box.new name)) Bar.Conf.init fun _ => .start := by
  refine ⟨.init, by simp [completed], main_init, by simp [Conf.init, inCall], ?_, by simp [Loc.stage], by simp [Loc.stage]⟩
  intro u _
  exact ⟨by simp, rfl⟩

/-- The sequential history, and the messages received and waiting; the responses are those of the
sequential execution. -/
theorem Whole.run (w : Whole p this name ls evs mc bc loc) (hn : p.threads < 2 ^ 32) (hd : NoDeadline evs) :
    ∃ b, Mail.Run this (Box.new name) (historyOf ls) b ∧ AllMessages (historyOf ls) b ∧
      (mc.holder = none → mc.shared = b) ∧
      ∀ t o r, mc.phase t = .runs o (.ret r) → (exec this b o).2 = r := by
  obtain ⟨_, _, b, h1, h2, h3⟩ := inv_steps w.session.mailSteps
  have hrun := Mail.serial_run (Mail.wf_new name) h1 w.normal
  refine ⟨b, hrun, fun i q hq => Session.all_messages hn w.session hd hrun hq fun e he => w.main.clear e he i, h2, ?_⟩
  intro t o r hp
  have h4 := h3 t o (.ret r) hp
  rw [← (Mail.body_run (Mail.run_wf (Mail.wf_new name) hrun) this o).1, ← h4]
  rfl

theorem history_snoc (l : Label Nat (Mail.Op Msg) (Mail.Resp Msg)) :
    historyOf (ls ++ [l]) = historyOf ls ++ Mail.history (completed [l]) := by
  simp [historyOf, Mail.history, completed_append]

theorem setPhase_known (mc : Conf Nat (Box Msg) (Mail.Op Msg) (Mail.Resp Msg)) (t : Nat) (ph : Ph)
    (h : ∀ l, known ph l = known (mc.phase t) l) (u : Nat) (l : Loc) :
    known (setPhase mc.phase t ph u) l = known (mc.phase u) l := by
  by_cases e : u = t
  · subst e; rw [setPhase_self]; exact h l
  · rw [setPhase_ne _ _ e]

theorem setPhase_inCall {mc : Conf Nat (Box Msg) (Mail.Op Msg) (Mail.Resp Msg)} {t : Nat} {ph : Ph}
    (h : ∀ o, inCall ph = some o → inCall (mc.phase t) = some o) {u : Nat} {o : Mail.Op Msg}
    (hu : inCall (setPhase mc.phase t ph u) = some o) : inCall (mc.phase u) = some o := by
  by_cases e : u = t
  · subst e; rw [setPhase_self] at hu; exact h o hu
  · rwa [setPhase_ne _ _ e] at hu

theorem op_stage {l : Loc} {t : Nat} {o : Mail.Op Msg} (h : l.op p t = some o) :
    (o = .subscribe → l = .start) ∧ (l.stage = .before → l = .start) ∧ l.stage ≠ .inside ∧
    (∀ m s, o = .put m s → l.stage = .after) := by
  cases l <;> simp only [Loc.op, reduceCtorEq] at h
  case start => cases h; simp [Loc.stage]
  case send => split at h <;> simp_all [Loc.stage]; rw [← h]; simp
  case recv => split at h <;> simp_all [Loc.stage]; rw [← h]; simp
  all_goals cases h; simp [Loc.stage]

theorem after_stage {l : Loc} {t : Nat} {o : Mail.Op Msg} {r : Mail.Resp Msg} (h : l.op p t = some o)
    (hok : (l.after r).Ok p) : (l.after r).stage = l.stage := by
  cases l <;> simp only [Loc.op, reduceCtorEq] at h <;> cases r <;>
    simp_all [Loc.after, Loc.stage, Loc.Ok]
  all_goals (rename_i x; cases x <;> simp_all)

theorem whole_mail {l : Label Nat (Mail.Op Msg) (Mail.Resp Msg)} (hf : p.Fits) (hd : NoDeadline evs)
    (w : Whole p this name ls evs mc bc loc) (hs : Step (Mail.body this) mc l mc')
    (hok : ∀ t o, l = .call t o → ∃ u : Fin p.threads, u.val = t ∧ (loc u).op p t = some o) :
    Whole p this name (ls ++ [l]) evs mc' bc (afterMail loc l) := by
  have hn : p.threads < 2 ^ 32 := by have := hf.threads; omega
  have hses : Session.Exec p.threads this name (ls ++ [l]) evs mc' bc := by
    refine .mail w.session hs ?_
    intro t o hl
    obtain ⟨u, hu, ho⟩ := hok t o hl
    obtain ⟨h1, h2, h3, h4⟩ := op_stage ho
    refine ⟨u, hu, ?_, ?_, ?_⟩
    · cases hst : (loc u).stage
      · exact (w.before u hst).2
      · exact absurd hst h3
      · exact (w.after u hst).2
    · intro hsub
      exact (w.before u (by rw [h1 hsub]; rfl)).1
    · intro m s hm
      exact (w.after u (h4 m s hm)).1
  cases hs with
  | @call t o hi =>
    refine ⟨hses, ?_, ?_, ?_, w.before, w.inside, w.after⟩
    · simpa [completed_append, completed] using w.normal
    · have he : eff { mc with phase := setPhase mc.phase t (.wants o) } loc = eff mc loc :=
        funext fun u => setPhase_known mc t _ (fun l => by rw [hi]; rfl) _ _
      rw [history_snoc]
      simpa [afterMail, completed, Mail.history, he] using w.main
    · intro t' o' ho'
      simp only at ho'
      by_cases e : t' = t
      · subst e
        rw [setPhase_self] at ho'
        simp only [inCall, Option.some.injEq] at ho'
        subst ho'
        exact hok _ _ rfl
      · rw [setPhase_ne _ _ e] at ho'
        exact w.ops t' o' ho'
  | @lock t o hw hfree =>
    refine ⟨hses, ?_, ?_, ?_, w.before, w.inside, w.after⟩
    · simpa [completed_append, completed] using w.normal
    · have he : eff { mc with holder := some t, phase := setPhase mc.phase t (.runs o (Mail.body this o)) } loc =
          eff mc loc := funext fun u => setPhase_known mc t _ (fun l => by rw [hw]; rfl) _ _
      rw [history_snoc]
      simpa [afterMail, completed, Mail.history, he] using w.main
    · intro t' o' ho'
      exact w.ops t' o' (setPhase_inCall (by intro x hx; rw [hw]; exact hx) ho')
  | @act t o f k hr =>
    refine ⟨hses, ?_, ?_, ?_, w.before, w.inside, w.after⟩
    · simpa [completed_append, completed] using w.normal
    · have he : eff { mc with shared := f mc.shared, phase := setPhase mc.phase t (.runs o (k mc.shared)) } loc =
          eff mc loc := funext fun u => setPhase_known mc t _ (fun l => by rw [hr]; rfl) _ _
      rw [history_snoc]
      simpa [afterMail, completed, Mail.history, he] using w.main
    · intro t' o' ho'
      exact w.ops t' o' (setPhase_inCall (by intro x hx; rw [hr]; exact hx) ho')
  | @unlock t o r hr =>
    obtain ⟨u, hu, ho⟩ := w.ops t o (by rw [hr]; rfl)
    obtain ⟨b, hb, ha, -, hresp⟩ := w.run hn hd
    have heu : eff mc loc u = loc u := by simp only [eff, hu, hr, known]
    obtain ⟨hnorm, hmain⟩ := w.main.call hf hb ha (t := u) (o := o) (by rw [heu, hu]; exact ho) (hresp t o r hr)
    refine ⟨hses, ?_, ?_, ?_, w.before, w.inside, w.after⟩
    · intro e he
      rw [completed_append, List.mem_append] at he
      rcases he with he | he
      · exact w.normal e he
      · simp only [completed, List.filterMap_cons, List.filterMap_nil, List.mem_singleton] at he
        subst he; exact hnorm
    · have he : eff { mc with holder := none, phase := setPhase mc.phase t (.leaving o r) } loc =
          setLoc (eff mc loc) u.val fun l => l.after r := by
        funext v
        by_cases e : v = u
        · subst e
          rw [setLoc_self, heu]
          simp only [eff, hu, setPhase_self, known]
        · rw [setLoc_ne _ _ e]
          simp only [eff]
          rw [setPhase_ne _ _ (by rw [← hu]; simpa [Fin.val_inj] using e)]
      rw [history_snoc]
      simp only [afterMail, he]
      rw [hu] at hmain ⊢
      exact hmain
    · intro t' o' ho'
      exact w.ops t' o' (setPhase_inCall (by intro x hx; rw [hr]; exact hx) ho')
  | @ret t o r hl =>
    obtain ⟨u, hu, ho⟩ := w.ops t o (by rw [hl]; rfl)
    have hself : eff mc loc u = (loc u).after r := by simp only [eff, hu, hl, known]
    have hstage : ∀ v, (setLoc loc t (fun l => l.after r) v).stage = (loc v).stage := by
      intro v
      by_cases e : v = u
      · subst e
        rw [← hu, setLoc_self]
        exact after_stage ho (by rw [← hself]; exact w.main.ok v)
      · rw [← hu, setLoc_ne _ _ e]
    refine ⟨hses, ?_, ?_, ?_, ?_, ?_, ?_⟩
    · simpa [completed_append, completed] using w.normal
    · have he : eff { mc with phase := setPhase mc.phase t .idle } (setLoc loc t fun l => l.after r) = eff mc loc := by
        funext v
        by_cases e : v = u
        · subst e
          rw [hself, ← hu]
          simp only [eff, setPhase_self, known, setLoc_self]
        · rw [← hu]
          simp only [eff, setLoc_ne _ _ e]
          rw [setPhase_ne _ _ (by simpa [Fin.val_inj] using e)]
      rw [history_snoc]
      simpa [afterMail, completed, Mail.history, he] using w.main
    · intro t' o' ho'
      simp only at ho'
      by_cases e : t' = t
      · subst e; rw [setPhase_self] at ho'; simp [inCall] at ho'
      · rw [setPhase_ne _ _ e] at ho'
        obtain ⟨v, hv, hvo⟩ := w.ops t' o' ho'
        refine ⟨v, hv, ?_⟩
        have : v.val ≠ t := by rw [hv]; exact e
        simp only [afterMail, setLoc, if_neg this]
        exact hvo
    · intro v hv
      exact w.before v (by rw [← hstage v]; exact hv)
    · intro v hv
      exact w.inside v (by rw [← hstage v]; exact hv)
    · intro v hv
      exact w.after v (by rw [← hstage v]; exact hv)

/-- What a step at the barrier changes. -/
theorem bar_step {n : Nat} {T : Type} [DecidableEq T] {c c' : Bar.Conf T} {t : T} {m : Bar.Move} {e : Bar.Ev T}
    (h : Bar.step n c t m = some (c', e)) :
    (∀ u, u ≠ t → (c'.pc u = .idle ↔ c.pc u = .idle) ∧ e ≠ .call u ∧ e ≠ .ret u) ∧
    ((m = .call ∧ e = .call t) ∨ (m ≠ .call ∧ c.pc t ≠ .idle ∧
      ((e = .ret t ∧ c'.pc t = .idle) ∨ (∃ r, e = .raise t r) ∨
        ((∀ u, e ≠ .call u) ∧ (∀ u, e ≠ .ret u) ∧ ∀ u r, e ≠ .raise u r)))) := by
  cases m with
  | call =>
    simp only [Bar.step] at h
    split at h
    · simp only [Option.some.injEq, Prod.mk.injEq] at h
      obtain ⟨rfl, rfl⟩ := h
      refine ⟨?_, Or.inl ⟨rfl, rfl⟩⟩
      intro u hu
      simp [Bar.Conf.goto, hu, Ne.symm hu]
    · simp at h
  | spurious =>
    simp only [Bar.step] at h
    split at h
    · next hp =>
      simp only [Option.some.injEq, Prod.mk.injEq] at h
      obtain ⟨rfl, rfl⟩ := h
      refine ⟨?_, Or.inr ⟨by simp, by simp [hp], Or.inr (Or.inr (by simp))⟩⟩
      intro u hu
      simp [Bar.Conf.goto, hu]
    · simp at h
  | deadline =>
    simp only [Bar.step] at h
    split at h
    · next hp =>
      simp only [Option.some.injEq, Prod.mk.injEq] at h
      obtain ⟨rfl, rfl⟩ := h
      refine ⟨?_, Or.inr ⟨by simp, by simp [hp], Or.inr (Or.inr (by simp))⟩⟩
      intro u hu
      simp [Bar.Conf.goto, hu]
    · simp at h
  | go =>
    have hwake : ∀ u, (c.wakeAll.pc u = .idle ↔ c.pc u = .idle) := by
      intro u
      simp only [Bar.Conf.wakeAll]
      split <;> simp_all
    simp only [Bar.step, Bar.stepGo] at h
    cases hp : c.pc t <;> rw [hp] at h <;> simp only [reduceCtorEq] at h
    case out r =>
      simp only [Option.some.injEq, Prod.mk.injEq] at h
      obtain ⟨rfl, rfl⟩ := h
      cases r with
      | normal =>
        refine ⟨?_, Or.inr ⟨by simp, by simp, Or.inl ⟨rfl, by simp [Bar.Conf.goto]⟩⟩⟩
        intro u hu
        simp [Bar.Conf.goto, hu, Ne.symm hu]
      | timeout =>
        refine ⟨?_, Or.inr ⟨by simp, by simp, Or.inr (Or.inl ⟨_, rfl⟩)⟩⟩
        intro u hu
        simp [Bar.Conf.goto, hu]
      | corrupt =>
        refine ⟨?_, Or.inr ⟨by simp, by simp, Or.inr (Or.inl ⟨_, rfl⟩)⟩⟩
        intro u hu
        simp [Bar.Conf.goto, hu]
    all_goals
      (try split at h) <;>
      first
      | (exfalso; simp at h; done)
      | (simp only [Option.some.injEq, Prod.mk.injEq] at h
         obtain ⟨rfl, rfl⟩ := h
         refine ⟨?_, Or.inr ⟨by simp, by simp, Or.inr (Or.inr (by simp))⟩⟩
         intro u hu
         simp [Bar.Conf.goto, hu, hwake])

theorem whole_bar {t : Fin p.threads} {m : Bar.Move} {bc' : Bar.Conf (Fin p.threads)} {e : Bar.Ev (Fin p.threads)}
    (hf : p.Fits) (hd : NoDeadline (evs ++ [e]))
    (w : Whole p this name ls evs mc bc loc) (hs : Bar.step p.threads bc t m = some (bc', e))
    (hok : m = .call → (∃ s, loc t = .ready s) ∧ mc.phase t.val = .idle) :
    Whole p this name ls (evs ++ [e]) mc bc' (afterBar loc e) := by
  have hses : Session.Exec p.threads this name ls (evs ++ [e]) mc bc' := .bar w.session hs fun h => (hok h).2
  obtain ⟨hother, hkind⟩ := bar_step hs
  have hstay : ∀ {u}, u ≠ t → bc.pc u = .idle → bc'.pc u = .idle := fun hu h => ((hother _ hu).1).2 h
  have hsub : ∀ {x}, x ∈ evs → x ∈ evs ++ [e] := fun h => List.mem_append.2 (Or.inl h)
  have hcall : ∀ {u}, u ≠ t → Bar.Ev.call u ∉ evs → Bar.Ev.call u ∉ evs ++ [e] := by
    intro u hu h
    rw [List.mem_append, List.mem_singleton]
    rintro (h' | h')
    · exact h h'
    · exact (hother u hu).2.1 h'.symm
  have hret : ∀ {u}, u ≠ t → Bar.Ev.ret u ∉ evs → Bar.Ev.ret u ∉ evs ++ [e] := by
    intro u hu h
    rw [List.mem_append, List.mem_singleton]
    rintro (h' | h')
    · exact h h'
    · exact (hother u hu).2.2 h'.symm
  rcases hkind with ⟨rfl, rfl⟩ | ⟨hm, hpc, hcase⟩
  · obtain ⟨⟨s, hl⟩, hi⟩ := hok rfl
    have heff : eff mc (setLoc loc t.val Loc.enter) = setLoc (eff mc loc) t.val fun _ => .inBarrier s := by
      funext u
      by_cases e : u = t
      · subst e; simp only [eff, setLoc_self, hi, known, hl, Loc.enter]
      · rw [setLoc_ne _ _ e]; simp only [eff, setLoc_ne _ _ e]
    refine ⟨hses, w.normal, ?_, ?_, ?_, ?_, ?_⟩
    · change Main p this _ (eff mc (setLoc loc t.val Loc.enter))
      rw [heff]
      exact w.main.enter (by simp only [eff, hi, known, hl])
    · intro t' o ho
      obtain ⟨u, hu, huo⟩ := w.ops t' o ho
      refine ⟨u, hu, ?_⟩
      have : u ≠ t := by
        rintro rfl
        rw [← hu, hi] at ho; simp [inCall] at ho
      simp only [afterBar, setLoc_ne _ _ this]; exact huo
    · intro u hu
      by_cases e : u = t
      · subst e; simp [afterBar, setLoc_self, hl, Loc.enter, Loc.stage] at hu
      · simp only [afterBar, setLoc_ne _ _ e] at hu
        exact ⟨hcall e (w.before u hu).1, hstay e (w.before u hu).2⟩
    · intro u hu
      by_cases e : u = t
      · subst e
        refine ⟨by simp, ?_⟩
        have hno := (w.before u (by rw [hl]; rfl)).1
        have := Session.not_ret (Nat.lt_of_lt_of_le hf.threads (by decide)) w.session.barRun
          (fun t ht => hd t (hsub ht)) hno u
        simpa using this
      · simp only [afterBar, setLoc_ne _ _ e] at hu
        exact ⟨hsub (w.inside u hu).1, hret e (w.inside u hu).2⟩
    · intro u hu
      by_cases e : u = t
      · subst e; simp [afterBar, setLoc_self, hl, Loc.enter, Loc.stage] at hu
      · simp only [afterBar, setLoc_ne _ _ e] at hu
        exact ⟨hsub (w.after u hu).1, hstay e (w.after u hu).2⟩
  · have hin : ∃ s, loc t = .inBarrier s := by
      cases hst : (loc t).stage
      · exact absurd (w.before t hst).2 hpc
      · cases hl : loc t <;> rw [hl] at hst <;> simp [Loc.stage] at hst
        exact ⟨_, rfl⟩
      · exact absurd (w.after t hst).2 hpc
    obtain ⟨s, hl⟩ := hin
    have hi : mc.phase t.val = .idle := by
      cases hp : mc.phase t.val with
      | idle => rfl
      | _ =>
        exfalso
        obtain ⟨u, hu, huo⟩ := w.ops t.val _ (by rw [hp]; rfl)
        have : u = t := Fin.val_injective hu
        subst this
        rw [hl] at huo; simp [Loc.op] at huo
    rcases hcase with ⟨rfl, hidle⟩ | ⟨r, rfl⟩ | ⟨h1, h2, h3⟩
    · have heff : eff mc (setLoc loc t.val Loc.pass) = setLoc (eff mc loc) t.val fun _ => .send s 0 0 := by
        funext u
        by_cases e : u = t
        · subst e; simp only [eff, setLoc_self, hi, known, hl, Loc.pass]
        · rw [setLoc_ne _ _ e]; simp only [eff, setLoc_ne _ _ e]
      refine ⟨hses, w.normal, ?_, ?_, ?_, ?_, ?_⟩
      · change Main p this _ (eff mc (setLoc loc t.val Loc.pass))
        rw [heff]
        exact w.main.pass (by simp only [eff, hi, known, hl])
      · intro t' o ho
        obtain ⟨u, hu, huo⟩ := w.ops t' o ho
        refine ⟨u, hu, ?_⟩
        have : u ≠ t := by
          rintro rfl
          rw [← hu, hi] at ho; simp [inCall] at ho
        simp only [afterBar, setLoc_ne _ _ this]; exact huo
      · intro u hu
        by_cases e : u = t
        · subst e; simp [afterBar, setLoc_self, hl, Loc.pass, Loc.stage] at hu
        · simp only [afterBar, setLoc_ne _ _ e] at hu
          exact ⟨hcall e (w.before u hu).1, hstay e (w.before u hu).2⟩
      · intro u hu
        by_cases e : u = t
        · subst e; simp [afterBar, setLoc_self, hl, Loc.pass, Loc.stage] at hu
        · simp only [afterBar, setLoc_ne _ _ e] at hu
          exact ⟨hsub (w.inside u hu).1, hret e (w.inside u hu).2⟩
      · intro u hu
        by_cases e : u = t
        · subst e; exact ⟨by simp, hidle⟩
        · simp only [afterBar, setLoc_ne _ _ e] at hu
          exact ⟨hsub (w.after u hu).1, hstay e (w.after u hu).2⟩
    · exact absurd (List.mem_append.2 (Or.inr (List.mem_singleton.2 rfl))) (Bar.C48_no_exception hses.barRun hd t r)
    · have hloc : afterBar loc e = loc := by
        cases e <;> simp_all [afterBar]
      rw [hloc]
      refine ⟨hses, w.normal, w.main, w.ops, ?_, ?_, ?_⟩
      · intro u hu
        have e : u ≠ t := by rintro rfl; rw [hl] at hu; simp [Loc.stage] at hu
        exact ⟨hcall e (w.before u hu).1, hstay e (w.before u hu).2⟩
      · intro u hu
        refine ⟨hsub (w.inside u hu).1, ?_⟩
        rw [List.mem_append, List.mem_singleton]
        rintro (h' | h')
        · exact (w.inside u hu).2 h'
        · exact h2 u h'.symm
      · intro u hu
        have e : u ≠ t := by rintro rfl; rw [hl] at hu; simp [Loc.stage] at hu
        exact ⟨hsub (w.after u hu).1, hstay e (w.after u hu).2⟩

theorem whole_silent {t : Fin p.threads} {l : Loc} (hf : p.Fits) (hd : NoDeadline evs)
    (w : Whole p this name ls evs mc bc loc) (hi : mc.phase t.val = .idle) (hs : (loc t).silent p = some l) :
    Whole p this name ls evs mc bc (setLoc loc t.val fun _ => l) := by
  have hn : p.threads < 2 ^ 32 := by have := hf.threads; omega
  obtain ⟨b, hb, ha, -, -⟩ := w.run hn hd
  have het : eff mc loc t = loc t := by simp only [eff, hi, known]
  have hmain := w.main.silent hf (Mail.known hb) ha (t := t) (l := l) (by rw [het]; exact hs)
  have hstage : l.stage = .after ∧ (loc t).stage = .after := by
    cases hl : loc t <;> rw [hl] at hs <;> simp only [Loc.silent, reduceCtorEq] at hs
    all_goals
      split at hs <;> (try split at hs) <;> first
        | (exfalso; simp at hs; done)
        | (cases hs; exact ⟨rfl, rfl⟩)
  have heff : eff mc (setLoc loc t.val fun _ => l) = setLoc (eff mc loc) t.val fun _ => l := by
    funext u
    by_cases e : u = t
    · subst e; simp only [eff, setLoc_self, hi, known]
    · rw [setLoc_ne _ _ e]; simp only [eff, setLoc_ne _ _ e]
  refine ⟨w.session, w.normal, by rw [heff]; exact hmain, ?_, ?_, ?_, ?_⟩
  · intro t' o ho
    obtain ⟨u, hu, huo⟩ := w.ops t' o ho
    refine ⟨u, hu, ?_⟩
    have : u ≠ t := by
      rintro rfl
      rw [← hu, hi] at ho; simp [inCall] at ho
    rw [setLoc_ne _ _ this]; exact huo
  · intro u hu
    by_cases e : u = t
    · subst e; rw [setLoc_self, hstage.1] at hu; simp at hu
    · rw [setLoc_ne _ _ e] at hu; exact w.before u hu
  · intro u hu
    by_cases e : u = t
    · subst e; rw [setLoc_self, hstage.1] at hu; simp at hu
    · rw [setLoc_ne _ _ e] at hu; exact w.inside u hu
  · intro u hu
    by_cases e : u = t
    · subst e; exact w.after _ hstage.2
    · rw [setLoc_ne _ _ e] at hu; exact w.after u hu

/-- The invariant holds in all executions. -/
theorem whole (hf : p.Fits) (h : Exec p this name ls evs mc bc loc) (hd : NoDeadline evs) :
    Whole p this name ls evs mc bc loc := by
  induction h with
  | init => exact whole_init
  | mail _ hs hok ih => exact whole_mail hf hd (ih hd) hs hok
  | bar _ hs hok ih => exact whole_bar hf hd (ih fun t ht => hd t (by simp [ht])) hs hok
  | silent t _ hi hs ih => exact whole_silent hf hd (ih hd) hi hs

end SoDa.MailTest
