import Verif.Proof.MailBoxTestRun
/-!
Property C87: the program test/MailBoxTest.cxx cannot fail, for any number of threads, messages and
trials, in both modes, and for all interleavings (if nobody waits 1000 days at the barrier).
-/
namespace SoDa.MailTest
open Spec Monitor
open Mail (Event Box Sub exec waiting historyOf)

variable {p : Params} {this : Mail.Addr} {name : Str}
variable {ls : List (Label Nat (Mail.Op Msg) (Mail.Resp Msg))} {evs : List (Bar.Ev (Fin p.threads))}
variable {mc : Conf Nat (Box Msg) (Mail.Op Msg) (Mail.Resp Msg)} {bc : Bar.Conf (Fin p.threads)}
variable {loc : Fin p.threads → Loc}

theorem no_op_idle (w : Whole p this name ls evs mc bc loc) {t : Fin p.threads} (h : (loc t).op p t.val = none) :
    mc.phase t.val = .idle := by
  cases hp : mc.phase t.val with
  | idle => rfl
  | _ =>
    exfalso
    obtain ⟨u, hu, huo⟩ := w.ops t.val _ (by rw [hp]; rfl)
    have : u = t := Fin.val_injective hu
    subst this
    rw [h] at huo; simp at huo

theorem eff_no_op (w : Whole p this name ls evs mc bc loc) {t : Fin p.threads} (h : (loc t).op p t.val = none) :
    eff mc loc t = loc t := by simp only [eff, no_op_idle w h, known]

/-- C87.  No thread ends the program with an exception, and every thread that returns returns 0: it does not see a
wrong sum (line 85) or an extra message (line 97), and the count on line 105 is 0. -/
theorem C87_returns_zero (hf : p.Fits) (h : Exec p this name ls evs mc bc loc) (hd : NoDeadline evs)
    (t : Fin p.threads) : loc t ≠ .crashed ∧ (∀ c, loc t = .done c → c = 0) ∧ ∀ s c, loc t = .leave s c → c = 0 := by
  have w := whole hf h hd
  have hok := w.main.ok t
  refine ⟨?_, ?_, ?_⟩
  · intro hl
    rw [eff_no_op w (by rw [hl]; rfl), hl] at hok
    exact hok
  · intro c hl
    rw [eff_no_op w (by rw [hl]; rfl), hl] at hok
    exact hok
  · intro s c hl
    have : eff mc loc t = known (mc.phase t.val) (.leave s c) := by simp only [eff, hl]
    rw [this] at hok
    cases hp : mc.phase t.val <;> rw [hp] at hok <;> simp only [known] at hok
    case leaving o r => cases r <;> first | exact hok | exact hok.elim
    all_goals exact hok

/-- Nor does any call on the mailbox throw. -/
theorem C87_no_exception (hf : p.Fits) (h : Exec p this name ls evs mc bc loc) (hd : NoDeadline evs) :
    ∀ e ∈ historyOf ls, ∀ x, e.resp ≠ .threw x := by
  induction h with
  | init => simp [historyOf, Mail.history, completed]
  | bar h' hs hok ih => exact ih fun t ht => hd t (by simp [ht])
  | silent t h' hi hs ih => exact ih hd
  | @mail ls evs mc bc loc l mc' h' hs hok ih =>
    intro e he x hx
    have w := whole hf h' hd
    have w' := whole hf (.mail h' hs hok) hd
    rw [history_snoc, List.mem_append] at he
    rcases he with he | he
    · exact ih hd e he x hx
    · cases hs with
      | @unlock t o r hr =>
        simp only [completed, Mail.history, List.filterMap_cons, List.filterMap_nil, List.map_cons, List.map_nil,
          List.mem_singleton] at he
        subst he
        simp only at hx
        subst hx
        obtain ⟨u, hu, ho⟩ := w.ops t o (by rw [hr]; rfl)
        have hok := w'.main.ok u
        simp only [eff, hu, setPhase_self, known, afterMail] at hok
        revert hok
        cases hl : loc u <;> rw [hl] at ho <;> simp [Loc.op] at ho <;> simp [Loc.after, Loc.Ok]
      | _ => simp [completed, Mail.history] at he

theorem script_rounds (m u k : Nat) :
    script m u (k * m) = (List.replicate k ((List.range m).map fun v => (⟨u, v⟩ : Msg))).flatten := by
  induction k with
  | zero => simp [script]
  | succ k ih =>
    rw [List.replicate_succ', List.flatten_append, ← ih, Nat.add_mul, one_mul]
    simp only [script, List.range_add, List.map_append, List.map_map, List.flatten_cons, List.flatten_nil,
      List.append_nil]
    congr 1
    refine List.map_congr_left fun x hx => ?_
    have hx := List.mem_range.1 hx
    simp only [Function.comp]
    rw [Nat.add_comm, Nat.add_mul_mod_self_right, Nat.mod_eq_of_lt hx]

/-- What a thread that has returned has received: it has subscribed (once), and of every thread (but itself, with
`--noecho`) it has received the messages 0, 1, ... of every trial, in this order, each once. -/
theorem C87_received (hf : p.Fits) (h : Exec p this name ls evs mc bc loc) (hd : NoDeadline evs) (t : Fin p.threads)
    (c : Int) (hl : loc t = .done c) :
    ∃ s, (⟨t.val, .subscribe, .sub s⟩ : Event Msg) ∈ historyOf ls ∧ ∀ u,
      (receivedEver s.idx (historyOf ls)).filter (fun x => x.frm = u) =
        if u < p.threads ∧ ¬ (p.noEcho = true ∧ u = t.val) then
          (List.replicate p.trials ((List.range p.msgs).map fun v => (⟨u, v⟩ : Msg))).flatten
        else [] := by
  have w := whole hf h hd
  have heff : eff mc loc t = .done c := by rw [eff_no_op w (by rw [hl]; rfl), hl]
  obtain ⟨s, hs, -⟩ := w.main.ended t c heff
  refine ⟨s, hs, ?_⟩
  obtain ⟨b, hb, -, -, -⟩ := w.run (by have := hf.threads; omega) hd
  have k := Mail.known hb
  have hgot := w.main.got t s hs
  rw [heff] at hgot
  simp only [Loc.gets, expectedMsgs_eq hf t.isLt] at hgot
  have hsubl := (List.sublist_append_left _ _).trans (k.order s.idx)
  change List.Sublist _ (meantFor s.idx (historyOf ls)) at hsubl
  rw [w.main.meant k hs] at hsubl
  have hlen := w.main.len_le (t := t.val)
  rw [peers_card t.isLt] at hlen
  have heq : receivedEver s.idx (historyOf ls) = ofA (peers p t.val) (sentLog (historyOf ls)) := by
    refine hsubl.eq_of_length_le ?_
    rw [hgot]
    have e : p.senders * (p.trials * p.msgs) = p.trials * (p.msgs * p.senders) := by ring
    omega
  have hfull := full_rounds (k := p.trials) (A := peers p t.val) (fun u hu => peers_lt hu) w.main.rounds
    (List.prefix_refl _) (by rw [← heq, hgot, peers_card t.isLt])
  intro u
  change byS u _ = _
  rw [heq]
  by_cases hu : u ∈ peers p t.val
  · have hlt := peers_lt hu
    have hnot : ¬ (p.noEcho = true ∧ u = t.val) := by
      rintro ⟨h1, h2⟩
      simp only [peers, h1, if_true] at hu
      exact (Finset.mem_erase.1 hu).1 h2
    rw [if_pos ⟨hlt, hnot⟩, ← script_rounds]
    have h1 := hfull u hu
    rw [ofA_byS hu] at h1 ⊢
    have h2 := w.main.log ⟨u, hlt⟩
    simp only at h2
    rw [h2, script_length] at h1
    rw [h2, h1]
  · rw [if_neg]
    · unfold byS
      rw [List.filter_eq_nil_iff]
      intro x hx
      have := ofA_mem x hx
      simp only [decide_eq_true_eq]
      rintro rfl
      exact hu this
    · rintro ⟨h1, h2⟩
      refine hu ?_
      unfold peers
      split
      · next hne => exact Finset.mem_erase.2 ⟨fun e => h2 ⟨hne, e⟩, Finset.mem_range.2 h1⟩
      · exact Finset.mem_range.2 h1

/-- When all threads have returned, the mailbox holds no messages (and has no subscribers). -/
theorem C87_empty (hf : p.Fits) (h : Exec p this name ls evs mc bc loc) (hd : NoDeadline evs)
    (hdone : ∀ t, ∃ c, loc t = .done c) : mc.shared.queues = [] := by
  have w := whole hf h hd
  obtain ⟨b, hb, -, hsh, -⟩ := w.run (by have := hf.threads; omega) hd
  have k := Mail.known hb
  have hfree : mc.holder = none := by
    cases hh : mc.holder with
    | none => rfl
    | some t =>
      obtain ⟨o, bd, hp⟩ := (inv_steps w.session.mailSteps).holds t hh
      obtain ⟨u, hu, ho⟩ := w.ops t o (by rw [hp]; rfl)
      obtain ⟨c, hc⟩ := hdone u
      rw [hc] at ho; simp [Loc.op] at ho
  rw [hsh hfree]
  cases hq : b.queues with
  | nil => rfl
  | cons x rest =>
    exfalso
    have hw : waiting b x.1 = some x.2 :=
      (mapFind_mem intLess_order x.1 x.2 _ k.wf.sorted).2 (by rw [hq]; simp)
    obtain ⟨⟨e, he, hsub⟩, hend⟩ := (k.live x.1).1 (by rw [hw]; simp)
    obtain ⟨s, hr, hidx⟩ := Mail.subscribes_iff.1 hsub
    have ho := Session.sub_op hb e he s hr
    have hlt := w.main.small e he
    obtain ⟨c, hc⟩ := hdone ⟨e.thread, hlt⟩
    obtain ⟨s', hs', e', he', hx⟩ := w.main.ended ⟨e.thread, hlt⟩ c (by rw [eff_no_op w (by rw [hc]; rfl), hc])
    have hmem : (⟨e.thread, .subscribe, .sub s⟩ : Event Msg) ∈ historyOf ls := by
      rw [← ho, ← hr]; exact he
    have := w.main.same_sub hmem hs'
    subst this
    rw [hidx, hend e' he'] at hx
    simp at hx

/-- A thread completes at most `3 + trials * (messages sent + messages received per trial)` calls on the mailbox, not
counting calls of `get` that found nothing; and exactly so many if it has returned. -/
theorem C87_bounded (hf : p.Fits) (h : Exec p this name ls evs mc bc loc) (hd : NoDeadline evs) (t : Fin p.threads) :
    (historyOf ls).countP (fun e => decide (e.thread = t.val ∧ e.resp ≠ .msg none)) ≤
      3 + p.trials * (p.msgs + p.msgs * (p.threads - if p.noEcho then 1 else 0)) ∧
    (∀ c, loc t = .done c → (historyOf ls).countP (fun e => decide (e.thread = t.val ∧ e.resp ≠ .msg none)) =
      3 + p.trials * (p.msgs + p.msgs * (p.threads - if p.noEcho then 1 else 0))) := by
  have w := whole hf h hd
  have hw := w.main.work t
  have hok := w.main.ok t
  have hE := expectedMsgs_eq hf t.isLt
  change (historyOf ls).countP (usefulBy t.val) ≤ 3 + p.trials * (p.msgs + p.msgs * p.senders) ∧
    (∀ c, loc t = .done c → (historyOf ls).countP (usefulBy t.val) = 3 + p.trials * (p.msgs + p.msgs * p.senders))
  rw [← hE, hw]
  constructor
  · have mono : ∀ j, j < p.trials →
        j * (p.msgs + p.expectedMsgs) + (p.msgs + p.expectedMsgs) ≤ p.trials * (p.msgs + p.expectedMsgs) := by
      intro j hj
      have := Nat.mul_le_mul_right (p.msgs + p.expectedMsgs) (show j + 1 ≤ p.trials by omega)
      rw [Nat.add_mul, one_mul] at this
      exact this
    cases hl : eff mc loc t <;> rw [hl] at hok <;> simp only [Loc.calls, Loc.Ok] at * <;> try omega
    case send s j i =>
      rcases hok.2 with hj | ⟨rfl, rfl⟩
      · have := mono j hj; omega
      · omega
    case recv s j i sum =>
      have := mono j hok.1; omega
  · intro c hc
    rw [eff_no_op w (by rw [hc]; rfl), hc]
    rfl

/-! ### Nobody waits in vain -/

/-- If every thread has returned or is in the loop of line 70 with an empty mailbox, then no thread waits for
messages in vain: they all have returned or received everything they wait for. -/
theorem starved (hf : p.Fits) (w : Whole p this name ls evs mc bc loc) (hd : NoDeadline evs)
    (hidle : ∀ t, mc.phase t = .idle) (hfree : mc.holder = none)
    (hall : ∀ t, (∃ c, loc t = .done c) ∨ ∃ s j i sum, loc t = .recv s j i sum ∧
      waiting mc.shared s.idx = some []) (t : Fin p.threads) {s : Sub} {j i sum : Nat}
    (hl : loc t = .recv s j i sum) : p.expectedMsgs ≤ i ∨ ∃ u s' j' i' sum', loc u = .recv s' j' i' sum' ∧ j' < j := by
  by_contra hno
  simp only [not_or, not_exists, not_and, Nat.not_lt, Nat.not_le] at hno
  obtain ⟨hi, hmin⟩ := hno
  obtain ⟨b, hb, ha, hsh, -⟩ := w.run (by have := hf.threads; omega) hd
  have k := Mail.known hb
  have heff : ∀ u, eff mc loc u = loc u := fun u => by simp only [eff, hidle, known]
  have hwt : waiting b s.idx = some [] := by
    rcases hall t with ⟨c, hc⟩ | ⟨s', j', i', sum', hr, hw⟩
    · rw [hl] at hc; simp at hc
    · rw [hl] at hr
      injection hr with e1
      rw [← hsh hfree, e1]; exact hw
  obtain ⟨q, hq, -, hpre⟩ := w.main.received_prefix k ha (t := t) (s := s) (by rw [heff, hl]; rfl)
  rw [hwt] at hq
  cases hq
  obtain ⟨-, hsub, -⟩ := w.main.held t s (by rw [heff, hl]; rfl)
  have hgot := w.main.got t s hsub
  rw [heff, hl] at hgot
  simp only [Loc.gets] at hgot
  have hlen := congrArg List.length hpre
  rw [List.length_append, hgot, length_split _ _ ofA_mem] at hlen
  have hok := w.main.ok t
  rw [heff, hl] at hok
  have hge : ∑ _u ∈ peers p t.val, (j + 1) * p.msgs ≤
      ∑ u ∈ peers p t.val, (byS u (ofA (peers p t.val) (sentLog (historyOf ls)))).length := by
    refine Finset.sum_le_sum fun u hu => ?_
    rw [ofA_byS hu]
    have h1 := w.main.log ⟨u, peers_lt hu⟩
    simp only at h1
    rw [h1, script_length, heff]
    rcases hall ⟨u, peers_lt hu⟩ with ⟨c, hc⟩ | ⟨s', j', i', sum', hr, -⟩
    · rw [hc]; exact Nat.mul_le_mul_right _ hok.1
    · rw [hr]
      exact Nat.mul_le_mul_right _ (by have := hmin _ _ _ _ _ hr; omega)
  rw [Finset.sum_const, Nat.nsmul_eq_mul, peers_card t.isLt] at hge
  rw [expectedMsgs_eq hf t.isLt] at hlen hi
  have e : p.senders * ((j + 1) * p.msgs) = j * (p.msgs * p.senders) + p.msgs * p.senders := by ring
  simp only [List.filterMap_nil, List.length_nil] at hlen
  omega

/-! ### The program can always be finished -/

/-- From one state another can be reached without timeouts. -/
def Can (p : Params) (this : Mail.Addr) (mc : Conf Nat (Box Msg) (Mail.Op Msg) (Mail.Resp Msg))
    (bc : Bar.Conf (Fin p.threads)) (loc : Fin p.threads → Loc)
    (mc' : Conf Nat (Box Msg) (Mail.Op Msg) (Mail.Resp Msg))
    (bc' : Bar.Conf (Fin p.threads)) (loc' : Fin p.threads → Loc) : Prop :=
  ∃ ls evs, From p this mc bc loc ls evs mc' bc' loc' ∧ NoDeadline evs

variable {mc₀ mc' mc'' : Conf Nat (Box Msg) (Mail.Op Msg) (Mail.Resp Msg)}
variable {bc₀ bc' bc'' : Bar.Conf (Fin p.threads)} {loc₀ loc' loc'' : Fin p.threads → Loc}

theorem From.trans (h : From p this mc₀ bc₀ loc₀ ls evs mc bc loc)
    {ls' evs'} (h' : From p this mc bc loc ls' evs' mc' bc' loc') :
    From p this mc₀ bc₀ loc₀ (ls ++ ls') (evs ++ evs') mc' bc' loc' := by
  induction h' with
  | init => simpa using h
  | mail h' hs hok ih => rw [← List.append_assoc]; exact .mail ih hs hok
  | bar h' hs hok ih => rw [← List.append_assoc]; exact .bar ih hs hok
  | silent t h' hi hs ih => exact .silent t ih hi hs

theorem noDeadline_append {a b : List (Bar.Ev (Fin p.threads))} (ha : NoDeadline a) (hb : NoDeadline b) :
    NoDeadline (a ++ b) := by
  intro t ht
  rcases List.mem_append.1 ht with h | h
  · exact ha t h
  · exact hb t h

theorem Can.refl : Can p this mc bc loc mc bc loc := ⟨[], [], .init, fun t => by simp⟩

theorem Can.trans (h : Can p this mc bc loc mc' bc' loc') (h' : Can p this mc' bc' loc' mc'' bc'' loc'') :
    Can p this mc bc loc mc'' bc'' loc'' := by
  obtain ⟨l1, e1, h1, d1⟩ := h
  obtain ⟨l2, e2, h2, d2⟩ := h'
  exact ⟨_, _, h1.trans h2, noDeadline_append d1 d2⟩

theorem Can.mail {l : Label Nat (Mail.Op Msg) (Mail.Resp Msg)} (hs : Step (Mail.body this) mc l mc')
    (hok : ∀ t o, l = .call t o → ∃ u : Fin p.threads, u.val = t ∧ (loc u).op p t = some o) :
    Can p this mc bc loc mc' bc (afterMail loc l) :=
  ⟨_, _, .mail .init hs hok, fun t => by simp⟩

/-- A thread that holds the mutex can complete its call. -/
theorem can_body (t : Nat) (o : Mail.Op Msg) (b : Body (Box Msg) (Mail.Resp Msg)) :
    ∀ mc : Conf Nat (Box Msg) (Mail.Op Msg) (Mail.Resp Msg), mc.phase t = .runs o b →
    ∃ mc', Can p this mc bc loc mc' bc loc ∧ mc'.phase t = .leaving o (b.run mc.shared).2 ∧
      mc'.holder = none ∧ ∀ u, u ≠ t → mc'.phase u = mc.phase u := by
  induction b with
  | ret r =>
    intro mc h
    exact ⟨_, Can.mail (.unlock h) (by simp), by simp [Body.run], rfl, fun u hu => setPhase_ne _ _ hu⟩
  | act f k ih =>
    intro mc h
    obtain ⟨mc', h1, h2, h3, h4⟩ := ih mc.shared
      { mc with shared := f mc.shared, phase := setPhase mc.phase t (.runs o (k mc.shared)) } (by simp)
    refine ⟨mc', (Can.mail (.act h) (by simp)).trans h1, h2, h3, ?_⟩
    intro u hu
    rw [h4 u hu]; exact setPhase_ne _ _ hu

/-- If the mutex is free, a thread that waits for it can complete its call and return. -/
theorem can_wants (t : Nat) (o : Mail.Op Msg) (hp : mc.phase t = .wants o) (hh : mc.holder = none) :
    ∃ mc', Can p this mc bc loc mc' bc (setLoc loc t fun l => l.after ((Mail.body this o).run mc.shared).2) ∧
      mc'.phase t = .idle ∧ mc'.holder = none ∧ ∀ u, u ≠ t → mc'.phase u = mc.phase u := by
  obtain ⟨mc', h1, h2, h3, h4⟩ := can_body (p := p) (this := this) (bc := bc) (loc := loc) t o (Mail.body this o)
    { mc with holder := some t, phase := setPhase mc.phase t (.runs o (Mail.body this o)) } (by simp)
  refine ⟨_, ((Can.mail (.lock hp hh) (by simp)).trans h1).trans (Can.mail (.ret h2) (by simp)), by simp, h3, ?_⟩
  intro u hu
  simp only
  rw [setPhase_ne _ _ hu, h4 u hu]
  exact setPhase_ne _ _ hu

/-- All calls on the mailbox that have been made can be completed. -/
theorem can_settle (k : Nat) : ∀ (mc : Conf Nat (Box Msg) (Mail.Op Msg) (Mail.Resp Msg)) (loc : Fin p.threads → Loc),
    mc.holder = none → (∀ t o b, mc.phase t ≠ .runs o b) → (∀ t, k ≤ t → mc.phase t = .idle) →
    ∃ mc' loc', Can p this mc bc loc mc' bc loc' ∧ mc'.holder = none ∧ ∀ t, mc'.phase t = .idle := by
  induction k with
  | zero => intro mc loc hh _ hi; exact ⟨mc, loc, .refl, hh, fun t => hi t (Nat.zero_le _)⟩
  | succ k ih =>
    intro mc loc hh hr hi
    have last : ∀ (mc' : Conf Nat (Box Msg) (Mail.Op Msg) (Mail.Resp Msg)), mc'.phase k = .idle →
        (∀ u, u ≠ k → mc'.phase u = mc.phase u) →
        (∀ t o b, mc'.phase t ≠ .runs o b) ∧ ∀ t, k ≤ t → mc'.phase t = .idle := by
      intro mc' h1 h2
      constructor
      · intro t o b
        by_cases e : t = k
        · rw [e, h1]; simp
        · rw [h2 t e]; exact hr t o b
      · intro t ht
        by_cases e : t = k
        · rw [e, h1]
        · rw [h2 t e]; exact hi t (by omega)
    cases hp : mc.phase k with
    | idle =>
      obtain ⟨h1, h2⟩ := last mc hp fun _ _ => rfl
      exact ih mc loc hh h1 h2
    | runs o b => exact absurd hp (hr k o b)
    | wants o =>
      obtain ⟨mc', h1, h2, h3, h4⟩ := can_wants (p := p) (this := this) (bc := bc) (loc := loc) k o hp hh
      obtain ⟨h5, h6⟩ := last mc' h2 h4
      obtain ⟨mc'', loc', h7, h8⟩ := ih mc' _ h3 h5 h6
      exact ⟨mc'', loc', h1.trans h7, h8⟩
    | leaving o r =>
      obtain ⟨h5, h6⟩ := last { mc with phase := setPhase mc.phase k .idle } (by simp) fun u hu => setPhase_ne _ _ hu
      obtain ⟨mc'', loc', h7, h8⟩ := ih { mc with phase := setPhase mc.phase k .idle } _ hh h5 h6
      exact ⟨mc'', loc', (Can.mail (.ret hp) (by simp)).trans h7, h8⟩

/-- What a thread still has to do. -/
def Loc.left (p : Params) : Loc → Nat
  | .start => p.trials * (p.msgs + p.expectedMsgs + 2) + 7
  | .ready _ => p.trials * (p.msgs + p.expectedMsgs + 2) + 6
  | .inBarrier _ => p.trials * (p.msgs + p.expectedMsgs + 2) + 5
  | .send _ tr i => (p.trials - tr) * (p.msgs + p.expectedMsgs + 2) + 4 - i
  | .recv _ tr i _ => (p.trials - tr - 1) * (p.msgs + p.expectedMsgs + 2) + (p.expectedMsgs - i) + 5
  | .extra _ => 3
  | .count _ => 2
  | .leave _ _ => 1
  | .done _ | .crashed => 0

theorem left_after {l : Loc} {t : Nat} {o : Mail.Op Msg} {r : Mail.Resp Msg} (ho : l.op p t = some o)
    (hok : (l.after r).Ok p) (hr : ∀ s j i sum, l = .recv s j i sum → r ≠ .msg none) :
    (l.after r).left p < l.left p := by
  cases l <;> simp only [Loc.op, reduceCtorEq] at ho <;> cases r <;>
    simp only [Loc.after, Loc.Ok] at hok ⊢ <;> (try simp [Loc.left]; done)
  case send.done s j i =>
    split at ho
    · next h =>
      obtain ⟨a, ha⟩ : ∃ a, p.trials - j = a + 1 := ⟨p.trials - j - 1, by omega⟩
      simp only [Loc.left, ha, Nat.add_mul, one_mul]
      omega
    · cases ho
  case recv.msg s j i sum m =>
    cases m with
    | none => exact absurd rfl (hr _ _ _ _ rfl)
    | some x =>
      split at ho
      · next h => simp only [Loc.left]; omega
      · cases ho
  case extra.msg s m =>
    cases m <;> simp [Loc.left]

theorem left_silent {l l' : Loc} (hs : l.silent p = some l') (hok : l.Ok p) : l'.left p < l.left p := by
  cases l <;> simp only [Loc.silent, reduceCtorEq] at hs
  case send s j i =>
    simp only [Loc.Ok] at hok
    split at hs
    · next hj =>
      split at hs
      · cases hs
      · cases hs
        obtain ⟨a, ha⟩ : ∃ a, p.trials - j = a + 1 := ⟨p.trials - j - 1, by omega⟩
        simp only [Loc.left, ha, Nat.add_mul, one_mul, Nat.add_sub_cancel]
        omega
    · cases hs
      simp only [Loc.left]
      have : p.trials - j = 0 := by omega
      rw [this]; omega
  case recv s j i sum =>
    simp only [Loc.Ok] at hok
    split at hs
    · cases hs
    · split at hs <;> cases hs <;> simp only [Loc.left]
      · omega
      · rw [Nat.sub_sub]; omega

theorem sum_setLoc {t : Fin p.threads} {f : Loc → Loc} (h : (f (loc t)).left p < (loc t).left p) :
    ∑ u, (setLoc loc t.val f u).left p < ∑ u, (loc u).left p := by
  refine Finset.sum_lt_sum ?_ ⟨t, Finset.mem_univ _, by simpa [setLoc] using h⟩
  intro u _
  simp only [setLoc]
  split
  · next e =>
    have : u = t := Fin.val_injective e
    subst this
    exact h.le
  · exact Nat.le_refl _

theorem sum_afterBar {e : Bar.Ev (Fin p.threads)} :
    ∑ u, (afterBar loc e u).left p ≤ ∑ u, (loc u).left p := by
  refine Finset.sum_le_sum fun u _ => ?_
  have enter : ∀ l : Loc, l.enter.left p ≤ l.left p := by
    intro l; cases l <;> simp [Loc.enter, Loc.left]
  have pass : ∀ l : Loc, l.pass.left p ≤ l.left p := by
    intro l; cases l <;> simp [Loc.pass, Loc.left]
  cases e <;> simp only [afterBar, setLoc] <;> (try split) <;> first | exact enter _ | exact pass _ | simp [Loc.left]

/-- What is still to be done. -/
def todo (p : Params) (bc : Bar.Conf (Fin p.threads)) (loc : Fin p.threads → Loc) : Nat :=
  (∑ t, (loc t).left p) * (4 * p.threads + 10) + bc.work

theorem todo_loc (h : ∑ u, (loc' u).left p < ∑ u, (loc u).left p) : todo p bc loc' < todo p bc loc := by
  unfold todo
  have := Nat.mul_lt_mul_of_pos_right h (show 0 < 4 * p.threads + 10 by omega)
  omega

theorem work_call {t : Fin p.threads} (hp : bc.pc t = .idle) :
    (bc.goto t .start).work ≤ bc.work + (4 * p.threads + 9) := by
  unfold Bar.Conf.work
  rw [← Finset.add_sum_erase _ _ (Finset.mem_univ t), ← Finset.add_sum_erase (a := t) _ _ (Finset.mem_univ t)]
  have h1 : ∑ u ∈ Finset.univ.erase t, ((bc.goto t .start).pc u).weight (Fintype.card (Fin p.threads)) =
      ∑ u ∈ Finset.univ.erase t, (bc.pc u).weight (Fintype.card (Fin p.threads)) := by
    refine Finset.sum_congr rfl fun u hu => ?_
    simp [Bar.Conf.goto, (Finset.mem_erase.1 hu).1]
  rw [h1]
  simp [Bar.Conf.goto, Bar.Pc.weight, hp]
  omega

/-- With all threads outside the mailbox, one of them can do something useful, or all have returned. -/
theorem useful (hf : p.Fits) (h : Exec p this name ls evs mc bc loc) (hd : NoDeadline evs)
    (hidle : ∀ t, mc.phase t = .idle) (hfree : mc.holder = none) :
    (∀ t, loc t = .done 0) ∨ ∃ mc' bc' loc', Can p this mc bc loc mc' bc' loc' ∧ mc'.holder = none ∧
      (∀ t, mc'.phase t = .idle) ∧ todo p bc' loc' < todo p bc loc := by
  have w := whole hf h hd
  have heff : ∀ u, eff mc loc u = loc u := fun u => by simp only [eff, hidle, known]
  have hok : ∀ u, (loc u).Ok p := fun u => heff u ▸ w.main.ok u
  obtain ⟨b, hb, ha, hsh, -⟩ := w.run (by have := hf.threads; omega) hd
  have k := Mail.known hb
  by_cases h1 : ∃ t o, (loc t).op p t.val = some o ∧
      ∀ s j i sum, loc t = .recv s j i sum → waiting mc.shared s.idx ≠ some []
  · right
    obtain ⟨t, o, ho, hq⟩ := h1
    have hcall : Can p this mc bc loc { mc with phase := setPhase mc.phase t.val (.wants o) } bc loc :=
      Can.mail (.call (hidle _)) (by intro t' o' e; cases e; exact ⟨t, rfl, ho⟩)
    obtain ⟨mc', h2, h3, h4, h5⟩ := can_wants (p := p) (this := this) (bc := bc) (loc := loc)
      (mc := { mc with phase := setPhase mc.phase t.val (.wants o) }) t.val o (by simp) hfree
    have hcan := hcall.trans h2
    have hid : ∀ u, mc'.phase u = .idle := by
      intro u
      by_cases e : u = t.val
      · rw [e]; exact h3
      · rw [h5 u e]; simp only; rw [setPhase_ne _ _ e]; exact hidle u
    refine ⟨_, _, _, hcan, h4, hid, todo_loc (sum_setLoc ?_)⟩
    obtain ⟨ls', evs', hx, dx⟩ := hcan
    have w' := whole hf (h.trans hx) (noDeadline_append hd dx)
    have hok' := w'.main.ok t
    simp only [eff, hid, known, setLoc, if_true] at hok'
    refine left_after ho hok' ?_
    intro s j i sum hl
    rw [hl] at ho
    simp only [Loc.op] at ho
    split at ho
    · cases ho
      obtain ⟨hbox, -, -⟩ := w.main.held t s (by rw [heff, hl]; rfl)
      obtain ⟨q, hw, hsome, -⟩ := w.main.received_prefix k ha (t := t) (s := s) (by rw [heff, hl]; rfl)
      simp only
      rw [hsh hfree, (Mail.body_run k.wf this _).1]
      have : (exec this b (.get (some s))).2 = .msg q.head?.join := by
        rw [← get_resp (this := this) hw]
        obtain ⟨bx, ix⟩ := s
        simp only at hbox
        subst hbox; rfl
      rw [this]
      cases q with
      | nil => rw [← hsh hfree] at hw; exact absurd hw (hq _ _ _ _ hl)
      | cons x q =>
        have := hsome x (by simp)
        cases x with
        | none => simp at this
        | some x => simp
    · cases ho
  by_cases h2 : ∃ t l, (loc t).silent p = some l
  · right
    obtain ⟨t, l, hs⟩ := h2
    exact ⟨_, _, _, ⟨_, _, .silent t .init (hidle _) hs, fun t => by simp⟩, hfree, hidle,
      todo_loc (sum_setLoc (left_silent hs (hok t)))⟩
  by_cases h3 : ∃ t s, loc t = .ready s
  · right
    obtain ⟨t, s, hl⟩ := h3
    have hpc := (w.before t (by rw [hl]; rfl)).2
    have hs : Bar.step p.threads bc t .call = some (bc.goto t .start, .call t) := by simp [Bar.step, hpc]
    refine ⟨_, _, _, ⟨_, _, .bar .init hs (fun _ => ⟨⟨s, hl⟩, hidle _⟩), fun u => by simp⟩, hfree, hidle, ?_⟩
    have h4 : ∑ u, (afterBar loc (.call t) u).left p < ∑ u, (loc u).left p := by
      simp only [afterBar]
      exact sum_setLoc (by rw [hl]; simp [Loc.enter, Loc.left])
    have h5 := Nat.mul_le_mul_right (4 * p.threads + 10) h4
    have h6 := work_call hpc
    rw [Nat.succ_mul] at h5
    unfold todo
    omega
  by_cases h4 : ∃ t s, loc t = .inBarrier s
  · right
    obtain ⟨t, s, hl⟩ := h4
    obtain ⟨-, hnr⟩ := w.inside t (by rw [hl]; rfl)
    have hcalled : ∀ u, 1 ≤ callsBy u evs := by
      intro u
      have one : Bar.Ev.call u ∈ evs → 1 ≤ callsBy u evs := fun hm =>
        List.countP_pos_iff.2 ⟨_, hm, by simp⟩
      cases hst : (loc u).stage with
      | before =>
        exfalso
        cases hlu : loc u <;> rw [hlu] at hst <;> simp [Loc.stage] at hst
        · exact h1 ⟨u, .subscribe, by rw [hlu]; rfl, by rw [hlu]; simp⟩
        · exact h3 ⟨u, _, hlu⟩
      | inside => exact one (w.inside u hst).1
      | after =>
        have h5 := (Bar.counts w.session.barRun u).1
        rw [Bar.ends_eq_returns (Bar.calm_run w.session.barRun hd).2] at h5
        have h6 : 1 ≤ returnsTo u evs := List.countP_pos_iff.2 ⟨_, (w.after u hst).1, by simp⟩
        omega
    have hnone : returnsTo t evs = 0 := by
      refine List.countP_eq_zero.2 fun e he => ?_
      simp only [decide_eq_true_eq]
      rintro rfl
      exact hnr he
    obtain ⟨u, bc', e, hs⟩ := Bar.C49_no_deadlock (by have := hf.threads; omega) (Fintype.card_fin _)
      w.session.barRun hd 1 hcalled t (by omega)
    refine ⟨_, _, _, ⟨_, _, .bar .init hs (by simp), ?_⟩, hfree, hidle, ?_⟩
    · intro v hv
      obtain ⟨old, h5, -⟩ := Bar.step_deadline hs (List.mem_singleton.1 hv).symm
      simp [Bar.step, Bar.stepGo, h5] at hs
    · have h5 := Bar.work_step hs
      have h6 := Nat.mul_le_mul_right (4 * p.threads + 10) (sum_afterBar (p := p) (loc := loc) (e := e))
      unfold todo
      omega
  left
  have hall : ∀ t, (∃ c, loc t = .done c) ∨ ∃ s j i sum, loc t = .recv s j i sum ∧ i < p.expectedMsgs ∧
      waiting mc.shared s.idx = some [] := by
    intro t
    have hcall : ∀ o, (loc t).op p t.val = some o →
        ∃ s j i sum, loc t = .recv s j i sum ∧ waiting mc.shared s.idx = some [] := by
      intro o ho
      by_contra hno
      exact h1 ⟨t, o, ho, fun s j i sum hl hw => hno ⟨s, j, i, sum, hl, hw⟩⟩
    have hsil : (loc t).silent p = none := by
      cases hs : (loc t).silent p with
      | none => rfl
      | some l => exact absurd ⟨t, l, hs⟩ h2
    have hokt := hok t
    cases hl : loc t <;> rw [hl] at hcall hsil hokt <;> simp [Loc.op, Loc.silent, Loc.Ok] at hcall hsil hokt
    case ready s => exact absurd ⟨t, s, hl⟩ h3
    case inBarrier s => exact absurd ⟨t, s, hl⟩ h4
    case send s j i =>
      exfalso
      split at hsil
      · next hj =>
        split at hsil
        · next hi => exact absurd (hcall hj) (by omega)
        · cases hsil
      · cases hsil
    case recv s j i sum =>
      by_cases hi : i < p.expectedMsgs
      · exact .inr ⟨s, j, i, sum, rfl, hi, hcall hi⟩
      · exfalso
        have h5 := hsil (by omega)
        split at h5 <;> cases h5
    case done c => exact .inl ⟨c, rfl⟩
  have hrecv : ∀ n t s j i sum, j ≤ n → loc t ≠ .recv s j i sum := by
    intro n
    induction n using Nat.strong_induction_on with
    | _ n ih =>
      intro t s j i sum hj hl
      rcases starved hf w hd hidle hfree (fun t => (hall t).imp id fun ⟨s, j, i, sum, h1, _, h3⟩ => ⟨s, j, i, sum, h1, h3⟩)
        t hl with hi | ⟨u, s', j', i', sum', hu, hlt⟩
      · rcases hall t with ⟨c, hc⟩ | ⟨s', j', i', sum', h5, h6, -⟩
        · rw [hl] at hc; simp at hc
        · rw [hl] at h5; cases h5; omega
      · exact ih j' (by omega) u s' j' i' sum' (Nat.le_refl _) hu
  intro t
  rcases hall t with ⟨c, hc⟩ | ⟨s, j, i, sum, h5, -⟩
  · rw [hc, (C87_returns_zero hf h hd t).2.1 c hc]
  · exact absurd h5 (hrecv j t s j i sum (Nat.le_refl _))

theorem can_finish (hf : p.Fits) (n : Nat) : ∀ ls evs mc bc loc, Exec p this name ls evs mc bc loc → NoDeadline evs →
    (∀ t, mc.phase t = .idle) → mc.holder = none → todo p bc loc ≤ n →
    ∃ mc' bc' loc', Can p this mc bc loc mc' bc' loc' ∧ ∀ t, loc' t = .done 0 := by
  induction n with
  | zero =>
    intro ls evs mc bc loc h hd h1 h2 h3
    rcases useful hf h hd h1 h2 with h4 | ⟨mc', bc', loc', -, -, -, h5⟩
    · exact ⟨_, _, _, .refl, h4⟩
    · omega
  | succ n ih =>
    intro ls evs mc bc loc h hd h1 h2 h3
    rcases useful hf h hd h1 h2 with h4 | ⟨mc', bc', loc', h5, h6, h7, h8⟩
    · exact ⟨_, _, _, .refl, h4⟩
    · obtain ⟨ls', evs', h9, h10⟩ := id h5
      obtain ⟨mc'', bc'', loc'', h11, h12⟩ := ih _ _ mc' bc' loc' (h.trans h9) (noDeadline_append hd h10) h7 h6 (by omega)
      exact ⟨_, _, _, h5.trans h11, h12⟩

/-- Nobody is stuck: whatever has happened so far, the program can be continued such that all threads return (0). -/
theorem C87_can_finish (hf : p.Fits) (h : Exec p this name ls evs mc bc loc) (hd : NoDeadline evs) :
    ∃ ls' evs' mc' bc' loc', From p this mc bc loc ls' evs' mc' bc' loc' ∧ NoDeadline evs' ∧ ∀ t, loc' t = .done 0 := by
  have w := whole hf h hd
  have inv := inv_steps w.session.mailSteps
  -- the mutex can be released
  have hrel : ∃ mc', Can p this mc bc loc mc' bc loc ∧ mc'.holder = none := by
    cases hh : mc.holder with
    | none => exact ⟨mc, .refl, hh⟩
    | some t =>
      obtain ⟨o, b, hp⟩ := inv.holds t hh
      obtain ⟨mc', h1, -, h3, -⟩ := can_body (p := p) (this := this) (bc := bc) (loc := loc) t o b mc hp
      exact ⟨mc', h1, h3⟩
  obtain ⟨mc₁, c1, hfree⟩ := hrel
  obtain ⟨ls₁, evs₁, f1, d1⟩ := id c1
  have x1 := h.trans f1
  have y1 := noDeadline_append hd d1
  have w1 := whole hf x1 y1
  have inv1 := inv_steps w1.session.mailSteps
  obtain ⟨mc₂, loc₂, c2, hfree2, hidle2⟩ := can_settle (p := p) (this := this) (bc := bc) p.threads mc₁ loc hfree
    (fun t o b hp => by have := inv1.excl t o b hp; rw [hfree] at this; cases this)
    (fun t ht => by
      cases hp : mc₁.phase t with
      | idle => rfl
      | _ =>
        obtain ⟨u, hu, -⟩ := w1.ops t _ (by rw [hp]; rfl)
        have := u.isLt
        omega)
  obtain ⟨ls₂, evs₂, f2, d2⟩ := id c2
  obtain ⟨mc₃, bc₃, loc₃, c3, hdone⟩ := can_finish hf _ _ _ _ _ _ (x1.trans f2) (noDeadline_append y1 d2) hidle2 hfree2
    (Nat.le_refl _)
  obtain ⟨ls', evs', hx, dx⟩ := (c1.trans c2).trans c3
  exact ⟨ls', evs', mc₃, bc₃, loc₃, hx, dx, hdone⟩

/-! ### The program at work -/

/-- The state of a run. -/
structure St (p : Params) where
  ls : List (Label Nat (Mail.Op Msg) (Mail.Resp Msg))
  evs : List (Bar.Ev (Fin p.threads))
  mc : Conf Nat (Box Msg) (Mail.Op Msg) (Mail.Resp Msg)
  bc : Bar.Conf (Fin p.threads)
  loc : Fin p.threads → Loc

/-- The next step of thread `t`, if it has one. -/
def St.next (p : Params) (this : Mail.Addr) (x : St p) (t : Fin p.threads) : Option (St p) :=
  match x.mc.phase t.val with
  | .wants o =>
    if x.mc.holder = none then
      some { x with ls := x.ls ++ [.lock t], mc := { x.mc with holder := some t.val, phase := setPhase x.mc.phase t.val (.runs o (Mail.body this o)) } }
    else none
  | .runs o (.act f k) =>
    some { x with ls := x.ls ++ [.act t], mc := { x.mc with shared := f x.mc.shared, phase := setPhase x.mc.phase t.val (.runs o (k x.mc.shared)) } }
  | .runs o (.ret r) =>
    some { x with ls := x.ls ++ [.unlock t o r], mc := { x.mc with holder := none, phase := setPhase x.mc.phase t.val (.leaving o r) } }
  | .leaving o r =>
    some { x with ls := x.ls ++ [.ret t o r], mc := { x.mc with phase := setPhase x.mc.phase t.val .idle }, loc := afterMail x.loc (.ret t o r) }
  | .idle =>
    match (x.loc t).op p t.val with
    | some o => some { x with ls := x.ls ++ [.call t o], mc := { x.mc with phase := setPhase x.mc.phase t.val (.wants o) } }
    | none =>
      match (x.loc t).silent p with
      | some l => some { x with loc := setLoc x.loc t.val fun _ => l }
      | none =>
        match x.loc t with
        | .ready _ =>
          match Bar.step p.threads x.bc t .call with
          | some (bc', e) => some { x with evs := x.evs ++ [e], bc := bc', loc := afterBar x.loc e }
          | none => none
        | _ =>
          match Bar.step p.threads x.bc t .go with
          | some (bc', e) => some { x with evs := x.evs ++ [e], bc := bc', loc := afterBar x.loc e }
          | none => none

/-- The threads take `k` steps each in turn, in the given order. -/
def St.turns (p : Params) (this : Mail.Addr) (k : Nat) : List (Fin p.threads) → St p → St p
  | [], x => x
  | t :: ts, x => St.turns p this k ts ((fun y => ((y.next p this t).getD y))^[k] x)

def St.new (p : Params) (name : Str) : St p :=
  ⟨[], [], Conf.init (Box.new name), Bar.Conf.init, fun _ => .start⟩

def St.Is (p : Params) (this : Mail.Addr) (name : Str) (x : St p) : Prop :=
  Exec p this name x.ls x.evs x.mc x.bc x.loc

theorem next_is {x y : St p} (h : x.Is p this name) {t : Fin p.threads} (hn : x.next p this t = some y) :
    y.Is p this name := by
  unfold St.next at hn
  split at hn
  · next o hp =>
    split at hn
    · next hh => cases hn; exact .mail h (.lock hp hh) (by simp)
    · cases hn
  · next o f k hp => cases hn; exact .mail h (.act hp) (by simp)
  · next o r hp => cases hn; exact .mail h (.unlock hp) (by simp)
  · next o r hp => cases hn; exact .mail h (.ret hp) (by simp)
  · next hp =>
    split at hn
    · next o ho => cases hn; exact .mail h (.call hp) (by intro t' o' e; cases e; exact ⟨t, rfl, ho⟩)
    · split at hn
      · next l hl => cases hn; exact .silent t h hp hl
      · split at hn
        · next s hs =>
          split at hn
          · next bc' e hb => cases hn; exact .bar h hb fun _ => ⟨⟨s, hs⟩, hp⟩
          · cases hn
        · split at hn
          · next bc' e hb => cases hn; exact .bar h hb (by simp)
          · cases hn

theorem turns_is (k : Nat) (ts : List (Fin p.threads)) : ∀ x : St p, x.Is p this name →
    (St.turns p this k ts x).Is p this name := by
  induction ts with
  | nil => exact fun x h => h
  | cons t ts ih =>
    intro x h
    refine ih _ ?_
    clear ih
    induction k with
    | zero => exact h
    | succ k ihk =>
      rw [Function.iterate_succ_apply']
      generalize (fun y => (St.next p this y t).getD y)^[k] x = y at ihk
      cases hn : y.next p this t with
      | none => simpa [hn] using ihk
      | some z => simpa [hn] using next_is ihk hn

/-- Two threads, two messages, two trials: a run in which both subscribe, pass the barrier, and return 0. -/
def sample (noEcho : Bool) : St ⟨2, 2, 2, noEcho⟩ :=
  St.turns ⟨2, 2, 2, noEcho⟩ 7 3 (List.replicate 50 [0, 0, 0, 1]).flatten (St.new _ "Message".toList)

theorem new_is : (St.new p name).Is p this name := .init

example (noEcho : Bool) : (⟨2, 2, 2, noEcho⟩ : Params).Fits := by
  constructor <;> simp

example (noEcho : Bool) : (sample noEcho).Is ⟨2, 2, 2, noEcho⟩ 7 "Message".toList := turns_is _ _ _ new_is

/-- Nobody times out, both return 0; the calls of `get` in vain are not few. -/
example : (∀ e, NoDeadline (sample e).evs) ∧ (∀ e t, (sample e).loc t = .done 0) ∧
    ((historyOf (sample true).ls).map fun e => decide (e.resp = .msg none)).count true = 9 := by
  refine ⟨?_, ?_, ?_⟩
  · intro e; cases e <;> (unfold NoDeadline; decide +kernel)
  · decide +kernel
  · decide +kernel

/-- What the first thread has received. -/
example : receivedEver 0 (historyOf (sample true).ls) = [⟨1, 0⟩, ⟨1, 1⟩, ⟨1, 0⟩, ⟨1, 1⟩] ∧
    receivedEver 0 (historyOf (sample false).ls) =
      [⟨0, 0⟩, ⟨0, 1⟩, ⟨1, 0⟩, ⟨1, 1⟩, ⟨0, 0⟩, ⟨0, 1⟩, ⟨1, 0⟩, ⟨1, 1⟩] := by
  constructor <;> decide +kernel

/-- One thread alone at the barrier ... -/
def alone : St ⟨2, 1, 1, false⟩ :=
  St.turns ⟨2, 1, 1, false⟩ 7 20 [0] (St.new _ "Message".toList)

/-- ... reaches its deadline ... -/
def late : Bar.Conf (Fin 2) × Bar.Ev (Fin 2) := (Bar.step 2 alone.bc 0 .deadline).getD (alone.bc, .tau 0)

/-- ... and goes on. -/
def later : St ⟨2, 1, 1, false⟩ :=
  St.turns ⟨2, 1, 1, false⟩ 7 20 [0] { alone with evs := alone.evs ++ [late.2], bc := late.1, loc := afterBar alone.loc late.2 }

/-- A thread that waits for 1000 days ends the program with an exception: that nobody reaches its deadline is needed. -/
theorem C87_deadline_matters : ∃ ls evs mc bc, ∃ loc : Fin 2 → Loc,
    Exec ⟨2, 1, 1, false⟩ 7 "Message".toList ls evs mc bc loc ∧ loc 0 = .crashed := by
  have h0 : alone.Is ⟨2, 1, 1, false⟩ 7 "Message".toList := turns_is _ _ _ new_is
  have h1 : (Bar.step 2 alone.bc 0 .deadline).isSome = true := by decide +kernel
  have h2 : Bar.step 2 alone.bc 0 .deadline = some (late.1, late.2) := by
    obtain ⟨x, hx⟩ := Option.isSome_iff_exists.1 h1
    simp only [late, hx, Option.getD_some]
  have h3 : later.Is ⟨2, 1, 1, false⟩ 7 "Message".toList := turns_is _ _ _ (From.bar h0 h2 (by simp))
  exact ⟨_, _, _, _, _, h3, by decide +kernel⟩

end SoDa.MailTest
