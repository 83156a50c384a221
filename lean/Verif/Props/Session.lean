import Verif.Model.Session
import Verif.Spec.Session
import Verif.Props.MailBox
import Verif.Props.Barrier
/-!
Property C64: the documented protocol for a mailbox with a barrier loses no message.
-/
namespace SoDa.Session
open Spec Monitor
open Mail (Event)

variable {P Q : Type}

/-! ### An execution is one of the mailbox and one of the barrier -/

theorem Exec.mailSteps {n this name ls evs mc bc} (h : Exec (P := P) n this name ls evs mc bc) :
    Monitor.Steps (Mail.body this) (Conf.init (Mail.Box.new name)) ls mc := by
  induction h with
  | init => exact .nil
  | mail _ hs _ ih => exact .snoc ih hs
  | bar _ _ _ ih => exact ih

theorem Exec.barRun {n this name ls evs mc bc} (h : Exec (P := P) n this name ls evs mc bc) :
    Bar.Run n evs bc := by
  induction h with
  | init => exact .init
  | mail _ _ _ ih => exact ih
  | bar _ hs _ ih => exact .snoc ih hs

/-! ### The invariant -/

/-- The call a thread is in, until it releases the mutex. -/
def pendingOp : Phase (Mail.Box P) (Mail.Op P) (Mail.Resp P) → Option (Mail.Op P)
  | .wants o => some o
  | .runs o _ => some o
  | _ => none

structure Good {n : Nat} (ls : List (Label Nat (Mail.Op P) (Mail.Resp P))) (evs : List (Bar.Ev (Fin n)))
    (mc : Conf Nat (Mail.Box P) (Mail.Op P) (Mail.Resp P)) : Prop where
  subs : ∀ t, pendingOp (mc.phase t) = some .subscribe → ∃ u : Fin n, u.val = t ∧ Bar.Ev.call u ∉ evs
  puts : ∀ t m s, pendingOp (mc.phase t) = some (.put m s) → ∃ u : Fin n, Bar.Ev.ret u ∈ evs
  sent : ∀ e ∈ completed ls, ∀ m s, e.2.1 = .put m s → ∃ u : Fin n, Bar.Ev.ret u ∈ evs
  split : ∃ a b, completed ls = a ++ b ∧ (∀ e ∈ a, ∀ m s, e.2.1 ≠ .put m s) ∧ ∀ e ∈ b, e.2.1 ≠ .subscribe

/-- Nobody has returned from the barrier while somebody has not called `wait`. -/
theorem not_ret {n : Nat} {evs : List (Bar.Ev (Fin n))} {bc : Bar.Conf (Fin n)} (hn : n < 2 ^ 32)
    (h : Bar.Run n evs bc) (hd : NoDeadline evs) {u : Fin n} (hu : Bar.Ev.call u ∉ evs) (t : Fin n) :
    Bar.Ev.ret t ∉ evs := by
  intro ht
  have h1 := Bar.C48_rounds hn (Fintype.card_fin n) h hd t u
  have h2 : callsBy u evs = 0 := by
    unfold callsBy
    rw [List.countP_eq_zero]
    intro e he hc
    exact hu (by simpa [of_decide_eq_true hc] using he)
  have h3 : 0 < returnsTo t evs := by
    unfold returnsTo
    rw [List.countP_pos_iff]
    exact ⟨_, ht, by simp⟩
  omega

/-- Labels other than `unlock` complete nothing. -/
theorem completed_snoc (ls : List (Label Nat (Mail.Op P) (Mail.Resp P))) (l) :
    completed (ls ++ [l]) = completed ls ++ completed [l] := completed_append _ _

theorem good {n this name ls evs mc bc} (h : Exec (P := P) n this name ls evs mc bc) (hn : n < 2 ^ 32)
    (hd : NoDeadline evs) : Good ls evs mc := by
  induction h with
  | init =>
    exact ⟨by simp [Conf.init, pendingOp], by simp [Conf.init, pendingOp], by simp [completed],
      ⟨[], [], rfl, by simp, by simp⟩⟩
  | @bar ls evs mc bc t m bc' e h hs hok ih =>
    have hd' : NoDeadline evs := fun t ht => hd t (by simp [ht])
    obtain ⟨i1, i2, i3, i4⟩ := ih hd'
    refine ⟨?_, ?_, ?_, i4⟩
    · intro t' ht'
      obtain ⟨u, hu, hc⟩ := i1 t' ht'
      refine ⟨u, hu, ?_⟩
      rw [List.mem_append, List.mem_singleton]
      rintro (hx | hx)
      · exact hc hx
      · cases m with
        | call =>
          have hx' : t = u := by
            simp only [Bar.step] at hs
            split at hs
            · simp only [Option.some.injEq, Prod.mk.injEq] at hs
              rw [← hx] at hs
              injection hs.2
            · simp at hs
          have := hok rfl
          rw [hx', hu] at this
          rw [this] at ht'
          simp [pendingOp] at ht'
        | go =>
          simp only [Bar.step, Bar.stepGo] at hs
          repeat' split at hs
          all_goals simp [← hx] at hs
        | spurious =>
          simp only [Bar.step] at hs
          split at hs <;> simp [← hx] at hs
        | deadline =>
          simp only [Bar.step] at hs
          split at hs <;> simp [← hx] at hs
    · intro t' m' s' ht'
      obtain ⟨u, hu⟩ := i2 t' m' s' ht'
      exact ⟨u, by simp [hu]⟩
    · intro e' he' m' s' ho
      obtain ⟨u, hu⟩ := i3 e' he' m' s' ho
      exact ⟨u, by simp [hu]⟩
  | @mail ls evs mc bc l mc' h hs hok ih =>
    obtain ⟨i1, i2, i3, i4⟩ := ih hd
    -- the pending calls: only `call` adds one
    have keep : ∀ t p, (∀ o, pendingOp p = some o → pendingOp (mc.phase t) = some o) →
        ∀ t' o, pendingOp (setPhase mc.phase t p t') = some o → pendingOp (mc.phase t') = some o := by
      intro t p hp t' o ho
      by_cases e : t' = t
      · subst e; rw [setPhase_self] at ho; exact hp o ho
      · rwa [setPhase_ne _ _ e] at ho
    cases hs with
    | @call t o hi =>
      obtain ⟨u, hu, -, hsub, hput⟩ := hok t o rfl
      refine ⟨?_, ?_, ?_, ?_⟩
      · intro t' ht'
        by_cases e : t' = t
        · subst e
          simp only [setPhase_self, pendingOp, Option.some.injEq] at ht'
          exact ⟨u, hu, hsub ht'⟩
        · simp only [setPhase_ne _ _ e] at ht'
          exact i1 t' ht'
      · intro t' m s ht'
        by_cases e : t' = t
        · subst e
          simp only [setPhase_self, pendingOp, Option.some.injEq] at ht'
          exact ⟨u, hput m s ht'⟩
        · simp only [setPhase_ne _ _ e] at ht'
          exact i2 t' m s ht'
      · simpa [completed_snoc, completed] using i3
      · simpa [completed_snoc, completed] using i4
    | @lock t o hw hf =>
      have k := keep t (.runs o (Mail.body this o)) (by intro o' ho; rw [hw]; exact ho)
      exact ⟨fun t' ht' => i1 t' (k t' _ ht'), fun t' m s ht' => i2 t' m s (k t' _ ht'),
        by simpa [completed_snoc, completed] using i3, by simpa [completed_snoc, completed] using i4⟩
    | @act t o f kk hr =>
      have k := keep t (.runs o (kk mc.shared)) (by intro o' ho; rw [hr]; exact ho)
      exact ⟨fun t' ht' => i1 t' (k t' _ ht'), fun t' m s ht' => i2 t' m s (k t' _ ht'),
        by simpa [completed_snoc, completed] using i3, by simpa [completed_snoc, completed] using i4⟩
    | @ret t o r hl =>
      have k := keep t .idle (by intro o' ho; simp [pendingOp] at ho)
      exact ⟨fun t' ht' => i1 t' (k t' _ ht'), fun t' m s ht' => i2 t' m s (k t' _ ht'),
        by simpa [completed_snoc, completed] using i3, by simpa [completed_snoc, completed] using i4⟩
    | @unlock t o r hr =>
      have k := keep t (.leaving o r) (by intro o' ho; simp [pendingOp] at ho)
      have hp : pendingOp (mc.phase t) = some o := by rw [hr]; rfl
      have hc : completed [Label.unlock t o r] = [(t, o, r)] := rfl
      refine ⟨fun t' ht' => i1 t' (k t' _ ht'), fun t' m s ht' => i2 t' m s (k t' _ ht'), ?_, ?_⟩
      · intro e he m s ho
        rw [completed_snoc, hc, List.mem_append, List.mem_singleton] at he
        rcases he with he | rfl
        · exact i3 e he m s ho
        · exact i2 t m s (by rw [hp]; exact congrArg some ho)
      · rw [completed_snoc, hc]
        by_cases ho : o = .subscribe
        · -- nobody has sent anything yet
          obtain ⟨u, -, hu⟩ := i1 t (by rw [hp, ho])
          refine ⟨completed ls ++ [(t, o, r)], [], by simp, ?_, by simp⟩
          intro e he m s hm
          rw [List.mem_append, List.mem_singleton] at he
          rcases he with he | rfl
          · obtain ⟨v, hv⟩ := i3 e he m s hm
            exact not_ret hn h.barRun hd hu v hv
          · rw [ho] at hm; simp at hm
        · obtain ⟨a, b, h1, h2, h3⟩ := i4
          refine ⟨a, b ++ [(t, o, r)], by rw [h1, List.append_assoc], h2, ?_⟩
          intro e he
          rw [List.mem_append, List.mem_singleton] at he
          rcases he with he | rfl
          · exact h3 e he
          · exact ho

/-! ### C64 -/

theorem since_all {p : Event P → Bool} {tr : List (Event P)} {f : Event P → Option Q}
    (a b : List (Event P)) (htr : tr = a ++ b) (ha : ∀ e ∈ a, f e = none) (hb : ∀ e ∈ b, p e = false) :
    (since p tr).filterMap f = tr.filterMap f := by
  subst htr
  have h0 : a.filterMap f = [] := by
    rw [List.filterMap_eq_nil_iff]; exact ha
  have h1 : since p (a ++ b) = since p a ++ b := by
    unfold since
    rw [List.reverse_append, List.takeWhile_append_of_pos (by simpa using hb), List.reverse_append, List.reverse_reverse]
  have h2 : (since p a).filterMap f = [] := by
    rw [List.filterMap_eq_nil_iff]
    intro e he
    refine ha e ?_
    unfold since at he
    have := (List.takeWhile_sublist (fun e => !p e) (l := a.reverse)).subset (List.mem_reverse.1 he)
    simpa using this
  rw [h1, List.filterMap_append, List.filterMap_append, h0, h2]

/-- Only `subscribe` hands out subscriptions. -/
theorem sub_op {this : Mail.Addr} {b b' : Mail.Box P} {tr : List (Event P)} (h : Mail.Run this b tr b') :
    ∀ e ∈ tr, ∀ s, e.resp = .sub s → e.op = .subscribe := by
  induction h with
  | nil => simp
  | @snoc tr b' t o r b'' h he hn ih =>
    intro e hm s hs
    rw [List.mem_append, List.mem_singleton] at hm
    rcases hm with hm | rfl
    · exact ih e hm s hs
    · simp only at hs ⊢
      subst hs
      cases o <;> simp only [Mail.exec] at he ⊢
      all_goals
        first
        | rfl
        | (exfalso; revert he; unfold Mail.ofRes; split <;> simp; done)
        | (exfalso; simp at he; done)
        | (exfalso; revert he; repeat' split
           all_goals simp)

/-- The messages received and waiting, in terms of the sequential history. -/
theorem all_messages {n : Nat} (hn : n < 2 ^ 32) {this : Mail.Addr} {name : Str}
    {ls : List (Label Nat (Mail.Op P) (Mail.Resp P))} {evs : List (Bar.Ev (Fin n))}
    {mc : Conf Nat (Mail.Box P) (Mail.Op P) (Mail.Resp P)} {bc : Bar.Conf (Fin n)}
    (h : Exec n this name ls evs mc bc) (hd : NoDeadline evs) {b0 : Mail.Box P}
    (hr : Mail.Run this (Mail.Box.new name) (Mail.historyOf ls) b0) {i : Int} {q : List (Option P)}
    (hw : Mail.waiting b0 i = some q) (hc : ∀ e ∈ Mail.historyOf ls, Clears i e = false) :
    receivedEver i (Mail.historyOf ls) ++ q.filterMap id = meantFor i (Mail.historyOf ls) := by
  have k := Mail.known hr
  have hm := k.mail i q hw
  obtain ⟨a, b, h1, h2, h3⟩ := (good h hn hd).split
  have hsent : sentTo i (Mail.historyOf ls) = meantFor i (Mail.historyOf ls) := by
    refine since_all (Mail.history a) (Mail.history b) (by simp [Mail.historyOf, Mail.history, h1]) ?_ ?_
    · intro e he
      obtain ⟨x, hx, rfl⟩ := List.mem_map.1 he
      obtain ⟨t, o, r⟩ := x
      have := h2 _ hx
      cases o <;> simp_all [sendsTo]
    · intro e he
      have hin : e ∈ Mail.historyOf ls := by
        simp only [Mail.historyOf, Mail.history, h1, List.map_append, List.mem_append]
        exact Or.inr he
      rw [hc e hin, Bool.or_false, Bool.eq_false_iff]
      intro hsub
      obtain ⟨s, hs, -⟩ := Mail.subscribes_iff.1 hsub
      have ho := sub_op hr e hin s hs
      obtain ⟨x, hx, rfl⟩ := List.mem_map.1 he
      exact h3 x hx ho
  rw [← hsent, ← hm]
  congr 1
  have hsub : (received i (Mail.historyOf ls)).Sublist (receivedEver i (Mail.historyOf ls)) := by
    unfold received receivedEver sinceFresh since
    refine List.Sublist.filterMap _ ?_
    have := (List.takeWhile_sublist (fun e => !(Subscribes i e || Clears i e))
      (l := (Mail.historyOf ls).reverse)).reverse
    rwa [List.reverse_reverse] at this
  refine (hsub.eq_of_length_le ?_).symm
  have ho := (k.order i).length_le
  change _ ≤ (meantFor i (Mail.historyOf ls)).length at ho
  rw [← hsent, ← hm, hw] at ho
  simp only [Option.getD_some, List.length_append] at ho
  omega

/-- C64.  `n` threads follow the protocol (and nobody reaches a deadline).  Then for every subscriber that has not
unsubscribed or cleared its mailbox, the messages received followed by the messages waiting are all the messages ever
sent (without those sent with its own subscription), each once, in the order of sending. -/
theorem C64_all_messages (n : Nat) (hn : n < 2 ^ 32) (this : Mail.Addr) (name : Str)
    (ls : List (Label Nat (Mail.Op P) (Mail.Resp P))) (evs : List (Bar.Ev (Fin n)))
    (mc : Conf Nat (Mail.Box P) (Mail.Op P) (Mail.Resp P)) (bc : Bar.Conf (Fin n))
    (h : Exec n this name ls evs mc bc) (hd : NoDeadline evs)
    (hnorm : ∀ e ∈ completed ls, e.2.2.Normal) (hfree : mc.holder = none) (i : Int)
    (hl : Live i (Mail.historyOf ls)) (hc : ∀ e ∈ Mail.historyOf ls, Clears i e = false) :
    ∃ q, mapFind intLess i mc.shared.queues = some q ∧
      receivedEver i (Mail.historyOf ls) ++ q.filterMap id = meantFor i (Mail.historyOf ls) := by
  have hcon : Mail.Concurrent this name ls mc := ⟨h.mailSteps, hnorm⟩
  obtain ⟨b0, hr, hb⟩ := Mail.sequential hcon
  obtain ⟨q, hq, -⟩ := Mail.C40_delivery this name ls mc hcon hfree i hl
  exact ⟨q, hq, all_messages hn h hd hr (by rw [← hb hfree]; exact hq) hc⟩

/-- If nobody names a sender, everybody gets everything: the messages received and waiting are all messages sent. -/
theorem C64_echo (n : Nat) (hn : n < 2 ^ 32) (this : Mail.Addr) (name : Str)
    (ls : List (Label Nat (Mail.Op P) (Mail.Resp P))) (evs : List (Bar.Ev (Fin n)))
    (mc : Conf Nat (Mail.Box P) (Mail.Op P) (Mail.Resp P)) (bc : Bar.Conf (Fin n))
    (h : Exec n this name ls evs mc bc) (hd : NoDeadline evs)
    (hnorm : ∀ e ∈ completed ls, e.2.2.Normal) (hfree : mc.holder = none) (i : Int)
    (hl : Live i (Mail.historyOf ls)) (hc : ∀ e ∈ Mail.historyOf ls, Clears i e = false)
    (hs : ∀ e ∈ Mail.historyOf ls, ∀ m s, e.op ≠ .put m (some s)) :
    ∃ q, mapFind intLess i mc.shared.queues = some q ∧
      receivedEver i (Mail.historyOf ls) ++ q.filterMap id = sentLog (Mail.historyOf ls) := by
  obtain ⟨q, h1, h2⟩ := C64_all_messages n hn this name ls evs mc bc h hd hnorm hfree i hl hc
  refine ⟨q, h1, h2.trans ?_⟩
  refine List.filterMap_congr ?_
  intro e he
  obtain ⟨t, o, r⟩ := e
  cases o with
  | put m s =>
    cases s with
    | none => cases m <;> cases r <;> rfl
    | some s => exact absurd rfl (hs _ he m s)
  | _ => rfl

/-! ### A concrete execution -/

theorem mailStep_exec {n : Nat} {this : Mail.Addr} {name : Str} {s s' : State n P} {t : Nat}
    (h : Exec n this name s.ls s.evs s.mc s.bc) (hs : s.mailStep this t = some s') :
    Exec n this name s'.ls s'.evs s'.mc s'.bc := by
  unfold State.mailStep at hs
  split at hs
  · simp at hs
  · next o hp =>
    split at hs
    · next hf => cases hs; exact .mail h (.lock hp hf) (by simp)
    · simp at hs
  · next hp => cases hs; exact .mail h (.act hp) (by simp)
  · next hp => cases hs; exact .mail h (.unlock hp) (by simp)
  · next hp => cases hs; exact .mail h (.ret hp) (by simp)

theorem idle_iff {n : Nat} {s : State n P} {t : Nat} : s.idle t = true ↔ s.mc.phase t = .idle := by
  unfold State.idle; split <;> simp_all

theorem choose_exec {n : Nat} {this : Mail.Addr} {name : Str} {s s' : State n P} {x : Choice n P}
    (h : Exec n this name s.ls s.evs s.mc s.bc) (hs : s.choose this x = some s') :
    Exec n this name s'.ls s'.evs s'.mc s'.bc := by
  cases x with
  | call t o =>
    simp only [State.choose] at hs
    split at hs
    · next hg =>
      cases hs
      refine .mail h (.call (idle_iff.1 hg.1)) ?_
      intro t' o' he
      injection he with h1 h2
      subst h1; subst h2
      exact ⟨t, rfl, hg.2⟩
    · simp at hs
  | mail t => exact mailStep_exec h hs
  | bar t m =>
    simp only [State.choose] at hs
    split at hs
    · simp at hs
    · next hg =>
      split at hs
      · simp at hs
      · next hb =>
        cases hs
        refine .bar h hb ?_
        intro hm
        refine idle_iff.1 ?_
        cases hi : s.idle t.val
        · exact absurd ⟨hm, hi⟩ hg
        · exact hi

theorem runAll_exec {n : Nat} {this : Mail.Addr} {name : Str} (xs : List (Choice n P)) :
    ∀ {s s' : State n P}, Exec n this name s.ls s.evs s.mc s.bc → runAll this xs s = some s' →
      Exec n this name s'.ls s'.evs s'.mc s'.bc := by
  induction xs with
  | nil => intro s s' h hs; cases hs; exact h
  | cons x xs ih =>
    intro s s' h hs
    simp only [runAll] at hs
    cases hx : s.choose this x with
    | none => rw [hx] at hs; simp at hs
    | some s1 => rw [hx] at hs; exact ih (choose_exec h hx) hs

/-- A call on the mailbox from beginning to end: `k` steps after the call. -/
def whole {n : Nat} (t : Fin n) (o : Mail.Op Nat) (k : Nat) : List (Choice n Nat) :=
  .call t o :: List.replicate k (.mail t)

/-- Thread `t` executes `k` statements of the barrier. -/
def barGo {n : Nat} (t : Fin n) (k : Nat) : List (Choice n Nat) := List.replicate k (.bar t .go)

/-- Two threads: 0 subscribes and waits; 1 subscribes, waits and passes, and sends 10 while 0 is still inside `wait`;
then 0 returns, sends 20 (with its own subscription as the sender), and gets a message. -/
def sampleSchedule : List (Choice 2 Nat) :=
  whole 0 .subscribe 6 ++ [.bar 0 .call] ++ barGo 0 5 ++ whole 1 .subscribe 6 ++ [.bar 1 .call] ++ barGo 1 9 ++
  whole 1 (.put (some 10) none) 7 ++ barGo 0 4 ++ whole 0 (.put (some 20) (some ⟨5, 0⟩)) 6 ++
  whole 0 (.get (some ⟨5, 0⟩)) 5

/-- The hypotheses of C64 are met by it, for both subscribers; 0 has received 10, and 10 and 20 wait for 1. -/
example : ∃ s : State 2 Nat, runAll 5 sampleSchedule (State.new 2 "m".toList) = some s ∧
    Exec 2 5 "m".toList s.ls s.evs s.mc s.bc ∧ NoDeadline s.evs ∧
    (∀ e ∈ completed s.ls, e.2.2.Normal) ∧ s.mc.holder = none ∧
    (∀ i ∈ ([0, 1] : List Int), Live i (Mail.historyOf s.ls) ∧ ∀ e ∈ Mail.historyOf s.ls, Clears i e = false) ∧
    receivedEver 0 (Mail.historyOf s.ls) = [10] ∧ meantFor 0 (Mail.historyOf s.ls) = [10] ∧
    receivedEver 1 (Mail.historyOf s.ls) = [] ∧ meantFor 1 (Mail.historyOf s.ls) = [10, 20] ∧
    s.mc.shared.queues = [(0, []), (1, [some 10, some 20])] := by
  refine ⟨_, rfl, runAll_exec sampleSchedule (s := State.new 2 "m".toList) .init rfl, ?_, ?_, rfl, ?_, by decide, by decide,
    by decide, by decide, by decide⟩
  · unfold NoDeadline; decide
  · intro e he
    have : e ∈ [(0, Mail.Op.subscribe, Mail.Resp.sub ⟨5, 0⟩), (1, .subscribe, .sub ⟨5, 1⟩),
      (1, .put (some 10) none, .done), (0, .put (some 20) (some ⟨5, 0⟩), .done),
      (0, .get (some ⟨5, 0⟩), .msg (some 10))] := he
    simp only [List.mem_cons, List.not_mem_nil, or_false] at this
    rcases this with rfl | rfl | rfl | rfl | rfl <;> trivial
  · intro i hi
    simp only [List.mem_cons, List.not_mem_nil, or_false] at hi
    rcases hi with rfl | rfl <;> exact ⟨⟨by decide, by decide⟩, by decide⟩

/-- The barrier is needed: without it thread 0 may send before thread 1 has subscribed, and subscriber 1 is never
given the message. -/
theorem C64_barrier_needed : ∃ (ls : List (Label Nat (Mail.Op Nat) (Mail.Resp Nat))) (c : _),
    Mail.Concurrent 5 "m".toList ls c ∧ c.holder = none ∧ Live 1 (Mail.historyOf ls) ∧
    (∀ e ∈ Mail.historyOf ls, Clears 1 e = false) ∧ meantFor 1 (Mail.historyOf ls) = [10] ∧
    receivedEver 1 (Mail.historyOf ls) = [] ∧ mapFind intLess 1 c.shared.queues = some [] := by
  have r1 : Mail.Run 5 (Mail.Box.new "m".toList : Mail.Box Nat) _ _ :=
    .snoc (t := 0) (o := .subscribe) .nil rfl trivial
  have r2 := Mail.Run.snoc (t := 0) (o := .put (some 10) none) r1 rfl trivial
  have r3 := Mail.Run.snoc (t := 1) (o := .subscribe) r2 rfl trivial
  obtain ⟨ls, c, h1, h2, h3, h4⟩ := Mail.realisable r3
  refine ⟨ls, c, h1, h4, ?_, ?_, ?_, ?_, ?_⟩
  · rw [h2]; exact ⟨by decide, by decide⟩
  · rw [h2]; decide
  · rw [h2]; decide
  · rw [h2]; decide
  · rw [h3]; decide

end SoDa.Session
