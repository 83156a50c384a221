import Verif.Proof.CTest
import Verif.Props.BarrierLate
/-!
Property C95: what CTest concludes from the test programs of the barrier and the mailbox.
-/
namespace SoDa.BarTest
open Bar Spec CTest

variable {p : Params} {ls : List (Option (Ev (Fin p.n)))} {o : OSt p.n}

/-- When the program has ended, the words that CTest looks for are in its output exactly if a thread has caught an exception,
however the outputs of the threads are interleaved. -/
theorem C95_words (h : OExec p ls o) (c : Int) (he : o.Ended c) :
    (∃ a b, o.text = a ++ "Ooops, dang!".toList ++ b) ↔ ∃ t, o.prog.loc t = .caught := by
  have inv := oinv_exec h
  rw [← found_iff, text_found inv]
  constructor
  · exact inv.only
  · rintro ⟨t, ht⟩
    obtain ⟨e, pre, h1, h2⟩ := inv.left t ht
    apply h2
    rintro rfl
    rw [inv.exited c he.1 t] at h1
    obtain ⟨x, hx, -⟩ := caughtText_eq e
    rw [hx] at h1
    cases h1

/-- FastBarrierTest passes exactly if no thread has caught an exception. -/
theorem C95_fast (h : OExec p ls o) (c : Int) (he : o.Ended c) :
    fastBarrierTest.passes o.text c = true ↔ ∀ t, o.prog.loc t ≠ .caught := by
  have hc : c = 0 := (C90_exit_code (oinv_exec h).exec c he.1).1
  have hw := C95_words h c he
  rw [← found_iff] at hw
  simp only [Test.passes, fastBarrierTest, hc, beq_self_eq_true, Bool.true_and, Bool.not_eq_true', Bool.eq_false_iff, ne_eq, hw]
  simp

/-- FastBarrierTest_should_timeout passes exactly if one has. -/
theorem C95_should_timeout (h : OExec p ls o) (c : Int) (he : o.Ended c) :
    shouldTimeout.passes o.text c = true ↔ ∃ t, o.prog.loc t = .caught := by
  have hw := C95_words h c he
  rw [← found_iff] at hw
  simpa [Test.passes, shouldTimeout] using hw

/-- If FastBarrierTest fails, then a deadline has passed while a thread was missing at the barrier. -/
theorem C95_fast_fails (hr : p.threads ≤ 2147483647) (h : OExec p ls o) (c : Int) (he : o.Ended c)
    (hf : fastBarrierTest.passes o.text c = false) :
    ∃ pre d post u, events ls = pre ++ .deadline d :: post ∧ entered u pre < entered d pre := by
  by_contra hno
  have hd : Complete (events ls) := by
    intro pre d post he' u
    by_contra hu
    exact hno ⟨pre, d, post, u, he', by omega⟩
  have := (C95_fast h c he).2 (C91_barrier_test hr (oinv_exec h).exec hd).1
  rw [hf] at this
  cases this

theorem write_all (w : Option (Fin p.n)) : ∀ (k : Nat) (o : OSt p.n), (o.pend w).length = k → OExec p ls o →
    ∃ o', OExec p ls o' ∧ o'.prog = o.prog ∧ o'.pend w = [] ∧ ∀ v, v ≠ w → o'.pend v = o.pend v := by
  intro k
  induction k with
  | zero => intro o hk h; exact ⟨o, h, rfl, List.length_eq_zero_iff.1 hk, fun _ _ => rfl⟩
  | succ k ih =>
    intro o hk h
    cases hp : o.pend w with
    | nil => rw [hp] at hk; cases hk
    | cons c cs =>
      have h1 := OExec.snoc h (.write hp)
      simp only [Option.toList, List.append_nil] at h1
      rw [hp] at hk
      obtain ⟨o', h2, h3, h4, h5⟩ := ih _ (by simpa [setPend] using hk) h1
      refine ⟨o', h2, h3, h4, fun v hv => ?_⟩
      rw [h5 v hv]
      simp [setPend, hv]

/-- The output changes nothing else: every execution is one with output, and everything can always be written. -/
theorem C95_conservative {s : St p.n} (h : Exec p ls s) : ∃ o, OExec p ls o ∧ o.prog = s ∧ ∀ w, o.pend w = [] := by
  induction h with
  | init =>
    obtain ⟨o, h1, h2, h3, h4⟩ := write_all none _ (OSt.start p) rfl OExec.init
    refine ⟨o, h1, h2, fun w => ?_⟩
    cases w with
    | none => exact h3
    | some t => rw [h4 _ (by simp)]; rfl
  | @snoc ls s l s' h hs ih =>
    obtain ⟨o, h1, rfl, h3⟩ := ih
    by_cases hm : s'.main = o.prog.main
    · have h4 := OExec.snoc h1 (.thread hs hm)
      simp only [Option.toList] at h4
      have key : ∃ w, ∀ v, v ≠ w → pendAfter o.pend l v = [] := by
        cases l with
        | none => exact ⟨none, fun v _ => h3 v⟩
        | some e =>
          cases e
          case raise t x => exact ⟨some t, fun v hv => by simp [pendAfter, setPend, hv, h3 v]⟩
          all_goals exact ⟨none, fun v _ => h3 v⟩
      obtain ⟨w, hw⟩ := key
      obtain ⟨o', h5, h6, h7, h8⟩ := write_all w _ _ rfl h4
      refine ⟨o', h5, h6, fun v => ?_⟩
      by_cases hv : v = w
      · rw [hv]; exact h7
      · rw [h8 v hv]; exact hw v hv
    · have hl : l = none := by
        cases hs <;> first | rfl | exact absurd rfl hm
      subst hl
      have h4 := OExec.snoc h1 (.main hs hm (h3 none) fun t _ => h3 (some t))
      simp only [Option.toList] at h4
      obtain ⟨o', h5, h6, h7, h8⟩ := write_all none _ _ rfl h4
      refine ⟨o', h5, h6, fun v => ?_⟩
      by_cases hv : v = none
      · rw [hv]; exact h7
      · rw [h8 v hv]; simp [setPend, hv, h3 v]

theorem caught_step {s s' : St p.n} {l} (h : Exec p ls s) (hs : Step p s l s') (u : Fin p.n) (hu : s.loc u = .caught) :
    s'.loc u = .caught := by
  cases hs with
  | @spawn i hm hi =>
    have hne : u ≠ ⟨i, hi⟩ := by
      rintro rfl
      have := ((inv_exec h).spawn i hm).2 ⟨i, hi⟩
      simp [hu] at this
    simpa [set, hne] using hu
  | spawned => exact hu
  | join => exact hu
  | exit => exact hu
  | @leave t i hl h' =>
    have hne : u ≠ t := by rintro rfl; rw [hl] at hu; cases hu
    simpa [set, hne] using hu
  | @bar t m b e hst hc =>
    by_cases hr : ∃ u x, e = .raise u x
    · obtain ⟨v, x, rfl⟩ := hr
      simp only [afterBar, set]
      split
      · next h => subst h; rw [hu]; rfl
      · exact hu
    · exact (caught_other _ _ (fun t x h => hr ⟨t, x, h⟩) u).2 hu

/-- Every execution can be completed. -/
theorem finish (hp : p.Sound) (hr : -2147483648 ≤ p.maxDuration ∧ p.maxDuration ≤ 2147483647) (b : Bool) :
    ∀ (k : Nat) (ls : List (Option (Ev (Fin p.n)))) (s : St p.n), Exec p ls s → spuriousCount (events ls) = 0 →
      (b = false → NoDeadline (events ls)) →
      (8 * p.n + 19) * (p.n * p.trials.toNat) + (3 * p.n + 2) - ls.length = k →
      ∃ ls' s' c, Exec p ls' s' ∧ s'.main = .exited c ∧ (b = false → NoDeadline (events ls')) ∧
        ∀ u, s.loc u = .caught → s'.loc u = .caught := by
  intro k
  induction k using Nat.strong_induction_on with
  | _ k ih =>
    intro ls s h hsp hd hk
    by_cases hm : ∃ c, s.main = .exited c
    · obtain ⟨c, hm⟩ := hm
      exact ⟨ls, s, c, h, hm, hd, fun _ hu => hu⟩
    · have hgo := C90_goes_on hp hr h (fun c hc => hm ⟨c, hc⟩)
      obtain ⟨l, s', hst, hl⟩ : ∃ l s', Step p s l s' ∧ Proper b l := by
        cases b with
        | true => exact hgo.1
        | false => exact hgo.2 (hd rfl)
      have h' := h.snoc hst
      have hsp' : spuriousCount (events (ls ++ [l])) = 0 := by
        rw [events_snoc]
        cases l with
        | none => simpa using hsp
        | some e => cases e <;> simp_all [spuriousCount, Proper]
      have hd' : b = false → NoDeadline (events (ls ++ [l])) := by
        rintro rfl t
        have := hd rfl t
        rw [events_snoc]
        cases l with
        | none => simpa using this
        | some e => cases e <;> simp_all [Proper]
      have hb := (C90_bounded h').2
      rw [hsp'] at hb
      simp only [List.length_append, List.length_singleton] at hb
      obtain ⟨ls', s'', c, h1, h2, h3, h4⟩ := ih ((8 * p.n + 19) * (p.n * p.trials.toNat) + (3 * p.n + 2) -
        (ls ++ [l]).length) (by simp only [List.length_append, List.length_singleton]; omega) (ls ++ [l]) s' h' hsp' hd' rfl
      exact ⟨ls', s'', c, h1, h2, h3, fun u hu => h4 u (caught_step h hst u hu)⟩

/-- The timing decides: whatever the parameters, there is an execution in which no thread gets a timeout. -/
theorem C95_may_pass (hp : p.Sound) (hr : -2147483648 ≤ p.maxDuration ∧ p.maxDuration ≤ 2147483647) :
    ∃ ls, ∃ o : OSt p.n, OExec p ls o ∧ o.Ended 0 ∧ NoDeadline (events ls) ∧ fastBarrierTest.passes o.text 0 = true ∧
      shouldTimeout.passes o.text 0 = false := by
  obtain ⟨ls, s, c, h1, h2, h3, -⟩ := finish hp hr false _ [] _ Exec.init rfl (fun _ t h => by simp [events] at h) rfl
  obtain rfl := (C90_exit_code h1 c h2).1
  obtain ⟨o, h5, rfl, h7⟩ := C95_conservative h1
  have he : o.Ended 0 := ⟨h2, h7 none⟩
  have hn : ∀ t, o.prog.loc t ≠ .caught := C90_no_exception h1 (h3 rfl)
  refine ⟨ls, o, h5, he, h3 rfl, (C95_fast h5 0 he).2 hn, ?_⟩
  rw [Bool.eq_false_iff]
  intro hf
  obtain ⟨t, ht⟩ := (C95_should_timeout h5 0 he).1 hf
  exact hn t ht

theorem sched_exec : ∀ (sched : List (Fin p.n × Move)) (ls : List (Option (Ev (Fin p.n)))) (s : St p.n) (evs₀ evs) (c),
    (∀ x ∈ sched, x.2 ≠ .call) → Exec p ls s → runSched p.n sched (s.bar, evs₀) = some (c, evs) →
    ∃ es, evs = evs₀ ++ es ∧ Exec p (ls ++ es.map some) { s with bar := c, loc := es.foldl afterBar s.loc } := by
  intro sched
  induction sched with
  | nil =>
    intro ls s evs₀ evs c _ h hr
    simp only [runSched, Option.some.injEq, Prod.mk.injEq] at hr
    obtain ⟨rfl, rfl⟩ := hr
    exact ⟨[], by simp, by simpa using h⟩
  | cons x rest ih =>
    obtain ⟨t, m⟩ := x
    intro ls s evs₀ evs c hc h hr
    simp only [runSched] at hr
    cases hst : Bar.step p.n s.bar t m with
    | none => rw [hst] at hr; cases hr
    | some r =>
      obtain ⟨b, e⟩ := r
      rw [hst] at hr
      have h1 := h.snoc (Step.bar hst fun hm => absurd hm (hc (t, m) (by simp)))
      obtain ⟨es, h2, h3⟩ := ih _ _ _ _ _ (fun x hx => hc x (by simp [hx])) h1 hr
      refine ⟨e :: es, by rw [h2]; simp, ?_⟩
      simpa using h3

/-- And if there are at least two threads and a trial, there is one in which one does. -/
theorem C95_may_time_out (hp : p.Sound) (hr : -2147483648 ≤ p.maxDuration ∧ p.maxDuration ≤ 2147483647) (ht : 2 ≤ p.threads)
    (hi : 1 ≤ p.trials) :
    ∃ ls, ∃ o : OSt p.n, OExec p ls o ∧ o.Ended 0 ∧ fastBarrierTest.passes o.text 0 = false ∧
      shouldTimeout.passes o.text 0 = true := by
  have hn : 2 ≤ p.n := by unfold Params.n; omega
  let t : Fin p.n := ⟨0, by omega⟩
  have hb : p.begin 0 = .loop 0 := by
    have h1 := (begin_undef p hr 0).not.2 (by have := hp.1; omega)
    unfold Params.begin at h1 ⊢
    dsimp only at h1 ⊢
    split
    · next h => rw [if_pos h] at h1; exact absurd rfl h1
    · next h =>
      rw [if_neg h] at h1
      split
      · next h => rw [if_pos h] at h1; exact absurd rfl h1
      · rfl
  have e1 := Exec.init.snoc (Step.spawn (p := p) (s := St.start p.n) (i := 0) rfl (by omega))
  have e2 := e1.snoc (Step.bar (t := t) (m := .call) (b := Conf.init.goto t .start) (e := .call t) (by
    simp [Bar.step, St.start, Conf.init]) (fun _ => ⟨0, by simp [set, t, hb], by omega⟩))
  have e3 : ∃ c, runSched p.n (List.replicate 5 (t, .go) ++ [(t, .deadline)] ++ List.replicate 8 (t, .go))
      (Conf.init.goto t .start, []) = some (c, [.tau t, .tau t, .arrive t true, .tau t, .tau t, .deadline t, .tau t, .tau t,
        .tau t, .tau t, .tau t, .tau t, .tau t, .raise t .timeout]) := by
    have h1 : 1 ≠ p.n := by omega
    simp [runSched, List.replicate, Bar.step, stepGo, Conf.goto, Conf.init, Conf.wakeAll, h1]
  obtain ⟨c, e3⟩ := e3
  obtain ⟨es, h1, e4⟩ := sched_exec _ _ _ _ _ _ (by simp) e2 e3
  simp only [List.nil_append] at h1
  subst h1
  obtain ⟨ls, s, c, h1, h2, -, h4⟩ := finish hp hr true _ _ _ e4 (by rfl) (by simp) rfl
  obtain rfl := (C90_exit_code h1 c h2).1
  obtain ⟨o, h5, rfl, h7⟩ := C95_conservative h1
  have he : o.Ended 0 := ⟨h2, h7 none⟩
  have hc : o.prog.loc t = .caught := h4 t (by simp [afterBar, set, t, hb, Loc.enter, Loc.after])
  refine ⟨ls, o, h5, he, ?_, (C95_should_timeout h5 0 he).2 ⟨t, hc⟩⟩
  rw [Bool.eq_false_iff]
  exact fun hf => (C95_fast h5 0 he).1 hf t hc

/-- With the parameters of FastBarrierTest, both outcomes are possible. -/
example : ∃ ls ls', ∃ o o' : OSt (⟨100000, 20, 35⟩ : Params).n, OExec ⟨100000, 20, 35⟩ ls o ∧ OExec ⟨100000, 20, 35⟩ ls' o' ∧
    fastBarrierTest.passes o.text 0 = true ∧ fastBarrierTest.passes o'.text 0 = false := by
  have hp : (⟨100000, 20, 35⟩ : Params).Sound := ⟨by decide, by decide⟩
  obtain ⟨ls, o, h1, -, -, h2, -⟩ := C95_may_pass hp (by decide)
  obtain ⟨ls', o', h3, -, h4, -⟩ := C95_may_time_out hp (by decide) (by decide) (by decide)
  exact ⟨ls, ls', o, o', h1, h3, h2, h4⟩

/-- The command lines of test/CMakeLists.txt:38 and 43. -/
theorem C95_barrier_arguments (sc : Nat → Opts.Val) (vec : Nat → List Opts.Val) (prog : Str) :
    mainParams sc vec (prog :: ["--maddur", "35", "--threads", "20", "--trials", "100000"].map String.toList) =
      .ok (some ⟨100000, 20, 35⟩) ∧
    mainParams sc vec (prog :: ["--maddur", "1001000", "--threads", "10", "--trials", "100"].map String.toList) =
      .ok (some ⟨100, 10, 1001000⟩) := by
  constructor
  · exact C90_arguments sc vec prog [⟨2, false, "35".toList, 35⟩, ⟨1, false, "20".toList, 20⟩,
      ⟨0, false, "100000".toList, 100000⟩] (by
        intro a ha; simp only [List.mem_cons, List.not_mem_nil, or_false] at ha
        rcases ha with rfl | rfl | rfl
        · exact ⟨Opts.begins_showInt 35, by decide, by decide⟩
        · exact ⟨Opts.begins_showInt 20, by decide, by decide⟩
        · exact ⟨Opts.begins_showInt 100000, by decide, by decide⟩)
  · exact C90_arguments sc vec prog [⟨2, false, "1001000".toList, 1001000⟩, ⟨1, false, "10".toList, 10⟩,
      ⟨0, false, "100".toList, 100⟩] (by
        intro a ha; simp only [List.mem_cons, List.not_mem_nil, or_false] at ha
        rcases ha with rfl | rfl | rfl
        · exact ⟨Opts.begins_showInt 1001000, by decide, by decide⟩
        · exact ⟨Opts.begins_showInt 10, by decide, by decide⟩
        · exact ⟨Opts.begins_showInt 100, by decide, by decide⟩)

end SoDa.BarTest

namespace SoDa.MailTest
open Monitor Spec Bar CTest

variable {p : Params} {this : Mail.Addr} {name : Str} {ls : List (Label Nat (Mail.Op Msg) (Mail.Resp Msg))}
  {evs : List (Bar.Ev (Fin p.threads))} {mc : Monitor.Conf Nat (Mail.Box Msg) (Mail.Op Msg) (Mail.Resp Msg)}
  {bc : Bar.Conf (Fin p.threads)} {loc : Fin p.threads → Loc}

/-- No thread of the mailbox test ever writes anything: neither when it compares the sums nor when it looks for extra
messages. -/
theorem C95_mailbox_silent (hf : p.Fits) (h : Exec p this name ls evs mc bc loc) (hd : NoDeadline evs) :
    (∀ (t : Fin p.threads) l, mc.phase t.val = .idle → (loc t).silent p = some l → speaks (loc t) l = false) ∧
    ∀ l mc', Monitor.Step (Mail.body this) mc l mc' →
      (∀ t op, l = .call t op → ∃ u : Fin p.threads, u.val = t ∧ (loc u).op p t = some op) →
      ∀ t, speaks (loc t) (afterMail loc l t) = false := by
  constructor
  · intro t l hi hs
    have h' := C87_returns_zero hf (From.silent t h hi hs) hd t
    simp only [setLoc, if_true] at h'
    rw [Bool.eq_false_iff]
    intro hsp
    cases hl : loc t <;> rw [hl] at hs hsp <;> simp only [Loc.silent] at hs <;> try cases hs
    · split at hs
      · split at hs <;> simp at hs <;> subst hs <;> simp [speaks] at hsp
      · simp at hs; subst hs; simp [speaks] at hsp
    · split at hs
      · cases hs
      · split at hs
        · simp at hs
          have := h'.2.2 _ _ hs.symm
          simp at this
        · simp at hs; subst hs; simp [speaks] at hsp
  · intro l mc' hs hok t
    have h' := C87_returns_zero hf (From.mail h hs hok) hd t
    rw [Bool.eq_false_iff]
    intro hsp
    cases l with
    | ret u op r =>
      simp only [afterMail, setLoc] at h' hsp
      split at hsp
      · next hu =>
        rw [if_pos hu] at h'
        cases hl : loc t <;> rw [hl] at h' hsp <;> cases r <;> simp only [Loc.after, speaks] at hsp <;> try cases hsp
        case extra.msg s m =>
          cases m with
          | none => simp at hsp
          | some m =>
            have := h'.2.2 s (-1) rfl
            simp at this
        case recv.msg s tr i sum m => cases m <;> simp at hsp
      · cases hl : loc t <;> rw [hl] at hsp <;> simp [speaks] at hsp
    | _ => simp only [afterMail] at hsp; cases hl : loc t <;> rw [hl] at hsp <;> simp [speaks] at hsp

theorem no_subscriber (threads : Int) : found "subscriber".toList (mainText threads) = false := by
  refine found_char (c := 'u') (by decide) ?_
  intro h
  simp only [mainText, spawning, List.mem_append] at h
  rcases h with ((((h | h) | h) | ((h | h) | h)) | h) | h
  · revert h; decide +kernel
  · revert h; decide
  · revert h; decide
  · revert h; decide
  · rcases mem_showInt _ _ h with h | h
    · revert h; decide
    · revert h; decide
  · revert h; decide
  · revert h; decide +kernel
  · revert h; decide

/-- When the threads have returned, no message is in the mailbox; so none exists any more, the exit code is 0, and CTest says that the test
has passed. -/
theorem C95_mailbox_pass (hf : p.Fits) (h : Exec p this name ls evs mc bc loc) (hd : NoDeadline evs)
    (hdone : ∀ t, ∃ c, loc t = .done c) :
    conversionTest.2 = none ∧ inMailbox mc.shared = 0 ∧
      ∀ active ≤ inMailbox mc.shared, mailBoxTest.passes (mainText p.threads) (exitCode active) = true := by
  have h0 : inMailbox mc.shared = 0 := by rw [inMailbox, C87_empty hf h hd hdone]; rfl
  refine ⟨by decide +kernel, h0, fun active ha => ?_⟩
  obtain rfl : active = 0 := by omega
  simp only [Test.passes, mailBoxTest, exitCode, no_subscriber]
  decide

/-- A text with the word is noticed: the message of a thread that got a wrong sum or an extra message begins with it. -/
example : mailBoxTest.passes "test 2\nsubscriber 3 got extra message".toList 0 = false := by decide +kernel

/-- The command lines of test/CMakeLists.txt:50 and 55, and that the products of the numbers fit an `int`. -/
theorem C95_mailbox_arguments (sc : Nat → Opts.Val) (vec : Nat → List Opts.Val) (echo : Bool) :
    (∃ o, (cmd sc vec).parseArgv (["MailBoxTest", "-m", "500", "-t", "20", "-r", "100"].map String.toList ++
        if echo then [] else ["--noecho".toList]) = .ok (o, true) ∧
      o.sc 0 = .int 500 ∧ o.sc 1 = .int 20 ∧ o.sc 2 = .int 100 ∧ o.sc 3 = .bool (!echo)) ∧
    (⟨20, 500, 100, !echo⟩ : Params).Fits := by
  cases echo <;> exact ⟨⟨_, rfl, rfl, rfl, rfl, rfl⟩, by decide, by decide, by decide⟩

/-- In these tests, any of the four: the word in the output or a message that still exists makes the test fail. -/
theorem C95_mailbox_verdict (out : Str) (active : Nat) :
    mailBoxTest.passes out (exitCode active) = true ↔ active = 0 ∧ ¬ ∃ a b, out = a ++ "subscriber".toList ++ b := by
  rw [← found_iff]
  simp only [Test.passes, mailBoxTest, exitCode]
  by_cases h : active = 0
  · simp [h]
  · rw [if_pos (by omega)]
    simp [h]

theorem sum_template : Spec.template ("subscriber %0 got all %1 expected messages sum was %2 (should have been %4) sender sum was " ++
      "%3\n").toList =
    ("subscriber ".toList.map Spec.Item.chr) ++ [.hole 0] ++ (" got all ".toList.map Spec.Item.chr) ++ [.hole 1] ++
    (" expected messages sum was ".toList.map Spec.Item.chr) ++ [.hole 2] ++ (" (should have been ".toList.map Spec.Item.chr) ++
    [.hole 4] ++ (") sender sum was ".toList.map Spec.Item.chr) ++ [.hole 3] ++ ("\n".toList.map Spec.Item.chr) := by
  decide +kernel

theorem extra_template : Spec.template "subscriber %0 got extra message from subscriber %1 : %2\n".toList =
    ("subscriber ".toList.map Spec.Item.chr) ++ [.hole 0] ++ (" got extra message from subscriber ".toList.map Spec.Item.chr) ++
    [.hole 1] ++ (" : ".toList.map Spec.Item.chr) ++ [.hole 2] ++ ("\n".toList.map Spec.Item.chr) := by
  decide +kernel

/-- A thread complains exactly if the sum of the messages it got in a trial is wrong, or if there is a further message after
the trials; the complaints contain the word for which CTest looks, whatever the numbers. -/
theorem C95_mailbox_complains (p : Params) :
    (∀ s tr i sum l, p.expectedMsgs ≤ i → (Loc.recv s tr i sum).silent p = some l →
      (speaks (.recv s tr i sum) l = true ↔ sum ≠ p.expectedSum)) ∧
    (∀ s m, speaks (.extra s) ((Loc.extra s).after (.msg m)) = true ↔ m ≠ none) ∧
    (∀ me tot s1 s2 s3, sumText me tot s1 s2 s3 = "subscriber ".toList ++ showInt me ++ " got all ".toList ++ showInt tot ++
      " expected messages sum was ".toList ++ Nat.toDigits 10 s1 ++ " (should have been ".toList ++ Nat.toDigits 10 s3 ++
      ") sender sum was ".toList ++ Nat.toDigits 10 s2 ++ "\n".toList) ∧
    (∀ me v, extraText me v = "subscriber ".toList ++ showInt me ++ " got extra message from subscriber ".toList ++ showInt v ++
      " : %2\n".toList) := by
  have hti : ∀ v : Int, textI v 0 nul nul = showInt v := fun v => by simp [textI, padLeft]
  refine ⟨?_, ?_, ?_, ?_⟩
  · intro s tr i sum l hi hl
    simp only [Loc.silent] at hl
    rw [if_neg (by omega)] at hl
    split at hl
    · next h => cases hl; simp [speaks, Ne.symm h]
    · next h => cases hl; simp only [not_not] at h; simp [speaks, h]
  · intro s m
    cases m <;> simp [Loc.after, speaks]
  · intro me tot s1 s2 s3
    have htu : ∀ v : Nat, textU v 'd' 0 nul 4 = Nat.toDigits 10 v := fun v => by simp [textU, padLeft]
    have h := C05_any_history ("subscriber %0 got all %1 expected messages sum was %2 (should have been %4) sender sum was " ++
      "%3\n").toList [.addI me 0 nul nul, .addI tot 0 nul nul, .addU s1 'd' 0 nul 4, .addU s2 'd' 0 nul 4, .addU s3 'd' 0 nul 4] _ rfl
    rw [sum_template] at h
    have h2 : sumText me tot s1 s2 s3 = CTest.textOf (.ok _) := congrArg CTest.textOf h
    rw [h2]
    simp only [CTest.textOf, Spec.render, List.flatMap_append, CTest.render_chr, List.flatMap_cons, List.flatMap_nil, List.append_nil]
    simp only [Spec.renderItem, textsSinceReset, Call.text, hti, htu, Option.toList, List.append_assoc, List.nil_append,
      List.cons_append, List.getElem?_cons_zero, List.getElem?_cons_succ]
  · intro me v
    have h := C05_any_history "subscriber %0 got extra message from subscriber %1 : %2\n".toList
      [.addI me 0 nul nul, .addI v 0 nul nul] _ rfl
    rw [extra_template] at h
    have h2 : extraText me v = CTest.textOf (.ok _) := congrArg CTest.textOf h
    have h3 : " : ".toList ++ ('%' :: (toString 2).toList ++ "\n".toList) = " : %2\n".toList := by decide +kernel
    rw [h2, ← h3]
    simp only [CTest.textOf, Spec.render, List.flatMap_append, CTest.render_chr, List.flatMap_cons, List.flatMap_nil, List.append_nil]
    simp only [Spec.renderItem, textsSinceReset, Call.text, hti, Option.toList, List.append_assoc, List.nil_append,
      List.cons_append, List.getElem?_cons_zero, List.getElem?_cons_succ, List.getElem?_nil]

/-! ### The command line of MailBoxTest -/

open Opts

/-- One of the four options on the command line, by its long or its short name, with a value if it has one. -/
inductive Arg where
  | num (which : Fin 3) (short : Bool) (text : Str) (value : Int)
  | noecho (short : Bool)

/-- The switch, as documented by the help text. -/
def switchOf (which : Fin 3) (short : Bool) : Str :=
  match which, short with
  | 0, false => "--msgs".toList
  | 0, true => "-m".toList
  | 1, false => "--th".toList
  | 1, true => "-t".toList
  | 2, false => "--trials".toList
  | 2, true => "-r".toList

def noechoSwitch (short : Bool) : Str := if short then "-n".toList else "--noecho".toList

def Arg.tokens : Arg → List Str
  | .num k b txt _ => [switchOf k b, txt]
  | .noecho b => [noechoSwitch b]

/-- The text is that of an `int`. -/
def Arg.Valid : Arg → Prop
  | .num _ _ txt v => BeginsWithInt txt v ∧ -2147483648 ≤ v ∧ v ≤ 2147483647
  | .noecho _ => True

def Arg.valueFor (k : Fin 3) : Arg → Option Int
  | .num j _ _ v => if j = k then some v else none
  | .noecho _ => none

/-- The value of the last of the arguments for option `k`, or its default. -/
def lastOr (k : Fin 3) (dflt : Int) (as : List Arg) : Int := (as.filterMap (Arg.valueFor k)).getLast?.getD dflt

def Arg.isNoecho : Arg → Bool
  | .noecho _ => true
  | _ => false

variable (sc : Nat → Val) (vec : Nat → List Val)

theorem cmd_ready : Ready (cmd sc vec) :=
  .addP _ _ _ _ _ _ (.addDef _ _ _ _ _ _ _ _ (.addDef _ _ _ _ _ _ _ _ (.addDef _ _ _ _ _ _ _ _ (.new _ _ _))))

/-- The declaration of option `k`. -/
def declOf (k : Fin 4) : Decl Val :=
  (cmd sc vec).decls[k.val]'(by
    have := k.isLt
    simp only [cmd, Options.addDef, Options.addP, Options.registerOpt, Options.new, List.length_append, List.length_cons,
      List.length_nil]
    omega)

def Arg.item : Arg → LineItem Val
  | .num k b txt v => .value (switchOf k b) k.val (declOf sc vec k.castSucc) txt (.int v)
  | .noecho b => .flag (noechoSwitch b) 3 (declOf sc vec 3)

theorem item_wf (a : Arg) (ha : a.Valid) : (a.item sc vec).WellFormed (cmd sc vec).decls := by
  have hw := (cmd_ready sc vec).wf
  cases a with
  | num k b txt v =>
    have hr : intTy.read txt = some (.int v) := (intTy_read_iff _ _).2 ⟨_, rfl, ha.1, ha.2.1, ha.2.2⟩
    have main : Denotes (cmd sc vec).decls (switchOf k b) k.val (declOf sc vec k.castSucc) ∧ ¬ HelpSwitch (switchOf k b) := by
      have hh : ¬ HelpSwitch (switchOf k b) :=
        not_help (by clear ha hr; revert k b; decide) (by clear ha hr; revert k b; decide)
      fin_cases k <;> cases b
      · exact ⟨.long (n := "msgs".toList) (by simp) (isLast_of_findLong hw (by rfl) rfl), hh⟩
      · exact ⟨.short (c := 'm') (r := []) (by decide) (isLast_of_findAb hw (by rfl) rfl), hh⟩
      · exact ⟨.long (n := "th".toList) (by simp) (isLast_of_findLong hw (by rfl) rfl), hh⟩
      · exact ⟨.short (c := 't') (r := []) (by decide) (isLast_of_findAb hw (by rfl) rfl), hh⟩
      · exact ⟨.long (n := "trials".toList) (by simp) (isLast_of_findLong hw (by rfl) rfl), hh⟩
      · exact ⟨.short (c := 'r') (r := []) (by decide) (isLast_of_findAb hw (by rfl) rfl), hh⟩
    have hd : (declOf sc vec k.castSucc).kind = .scalar ∧ (declOf sc vec k.castSucc).isSigned = true ∧
        (declOf sc vec k.castSucc).read = intTy.read ∧ (declOf sc vec k.castSucc).test = fun _ => true := by
      fin_cases k <;> exact ⟨rfl, rfl, rfl, rfl⟩
    exact ⟨main.1, main.2, by show (declOf sc vec k.castSucc).kind ≠ _; rw [hd.1]; simp, .inl (.inl hd.2.1),
      by show (declOf sc vec k.castSucc).read _ = _; rw [hd.2.2.1]; exact hr, by rw [hd.2.2.2]⟩
  | noecho b =>
    have hh : ¬ HelpSwitch (noechoSwitch b) := not_help (by clear ha; revert b; decide) (by clear ha; revert b; decide)
    cases b
    · exact ⟨.long (n := "noecho".toList) (by simp) (isLast_of_findLong hw (by rfl) rfl), hh, rfl⟩
    · exact ⟨.short (c := 'n') (r := []) (by decide) (isLast_of_findAb hw (by rfl) rfl), hh, rfl⟩

theorem values_items (k : Fin 3) (as : List Arg) :
    scalarValues k.val (as.map (Arg.item sc vec)) = (as.filterMap (Arg.valueFor k)).map Val.int := by
  induction as with
  | nil => rfl
  | cons a as ih =>
    cases a with
    | num j b txt v =>
      have h1 : (declOf sc vec j.castSucc).kind = .scalar := by fin_cases j <;> rfl
      have h2 : (declOf sc vec j.castSucc).target = j.val := by fin_cases j <;> rfl
      simp only [List.map_cons, Arg.item, scalarValues, h1, h2, true_and]
      by_cases hk : j = k
      · rw [if_pos (by rw [hk]), List.filterMap_cons_some (b := v) (by simp only [Arg.valueFor, if_pos hk]), List.map_cons, ← ih]; rfl
      · rw [if_neg (fun h => hk (Fin.ext h)), List.filterMap_cons_none (by simp only [Arg.valueFor, if_neg hk]), ← ih]; rfl
    | noecho b =>
      have h2 : (declOf sc vec 3).target = 3 := rfl
      simp only [List.map_cons, Arg.item, scalarValues, h2]
      rw [if_neg (by have := k.isLt; omega), List.filterMap_cons_none rfl, ← ih]; rfl

theorem flag_items (as : List Arg) :
    scalarValues 3 (as.map (Arg.item sc vec)) = (as.filter Arg.isNoecho).map fun _ => Val.bool true := by
  induction as with
  | nil => rfl
  | cons a as ih =>
    cases a with
    | num j b txt v =>
      have h2 : (declOf sc vec j.castSucc).target = j.val := by fin_cases j <;> rfl
      simp only [List.map_cons, Arg.item, scalarValues, h2]
      rw [if_neg (by have := j.isLt; omega), List.filter_cons_of_neg (by simp [Arg.isNoecho]), ← ih]; rfl
    | noecho b =>
      have h2 : (declOf sc vec 3).target = 3 := rfl
      simp only [List.map_cons, Arg.item, scalarValues, h2]
      rw [if_pos trivial, List.filter_cons_of_pos rfl, List.map_cons, ← ih]; rfl

/-- For every list of options in any order, short or long, repeated or not: the number of messages, threads and trials is the
last one given, or its default (1, 2, 1), and a thread sees its own messages exactly if `--noecho` is not given. -/
theorem C95_mailbox_options (prog : Str) (as : List Arg) (ha : ∀ a ∈ as, a.Valid) :
    ∃ o, (cmd sc vec).parseArgv (prog :: as.flatMap Arg.tokens) = .ok (o, true) ∧
      o.sc 0 = .int (lastOr 0 1 as) ∧ o.sc 1 = .int (lastOr 1 2 as) ∧ o.sc 2 = .int (lastOr 2 1 as) ∧
      o.sc 3 = .bool (as.any Arg.isNoecho) := by
  obtain ⟨o', h1, h2, -⟩ := C25_well_formed (cmd sc vec) (cmd_ready sc vec) (as.map (Arg.item sc vec)) (by
    intro it hit
    obtain ⟨a, h, rfl⟩ := List.mem_map.1 hit
    exact item_wf sc vec a (ha a h))
  have h3 : (as.map (Arg.item sc vec)).flatMap LineItem.tokens = as.flatMap Arg.tokens := by
    rw [List.flatMap_map]
    congr 1
    funext a
    cases a <;> rfl
  rw [h3] at h1
  have h5 : ∀ (k : Fin 3) (d : Int), (cmd sc vec).sc k.val = .int d → o'.sc k.val = .int (lastOr k d as) := by
    intro k d hd
    rw [h2, values_items, hd, List.getLast?_map]
    unfold lastOr
    cases (as.filterMap (Arg.valueFor k)).getLast? <;> rfl
  refine ⟨o', ?_, h5 0 1 rfl, h5 1 2 rfl, h5 2 1 rfl, ?_⟩
  · unfold Options.parseArgv tokensArgv
    have : (cmd sc vec).isKvp = false := rfl
    rw [this]
    simp only [Bool.false_eq_true, if_false]
    cases hq : as with
    | nil => rw [hq] at h1; simp only [List.flatMap_nil] at h1 ⊢; rw [← h1]; rfl
    | cons a as' =>
      rw [← hq, if_neg (by rw [hq]; cases a <;> simp [Arg.tokens]), List.drop_one, List.tail_cons, h1]
  · rw [h2, flag_items, List.getLast?_map]
    cases hq : (as.filter Arg.isNoecho).getLast? with
    | none =>
      have h : as.any Arg.isNoecho = false := by
        rw [List.getLast?_eq_none_iff, List.filter_eq_nil_iff] at hq
        rw [List.any_eq_false]
        exact hq
      rw [h]; rfl
    | some a =>
      have h : a ∈ as.filter Arg.isNoecho := List.mem_of_getLast? hq
      rw [List.mem_filter] at h
      rw [List.any_eq_true.2 ⟨a, h⟩]; rfl

/-- `MailBoxTest --th 3 -n --msgs 7 -t 4`. -/
example : ∃ o, (cmd sc vec).parseArgv (["MailBoxTest", "--th", "3", "-n", "--msgs", "7", "-t", "4"].map String.toList) = .ok (o, true) ∧
    o.sc 0 = .int 7 ∧ o.sc 1 = .int 4 ∧ o.sc 2 = .int 1 ∧ o.sc 3 = .bool true :=
  C95_mailbox_options sc vec "MailBoxTest".toList [.num 1 false "3".toList 3, .noecho true, .num 0 false "7".toList 7,
    .num 1 true "4".toList 4] (by
      intro a h
      simp only [List.mem_cons, List.not_mem_nil, or_false] at h
      rcases h with rfl | rfl | rfl | rfl
      · exact ⟨begins_showInt 3, by decide, by decide⟩
      · trivial
      · exact ⟨begins_showInt 7, by decide, by decide⟩
      · exact ⟨begins_showInt 4, by decide, by decide⟩)

end SoDa.MailTest
