import Verif.Spec.Unfair
import Verif.Props.TogetherFair
/-!
# C142  Which programs complete when mutexes are given to anybody
-/
namespace SoDa.Together
open Monitor (Label Phase Body setPhase)
open Spec

variable {β P : Type} [DecidableEq β] {n : β → Nat} {thr : (b : β) → Fin (n b) → Nat} {name : Mail.Addr → Str}
variable {st : Nat → Conf β P n} {ls : Nat → Option (Lab β P n)}

/-- If from some time on threads only proceed, then at some time nothing happens any more. -/
theorem stops (h : Endless thr name st ls) (N : Nat) (hp : ∀ i l, N ≤ i → ls i = some l → Proceeds l) : ∃ M, N ≤ M ∧ ∀ i, M ≤ i → ls i = none := by
  obtain ⟨F, G, hw⟩ := (endless_exec h N).within
  have hall : ∀ i, N ≤ i → Within F G (st i) := by
    intro i hi
    induction hi with
    | refl => exact hw
    | @step i hi ih =>
      cases hl : ls i with
      | none => rw [h.none i hl]; exact ih
      | some l => exact (left_down ih (h.some i l hl) (hp i l hi hl)).1
  have wf : WellFounded (Prod.Lex (· < · : Nat → Nat → Prop)
      (Relation.CutExpand (Down (S := Mail.Box P) (O := Mail.Addr × Mail.Op P) (R := Mail.Resp P)))) := WellFounded.prod_lex Nat.lt_wfRel.wf down_wf.cutExpand
  have : ∀ m, ∀ i, N ≤ i → left F G (st i) = m → ∃ M, i ≤ M ∧ ∀ j, M ≤ j → ls j = none := fun m => by
    induction m using wf.induction with
    | _ m ih =>
      rintro i hi rfl
      by_cases hq : ∃ j, i ≤ j ∧ ls j ≠ none
      · classical
        obtain ⟨h1, h2⟩ := Nat.find_spec hq
        have hst : st (Nat.find hq) = st i := by
          have : ∀ k, i ≤ k → k ≤ Nat.find hq → st k = st i := by
            intro k hk
            induction hk with
            | refl => intro _; rfl
            | @step k hk ih' =>
              intro hle
              have hn : ls k = none := by
                by_contra hne
                exact Nat.find_min hq hle ⟨hk, hne⟩
              rw [h.none k hn]
              exact ih' (Nat.le_of_succ_le hle)
          exact this _ h1 (Nat.le_refl _)
        obtain ⟨l, hl⟩ := Option.ne_none_iff_exists'.1 h2
        have hd := (left_down (hall i hi) (hst ▸ h.some _ l hl) (hp _ l (by omega) hl)).2
        obtain ⟨M, g1, g2⟩ := ih _ hd (Nat.find hq + 1) (by omega) rfl
        exact ⟨M, by omega, g2⟩
      · refine ⟨i, Nat.le_refl _, fun j hj => ?_⟩
        by_contra hne
        exact hq ⟨j, hj, hne⟩
  exact this _ N (Nat.le_refl _) rfl

/-- A step of a finite program is a call, a wake-up without reason, a deadline, or the thread proceeds. -/
theorem kinds {c c' : Conf β P n} {l : Lab β P n} (hs : Step thr c l c') :
    Proceeds l ∨ (∃ t x, callOf thr t l = some x) ∨ (∃ b s, l = .bar b s ∧ s.mv = .spurious) ∨ ∃ b s u, l = .bar b s ∧ s.ev = .deadline u := by
  cases hs with
  | @mail l m' hs hf =>
    cases l with
    | call t o => exact .inr (.inl ⟨t, .mail o, by simp [callOf]⟩)
    | _ => exact .inl trivial
  | @bar b u m c1 e hs hf =>
    cases m with
    | go => exact .inl rfl
    | call =>
      refine .inr (.inl ⟨thr b u, .wait b u, ?_⟩)
      rcases (bar_busy hs).2 with ⟨-, rfl, -⟩ | ⟨h, -⟩ | ⟨h, -⟩
      · simp [callOf]
      · exact absurd rfl h
      · exact absurd rfl h
    | spurious => exact .inr (.inr (.inl ⟨_, _, rfl, rfl⟩))
    | deadline =>
      refine .inr (.inr (.inr ⟨_, _, u, rfl, ?_⟩))
      simp only [Bar.step] at hs
      split at hs <;> cases hs
      rfl

/-- Programs of finitely many threads with finitely many calls that come to their barriers in a common order complete, whoever gets the mutexes:
it suffices that something happens as long as somebody can proceed (and that threads are not woken up without reason for ever). -/
theorem C142_program (h : Endless thr name st ls) (hk : KeepsGoing thr st ls) (hn : ∀ b, n b < 2 ^ 32)
    (hinj : ∀ b, Function.Injective (thr b)) (hd : ∀ b i, NoDeadline (barEvents b (firstSteps ls i))) (hsp : FewSpurious ls)
    (prog : Nat → List (ToCall β P n)) (order : List β) (K : Nat) (hK : ∀ t, K ≤ t → prog t = [])
    (ho : ∀ t, (prog t).filterMap ToCall.barrier = order.filter (uses thr t)) (hp : CallsInTurn thr prog ls) :
    ∃ i, ∀ j, i ≤ j → ∀ t, callsOf thr t (firstSteps ls j) = prog t ∧ ¬ InCall thr t (firstSteps ls j) := by
  choose m hm using calls_settle prog hp
  obtain ⟨N, hN⟩ := hsp
  have hB : ∃ B, N ≤ B ∧ ∀ t, t < K → m t ≤ B := by
    clear hK
    induction K with
    | zero => exact ⟨N, Nat.le_refl _, fun t ht => absurd ht (Nat.not_lt_zero _)⟩
    | succ K ih =>
      obtain ⟨B, h1, h2⟩ := ih
      refine ⟨max B (m K), by omega, fun t ht => ?_⟩
      rcases Nat.lt_succ_iff_lt_or_eq.1 ht with h | rfl
      · have := h2 t h; omega
      · omega
  obtain ⟨B, hB1, hB2⟩ := hB
  have hsettled : ∀ t j, B ≤ j → callsOf thr t (firstSteps ls (j + 1)) = callsOf thr t (firstSteps ls j) := by
    intro t j hj
    by_cases ht : t < K
    · have := hB2 t ht
      rw [hm t (j + 1) (by omega), hm t j (by omega)]
    · have e := hK t (by omega)
      have h1 := hp.1 t (j + 1)
      have h2 := hp.1 t j
      rw [e, List.prefix_nil] at h1 h2
      rw [h1, h2]
  obtain ⟨M, hM, hnone⟩ := stops h B fun i l hi hl => by
    rcases kinds (h.some i l hl) with g | ⟨t, x, g⟩ | ⟨b, s, rfl, g⟩ | ⟨b, s, u, rfl, g⟩
    · exact g
    · exfalso
      have := hsettled t i hi
      rw [firstSteps_succ, hl] at this
      simp [callsOf, g] at this
    · exact absurd g (hN i b s (by omega) hl)
    · exfalso
      refine hd b (i + 1) u ?_
      rw [firstSteps_succ, hl]
      simp [barEvents, atBar, g]
  have hfix : ∀ j, M ≤ j → st j = st M ∧ firstSteps ls j = firstSteps ls M := by
    intro j hj
    induction hj with
    | refl => exact ⟨rfl, rfl⟩
    | @step j hj ih => rw [h.none j (hnone j hj), firstSteps_succ, hnone j hj]; simpa using ih
  have hstill : ∀ l c', Step thr (st M) l c' → ¬ Proceeds l := fun l c' hs hpl => by
    obtain ⟨j, hj, hne⟩ := hk M l c' hs hpl
    exact hne (hnone j hj)
  have hmade : ∀ t, ¬ InCall thr t (firstSteps ls M) → callsOf thr t (firstSteps ls M) = prog t := by
    intro t ht
    by_contra hne
    obtain ⟨j, hj, hlt⟩ := hp.2 t M ht hne
    rw [(hfix j hj).2] at hlt
    omega
  have hno : ∀ t, ¬ InCall thr t (firstSteps ls M) := by
    intro t ht
    rcases C140_common_order (endless_exec h M) hn hinj (fun b => hd b M) order
      (fun t => by rw [waits_calls, ← ho t]; exact (hp.1 t M).filterMap _) t ht with ⟨l, c', hs, hpl⟩ | ⟨t', h1, h2⟩
    · exact hstill l c' hs hpl
    · exact h2 (by rw [waits_calls, hmade t' h1, ho t'])
  refine ⟨M, fun j hj t => ?_⟩
  rw [(hfix j hj).2]
  exact ⟨hmade t (hno t), hno t⟩

/-! ### Starvation -/

/-- What the second thread does: it calls `subscriberCount` of the first mailbox again and again. -/
def loopPhase (box : Mail.Box P) : Nat → Phase (Mail.Box P) (Mail.Addr × Mail.Op P) (Mail.Resp P)
  | 0 => .idle
  | 1 => .wants (0, .subscriberCount)
  | 2 => .runs (0, .subscriberCount) (Mail.body 0 .subscriberCount)
  | 3 => .runs (0, .subscriberCount) (.ret (.count box.subscriberCount))
  | _ => .leaving (0, .subscriberCount) (.count box.subscriberCount)

def loopLabel (box : Mail.Box P) : Nat → Label Nat (Mail.Addr × Mail.Op P) (Mail.Resp P)
  | 0 => .call 1 (0, .subscriberCount)
  | 1 => .lock 1
  | 2 => .act 1
  | 3 => .unlock 1 (0, .subscriberCount) (.count box.subscriberCount)
  | _ => .ret 1 (0, .subscriberCount) (.count box.subscriberCount)

def loopConf (name : Mail.Addr → Str) (r : Nat) : Conf β P n where
  mail := {
    shared := fun a => Mail.Box.new (name a)
    holder := fun a => if a = 0 ∧ (r = 2 ∨ r = 3) then some 1 else none
    phase := fun t => if t = 0 then .wants (0, .subscriberCount) else if t = 1 then loopPhase (Mail.Box.new (name 0)) r else .idle }
  bars := fun _ => Bar.Conf.init

def loopState (name : Mail.Addr → Str) : Nat → Conf β P n
  | 0 => Conf.init name
  | i + 1 => loopConf name (i % 5)

def loopSteps (name : Mail.Addr → Str) : Nat → Option (Lab β P n)
  | 0 => some (.mail (.call 0 (0, .subscriberCount)))
  | i + 1 => some (.mail (loopLabel (Mail.Box.new (name 0)) (i % 5)))

theorem mail_ext {c d : Monitors.Conf Nat Mail.Addr (Mail.Box P) (Mail.Op P) (Mail.Resp P)} (h1 : ∀ a, c.shared a = d.shared a)
    (h2 : ∀ a, c.holder a = d.holder a) (h3 : ∀ t, c.phase t = d.phase t) : c = d := by
  obtain ⟨c1, c2, c3⟩ := c
  obtain ⟨d1, d2, d3⟩ := d
  obtain rfl : c1 = d1 := funext h1
  obtain rfl : c2 = d2 := funext h2
  obtain rfl : c3 = d3 := funext h3
  rfl

theorem step_to {c d d' : Monitors.Conf Nat Mail.Addr (Mail.Box P) (Mail.Op P) (Mail.Resp P)} {l} (h : Monitors.Step Mail.body c l d)
    (h1 : ∀ a, d.shared a = d'.shared a) (h2 : ∀ a, d.holder a = d'.holder a) (h3 : ∀ t, d.phase t = d'.phase t) : Monitors.Step Mail.body c l d' :=
  mail_ext h1 h2 h3 ▸ h

omit [DecidableEq β] in
theorem loop_step (r : Nat) (hr : r < 5) :
    Monitors.Step Mail.body (loopConf (β := β) (P := P) (n := n) name r).mail (loopLabel (Mail.Box.new (name 0)) r)
      (loopConf (β := β) (P := P) (n := n) name ((r + 1) % 5)).mail := by
  match r with
  | 0 =>
    have := Monitors.Step.call (body := Mail.body) (c := (loopConf (β := β) (P := P) (n := n) name 0).mail) (t := 1) (a := 0) (o := .subscriberCount) rfl
    refine step_to this (fun _ => rfl) (fun a => by by_cases h : a = 0 <;> simp [Monitors.setAt, h, loopConf]) fun t => ?_
    match t with
    | 0 => rfl
    | 1 => rfl
    | t + 2 => rfl
  | 1 =>
    have := Monitors.Step.lock (body := Mail.body) (c := (loopConf (β := β) (P := P) (n := n) name 1).mail) (t := 1) (a := 0) (o := .subscriberCount) rfl (by simp [loopConf])
    refine step_to this (fun _ => rfl) (fun a => by by_cases h : a = 0 <;> simp [Monitors.setAt, h, loopConf]) fun t => ?_
    match t with
    | 0 => rfl
    | 1 => rfl
    | t + 2 => rfl
  | 2 =>
    have := Monitors.Step.act (body := Mail.body) (c := (loopConf (β := β) (P := P) (n := n) name 2).mail) (t := 1) (a := 0) (o := .subscriberCount)
      (f := id) (k := fun b => .ret (.count b.subscriberCount)) rfl
    refine step_to this (fun a => by by_cases h : a = 0 <;> simp [Monitors.setAt, h, loopConf]) (fun a => by by_cases h : a = 0 <;> simp [Monitors.setAt, h, loopConf]) fun t => ?_
    match t with
    | 0 => rfl
    | 1 => rfl
    | t + 2 => rfl
  | 3 =>
    have := Monitors.Step.unlock (body := Mail.body) (c := (loopConf (β := β) (P := P) (n := n) name 3).mail) (t := 1) (a := 0) (o := .subscriberCount)
      (r := .count (Mail.Box.new (P := P) (name 0)).subscriberCount) rfl
    refine step_to this (fun _ => rfl) (fun a => by by_cases h : a = 0 <;> simp [Monitors.setAt, h, loopConf]) fun t => ?_
    match t with
    | 0 => rfl
    | 1 => rfl
    | t + 2 => rfl
  | 4 =>
    have := Monitors.Step.ret (body := Mail.body) (c := (loopConf (β := β) (P := P) (n := n) name 4).mail) (t := 1) (a := 0) (o := .subscriberCount)
      (r := .count (Mail.Box.new (P := P) (name 0)).subscriberCount) rfl
    refine step_to this (fun _ => rfl) (fun a => by by_cases h : a = 0 <;> simp [Monitors.setAt, h, loopConf]) fun t => ?_
    match t with
    | 0 => rfl
    | 1 => rfl
    | t + 2 => rfl
  | r + 5 => omega

theorem loop_endless : Endless thr name (loopState (β := β) (P := P) (n := n) name) (loopSteps name) where
  init := rfl
  some i l hl := by
    match i with
    | 0 =>
      cases hl
      have hc : loopState (β := β) (P := P) (n := n) name 1 =
          { (Conf.init name : Conf β P n) with mail := { (Conf.init name : Conf β P n).mail with phase := setPhase (Conf.init name : Conf β P n).mail.phase 0 (.wants (0, .subscriberCount)) } } := by
        simp only [loopState, loopConf, Conf.init, Monitors.Conf.init, Conf.mk.injEq, Monitors.Conf.mk.injEq, and_true, true_and]
        refine ⟨by funext a; simp, ?_⟩
        funext t
        match t with
        | 0 => rfl
        | 1 => rfl
        | t + 2 => rfl
      rw [hc]
      exact .mail (.call rfl) fun _ _ _ _ _ _ => rfl
    | i + 1 =>
      cases hl
      have hs := loop_step (β := β) (P := P) (n := n) (name := name) (i % 5) (Nat.mod_lt _ (by omega))
      have e : (i % 5 + 1) % 5 = (i + 1) % 5 := by omega
      rw [e] at hs
      exact .mail (c := loopConf name (i % 5)) hs fun _ _ _ _ _ _ => rfl
  none i hl := by
    match i with
    | 0 => cases hl
    | i + 1 => cases hl

/-- A thread that is idle, or wants a mutex that somebody has, cannot proceed. -/
theorem cannot_go {c : Conf β P n} {t : Nat} (hb : ∀ b u, (c.bars b).pc u = .idle)
    (hm : c.mail.phase t = .idle ∨ ∃ a o t', c.mail.phase t = .wants (a, o) ∧ c.mail.holder a = some t') {l : Lab β P n} {c' : Conf β P n}
    (hs : Step thr c l c') (hp : Proceeds l) (ht : stepThread thr l = t) : False := by
  cases hs with
  | @mail l m' hs hf =>
    obtain rfl : threadOf l = t := ht
    cases hs with
    | call _ => exact hp
    | lock h1 h2 =>
      rcases hm with h | ⟨a, o, t', h, h'⟩
      · cases h.symm.trans h1
      · cases h.symm.trans h1; cases h'.symm.trans h2
    | act h1 => rcases hm with h | ⟨a, o, t', h, h'⟩ <;> cases h.symm.trans h1
    | unlock h1 => rcases hm with h | ⟨a, o, t', h, h'⟩ <;> cases h.symm.trans h1
    | ret h1 => rcases hm with h | ⟨a, o, t', h, h'⟩ <;> cases h.symm.trans h1
  | @bar b u m c1 e hs hf =>
    obtain rfl : m = .go := hp
    rcases (bar_busy hs).2 with ⟨h, -⟩ | ⟨-, h, -⟩ | ⟨-, h, -⟩
    · cases h
    · exact h (hb b u)
    · exact h (hb b u)

/-- If it is only promised that a thread that can proceed all the time does so, a call on a mailbox need not return: while one thread calls
`subscriberCount` again and again, another one may wait for the mutex for ever (with any barriers in the program). -/
theorem C142_starves (thr : (b : β) → Fin (n b) → Nat) (name : Mail.Addr → Str) :
    ∃ (st : Nat → Conf β P n) (ls : Nat → Option (Lab β P n)), Endless thr name st ls ∧ WeaklyFair thr st ls ∧ KeepsGoing thr st ls ∧
      ls 0 = some (.mail (.call 0 (0, .subscriberCount))) ∧ (∀ i o r, ls i ≠ some (.mail (.ret 0 o r))) ∧
      ∀ i, ∃ j r, i ≤ j ∧ ls j = some (.mail (.ret 1 (0, .subscriberCount) r)) := by
  refine ⟨loopState name, loopSteps name, loop_endless, fun t i hen => ?_, fun i l c' _ _ => ⟨i + 1, by omega, by simp [loopSteps]⟩, rfl, fun i o r => ?_,
    fun i => ⟨5 * i + 5, .count (Mail.Box.new (P := P) (name 0)).subscriberCount, by omega, ?_⟩⟩
  · match t with
    | 0 =>
      exfalso
      obtain ⟨l, c', hs, hp, ht⟩ := hen (5 * i + 3) (by omega)
      have e : (5 * i + 2) % 5 = 2 := by omega
      refine cannot_go (c := loopState name (5 * i + 3)) (fun _ _ => rfl) (.inr ⟨0, .subscriberCount, 1, rfl, ?_⟩) hs hp ht
      simp [loopState, loopConf, e]
    | 1 =>
      have e : (5 * i + 1) % 5 = 1 := by omega
      exact ⟨5 * i + 2, by omega, .mail (.lock 1), by simp [loopSteps, e, loopLabel], trivial, rfl⟩
    | t + 2 =>
      exfalso
      obtain ⟨l, c', hs, hp, ht⟩ := hen (i + 1) (by omega)
      exact cannot_go (c := loopState name (i + 1)) (fun _ _ => rfl) (.inl rfl) hs hp ht
  · match i with
    | 0 => simp [loopSteps]
    | i + 1 =>
      have : i % 5 < 5 := Nat.mod_lt _ (by omega)
      simp only [loopSteps, ne_eq, Option.some.injEq, Lab.mail.injEq]
      intro he
      unfold loopLabel at he
      split at he <;> cases he
  · have e : (5 * i + 4) % 5 = 4 := by omega
    simp only [loopSteps, e]
    rfl

/-- The hypotheses of `C142_program` are met by the threads that wait at two barriers in the same order. -/
example : ∃ (st : Nat → ConfPair) (ls : Nat → Option LabPair), Endless thrPair (fun _ => "m".toList) st ls ∧ KeepsGoing thrPair st ls ∧
    (∀ b i, NoDeadline (barEvents b (firstSteps ls i))) ∧ FewSpurious ls ∧ (∀ t, 2 ≤ t → progTwice t = []) ∧
    (∀ t, (progTwice t).filterMap ToCall.barrier = [false, true].filter (uses thrPair t)) ∧ CallsInTurn thrPair progTwice ls := by
  obtain ⟨L, c, he, hd, -, ho, -, hend, hdone⟩ := both_twice
  obtain ⟨st, hE, hst⟩ := endless_of he
  have hpre : ∀ i, L.take i <+: L := fun i => List.take_prefix i L
  refine ⟨st, fun i => L[i]?, hE, fun i l c' hs hp => ?_, fun b i u hu => ?_, ⟨L.length, fun i b s hi hl => ?_⟩, fun t ht => ?_, ho, fun t i => ?_,
    fun t i _ hne => ⟨max i L.length, by omega, ?_⟩⟩
  · by_cases hi : i < L.length
    · exact ⟨i, Nat.le_refl _, by simpa using hi⟩
    · rw [hst i (by omega)] at hs
      exact absurd hp (hend l c' hs).1
  · rw [firstSteps_list] at hu
    exact hd b u ((((hpre i).filterMap _).map _).subset hu)
  · cases (List.getElem?_eq_none hi).symm.trans hl
  · match t with
    | t + 2 => rfl
  · rw [firstSteps_list, ← (hdone t).1]
    exact (hpre i).filterMap _
  · rw [firstSteps_list, firstSteps_list, List.take_of_length_le (show L.length ≤ max i L.length by omega), (hdone t).1]
    rw [firstSteps_list] at hne
    have hp : callsOf thrPair t (L.take i) <+: progTwice t := by rw [← (hdone t).1]; exact (hpre i).filterMap _
    exact lt_of_le_of_ne hp.length_le fun e => hne (hp.eq_of_length e)

end SoDa.Together
