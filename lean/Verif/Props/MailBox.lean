import Verif.Proof.MailBox
import Mathlib.Data.List.Nodup
import Batteries.Data.List.Perm
/-!
Properties C40-C47 and C56: mailboxes.

`Concurrent this name ls c` below is any execution of any number of threads that call methods of
one mailbox (at address `this`), step by step, with the mutex; its `history` lists the completed
calls with their responses in the order in which they released the mutex.  The specification
vocabulary (`Live`, `sentTo`, `received`, ...) is about such histories only.
-/
namespace SoDa.Mail
open Spec Monitor

variable {P : Type}

/-- `ls` is an execution, of threads numbered by natural numbers, that starts with a new mailbox,
and in which no call had undefined behaviour or ended the program. -/
structure Concurrent (this : Addr) (name : Str) (ls : List (Label Nat (Op P) (Resp P)))
    (c : Conf Nat (Box P) (Op P) (Resp P)) : Prop where
  steps : Steps (body this) (Conf.init (Box.new name)) ls c
  normal : ∀ e ∈ completed ls, e.2.2.Normal

/-- The history of an execution. -/
abbrev historyOf (ls : List (Label Nat (Op P) (Resp P))) : List (Event P) := history (completed ls)

/-- Every concurrent execution is equivalent to executing its calls one after the other: the state
(when nobody holds the mutex) and all responses are those of the sequential execution. -/
theorem sequential {this : Addr} {name : Str} {ls : List (Label Nat (Op P) (Resp P))}
    {c : Conf Nat (Box P) (Op P) (Resp P)} (h : Concurrent this name ls c) :
    ∃ b, Run this (Box.new name) (historyOf ls) b ∧ (c.holder = none → c.shared = b) := by
  obtain ⟨_, _, s, h1, h2, _⟩ := inv_steps h.steps
  exact ⟨s, serial_run (wf_new name) h1 h.normal, h2⟩

/-- Conversely every sequential history is that of some execution by threads. -/
theorem realisable {this : Addr} {name : Str} {tr : List (Event P)} {b : Box P}
    (h : Run this (Box.new name) tr b) :
    ∃ ls c, Concurrent this name ls c ∧ historyOf ls = tr ∧ c.shared = b ∧ c.holder = none := by
  obtain ⟨h1, h2⟩ := run_serial (wf_new name) h
  obtain ⟨ls, c, g1, g2, g3, g4, _⟩ := serial_steps h1
  refine ⟨ls, c, ⟨g1, ?_⟩, ?_, g3, g4⟩
  · rw [g2]
    intro e he
    obtain ⟨x, hx, rfl⟩ := List.mem_map.mp he
    exact h2 x hx
  · rw [historyOf, g2, history, List.map_map]
    exact (List.map_congr_left (g := id) fun _ _ => rfl).trans (List.map_id _)

/-! ### A concrete history

Threads 1 and 2 subscribe to mailbox 5; thread 3 sends 10; thread 1 sends 11 to everybody but
itself; thread 2 receives a message; thread 1 clears its mailbox; thread 3 sends 12. -/

def sampleTrace : List (Event Nat) :=
  [⟨1, .subscribe, .sub ⟨5, 0⟩⟩, ⟨2, .subscribe, .sub ⟨5, 1⟩⟩, ⟨3, .put (some 10) none, .done⟩,
   ⟨1, .put (some 11) (some ⟨5, 0⟩), .done⟩, ⟨2, .get (some ⟨5, 1⟩), .msg (some 10)⟩,
   ⟨1, .clear (some ⟨5, 0⟩), .done⟩, ⟨3, .put (some 12) none, .done⟩]

def sampleBox : Box Nat := ⟨"m".toList, [(0, [some 12]), (1, [some 11, some 12])], 2⟩

theorem sample_run : Run 5 (Box.new "m".toList) sampleTrace sampleBox := by
  have r1 : Run 5 (Box.new "m".toList : Box Nat) _ _ := .snoc (t := 1) (o := .subscribe) .nil rfl trivial
  have r2 := Run.snoc (t := 2) (o := .subscribe) r1 rfl trivial
  have r3 := Run.snoc (t := 3) (o := .put (some 10) none) r2 rfl trivial
  have r4 := Run.snoc (t := 1) (o := .put (some 11) (some ⟨5, 0⟩)) r3 rfl trivial
  have r5 := Run.snoc (t := 2) (o := .get (some ⟨5, 1⟩)) r4 rfl trivial
  have r6 := Run.snoc (t := 1) (o := .clear (some ⟨5, 0⟩)) r5 rfl trivial
  exact Run.snoc (t := 3) (o := .put (some 12) none) r6 rfl trivial

theorem sample_live : Live 1 sampleTrace ∧ Live 0 sampleTrace := by
  constructor <;> exact ⟨by decide, by decide⟩

theorem sample_nonnull : NoNull sampleTrace := by
  intro e he subs
  simp only [sampleTrace, List.mem_cons, List.not_mem_nil, or_false] at he
  rcases he with rfl | rfl | rfl | rfl | rfl | rfl | rfl <;> simp

example : received 1 sampleTrace = [10] ∧ sentTo 1 sampleTrace = [10, 11, 12] ∧
    outstanding 1 sampleTrace = [11, 12] ∧ received 0 sampleTrace = [] ∧ sentTo 0 sampleTrace = [12] ∧
    receivedEver 1 sampleTrace = [10] ∧ sentLog sampleTrace = [10, 11, 12] ∧
    sentBy 3 sampleTrace = [10, 12] := by decide

/-! ## C40  delivery -/

/-- The central property: what a subscriber has received followed by what waits for it is what was
sent to it. -/
theorem C40_delivery (this : Addr) (name : Str) (ls : List (Label Nat (Op P) (Resp P)))
    (c : Conf Nat (Box P) (Op P) (Resp P)) (h : Concurrent this name ls c) (hfree : c.holder = none)
    (i : Int) (hl : Live i (historyOf ls)) :
    ∃ q, mapFind intLess i c.shared.queues = some q ∧
      received i (historyOf ls) ++ q.filterMap id = sentTo i (historyOf ls) := by
  obtain ⟨b, hr, hb⟩ := sequential h
  have k := known hr
  rw [hb hfree]
  cases hw : waiting b i with
  | none => exact absurd hw ((k.live i).2 hl)
  | some q => exact ⟨q, hw, k.mail i q hw⟩

/-- At every moment, also while a call is being executed, what a live subscriber has received is
the first part of what was sent to it. -/
theorem C40_prefix (this : Addr) (name : Str) (ls : List (Label Nat (Op P) (Resp P)))
    (c : Conf Nat (Box P) (Op P) (Resp P)) (h : Concurrent this name ls c)
    (i : Int) (hl : Live i (historyOf ls)) :
    received i (historyOf ls) <+: sentTo i (historyOf ls) := by
  obtain ⟨b, hr, _⟩ := sequential h
  have k := known hr
  cases hw : waiting b i with
  | none => exact absurd hw ((k.live i).2 hl)
  | some q => exact ⟨_, k.mail i q hw⟩

/-- Seen from outside: the next `get` of a live subscriber returns the oldest message sent to it
that it has not received, or null if there is none. -/
theorem C40_get (this : Addr) (name : Str) (tr : List (Event P)) (b : Box P)
    (h : Run this (Box.new name) tr b) (hnn : NoNull tr) (i : Int) (hl : Live i tr) :
    (exec this b (.get (some ⟨this, i⟩))).2 = .msg (outstanding i tr).head? := by
  have hw := (known h).waiting_eq hnn hl
  simp only [exec, Box.get, getQueue_ok.2 ⟨rfl, hw⟩, Res.bind_ok]
  cases outstanding i tr <;> rfl

/-- The order of the history respects the order of the calls of each thread: the completed calls of
a thread are the ones that returned (in that order, with the responses returned), possibly followed
by one that has not returned yet; and they are the first ones of the calls the thread made. -/
theorem C40_thread_order (this : Addr) (name : Str) (ls : List (Label Nat (Op P) (Resp P)))
    (c : Conf Nat (Box P) (Op P) (Resp P)) (h : Concurrent this name ls c) (t : Nat) :
    returnsOf t ls <+: completedOf t ls ∧ (completedOf t ls).length ≤ (returnsOf t ls).length + 1 ∧
    (completedOf t ls).map (·.1) <+: callsOf t ls := by
  obtain ⟨h1, h2⟩ := thread_order h.steps t
  refine ⟨⟨_, h1.symm⟩, ?_, ⟨_, h2.symm⟩⟩
  rw [h1, List.length_append]
  cases c.phase t <;> simp [pendingReturn]

example : ∃ (ls : List (Label Nat (Op Nat) (Resp Nat))) (c : _), Concurrent 5 "m".toList ls c ∧
    ∃ q, mapFind intLess 1 c.shared.queues = some q ∧ [10] ++ q.filterMap id = [10, 11, 12] := by
  obtain ⟨ls, c, h, ht, _, hf⟩ := realisable sample_run
  have := C40_delivery 5 _ ls c h hf 1 (by rw [ht]; exact sample_live.1)
  rw [ht] at this
  exact ⟨ls, c, h, this⟩

example : (exec 5 sampleBox (.get (some ⟨5, 1⟩))).2 = .msg (some 11) :=
  C40_get 5 _ _ _ sample_run sample_nonnull 1 sample_live.1

/-! ## C41  order -/

/-- What a subscriber ever receives is a subsequence of what was sent. -/
theorem C41_subsequence (this : Addr) (name : Str) (ls : List (Label Nat (Op P) (Resp P)))
    (c : Conf Nat (Box P) (Op P) (Resp P)) (h : Concurrent this name ls c) (i : Int) :
    (receivedEver i (historyOf ls)).Sublist (sentLog (historyOf ls)) := by
  obtain ⟨b, hr, _⟩ := sequential h
  refine ((List.sublist_append_left _ _).trans ((known hr).order i)).trans ?_
  generalize historyOf ls = tr
  unfold sentLog
  induction tr with
  | nil => simp
  | cons e tr ih =>
    cases hs : sendsTo i e with
    | none =>
      rw [List.filterMap_cons_none hs]
      refine ih.trans ?_
      rw [List.filterMap_cons]
      cases sends e <;> simp
    | some p =>
      rw [List.filterMap_cons_some hs, List.filterMap_cons_some (sendsTo_sends hs)]
      exact ih.cons_cons _

/-- In a list without repetitions, no two elements are in both orders. -/
theorem one_order {l : List P} (hnd : l.Nodup) {p q : P} (h1 : [p, q].Sublist l)
    (h2 : [q, p].Sublist l) : False := by
  induction l with
  | nil => simp at h1
  | cons a l ih =>
    rw [List.nodup_cons] at hnd
    cases h1 with
    | cons _ h1 =>
      cases h2 with
      | cons _ h2 => exact ih hnd.2 h1 h2
      | cons_cons _ h2 => exact hnd.1 (h1.subset (by simp))
    | cons_cons _ h1 =>
      cases h2 with
      | cons _ h2 => exact hnd.1 (h2.subset (by simp))
      | cons_cons _ h2 => exact hnd.1 (h1.subset (by simp))

/-- Two subscribers never receive two messages in different orders (no message being sent twice). -/
theorem C41_common_order (this : Addr) (name : Str) (ls : List (Label Nat (Op P) (Resp P)))
    (c : Conf Nat (Box P) (Op P) (Resp P)) (h : Concurrent this name ls c)
    (hnd : (sentLog (historyOf ls)).Nodup) (i j : Int) (p q : P)
    (h1 : [p, q].Sublist (receivedEver i (historyOf ls))) :
    ¬ [q, p].Sublist (receivedEver j (historyOf ls)) := fun h2 =>
  one_order hnd (h1.trans (C41_subsequence this name ls c h i))
    (h2.trans (C41_subsequence this name ls c h j))

theorem pair_of_mem {l : List P} {p q : P} (hp : p ∈ l) (hq : q ∈ l) (hne : p ≠ q) :
    [p, q].Sublist l ∨ [q, p].Sublist l := by
  induction l with
  | nil => simp at hp
  | cons a l ih =>
    rcases List.mem_cons.mp hp with rfl | hp'
    · rcases List.mem_cons.mp hq with rfl | hq'
      · exact absurd rfl hne
      · exact .inl ((List.singleton_sublist.mpr hq').cons_cons _)
    · rcases List.mem_cons.mp hq with rfl | hq'
      · exact .inr ((List.singleton_sublist.mpr hp').cons_cons _)
      · rcases ih hp' hq' with h | h
        · exact .inl (h.cons _)
        · exact .inr (h.cons _)

/-- Messages of one sender are received in the order in which that thread sent them. -/
theorem C41_sender_order (this : Addr) (name : Str) (ls : List (Label Nat (Op P) (Resp P)))
    (c : Conf Nat (Box P) (Op P) (Resp P)) (h : Concurrent this name ls c)
    (hnd : (sentLog (historyOf ls)).Nodup) (t : Nat) (i : Int) (p q : P)
    (hs : [p, q].Sublist (sentBy t (historyOf ls)))
    (hp : p ∈ receivedEver i (historyOf ls)) (hq : q ∈ receivedEver i (historyOf ls)) :
    [p, q].Sublist (receivedEver i (historyOf ls)) := by
  have hsub : (sentBy t (historyOf ls)).Sublist (sentLog (historyOf ls)) :=
    (List.filter_sublist).filterMap _
  have hne : p ≠ q := by
    rintro rfl
    have := (hs.trans hsub).nodup hnd
    simp at this
  rcases pair_of_mem hp hq hne with h1 | h1
  · exact h1
  · exact (one_order hnd (hs.trans hsub) (h1.trans (C41_subsequence this name ls c h i))).elim

/-- The sample history continued: both subscribers receive 12, one of them after 11. -/
def sampleTrace2 : List (Event Nat) := sampleTrace ++
  [⟨2, .get (some ⟨5, 1⟩), .msg (some 11)⟩, ⟨1, .get (some ⟨5, 0⟩), .msg (some 12)⟩,
   ⟨2, .get (some ⟨5, 1⟩), .msg (some 12)⟩]

theorem sample_run2 : Run 5 (Box.new "m".toList) sampleTrace2 ⟨"m".toList, [(0, []), (1, [])], 2⟩ := by
  have r1 := Run.snoc (t := 2) (o := .get (some ⟨5, 1⟩)) sample_run rfl trivial
  have r2 := Run.snoc (t := 1) (o := .get (some ⟨5, 0⟩)) r1 rfl trivial
  exact Run.snoc (t := 2) (o := .get (some ⟨5, 1⟩)) r2 rfl trivial

/-- The hypotheses of C41 hold for it: 10 and 12 were sent by thread 3 in this order. -/
example : (sentLog sampleTrace2).Nodup ∧ [10, 12].Sublist (sentBy 3 sampleTrace2) ∧
    10 ∈ receivedEver 1 sampleTrace2 ∧ 12 ∈ receivedEver 1 sampleTrace2 ∧
    receivedEver 1 sampleTrace2 = [10, 11, 12] ∧ receivedEver 0 sampleTrace2 = [12] := by
  refine ⟨by decide, ?_, by decide, by decide, by decide, by decide⟩
  have : sentBy 3 sampleTrace2 = [10, 12] := by decide
  rw [this]

/-! ## C42  subscribers do not disturb each other -/

/-- The subscriber on whose behalf a call is made. -/
def actsFor : Op P → Option Int
  | .get (some s) => some s.idx
  | .readyCount (some s) => some s.idx
  | .clear (some s) => some s.idx
  | .unsubscribe k => some k
  | .drop s => some s.idx
  | _ => none

/-- `get`, `clear`, `readyCount`, `unsubscribe` and dropping by one subscriber leave the waiting
messages of every other one alone, whatever the outcome of the call. -/
theorem C42_undisturbed (this : Addr) (name : Str) (tr : List (Event P)) (b : Box P)
    (h : Run this (Box.new name) tr b) (o : Op P) (j i : Int) (ho : actsFor o = some j) (hij : i ≠ j) :
    mapFind intLess i (exec this b o).1.queues = mapFind intLess i b.queues := by
  have k := known h
  show waiting _ i = waiting b i
  cases hx : exec this b o with
  | mk b' r =>
    by_cases hn : r.Normal
    · rw [(exec_effect k.wf hx hn 0).2.1 i]
      have hji : ¬ j = i := fun e => hij e.symm
      have hns : ∀ s, r ≠ .sub s := by
        rintro s rfl
        cases o <;> simp only [actsFor, reduceCtorEq] at ho
        · rename_i subs
          simp only [exec] at hx
          revert hx; cases b.get this subs <;> simp [ofRes]
        · rename_i subs
          simp only [exec] at hx
          revert hx; cases b.readyCount this subs <;> simp [ofRes]
        · rename_i subs
          simp only [exec] at hx
          revert hx; cases b.clear this subs <;> simp [ofRes]
        · rename_i k
          simp only [exec] at hx
          revert hx; cases b.unsubscribe k <;> simp [ofRes]
        · rename_i s'
          simp only [exec] at hx
          revert hx; cases b.unsubscribe s'.idx <;> simp
      have h1 : Subscribes i (⟨0, o, r⟩ : Event P) = false := by
        cases hs : Subscribes i (⟨0, o, r⟩ : Event P) with
        | false => rfl
        | true => obtain ⟨s, hs, _⟩ := subscribes_iff.1 hs; exact absurd hs (hns s)
      unfold effect
      rw [h1]
      cases o with
      | get subs =>
        cases subs <;> simp [actsFor] at ho
        subst ho
        cases r <;> simp [Ends, Clears, Pops, pushes, hji]
      | readyCount subs => cases r <;> simp [Ends, Clears, Pops, pushes]
      | clear subs =>
        cases subs <;> simp [actsFor] at ho
        subst ho
        cases r <;> simp [Ends, Clears, Pops, pushes, hji]
      | unsubscribe x =>
        simp [actsFor] at ho
        subst ho
        cases r <;> simp [Ends, Clears, Pops, pushes, hji]
      | drop s =>
        simp [actsFor] at ho
        subst ho
        cases r <;> simp [Ends, Clears, Pops, pushes, hji]
      | _ => simp [actsFor] at ho
    · have : b' = b := by
        cases o with
        | get subs =>
          simp only [exec] at hx
          revert hx
          cases b.get this subs with
          | ok a => simp only [ofRes, Prod.mk.injEq]; rintro ⟨_, rfl⟩; exact absurd trivial hn
          | throw e => simp only [ofRes, Prod.mk.injEq]; rintro ⟨rfl, _⟩; rfl
          | ub => simp only [ofRes, Prod.mk.injEq]; rintro ⟨rfl, _⟩; rfl
        | readyCount subs =>
          simp only [exec] at hx
          revert hx
          cases b.readyCount this subs <;> simp only [ofRes, Prod.mk.injEq] <;> rintro ⟨rfl, _⟩ <;> rfl
        | clear subs =>
          simp only [exec] at hx
          revert hx
          cases b.clear this subs with
          | ok a => simp only [ofRes, Prod.mk.injEq]; rintro ⟨_, rfl⟩; exact absurd trivial hn
          | throw e => simp only [ofRes, Prod.mk.injEq]; rintro ⟨rfl, _⟩; rfl
          | ub => simp only [ofRes, Prod.mk.injEq]; rintro ⟨rfl, _⟩; rfl
        | unsubscribe x =>
          simp only [exec] at hx
          revert hx
          cases b.unsubscribe x with
          | ok a => simp only [ofRes, Prod.mk.injEq]; rintro ⟨_, rfl⟩; exact absurd trivial hn
          | throw e => simp only [ofRes, Prod.mk.injEq]; rintro ⟨rfl, _⟩; rfl
          | ub => simp only [ofRes, Prod.mk.injEq]; rintro ⟨rfl, _⟩; rfl
        | drop s =>
          simp only [exec] at hx
          revert hx
          cases b.unsubscribe s.idx with
          | ok a => simp only [Prod.mk.injEq]; rintro ⟨_, rfl⟩; exact absurd trivial hn
          | throw e => simp only [Prod.mk.injEq]; rintro ⟨rfl, _⟩; rfl
          | ub => simp only [Prod.mk.injEq]; rintro ⟨rfl, _⟩; rfl
        | _ => simp [actsFor] at ho
      rw [this]

/-- Nobody is blocked by others: whatever the others have done, and however many messages they
leave unread, a `put` to everybody is carried out, and a thread that has called a method returns
after steps of its own and of the thread that holds the mutex at that moment. -/
theorem C42_not_blocked (this : Addr) (name : Str) :
    (∀ (tr : List (Event P)) (b : Box P), Run this (Box.new name) tr b → ∀ m : Option P,
      (exec this b (.put m none)).2 = .done) ∧
    (∀ (ls : List (Label Nat (Op P) (Resp P))) (c : Conf Nat (Box P) (Op P) (Resp P)),
      Concurrent this name ls c → ∀ t, c.phase t ≠ .idle →
      ∃ ls' c', Steps (body this) c ls' c' ∧ c'.phase t = .idle ∧
        ∀ l ∈ ls', l.thread = t ∨ c.holder = some l.thread) :=
  ⟨fun _ _ _ _ => rfl, fun _ _ h t ht => progress h.steps t ht⟩

example : mapFind intLess 1 (exec 5 sampleBox (.clear (some ⟨5, 0⟩))).1.queues = some [some 11, some 12] :=
  C42_undisturbed 5 _ _ _ sample_run (.clear (some ⟨5, 0⟩)) 0 1 rfl (by decide)

/-! ## C43  counts -/

/-- `readyCount` is the number of messages waiting (fewer than 2^32). -/
theorem C43_readyCount (this : Addr) (name : Str) (tr : List (Event P)) (b : Box P)
    (h : Run this (Box.new name) tr b) (hnn : NoNull tr) (i : Int) (hl : Live i tr)
    (hsz : (outstanding i tr).length < 4294967296) :
    exec this b (.readyCount (some ⟨this, i⟩)) = (b, .count (outstanding i tr).length) := by
  have hw := (known h).waiting_eq hnn hl
  simp only [exec, Box.readyCount, getQueue_ok.2 ⟨rfl, hw⟩, Res.map_ok, ofRes]
  cases ho : outstanding i tr with
  | nil => simp
  | cons p l =>
    rw [ho] at hsz
    simp only [List.map_cons, List.isEmpty_cons, Bool.false_eq_true, if_false, List.length_cons,
      List.length_map] at *
    rw [Nat.mod_eq_of_lt hsz]

theorem foldl_min (l : List (Int × List (Option P))) : ∀ ret < 4294967296,
    let n := l.foldl (fun ret kq => (if ret < kq.2.length then ret else kq.2.length) % 4294967296) ret
    n ≤ ret ∧ (∀ x ∈ l, n ≤ x.2.length) ∧ (n = ret ∨ ∃ x ∈ l, n = x.2.length) := by
  induction l with
  | nil => intro ret _; simp
  | cons x l ih =>
    intro ret hret
    simp only [List.foldl_cons]
    have hlt : (if ret < x.2.length then ret else x.2.length) < 4294967296 := by split <;> omega
    rw [Nat.mod_eq_of_lt hlt]
    obtain ⟨h1, h2, h3⟩ := ih _ hlt
    refine ⟨Nat.le_trans h1 (by split <;> omega), ?_, ?_⟩
    · intro y hy
      rcases List.mem_cons.mp hy with rfl | hy
      · exact Nat.le_trans h1 (by split <;> omega)
      · exact h2 y hy
    · rcases h3 with h3 | ⟨y, hy, h3⟩
      · by_cases hc : ret < x.2.length
        · rw [if_pos hc] at h3 ⊢; exact .inl h3
        · rw [if_neg hc] at h3 ⊢; exact .inr ⟨x, by simp, h3⟩
      · exact .inr ⟨y, by simp [hy], h3⟩

/-- `minReadyCount` is the least number of messages waiting for any live subscriber (at most
2^32-1, and 2^32-1 if there is no subscriber). -/
theorem C43_minReadyCount (this : Addr) (name : Str) (tr : List (Event P)) (b : Box P)
    (h : Run this (Box.new name) tr b) (hnn : NoNull tr) :
    ∃ n, exec this b .minReadyCount = (b, .count n) ∧ n ≤ 4294967295 ∧
      (∀ i, Live i tr → n ≤ (outstanding i tr).length) ∧
      (n = 4294967295 ∨ ∃ i, Live i tr ∧ n = (outstanding i tr).length) := by
  have k := known h
  obtain ⟨h1, h2, h3⟩ := foldl_min b.queues 4294967295 (by decide)
  refine ⟨_, rfl, h1, ?_, ?_⟩
  · intro i hl
    have hw := k.waiting_eq hnn hl
    have := h2 _ ((mapFind_mem intLess_order _ _ _ k.wf.sorted).1 hw)
    simpa [Box.minReadyCount] using this
  · rcases h3 with h3 | ⟨x, hx, h3⟩
    · exact .inl h3
    · right
      have hw : waiting b x.1 = some x.2 := (mapFind_mem intLess_order x.1 x.2 _ k.wf.sorted).2 hx
      have hl := (k.live x.1).1 (by simp [hw])
      rw [k.waiting_eq hnn hl] at hw
      refine ⟨x.1, hl, ?_⟩
      rw [← Option.some.inj hw] at h3
      simpa [Box.minReadyCount] using h3

/-- `subscriberCount` is the number of live subscriptions among those handed out. -/
theorem C43_subscriberCount (this : Addr) (name : Str) (tr : List (Event P)) (b : Box P)
    (h : Run this (Box.new name) tr b) :
    ∃ live : List Int, exec this b .subscriberCount = (b, .count live.length) ∧ live.Nodup ∧
      ∀ i, i ∈ live ↔ Live i tr := by
  have k := known h
  have hnd := sorted_nodup k.wf
  have hmem : ∀ i, i ∈ b.queues.map (·.1) ↔ Live i tr := by
    intro i
    rw [← k.live i]
    constructor
    · intro hi
      obtain ⟨x, hx, rfl⟩ := List.mem_map.mp hi
      have : waiting b x.1 = some x.2 := (mapFind_mem intLess_order x.1 x.2 _ k.wf.sorted).2 hx
      simp [this]
    · intro hi
      cases hw : waiting b i with
      | none => exact absurd hw hi
      | some q => exact List.mem_map.mpr ⟨_, (mapFind_mem intLess_order _ _ _ k.wf.sorted).1 hw, rfl⟩
  refine ⟨b.queues.map (·.1), ?_, hnd, hmem⟩
  have hlen : (b.queues.map (·.1)).length ≤ 2147483647 := by
    obtain ⟨n, h1, _⟩ := k.ids
    have h2 := k.wf.counter
    have hsub : (b.queues.map (·.1)) ⊆ (List.range n).map Int.ofNat := by
      intro i hi
      have h3 := k.wf.keys i ((k.live i).2 ((hmem i).1 hi))
      refine List.mem_map.mpr ⟨i.toNat, by simp; omega, ?_⟩
      show ((i.toNat : Nat) : Int) = i
      omega
    have := (List.subperm_of_subset hnd hsub).length_le
    simp at this ⊢; omega
  simp only [exec, Box.subscriberCount]
  rw [List.length_map] at hlen ⊢
  rw [Nat.mod_eq_of_lt (by omega)]

example : exec 5 sampleBox (.readyCount (some ⟨5, 1⟩)) = (sampleBox, .count 2) :=
  C43_readyCount 5 _ _ _ sample_run sample_nonnull 1 sample_live.1 (by decide)

example : exec 5 sampleBox .minReadyCount = (sampleBox, .count 1) ∧
    exec 5 sampleBox .subscriberCount = (sampleBox, .count 2) := by decide

/-! ## C44  the wrong mailbox -/

/-- The calls that take a subscription. -/
def takes (s : Sub) : Op P → Prop
  | .get subs => subs = some s
  | .put _ subs => subs = some s
  | .clear subs => subs = some s
  | .readyCount subs => subs = some s
  | _ => False

/-- A subscription of another mailbox is refused and nothing changes, whatever the two mailboxes
contain. -/
theorem C44_wrong_mailbox (w : World P) (a : Addr) (s : Sub) (o : Op P) (ha : (w a).isSome)
    (hs : (w s.box).isSome) (hne : a ≠ s.box) (ho : takes s o) :
    w.exec (.call a o) = (w, .threw (.mismatch a s.box)) := by
  obtain ⟨b, hb⟩ := Option.isSome_iff_exists.mp ha
  have hg : getIndex a (some s) = .throw (.mismatch a s.box) := by simp [getIndex, hne]
  have : Mail.exec a b o = (b, .threw (.mismatch a s.box)) := by
    cases o <;> simp only [takes] at ho <;> subst ho
    · simp [Mail.exec, Box.get, Box.getQueue, hg, ofRes]
    · simp [Mail.exec, Box.put, hg, ofRes]
    · simp [Mail.exec, Box.readyCount, Box.getQueue, hg, ofRes]
    · simp [Mail.exec, Box.clear, Box.getQueue, hg, ofRes]
  simp [World.exec, hb, this, hs]

/-- A call on one mailbox never changes another one. -/
theorem C44_other_mailboxes (w : World P) (a a' : Addr) (o : Op P) (hne : a' ≠ a) :
    (w.exec (.call a o)).1 a' = w a' := by
  cases hb : w a with
  | none => simp [World.exec, hb]
  | some b =>
    simp only [World.exec, hb]
    split
    · split <;> rfl
    · simp [World.set, hne]

example : let w : World Nat := fun a => if a = 5 then some sampleBox else if a = 6 then some (Box.new []) else none
    w.exec (.call 6 (.get (some ⟨5, 1⟩))) = (w, .threw (.mismatch 6 5)) := by
  intro w
  exact C44_wrong_mailbox w 6 ⟨5, 1⟩ (.get (some ⟨5, 1⟩)) rfl rfl (by decide) rfl

/-! ## C45  subscription ids -/

/-- The ids handed out are 0, 1, 2, ..., so they are all different. -/
theorem C45_ids (this : Addr) (name : Str) (tr : List (Event P)) (b : Box P)
    (h : Run this (Box.new name) tr b) :
    idsGiven tr = (List.range (idsGiven tr).length).map Int.ofNat ∧ (idsGiven tr).Nodup := by
  obtain ⟨n, _, h2⟩ := (known h).ids
  rw [h2]
  refine ⟨by simp, ?_⟩
  exact List.Nodup.map (fun _ _ h => Int.ofNat.inj h) List.nodup_range

/-- `subscribe` succeeds unless 2^31-1 subscriptions have been handed out; then its behaviour is
undefined. -/
theorem C45_subscribe (this : Addr) (name : Str) (tr : List (Event P)) (b : Box P)
    (h : Run this (Box.new name) tr b) :
    ((idsGiven tr).length < 2147483647 →
      ∃ b', exec this b .subscribe = (b', .sub ⟨this, (idsGiven tr).length⟩)) ∧
    ((idsGiven tr).length = 2147483647 → (exec this b .subscribe).2 = .ub) := by
  obtain ⟨n, h1, h2⟩ := (known h).ids
  have hl : (idsGiven tr).length = n := by rw [h2]; simp
  rw [hl]
  constructor
  · intro hn
    have hc : ¬ b.counter = 2147483647 := by omega
    refine ⟨{ b.setQueue b.counter [] with counter := b.counter + 1 }, ?_⟩
    rw [← h1]
    simp only [exec, Box.subscribe, hc, if_false, ofRes]
  · intro hn
    have hc : b.counter = 2147483647 := by omega
    simp [exec, Box.subscribe, hc, ofRes]

/-- Once a subscription has ended the mailbox keeps no queue for it, its id is unknown, and both
stay so for ever. -/
theorem C45_dead (this : Addr) (name : Str) (tr tr' : List (Event P)) (b : Box P)
    (h : Run this (Box.new name) (tr ++ tr') b) (i : Int) (he : ∃ e ∈ tr, Ends i e = true) :
    mapFind intLess i b.queues = none ∧
    exec this b (.get (some ⟨this, i⟩)) = (b, .threw (.missing b.name "get()".toList i)) ∧
    exec this b (.clear (some ⟨this, i⟩)) = (b, .threw (.missing b.name "get()".toList i)) ∧
    exec this b (.readyCount (some ⟨this, i⟩)) = (b, .threw (.missing b.name "get()".toList i)) := by
  have k := known h
  have hw : mapFind intLess i b.queues = none := by
    cases hw : waiting b i with
    | none => exact hw
    | some q =>
      obtain ⟨_, h2⟩ := (k.live i).1 (by simp [hw])
      obtain ⟨e, he, hee⟩ := he
      have := h2 e (by simp [he])
      rw [hee] at this; simp at this
  have hq : b.getQueue this (some ⟨this, i⟩) = .throw (.missing b.name "get()".toList i) := by
    simp [Box.getQueue, getIndex, Box.getQueueI, hw]
  refine ⟨hw, ?_, ?_, ?_⟩
  · simp [exec, Box.get, hq, ofRes]
  · simp [exec, Box.clear, hq, ofRes]
  · simp [exec, Box.readyCount, hq, ofRes]

/-- The sample history, then subscriber 0 is dropped, then something is sent. -/
example : ∃ b, Run 5 (Box.new "m".toList) (sampleTrace ++ [⟨1, .drop ⟨5, 0⟩, .done⟩] ++
      [⟨3, .put (some 13) none, .done⟩]) b ∧
    (exec 5 b (.get (some ⟨5, 0⟩))).2 = .threw (.missing "m".toList "get()".toList 0) := by
  have r1 := Run.snoc (t := 1) (o := .drop ⟨5, 0⟩) sample_run rfl trivial
  have r2 := Run.snoc (t := 3) (o := .put (some 13) none) r1 rfl trivial
  have := (C45_dead 5 _ _ _ _ r2 0 ⟨⟨1, .drop ⟨5, 0⟩, .done⟩, by simp, rfl⟩).2.1
  exact ⟨_, r2, by rw [this]; rfl⟩

example : idsGiven sampleTrace = [0, 1] := by decide

/-! ## C46  references -/

/-- The mailbox holds a reference to a message exactly as long as some live subscriber to whom it
was sent has neither received nor cleared it. -/
theorem C46_references (this : Addr) (name : Str) (ls : List (Label Nat (Op P) (Resp P)))
    (c : Conf Nat (Box P) (Op P) (Resp P)) (h : Concurrent this name ls c) (hfree : c.holder = none)
    (p : P) :
    (∃ kq ∈ c.shared.queues, some p ∈ kq.2) ↔
      ∃ i, Live i (historyOf ls) ∧ p ∈ outstanding i (historyOf ls) := by
  obtain ⟨b, hr, hb⟩ := sequential h
  have k := known hr
  rw [hb hfree]
  have hout : ∀ i q, waiting b i = some q → outstanding i (historyOf ls) = q.filterMap id := by
    intro i q hw
    unfold outstanding; rw [← k.mail i q hw]; simp
  constructor
  · rintro ⟨x, hx, hp⟩
    have hw : waiting b x.1 = some x.2 := (mapFind_mem intLess_order x.1 x.2 _ k.wf.sorted).2 hx
    exact ⟨x.1, (k.live x.1).1 (by simp [hw]), by rw [hout _ _ hw]; simp [hp]⟩
  · rintro ⟨i, hl, hp⟩
    cases hw : waiting b i with
    | none => exact absurd hw ((k.live i).2 hl)
    | some q =>
      rw [hout i q hw] at hp
      exact ⟨(i, q), (mapFind_mem intLess_order _ _ _ k.wf.sorted).1 hw, by simpa using hp⟩

/-- In particular, when every live subscriber is up to date the mailbox holds nothing. -/
theorem C46_empty (this : Addr) (name : Str) (ls : List (Label Nat (Op P) (Resp P)))
    (c : Conf Nat (Box P) (Op P) (Resp P)) (h : Concurrent this name ls c) (hfree : c.holder = none)
    (hup : ∀ i, Live i (historyOf ls) → received i (historyOf ls) = sentTo i (historyOf ls)) (p : P) :
    ¬ ∃ kq ∈ c.shared.queues, some p ∈ kq.2 := by
  rw [C46_references this name ls c h hfree p]
  rintro ⟨i, hl, hp⟩
  unfold outstanding at hp
  rw [hup i hl] at hp; simp at hp

/-- After the sample history the mailbox refers to 11 and 12 but no longer to 10. -/
example : (∃ i, Live i sampleTrace ∧ 11 ∈ outstanding i sampleTrace) ∧
    ¬ ∃ kq ∈ sampleBox.queues, some 10 ∈ kq.2 := ⟨⟨1, sample_live.1, by decide⟩, by decide⟩

/-! ## C47  dropping a subscription -/

/-- The claim: dropping a subscription that was handed out and has not been dropped yet is safe. -/
def C47_claim (this : Addr) (name : Str) (P : Type) : Prop :=
  ∀ (tr : List (Event P)) (b : Box P), Run this (Box.new name) tr b → ∀ s : Sub,
    (∃ e ∈ tr, e.resp = .sub s) → (∀ e ∈ tr, e.op ≠ .drop s) → (exec this b (.drop s)).2 = .done

/-- What holds: dropping is safe as long as nobody has called `unsubscribe` with its id.  Missing:
histories with such calls. -/
theorem C47_drop_partial (this : Addr) (name : Str) (tr : List (Event P)) (b : Box P)
    (h : Run this (Box.new name) tr b) (s : Sub) (hs : ∃ e ∈ tr, e.resp = .sub s)
    (hd : ∀ e ∈ tr, ∀ s', e.op = .drop s' → s'.idx ≠ s.idx) (hu : ∀ e ∈ tr, e.op ≠ .unsubscribe s.idx) :
    (exec this b (.drop s)).2 = .done := by
  have k := known h
  have hl : Live s.idx tr := by
    obtain ⟨e, he, hr⟩ := hs
    refine ⟨⟨e, he, subscribes_iff.2 ⟨s, hr, rfl⟩⟩, ?_⟩
    intro e' he'
    cases hc : Ends s.idx e' with
    | false => rfl
    | true =>
      exfalso
      have h1 := hd e' he'
      have h2 := hu e' he'
      obtain ⟨t, o, r⟩ := e'
      cases o <;> cases r <;> simp [Ends] at hc
      · subst hc; exact h2 rfl
      · exact h1 _ rfl hc
  cases hw : waiting b s.idx with
  | none => exact absurd hw ((k.live _).2 hl)
  | some q => simp [exec, Box.unsubscribe, getQueueI_ok.2 hw]

/-- After an explicit `unsubscribe(id)` dropping the subscription ends the program. -/
theorem C47_refuted (this : Addr) (name : Str) : ¬ C47_claim this name P := by
  intro h
  have r1 : Run this (Box.new name : Box P) [⟨0, .subscribe, .sub ⟨this, 0⟩⟩]
      ⟨name, [(0, [])], 1⟩ := .snoc .nil rfl trivial
  have r2 : Run this (Box.new name : Box P) [⟨0, .subscribe, .sub ⟨this, 0⟩⟩, ⟨0, .unsubscribe 0, .done⟩]
      ⟨name, [], 1⟩ := .snoc r1 rfl trivial
  have := h _ _ r2 ⟨this, 0⟩ ⟨_, List.mem_cons_self, rfl⟩ (by simp)
  revert this
  show (Resp.terminate : Resp P) = .done → False
  simp

/-- Dropping a subscription after its mailbox has been destroyed is undefined. -/
theorem C47_refuted_destroyed (w : World P) (s : Sub) (hw : w s.box = none) :
    (w.exec (.drop s)).2 = .ub := by
  simp [World.exec, hw]

example : (exec 5 sampleBox (.drop ⟨5, 1⟩)).2 = .done :=
  C47_drop_partial 5 _ _ _ sample_run ⟨5, 1⟩
    ⟨⟨2, .subscribe, .sub ⟨5, 1⟩⟩, by simp [sampleTrace], rfl⟩
    (by simp [sampleTrace]) (by simp [sampleTrace])

/-! ## C56  exception texts -/

/-- The intention: the text names both mailboxes. -/
def C56_claim (nameOf : Addr → Str) (a c : Addr) : Prop :=
  ∃ pre mid post, (Err.mismatch a c).what nameOf = .ok (pre ++ nameOf a ++ mid ++ nameOf c ++ post)

/-- What holds: the name of the mailbox that was called is reported.  Missing: the name of the
mailbox of the subscription. -/
theorem C56_texts_partial (nameOf : Addr → Str) (a c : Addr) (name op : Str) (id : Int) :
    (Err.mismatch a c).what nameOf =
      .ok ("SoDa::MailBox[".toList ++ nameOf a ++ "] caller specified the wrong mailbox".toList) ∧
    (Err.missing name op id).what nameOf =
      .ok ("SoDa::MailBox[".toList ++ name ++ "] ::".toList ++ op ++ " Subscriber ID ".toList ++
        showInt id ++ " not found.".toList) := by
  refine ⟨?_, by simp [Err.what]⟩
  have hs : (Fmt.mk' "caller specified the wrong mailbox".toList).segs =
      [.lit "caller specified the wrong mailbox".toList] := by decide
  simp only [Err.what, Fmt.addS, textS, Int.lt_irrefl, gt_iff_lt, if_false, Res.map_ok, Fmt.str,
    Fmt.insertField, hs, List.map_cons, List.map_nil]
  simp [Fmt.assemble]

/-- The text is the same whatever the mailbox of the subscription is called. -/
theorem C56_refuted : ¬ C56_claim (fun n => if n = 0 then "A".toList else "Z9".toList) 0 1 := by
  rintro ⟨pre, mid, post, h⟩
  rw [(C56_texts_partial _ 0 1 [] [] 0).1] at h
  simp only [Res.ok.injEq] at h
  have : '9' ∈ ("SoDa::MailBox[".toList ++ "A".toList ++ "] caller specified the wrong mailbox".toList) := by
    have h' : "SoDa::MailBox[".toList ++ "A".toList ++ "] caller specified the wrong mailbox".toList =
      pre ++ "A".toList ++ mid ++ "Z9".toList ++ post := h
    rw [h']; simp
  revert this; decide

end SoDa.Mail
