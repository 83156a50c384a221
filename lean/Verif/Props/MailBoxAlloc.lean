import Verif.Proof.MailBoxAlloc
import Verif.Props.MailBox
/-!
Property C107: mailboxes when memory runs out inside calls.

`ConcurrentA this name ls c` below is any execution of any number of threads that call methods of
one mailbox, step by step, with the mutex, in which any request for memory may fail.
-/
namespace SoDa.Mail
open Spec Monitor

variable {P : Type}

/-- `ls` is an execution that starts with a new mailbox, in which requests for memory may fail, and
in which no call had undefined behaviour or ended the program. -/
structure ConcurrentA (this : Addr) (name : Str) (ls : List (Label Nat (OpA P) (RespA P)))
    (c : Conf Nat (Box P) (OpA P) (RespA P)) : Prop where
  steps : Steps (bodyA this) (Conf.init (Box.new name)) ls c
  normal : ∀ e ∈ completed ls, e.2.2.Normal

/-- The history of an execution. -/
abbrev historyOfA (ls : List (Label Nat (OpA P) (RespA P))) : List (EventA P) := historyA (completed ls)

theorem sequentialA {this : Addr} {name : Str} {ls : List (Label Nat (OpA P) (RespA P))}
    {c : Conf Nat (Box P) (OpA P) (RespA P)} (h : ConcurrentA this name ls c) :
    ∃ b, RunA this (Box.new name) (historyOfA ls) b ∧ (c.holder = none → c.shared = b) := by
  obtain ⟨_, _, s, h1, h2, _⟩ := inv_steps h.steps
  exact ⟨s, serial_runA h1 h.normal, h2⟩

theorem realisableA {this : Addr} {name : Str} {tr : List (EventA P)} {b : Box P}
    (h : RunA this (Box.new name) tr b) :
    ∃ ls c, ConcurrentA this name ls c ∧ historyOfA ls = tr ∧ c.shared = b ∧ c.holder = none := by
  obtain ⟨h1, h2⟩ := runA_serial h
  obtain ⟨ls, c, g1, g2, g3, g4, _⟩ := serial_steps h1
  refine ⟨ls, c, ⟨g1, ?_⟩, ?_, g3, g4⟩
  · rw [g2]
    intro e he
    obtain ⟨x, hx, rfl⟩ := List.mem_map.mp he
    exact h2 x hx
  · rw [historyOfA, g2, historyA, List.map_map]
    exact (List.map_congr_left (g := id) fun _ _ => rfl).trans (List.map_id _)

/-! ### A concrete history

Threads 1, 2 and 3 subscribe; thread 1 sends 10 to the others and runs out of memory after the first
of them; thread 4 cannot subscribe; thread 4 sends 11; threads 2 and 3 read their mail. -/

def outTrace : List (EventA Nat) :=
  [⟨1, ⟨.subscribe, none⟩, .normal (.sub ⟨5, 0⟩)⟩, ⟨2, ⟨.subscribe, none⟩, .normal (.sub ⟨5, 1⟩)⟩,
   ⟨3, ⟨.subscribe, none⟩, .normal (.sub ⟨5, 2⟩)⟩,
   ⟨1, ⟨.put (some 10) (some ⟨5, 0⟩), some 1⟩, .badAlloc⟩, ⟨4, ⟨.subscribe, some 0⟩, .badAlloc⟩,
   ⟨4, ⟨.put (some 11) none, none⟩, .normal .done⟩,
   ⟨2, ⟨.get (some ⟨5, 1⟩), some 0⟩, .normal (.msg (some 10))⟩,
   ⟨3, ⟨.get (some ⟨5, 2⟩), none⟩, .normal (.msg (some 11))⟩]

def outBox : Box Nat := ⟨"m".toList, [(0, [some 11]), (1, [some 11]), (2, [])], 3⟩

theorem out_run : RunA 5 (Box.new "m".toList) outTrace outBox := by
  have r0 : RunA 5 (Box.new "m".toList) [] (Box.new "m".toList : Box Nat) := .nil
  have r1 := RunA.snoc (t := 1) (c := ⟨.subscribe, none⟩) r0 rfl trivial
  have r2 := RunA.snoc (t := 2) (c := ⟨.subscribe, none⟩) r1 rfl trivial
  have r3 := RunA.snoc (t := 3) (c := ⟨.subscribe, none⟩) r2 rfl trivial
  have r4 := RunA.snoc (t := 1) (c := ⟨.put (some 10) (some ⟨5, 0⟩), some 1⟩) r3 rfl trivial
  have r5 := RunA.snoc (t := 4) (c := ⟨.subscribe, some 0⟩) r4 rfl trivial
  have r6 := RunA.snoc (t := 4) (c := ⟨.put (some 11) none, none⟩) r5 rfl trivial
  have r7 := RunA.snoc (t := 2) (c := ⟨.get (some ⟨5, 1⟩), some 0⟩) r6 rfl trivial
  exact RunA.snoc (t := 3) (c := ⟨.get (some ⟨5, 2⟩), none⟩) r7 rfl trivial

example : subscribers outTrace = [0, 1, 2] ∧ received 1 (seenBy 5 1 outTrace) = [10] ∧
    sentTo 1 (seenBy 5 1 outTrace) = [10, 11] ∧ received 2 (seenBy 5 2 outTrace) = [11] ∧
    sentTo 2 (seenBy 5 2 outTrace) = [11] ∧ sentTo 0 (seenBy 5 0 outTrace) = [11] ∧
    attempted outTrace = [10, 11] := by decide

theorem out_live (i : Int) (hi : i = 0 ∨ i = 1 ∨ i = 2) : Live i (succeeded outTrace) := by
  rcases hi with rfl | rfl | rfl <;> (unfold Live; decide)

/-! ## C107 -/

/-- Whatever requests for memory fail: what a subscriber has received followed by what waits for it
is what was sent to it, where a `put` that ran out of memory counts for the subscribers it had
reached. -/
theorem C107_delivery (this : Addr) (name : Str) (ls : List (Label Nat (OpA P) (RespA P)))
    (c : Conf Nat (Box P) (OpA P) (RespA P)) (h : ConcurrentA this name ls c) (hfree : c.holder = none)
    (i : Int) (hl : Live i (succeeded (historyOfA ls))) :
    ∃ q, mapFind intLess i c.shared.queues = some q ∧
      received i (seenBy this i (historyOfA ls)) ++ q.filterMap id =
        sentTo i (seenBy this i (historyOfA ls)) := by
  obtain ⟨b, hr, hb⟩ := sequentialA h
  have k := knownA hr
  rw [hb hfree]
  cases hw : waiting b i with
  | none => exact absurd hw ((k.ids.live i).2 hl)
  | some q => exact ⟨q, hw, k.mail i q hw⟩

example : ∃ (ls : List (Label Nat (OpA Nat) (RespA Nat))) (c : _), ConcurrentA 5 "m".toList ls c ∧
    ∃ q, mapFind intLess 1 c.shared.queues = some q ∧ [10] ++ q.filterMap id = [10, 11] := by
  obtain ⟨ls, c, h, ht, _, hf⟩ := realisableA out_run
  have := C107_delivery 5 _ ls c h hf 1 (by rw [ht]; exact out_live 1 (by simp))
  rw [ht] at this
  exact ⟨ls, c, h, this⟩

/-- What subscriber `i` sees it being sent is a subsequence of all that was sent. -/
theorem seen_attempted (this : Addr) (i : Int) : ∀ (tr past : List (EventA P)),
    ((seenFrom this i past tr).filterMap (sendsTo i)).Sublist (attempted tr) := by
  intro tr
  induction tr with
  | nil => intro past; simp [seenFrom]
  | cons e tr ih =>
    intro past
    have hcons : attempted (e :: tr) = attempted [e] ++ attempted tr := by
      rw [← List.singleton_append]; exact List.filterMap_append ..
    rw [seenFrom, List.filterMap_append, hcons]
    refine List.Sublist.append ?_ (ih _)
    obtain ⟨t, ⟨o, f⟩, r⟩ := e
    cases r with
    | normal r =>
      simp only [looksTo]
      cases hs : sendsTo i (⟨t, o, r⟩ : Event P) with
      | none => rw [List.filterMap_cons_none hs]; simp
      | some p =>
        rw [List.filterMap_cons_some hs]
        have h1 := sendsTo_sends hs
        have h2 : attempted [(⟨t, ⟨o, f⟩, .normal r⟩ : EventA P)] = [p] := by
          cases o with
          | put m subs => cases m <;> cases r <;> simp [sends] at h1; simp [attempted, h1]
          | _ => cases r <;> simp [sends] at h1
        rw [h2]; simp
    | badAlloc =>
      simp only [looksTo]
      split
      · rename_i m subs n heq
        simp only [OpA.mk.injEq] at heq
        obtain ⟨rfl, _⟩ := heq
        split
        · cases m <;> simp [sendsTo, attempted]
        · simp
      · simp

/-- Two subscribers never receive two messages in different orders, also if calls run out of memory
(no message being sent twice). -/
theorem C107_common_order (this : Addr) (name : Str) (ls : List (Label Nat (OpA P) (RespA P)))
    (c : Conf Nat (Box P) (OpA P) (RespA P)) (h : ConcurrentA this name ls c)
    (hnd : (attempted (historyOfA ls)).Nodup) (i j : Int) (p q : P)
    (h1 : [p, q].Sublist (receivedEver i (seenBy this i (historyOfA ls)))) :
    ¬ [q, p].Sublist (receivedEver j (seenBy this j (historyOfA ls))) := by
  obtain ⟨b, hr, _⟩ := sequentialA h
  have k := knownA hr
  have sub : ∀ i, (receivedEver i (seenBy this i (historyOfA ls))).Sublist (attempted (historyOfA ls)) :=
    fun i => ((List.sublist_append_left _ _).trans (k.order i)).trans (seen_attempted this i _ [])
  exact fun h2 => one_order hnd (h1.trans (sub i)) (h2.trans (sub j))

/-- What a subscriber receives is what its calls of `get` returned, whatever ran out of memory. -/
theorem C107_received (this : Addr) (i : Int) : ∀ (tr past : List (EventA P)),
    receivedEver i (seenFrom this i past tr) = receivedEver i (succeeded tr) := by
  intro tr
  induction tr with
  | nil => intro past; rfl
  | cons e tr ih =>
    intro past
    have hcons : succeeded (e :: tr) = succeeded [e] ++ succeeded tr := by
      rw [← List.singleton_append]; exact List.filterMap_append ..
    unfold receivedEver at ih ⊢
    rw [seenFrom, List.filterMap_append, hcons, List.filterMap_append, ih]
    congr 1
    obtain ⟨t, ⟨o, f⟩, r⟩ := e
    cases r with
    | normal r => simp [looksTo, succeeded]
    | badAlloc =>
      simp only [looksTo, succeeded]
      split
      · split <;> simp [gives]
      · simp

/-- Nobody is blocked by a call of somebody else that ran out of memory. -/
theorem C107_not_blocked (this : Addr) (name : Str) (ls : List (Label Nat (OpA P) (RespA P)))
    (c : Conf Nat (Box P) (OpA P) (RespA P)) (h : ConcurrentA this name ls c) (t : Nat)
    (ht : c.phase t ≠ .idle) :
    ∃ ls' c', Steps (bodyA this) c ls' c' ∧ c'.phase t = .idle ∧
      ∀ l ∈ ls', l.thread = t ∨ c.holder = some l.thread := progress h.steps t ht

/-- What one would like to be true: a call either does what it does with enough memory, or throws
`std::bad_alloc` and has no effect. -/
def C107_claim (this : Addr) (name : Str) (P : Type) : Prop :=
  ∀ (tr : List (EventA P)) (b : Box P), RunA this (Box.new name) tr b → ∀ c : OpA P,
    (exec this b c.op).2.Normal →
    execA this b c = ((exec this b c.op).1, .normal (exec this b c.op).2) ∨ execA this b c = (b, .badAlloc)

/-- A `put` that runs out of memory on the way: some subscribers, but not all of them, have the
message. -/
def HalfPut (this : Addr) (tr : List (EventA P)) (c : OpA P) : Prop :=
  ∃ m subs n, c = ⟨.put m subs, some n⟩ ∧ 0 < n ∧ (reached this tr (n + 1) subs).length = n + 1

/-- A `subscribe` that runs out of memory after the subscription object was made. -/
def HalfSubscribe (c : OpA P) : Prop := ∃ n, c = ⟨.subscribe, some (n + 1)⟩

/-- Exactly two calls break it: a `put` on the way to its receivers, and a `subscribe` that has made
the subscription object. -/
theorem C107_exact (this : Addr) (name : Str) (tr : List (EventA P)) (b : Box P)
    (h : RunA this (Box.new name) tr b) (c : OpA P) (hn : (exec this b c.op).2.Normal) :
    (execA this b c = ((exec this b c.op).1, .normal (exec this b c.op).2) ∨
      execA this b c = (b, .badAlloc)) ↔ ¬ HalfPut this tr c ∧ ¬ HalfSubscribe c := by
  have k := knownA h
  obtain ⟨o, f⟩ := c
  have simple : (execA this b ⟨o, f⟩ = ((exec this b o).1, .normal (exec this b o).2) ∨
      execA this b ⟨o, f⟩ = (b, .badAlloc)) → (∀ m subs n, ¬ (o = .put m subs ∧ f = some n)) →
      (∀ n, ¬ (o = .subscribe ∧ f = some (n + 1))) →
      ((execA this b ⟨o, f⟩ = ((exec this b o).1, .normal (exec this b o).2) ∨
        execA this b ⟨o, f⟩ = (b, .badAlloc)) ↔ ¬ HalfPut this tr ⟨o, f⟩ ∧ ¬ HalfSubscribe ⟨o, f⟩) := by
    intro h1 h2 h3
    refine ⟨fun _ => ⟨?_, ?_⟩, fun _ => h1⟩
    · rintro ⟨m, subs, n, hc, _⟩
      simp only [OpA.mk.injEq] at hc
      exact h2 m subs n hc
    · rintro ⟨n, hc⟩
      simp only [OpA.mk.injEq] at hc
      exact h3 n hc
  cases f with
  | none => exact simple (.inl rfl) (by simp) (by simp)
  | some n =>
    cases o with
    | subscribe =>
      cases n with
      | zero => exact simple (.inr rfl) (by simp) (by simp)
      | succ n =>
        constructor
        · rintro (hx | hx)
          · have hx2 := congrArg Prod.snd hx
            rw [show (execA this b ⟨.subscribe, some (n + 1)⟩).2 = .normal .ub from rfl] at hx2
            simp only [RespA.normal.injEq] at hx2
            simp only at hn
            rw [← hx2] at hn; exact hn.elim
          · simp [execA] at hx
        · rintro ⟨_, hx⟩
          exact absurd ⟨n, rfl⟩ hx
    | put msg subs =>
      cases hk : omitKey this b subs with
      | ub => simp only [exec_put, hk] at hn; exact hn.elim
      | throw e =>
        refine ⟨fun _ => ⟨?_, ?_⟩, fun _ => .inr (by simp [execA, hk])⟩
        · rintro ⟨m, subs', n', hc, hpos, hlen⟩
          simp only [OpA.mk.injEq, Op.put.injEq] at hc
          obtain ⟨⟨rfl, rfl⟩, _⟩ := hc
          have : reached this tr (n' + 1) subs = [] := by
            cases subs with
            | none => simp [omitKey] at hk
            | some s =>
              simp only [omitKey, getIndex] at hk
              split at hk
              · rename_i hb
                have : ¬ s.box = this := fun h => hb h.symm
                simp only [reached, this, if_false]
              · simp at hk
          rw [this] at hlen; simp at hlen
        · rintro ⟨n', hc⟩; simp at hc
      | ok key =>
        by_cases hl : n < (receivers b key).length
        · have hex : execA this b ⟨.put msg subs, some n⟩ =
              (pushTo msg ((receivers b key).take n) b, .badAlloc) := by simp [execA, hk, hl]
          rw [hex]
          have hlen : (reached this tr (n + 1) subs).length = n + 1 := by
            rw [reached_eq k.ids (n + 1) hk, List.length_take]; omega
          constructor
          · rintro (hx | hx)
            · simp at hx
            · refine ⟨?_, fun ⟨n', hc⟩ => by simp at hc⟩
              rintro ⟨m, subs', n', hc, hpos, _⟩
              simp only [OpA.mk.injEq, Op.put.injEq, Option.some.injEq] at hc
              obtain ⟨⟨rfl, rfl⟩, rfl⟩ := hc
              simp only [Prod.mk.injEq, and_true] at hx
              -- the first receiver has one message more
              obtain ⟨i, l, hil⟩ : ∃ i l, receivers b key = i :: l := by
                cases hr : receivers b key with
                | nil => rw [hr] at hl; simp at hl
                | cons i l => exact ⟨i, l, rfl⟩
              have hi : i ∈ (receivers b key).take n := by
                rw [hil]
                cases n with
                | zero => omega
                | succ n => simp
              have hw := waiting_pushTo b i ((receivers b key).take n) msg
              rw [hx] at hw
              simp only [if_pos hi] at hw
              have hkey : i ∈ b.queues.map (·.1) := by
                have : i ∈ receivers b key := by rw [hil]; simp
                exact (List.mem_filter.mp this).1
              obtain ⟨x, hx', rfl⟩ := List.mem_map.mp hkey
              have := (mapFind_mem intLess_order x.1 x.2 _ k.ids.wf.sorted).2 hx'
              unfold waiting at hw
              rw [this] at hw
              simp at hw
          · rintro ⟨hx, _⟩
            cases n with
            | zero => right; simp [pushTo_nil]
            | succ n => exact absurd ⟨msg, subs, n + 1, rfl, by omega, hlen⟩ hx
        · refine ⟨fun _ => ⟨?_, fun ⟨n', hc⟩ => by simp at hc⟩, fun _ => .inl (by simp [execA, hk, hl])⟩
          rintro ⟨m, subs', n', hc, hpos, hlen⟩
          simp only [OpA.mk.injEq, Op.put.injEq, Option.some.injEq] at hc
          obtain ⟨⟨rfl, rfl⟩, rfl⟩ := hc
          rw [reached_eq k.ids (n + 1) hk, List.length_take] at hlen
          omega
    | minReadyCount =>
      refine simple ?_ (by simp) (by simp)
      simp only [execA]
      split
      · exact .inr rfl
      · exact .inl rfl
    | get subs => refine simple ?_ (by simp) (by simp); simp only [execA]; split; (exact .inr rfl); exact .inl rfl
    | readyCount subs => refine simple ?_ (by simp) (by simp); simp only [execA]; split; (exact .inr rfl); exact .inl rfl
    | clear subs => refine simple ?_ (by simp) (by simp); simp only [execA]; split; (exact .inr rfl); exact .inl rfl
    | unsubscribe i => refine simple ?_ (by simp) (by simp); simp only [execA]; split; (exact .inr rfl); exact .inl rfl
    | subscriberCount => refine simple ?_ (by simp) (by simp); simp only [execA]; split; (exact .inr rfl); exact .inl rfl
    | drop s => refine simple ?_ (by simp) (by simp); simp only [execA]; split; (exact .inr rfl); exact .inl rfl

/-- The claim holds of all calls but `put` and `subscribe`; of a `put` with at most one receiver;
and of a `subscribe` for which no memory for the subscription object can be had. -/
theorem C107_no_effect_partial (this : Addr) (name : Str) (tr : List (EventA P)) (b : Box P)
    (h : RunA this (Box.new name) tr b) (c : OpA P) (hn : (exec this b c.op).2.Normal)
    (hc : c.op = .subscribe → c.fail = none ∨ c.fail = some 0)
    (hp : ∀ m subs, c.op = .put m subs → (subscribers tr).length ≤ 1) :
    execA this b c = ((exec this b c.op).1, .normal (exec this b c.op).2) ∨
      execA this b c = (b, .badAlloc) := by
  refine (C107_exact this name tr b h c hn).2 ⟨?_, ?_⟩
  · rintro ⟨m, subs, n, rfl, hpos, hlen⟩
    have h1 := hp m subs rfl
    have h2 : (reached this tr (n + 1) subs).length ≤ (subscribers tr).length := by
      cases subs with
      | none => simp only [reached, List.length_take]; omega
      | some s =>
        simp only [reached]
        split
        · rw [List.length_take]
          have := List.length_filter_le (fun x => decide (x ≠ s.idx)) (subscribers tr)
          omega
        · simp
    omega
  · rintro ⟨n, rfl⟩
    rcases hc rfl with h | h <;> simp at h

/-- After a `put` that ran out of memory, exactly the subscribers it had reached have one message
more, at the end; for everybody else nothing changed. -/
theorem C107_put_exact (this : Addr) (name : Str) (tr : List (EventA P)) (b b' : Box P)
    (h : RunA this (Box.new name) tr b) (m : Option P) (subs : Option Sub) (n : Nat)
    (he : execA this b ⟨.put m subs, some n⟩ = (b', .badAlloc)) (i : Int) :
    mapFind intLess i b'.queues = (mapFind intLess i b.queues).map fun q =>
      if i ∈ reached this tr n subs then q ++ [m] else q := by
  have k := knownA h
  have hk := knownA_snoc 0 k he trivial
  rcases execA_badAlloc he with ⟨rfl, hno⟩ | ⟨m', subs', n', key, hc, hkey, _, rfl⟩
  · have : reached this tr n subs = [] := by
      cases subs with
      | none => exact absurd rfl (hno m none b'.counter rfl)
      | some s =>
        have := fun k => hno m (some s) k rfl
        simp only [omitKey, getIndex] at this
        simp only [reached]
        split
        · rename_i hb
          exact absurd (by simp [hb]) (this s.idx)
        · rfl
    simp [this]
  · simp only [OpA.mk.injEq, Op.put.injEq, Option.some.injEq] at hc
    obtain ⟨⟨rfl, rfl⟩, rfl⟩ := hc
    rw [reached_eq k.ids n hkey]
    exact waiting_pushTo b i _ m

/-- Two subscribers, and memory runs out at the second delivery: the sender is told that the call
failed, but the first subscriber has the message. -/
theorem C107_refuted_put (this : Addr) (name : Str) (p : P) :
    ∃ tr b b', RunA this (Box.new name) tr b ∧
      execA this b ⟨.put (some p) none, some 1⟩ = (b', .badAlloc) ∧ subscribers tr = [0, 1] ∧
      mapFind intLess 0 b'.queues = some [some p] ∧ mapFind intLess 1 b'.queues = some [] := by
  have r1 := RunA.snoc (P := P) (t := 1) (c := ⟨.subscribe, none⟩) (RunA.nil (this := this) (b := Box.new name)) rfl trivial
  have r2 := RunA.snoc (t := 2) (c := ⟨.subscribe, none⟩) r1 rfl trivial
  exact ⟨_, _, _, r2, rfl, rfl, rfl, rfl⟩

/-- A `subscribe` that runs out of memory when it makes the queue is undefined (in practice the
thread waits for itself while it holds the mutex). -/
theorem C107_refuted_subscribe (this : Addr) (b : Box P) (n : Nat) :
    (execA this b ⟨.subscribe, some (n + 1)⟩).2 = .normal .ub := rfl

theorem C107_refuted (this : Addr) (name : Str) : ¬ C107_claim this name P := by
  intro h
  have := h [] (Box.new name) .nil ⟨.subscribe, some 1⟩ (by simp [exec, Box.subscribe, Box.new, ofRes, Resp.Normal])
  simp [execA, exec, Box.subscribe, Box.new, ofRes] at this

example : execA 5 outBox ⟨.minReadyCount, some 1⟩ = (outBox, .badAlloc) ∧
    execA 5 outBox ⟨.get (some ⟨5, 7⟩), some 0⟩ = (outBox, .badAlloc) := by decide

example : HalfPut 5 outTrace ⟨.put (some 12) none, some 2⟩ := ⟨some 12, none, 2, rfl, by omega, by decide⟩

end SoDa.Mail
