import Verif.Proof.MailBoxGuardLock
import Verif.Proof.MailBoxGuardView
import Verif.Proof.MailBoxGuardInside
import Verif.Props.MailBox
/-!
# C127: the mutexes of mailboxes

`Steps dtor name ls c` is any execution of a program with any number of threads and mailboxes; the mailbox at address `a` is called
`name a`, and the destructor of message `p` makes the calls `dtor p`.  The construction and destruction of the `lock_guard`s of the
methods are steps of the execution.
-/
namespace SoDa.Mail.Guard
open Spec

variable {P : Type} [DecidableEq P]

/-! ### Programs for the examples -/

/-- What a thread of an example does next. -/
inductive Deed where
  | make (t : Nat) (p : Nat)
  | release (t : Nat) (p : Nat)
  | call (t : Nat) (a : Addr) (o : Call Nat)
  | go (t : Nat)

/-- One of these things. -/
def perform1 (dtor : Nat → List (Addr × Call Nat)) (c : Conf Nat) : Deed → Option (Label Nat × Conf Nat)
  | .make t p =>
    if (c.stack t).isEmpty ∧ p ∉ c.made then
      some (.make t p, { c with count := update c.count p 1, mine := update c.mine p 1, made := p :: c.made })
    else none
  | .release t p =>
    if (c.stack t).isEmpty ∧ 0 < c.mine p then
      some (.release t p, { c with mine := update c.mine p (c.mine p - 1), stack := update c.stack t [.release [p]] })
    else none
  | .call t a o =>
    if (c.stack t).isEmpty ∧ ∀ p ∈ o.args, 0 < c.mine p then some (.call t a o, c.enter t a o []) else none
  | .go t => next dtor c t

/-- All of them, as far as possible. -/
def perform (dtor : Nat → List (Addr × Call Nat)) : List Deed → List (Label Nat) × Conf Nat → List (Label Nat) × Conf Nat
  | [], x => x
  | d :: ds, x =>
    match perform1 dtor x.2 d with
    | none => perform dtor ds x
    | some (l, c') => perform dtor ds (x.1 ++ [l], c')

theorem perform_steps {dtor : Nat → List (Addr × Call Nat)} {name : Addr → Str} (ds : List Deed) {x : List (Label Nat) × Conf Nat}
    (h : Steps dtor name x.1 x.2) : Steps dtor name (perform dtor ds x).1 (perform dtor ds x).2 := by
  induction ds generalizing x with
  | nil => exact h
  | cons d ds ih =>
    rw [perform]
    split
    · exact ih h
    · rename_i l c' hp
      refine ih ?_
      cases d with
      | make t p =>
        simp only [perform1] at hp
        split at hp
        · rename_i hc
          cases hp
          exact .make h (List.isEmpty_iff.1 hc.1) hc.2
        · cases hp
      | release t p =>
        simp only [perform1] at hp
        split at hp
        · rename_i hc
          cases hp
          exact .release h (List.isEmpty_iff.1 hc.1) hc.2
        · cases hp
      | call t a o =>
        simp only [perform1] at hp
        split at hp
        · rename_i hc
          cases hp
          exact .call h (List.isEmpty_iff.1 hc.1) hc.2
        · cases hp
      | go t => exact .go h hp

/-- New mailboxes, all called `m`. -/
def fresh : Conf Nat :=
  { boxes := fun _ => Box.new "m".toList, holder := fun _ => none, count := fun _ => 0, mine := fun _ => 0, made := [], stack := fun _ => [] }

/-- Thread `t` calls a method and goes on as far as it can. -/
def whole (t : Nat) (a : Addr) (o : Op Nat) : List Deed := .call t a (.op o) :: List.replicate 30 (.go t)

/-- Thread `t` subscribes to mailbox `a`, makes message `p`, sends it, and forgets it. -/
def sendAway (t : Nat) (a : Addr) (p : Nat) : List Deed :=
  whole t a .subscribe ++ [.make t p] ++ whole t a (.put (some p) none) ++ [.release t p] ++ List.replicate 10 (.go t)

/-- Who holds the mutex that thread `t` is about to lock. -/
def blocker (c : Conf Nat) (t : Nat) : Option Nat :=
  match c.stack t with
  | .frame a _ (.lock _) :: _ => c.holder a
  | _ => none

theorem waitsFor_of_blocker {c : Conf Nat} {t u : Nat} (h : blocker c t = some u) : WaitsFor c t u := by
  rw [blocker] at h
  split at h
  · rename_i a o k s hs
    exact ⟨a, o, k, s, hs, h⟩
  · cases h

/-- `Upwards` can be checked. -/
def upwards (rank : Addr → Nat) (dtor : Nat → List (Addr × Call Nat)) (ls : List (Label Nat)) : Bool :=
  ls.all fun
    | .call _ a (.op (.put (some p) _)) => (dtor p).all fun x => rank a < rank x.1
    | .call _ _ .subscribeFails => false
    | _ => true

theorem upwards_of {rank : Addr → Nat} {dtor : Nat → List (Addr × Call Nat)} {ls : List (Label Nat)} (h : upwards rank dtor ls = true) :
    Upwards rank dtor ls := by
  rw [upwards, List.all_eq_true] at h
  constructor
  · intro t a p subs hm x hx
    have := h _ hm
    simp only [List.all_eq_true, decide_eq_true_eq] at this
    exact this x hx
  · intro t a hm
    exact absurd (h _ hm) (by simp)

/-! ### The property -/

/-- C127: the members of a mailbox are used, and its mutex released, only by the thread that holds the mutex, whatever the destructors
of the messages do. -/
theorem C127_protected (dtor : P → List (Addr × Call P)) (name : Addr → Str) (ls : List (Label P)) (c : Conf P)
    (h : Steps dtor name ls c) (t : Nat) (a : Addr) (hu : Uses c t a) : c.holder a = some t := by
  obtain ⟨held, ho⟩ := steps_owned h
  obtain ⟨o, k, s, hst, hk⟩ := hu
  have ht := ho.top t
  rw [hst] at ht
  refine (ho.holds t a).1 ?_
  generalize held t = hs at ht ⊢
  cases ht with
  | inside => exact List.mem_cons_self
  | before =>
    rcases hk with ⟨_, hk⟩ | ⟨_, _, hk⟩ | ⟨_, _, _, hk⟩ | ⟨_, _, hk⟩ | ⟨_, _, hk⟩ <;> cases hk
  | after =>
    rcases hk with ⟨_, hk⟩ | ⟨_, _, hk⟩ | ⟨_, _, _, hk⟩ | ⟨_, _, hk⟩ | ⟨_, _, hk⟩ <;> cases hk

/-- Thread 1 is about to use mailbox 5, thread 2 waits for it. -/
example : ∃ ls c, Steps (P := Nat) (fun _ => []) (fun _ => "m".toList) ls c ∧ Uses c 1 5 ∧ c.holder 5 = some 1 ∧ WaitsFor c 2 1 := by
  have h := perform_steps (dtor := fun _ => []) (name := fun _ => "m".toList)
    [.call 1 5 (.op .subscribe), .call 2 5 (.op .subscribe), .go 1, .go 2] (x := ([], fresh)) .init
  have hu : Uses (perform (fun _ => []) [.call 1 5 (.op .subscribe), .call 2 5 (.op .subscribe), .go 1, .go 2] ([], fresh)).2 1 5 :=
    ⟨_, _, _, rfl, .inr (.inl ⟨_, _, rfl⟩)⟩
  exact ⟨_, _, h, hu, C127_protected _ _ _ _ h 1 5 hu, waitsFor_of_blocker (by decide +kernel)⟩

/-- C127: when a thread that is in a call of a method is in a destructor or in another call, the method is one that throws messages
away (or a `subscribe` that ran out of memory): `put`, `get` and the methods that count never call anything with the mutex held. -/
theorem C127_inside (dtor : P → List (Addr × Call P)) (name : Addr → Str) (ls : List (Label P)) (c : Conf P)
    (h : Steps dtor name ls c) (t : Nat) (x : Item P) (s : List (Item P)) (hst : c.stack t = x :: s) (a : Addr) (o : Call P) (k : Code P)
    (hm : .frame a o k ∈ s) : Discarding o := by
  have ht := steps_atTop h t
  rw [hst] at ht
  cases ht with
  | calm hw _ => exact hw.mem hm
  | waiting hw =>
    cases hw with
    | dtor hb => exact hb.mem hm
    | release hb => exact hb.mem hm
    | frame hb _ => exact hb.mem hm

/-- The whole claim: no threads of any program wait for each other at the mutexes of mailboxes, where a thread that locks a mutex it holds
already waits for itself. -/
def C127_claim : Prop :=
  ∀ (dtor : Nat → List (Addr × Call Nat)) (name : Addr → Str) (ls : List (Label Nat)) (c : Conf Nat),
    Steps dtor name ls c → ∀ ts, ¬ Deadlocked c ts

/-- C127 is false: a message that owns a subscription of the mailbox it is in.  When the mailbox of the receiver is cleared, the
message is destroyed with the mutex held, and `~SubscriptionCl` locks the same mutex. -/
theorem C127_refuted : ¬ C127_claim := by
  intro h
  let dtor : Nat → List (Addr × Call Nat) := fun p => if p = 7 then [(5, .op (.drop ⟨5, 1⟩))] else []
  let script := sendAway 1 5 7 ++ whole 1 5 .subscribe ++ whole 1 5 (.clear (some ⟨5, 0⟩))
  refine h dtor (fun _ => "m".toList) _ _ (perform_steps script (x := ([], fresh)) .init) [1] ⟨by simp, fun t ht => ?_⟩
  rw [List.mem_singleton] at ht
  subst ht
  exact ⟨1, by simp, waitsFor_of_blocker (by decide +kernel)⟩

/-- C127 is false without destructors that call mailboxes too: `subscribe` runs out of memory in line 313. -/
theorem C127_refuted_memory : ∃ ls c, Steps (P := Nat) (fun _ => []) (fun _ => "m".toList) ls c ∧ Deadlocked c [1] := by
  refine ⟨_, _, perform_steps (.call 1 5 .subscribeFails :: List.replicate 30 (.go 1)) (x := ([], fresh)) .init, by simp, fun t ht => ?_⟩
  rw [List.mem_singleton] at ht
  subst ht
  exact ⟨1, by simp, waitsFor_of_blocker (by decide +kernel)⟩

/-- C127 is false if no destructor calls the mailbox its message is in: message 7 in mailbox 5 calls mailbox 6, message 8 in mailbox 6
calls mailbox 5, and two threads clear the two mailboxes. -/
theorem C127_refuted_two : ∃ (dtor : Nat → List (Addr × Call Nat)) (ls : List (Label Nat)) (c : Conf Nat),
    Steps dtor (fun _ => "m".toList) ls c ∧ Deadlocked c [1, 2] ∧
    (∀ t a p subs, .call t a (.op (.put (some p) subs)) ∈ ls → ∀ x ∈ dtor p, x.1 ≠ a) ∧
    ∀ t a, .call t a .subscribeFails ∉ ls := by
  let dtor : Nat → List (Addr × Call Nat) := fun p =>
    if p = 7 then [(6, .op .subscriberCount)] else if p = 8 then [(5, .op .subscriberCount)] else []
  let script := sendAway 1 5 7 ++ sendAway 2 6 8 ++
    [.call 1 5 (.op (.clear (some ⟨5, 0⟩))), .call 2 6 (.op (.clear (some ⟨6, 0⟩)))] ++
    (List.replicate 30 [Deed.go 1, .go 2]).flatten
  refine ⟨dtor, _, _, perform_steps script (x := ([], fresh)) .init, ⟨by simp, fun t ht => ?_⟩, ?_⟩
  · simp only [List.mem_cons, List.not_mem_nil, or_false] at ht
    rcases ht with rfl | rfl
    · exact ⟨2, by simp, waitsFor_of_blocker (by decide +kernel)⟩
    · exact ⟨1, by simp, waitsFor_of_blocker (by decide +kernel)⟩
  · have hall : ((perform dtor script ([], fresh)).1.all fun
        | .call _ a (.op (.put (some p) _)) => (dtor p).all fun x => x.1 ≠ a
        | .call _ _ .subscribeFails => false
        | _ => true) = true := by decide +kernel
    rw [List.all_eq_true] at hall
    constructor
    · intro t a p subs hm x hx
      have := hall _ hm
      simp only [List.all_eq_true, decide_eq_true_eq] at this
      exact this x hx
    · intro t a hm
      exact absurd (hall _ hm) (by simp)

/-- C127, as far as it is true: if there is an order of the mailboxes such that the destructors of the messages put into a mailbox call
only mailboxes further up (for example because they call none), and no `subscribe` runs out of memory in line 313, then no threads wait
for each other. -/
theorem C127_partial (rank : Addr → Nat) (dtor : P → List (Addr × Call P)) (name : Addr → Str) (ls : List (Label P)) (c : Conf P)
    (h : Steps dtor name ls c) (ho : Upwards rank dtor ls) (ts : List Nat) : ¬ Deadlocked c ts := by
  obtain ⟨held, hi⟩ := steps_inv h ho
  exact not_deadlocked hi ts

/-- C127: in such programs there is always a thread that can go on, as long as some thread has something to do and the program has not
been ended. -/
theorem C127_progress (rank : Addr → Nat) (dtor : P → List (Addr × Call P)) (name : Addr → Str) (ls : List (Label P)) (c : Conf P)
    (h : Steps dtor name ls c) (ho : Upwards rank dtor ls) (t : Nat) (ht : c.stack t ≠ []) :
    (∃ u l c', next dtor c u = some (l, c')) ∨ ∃ u, EndedBy c u := by
  by_contra hno
  have hn1 : ∀ u, next dtor c u = none := by
    intro u
    cases hx : next dtor c u with
    | none => rfl
    | some x => exact absurd (.inl ⟨u, x.1, x.2, hx⟩) hno
  have hn2 : ∀ u, ¬ EndedBy c u := fun u hu => hno (.inr ⟨u, hu⟩)
  obtain ⟨held, hi⟩ := steps_inv h ho
  obtain ⟨ts, hts⟩ := steps_finite h
  have hwait : ∀ u, c.stack u ≠ [] → ∃ v, WaitsFor c u v := by
    intro u hu
    rcases stuck_cases h u (hn1 u) with h1 | h1 | h1
    · exact absurd h1 hu
    · exact absurd h1 (hn2 u)
    · exact h1
  have hin : ∀ u, c.stack u ≠ [] → u ∈ ts := fun u hu => by
    by_contra hx
    exact hu (hts u hx)
  refine not_deadlocked hi (ts.filter fun u => !(c.stack u).isEmpty) ⟨?_, fun u hu => ?_⟩
  · refine List.ne_nil_of_mem (a := t) (List.mem_filter.2 ⟨hin t ht, ?_⟩)
    simp [ht]
  · obtain ⟨_, hu⟩ := List.mem_filter.1 hu
    have hu' : c.stack u ≠ [] := by simpa using hu
    obtain ⟨v, hv⟩ := hwait u hu'
    refine ⟨v, List.mem_filter.2 ?_, hv⟩
    obtain ⟨a, o, k, s, hst, hh⟩ := hv
    have hv' : c.stack v ≠ [] := by
      intro he
      have hx := (hi.holds v a).2 hh
      have htop := hi.top v
      rw [he] at htop
      generalize held v = hs at htop hx
      cases htop with
      | below hb => cases hb; cases hx
    exact ⟨hin v hv', by simp [hv']⟩

/-- Message 7 in mailbox 5 calls mailbox 6 when it is destroyed. -/
def upward : Nat → List (Addr × Call Nat) := fun p => if p = 7 then [(6, .op .subscriberCount)] else []

/-- Thread 2 is in a call of mailbox 6 while thread 1 clears mailbox 5, which destroys message 7. -/
def upwardScript : List Deed :=
  sendAway 1 5 7 ++ [.call 2 6 (.op .minReadyCount), .go 2] ++ whole 1 5 (.clear (some ⟨5, 0⟩))

/-- Thread 1 holds the mutex of mailbox 5 and waits for that of mailbox 6; it is not stuck. -/
example : ∃ ls c, Steps upward (fun _ => "m".toList) ls c ∧ c.holder 5 = some 1 ∧ WaitsFor c 1 2 ∧ (∀ ts, ¬ Deadlocked c ts) ∧
    ((∃ u l c', next upward c u = some (l, c')) ∨ ∃ u, EndedBy c u) := by
  have h := perform_steps (dtor := upward) (name := fun _ => "m".toList) upwardScript (x := ([], fresh)) .init
  have ho : Upwards (fun a => a) upward (perform upward upwardScript ([], fresh)).1 := upwards_of (by decide +kernel)
  refine ⟨_, _, h, by decide +kernel, waitsFor_of_blocker (by decide +kernel), C127_partial _ _ _ _ _ h ho,
    C127_progress _ _ _ _ _ h ho 1 fun he => ?_⟩
  have : ((perform upward upwardScript ([], fresh)).2.stack 1).isEmpty = false := by decide +kernel
  rw [he] at this
  cases this

/-- In that program thread 1 is in the destructor of message 7, inside of `clear`. -/
example : ∃ ls c, Steps upward (fun _ => "m".toList) ls c ∧ ∃ x s k, c.stack 1 = x :: s ∧
    .frame 5 (.op (.clear (some ⟨5, 0⟩))) k ∈ s ∧ Discarding (P := Nat) (.op (.clear (some ⟨5, 0⟩))) := by
  have h := perform_steps (dtor := upward) (name := fun _ => "m".toList) upwardScript (x := ([], fresh)) .init
  have hst : ∃ x y k, (perform upward upwardScript ([], fresh)).2.stack 1 = [x, y, .frame 5 (.op (.clear (some ⟨5, 0⟩))) k] := ⟨_, _, _, rfl⟩
  obtain ⟨x, y, k, hst⟩ := hst
  exact ⟨_, _, h, x, _, k, hst, by simp, C127_inside _ _ _ _ h 1 x _ hst 5 _ k (by simp)⟩

theorem unlock_normal {dtor : P → List (Addr × Call P)} {name : Addr → Str} {ls : List (Label P)} {c : Conf P}
    (h : Steps dtor name ls c) (t : Nat) (a : Addr) (o : Call P) (r : Resp P) (hl : .unlock t a o r ∈ ls) : r.Normal := by
  induction h with
  | init => cases hl
  | make _ _ _ ih => exact ih (by simpa using hl)
  | copy _ _ _ ih => exact ih (by simpa using hl)
  | release _ _ _ ih => exact ih (by simpa using hl)
  | call _ _ _ ih => exact ih (by simpa using hl)
  | go _ hn ih =>
    rcases List.mem_append.1 hl with hl | hl
    · exact ih hl
    · rw [List.mem_singleton] at hl
      subst hl
      rw [next] at hn
      repeat' split at hn
      all_goals first
        | (cases hn; done)
        | (simp only [Option.some.injEq, Prod.mk.injEq, Label.unlock.injEq] at hn
           obtain ⟨⟨-, -, -, hr⟩, -⟩ := hn
           rename_i h1 h2
           cases r with
           | ub => exact (h1 hr).elim
           | terminate => exact (h2 hr).elim
           | _ => trivial)

/-- C127: every mailbox of such a program goes through an execution as in C40-C47: seen from one mailbox, a call takes its mutex, does
what it does, and releases it. -/
theorem C127_mailbox (rank : Addr → Nat) (dtor : P → List (Addr × Call P)) (name : Addr → Str) (ls : List (Label P)) (c : Conf P)
    (h : Steps dtor name ls c) (ho : Upwards rank dtor ls) (a : Addr) :
    ∃ v, Concurrent a (name a) (ls.filterMap (seen a)) v ∧ v.shared = c.boxes a ∧ v.holder = c.holder a := by
  refine ⟨view a c, ⟨steps_view h ho a, ?_⟩, rfl, rfl⟩
  intro e he
  obtain ⟨m, hm, hme⟩ := List.mem_filterMap.1 he
  obtain ⟨l, hl, hlm⟩ := List.mem_filterMap.1 hm
  cases m <;> simp only [reduceCtorEq, Option.some.injEq] at hme
  rename_i t o r
  subst hme
  cases l with
  | unlock t' a' o' r' =>
    cases o' with
    | subscribeFails => cases hlm
    | op o' =>
      simp only [seen] at hlm
      split at hlm
      · cases hlm; exact unlock_normal h _ _ _ _ hl
      · cases hlm
  | call t' a' o' =>
    cases o' with
    | subscribeFails => cases hlm
    | op o' => simp only [seen] at hlm; split at hlm <;> cases hlm
  | ret t' a' o' r' =>
    cases o' with
    | subscribeFails => cases hlm
    | op o' => simp only [seen] at hlm; split at hlm <;> cases hlm
  | lock => simp only [seen] at hlm; split at hlm <;> cases hlm
  | act => simp only [seen] at hlm; split at hlm <;> cases hlm
  | make => cases hlm
  | copy => cases hlm
  | release => cases hlm
  | other => cases hlm

/-- C127: so what is known about one mailbox is true of every mailbox of such a program, for example C40: what a subscriber has received
followed by what waits for it is what was sent to it. -/
theorem C127_delivery (rank : Addr → Nat) (dtor : P → List (Addr × Call P)) (name : Addr → Str) (ls : List (Label P)) (c : Conf P)
    (h : Steps dtor name ls c) (ho : Upwards rank dtor ls) (a : Addr) (hfree : c.holder a = none) (i : Int)
    (hl : Live i (historyOf (ls.filterMap (seen a)))) :
    ∃ q, mapFind intLess i (c.boxes a).queues = some q ∧
      received i (historyOf (ls.filterMap (seen a))) ++ q.filterMap id = sentTo i (historyOf (ls.filterMap (seen a))) := by
  obtain ⟨v, hv, e1, e2⟩ := C127_mailbox rank dtor name ls c h ho a
  rw [← e1]
  exact C40_delivery a (name a) _ v hv (by rw [e2, hfree]) i hl

/-- Message 7 waits for subscriber 0 of mailbox 5 while thread 2 is in a call of mailbox 6. -/
example : ∃ ls c, Steps upward (fun _ => "m".toList) ls c ∧ c.holder 6 = some 2 ∧ Live 0 (historyOf (ls.filterMap (seen 5))) ∧
    sentTo 0 (historyOf (ls.filterMap (seen 5))) = [7] ∧
    ∃ q, mapFind intLess 0 (c.boxes 5).queues = some q ∧ received 0 (historyOf (ls.filterMap (seen 5))) ++ q.filterMap id = [7] := by
  have h := perform_steps (dtor := upward) (name := fun _ => "m".toList) (sendAway 1 5 7 ++ [.call 2 6 (.op .minReadyCount), .go 2])
    (x := ([], fresh)) .init
  have hl : Live 0 (historyOf ((perform upward (sendAway 1 5 7 ++ [.call 2 6 (.op .minReadyCount), .go 2]) ([], fresh)).1.filterMap (seen 5))) := by
    unfold Live
    decide +kernel
  have hs : sentTo 0 (historyOf ((perform upward (sendAway 1 5 7 ++ [.call 2 6 (.op .minReadyCount), .go 2]) ([], fresh)).1.filterMap (seen 5))) = [7] := by
    decide +kernel
  exact ⟨_, _, h, by decide +kernel, hl, hs, hs ▸ C127_delivery (fun a => a) upward _ _ _ h (upwards_of (by decide +kernel)) 5
    (by decide +kernel) 0 hl⟩

end SoDa.Mail.Guard
