import Verif.Proof.MailBoxPtrSolo
/-!
# C131: mailboxes made by `makeMailBox`

The comment of `makeMailBox` (include/MailBox.hxx:446-449) says that it "ensures that the mailbox will live even after it goes out of scope in
the thing that created the mailbox and spawned the threads that use it.  Sure we could rely on good behavior, but why?"  A `Subscription` has
a bare pointer to the mailbox, so that good behaviour is needed after all: a thread must keep a `MailBoxPtr` for as long as it has a
`Subscription`.
-/
namespace SoDa.Mail
open Spec PState

variable {P : Type}

/-- What has to be true of the arguments and the number of subscriptions: pointers are to mailboxes that there are, and no mailbox can get
more subscribers than an `int` can count. -/
def Started (names : List Str) (threads : List (List Nat × List (PStmt P))) : Prop :=
  (∀ th ∈ threads, ∀ a ∈ th.1, a < names.length) ∧ (threads.map fun th => subscribes th.2).sum ≤ 2147483647

/-- The claim: threads that dereference no null pointer can do what they like with the pointers to the mailboxes. -/
def C131_claim : Prop := ∀ (P : Type) (names : List Str) (threads : List (List Nat × List (PStmt P))), Started names threads →
  (∀ th ∈ threads, (Vars.initial names.length th.1).Careful th.2) →
  ∀ alloc : PState P → Addr, Allocates alloc → ∀ sched, ∃ σ, (PState.start names threads).run alloc sched = .ok σ

/-- A thread that lets go of its pointer before it lets go of its subscription. -/
def late : List (PStmt P) := [.subscribe 0 0, .reset 0, .drop 0]

/-- Another thread with a pointer to the same mailbox. -/
def mate : List (PStmt P) := [.call 0 .subscriberCount, .reset 0]

theorem C131_refuted : ¬C131_claim ∧
    -- alone it is always undefined
    (∀ alloc, (PState.start ["m".toList] [([0], (late : List (PStmt P)))]).run alloc [0, 0, 0, 0, 0] = .ub) ∧
    -- with another thread that has a pointer it depends on which of them is faster
    (∀ alloc, (PState.start ["m".toList] [([0], (late : List (PStmt P))), ([0], mate)]).run alloc [1, 1, 1, 0, 0, 0, 0, 0] = .ub) ∧
    (∀ alloc, ∃ σ, (PState.start ["m".toList] [([0], (late : List (PStmt P))), ([0], mate)]).run alloc [1, 0, 0, 0, 0, 0, 1, 1] = .ok σ ∧
      ∀ t < 2, (σ.thr t).todo = [] ∧ (σ.thr t).busy = none) ∧
    -- or the mailbox is destroyed while the destructor of the subscription is at work
    (∀ alloc, (PState.start ["m".toList] [([0], (late : List (PStmt P))), ([0], mate)]).run alloc [1, 1, 0, 0, 0, 0, 1] = .ub) := by
  refine ⟨fun h => ?_, fun alloc => rfl, fun alloc => rfl, fun alloc => ⟨_, rfl, fun t ht => ?_⟩, fun alloc => rfl⟩
  · obtain ⟨σ, hσ⟩ := h Unit ["m".toList] [([0], late)] (by simp [Started, late, subscribes]) (by
      simp [late, Vars.Careful, Vars.NonNull, Vars.initial]) freshAddr freshAddr_allocates [0, 0, 0, 0, 0]
    cases hσ
  · match t, ht with
    | 0, _ => exact ⟨rfl, rfl⟩
    | 1, _ => exact ⟨rfl, rfl⟩

/-- Threads that have a `MailBoxPtr` for every `Subscription`: nothing goes wrong in any order of the steps and wherever mailboxes are in
memory. -/
theorem C131_safe_partial {names : List Str} {threads : List (List Nat × List (PStmt P))} (hs : Started names threads)
    (hc : ∀ th ∈ threads, (Vars.initial names.length th.1).Careful th.2)
    (hk : ∀ th ∈ threads, (Vars.initial names.length th.1).Keeps th.2) {alloc : PState P → Addr} (hal : Allocates alloc) (sched : List Nat) :
    ∃ σ, (PState.start names threads).run alloc sched = .ok σ :=
  let ⟨σ, h, _⟩ := ginv_run hal hs.2 sched (start_ginv hs.1 hc hk)
  ⟨σ, h⟩

/-- A mailbox exists exactly for as long as some variable points to it, and then it is the only reason: the one that made it may have
let go of it.  No thread is ever inside of a method of a mailbox that does not exist. -/
theorem C131_alive {names : List Str} {threads : List (List Nat × List (PStmt P))} (hs : Started names threads)
    (hc : ∀ th ∈ threads, (Vars.initial names.length th.1).Careful th.2)
    (hk : ∀ th ∈ threads, (Vars.initial names.length th.1).Keeps th.2) {alloc : PState P → Addr} (hal : Allocates alloc) {sched : List Nat}
    {σ : PState P} (h : (PState.start names threads).run alloc sched = .ok σ) :
    (∀ a, σ.world a ≠ none ↔ ∃ t x, (σ.thr t).ptr x = some a) ∧
    (∀ t s b, (σ.thr t).sub s = some b → σ.world b.box ≠ none) ∧
    (∀ t p, (σ.thr t).busy = some p → σ.world p.on ≠ none) ∧
    -- no two subscriptions are the same
    (∀ t s t' s' b, (σ.thr t).sub s = some b → (σ.thr t').sub s' = some b → t = t' ∧ s = s') := by
  obtain ⟨σ', h', g⟩ := ginv_run hal hs.2 sched (start_ginv hs.1 hc hk)
  rw [h] at h'
  obtain rfl := Res.ok.inj h'
  refine ⟨fun a => ⟨fun hw => ?_, fun ⟨t, x, hx⟩ => g.counted.held hx⟩, fun t s b hb => g.alive (v := (t, some s)) hb, fun t p hp => ?_,
    fun t s t' s' b h1 h2 => ?_⟩
  · by_contra hno
    exact hw (g.counted.unheld fun t x hx => hno ⟨t, x, hx⟩)
  · obtain ⟨L, ρ, hT⟩ := g.thr
    obtain ⟨x, hx⟩ := (hT t).busyHeld hp
    exact g.counted.held hx
  · have := g.uniq (t, some s) (t', some s') b h1 h2
    simpa using this

/-- When all threads are at their end, and all their variables with them, no mailbox is left. -/
theorem C131_released {names : List Str} {threads : List (List Nat × List (PStmt P))} (hs : Started names threads)
    (hc : ∀ th ∈ threads, (Vars.initial names.length th.1).Careful th.2)
    (hk : ∀ th ∈ threads, (Vars.initial names.length th.1).Keeps th.2)
    (he : ∀ th ∈ threads, (Vars.initial names.length th.1).Closed th.2) {alloc : PState P → Addr} (hal : Allocates alloc) {sched : List Nat}
    {σ : PState P} (h : (PState.start names threads).run alloc sched = .ok σ) (hend : ∀ t, (σ.thr t).todo = []) : ∀ a, σ.world a = none := by
  intro a
  have hE := ending_run sched (start_ending he) h
  by_contra hw
  obtain ⟨t, x, hx⟩ := ((C131_alive hs hc hk hal h).1 a).1 hw
  obtain ⟨l, h1, h2⟩ := hE t
  rw [hend t] at h2
  rw [(h1 x).2 (h2 x)] at hx
  cases hx

/-- Exactly when nothing can go wrong, for threads whose variables are all gone at the end: no thread dereferences a null pointer, and every
thread always has a `MailBoxPtr` for every `Subscription` that it has. -/
theorem C131_exact {names : List Str} {threads : List (List Nat × List (PStmt P))} (hs : Started names threads)
    (he : ∀ th ∈ threads, (Vars.initial names.length th.1).Closed th.2) :
    (∀ alloc : PState P → Addr, Allocates alloc → ∀ sched, ∃ σ, (PState.start names threads).run alloc sched = .ok σ) ↔
    ∀ th ∈ threads, (Vars.initial names.length th.1).Careful th.2 ∧ (Vars.initial names.length th.1).Keeps th.2 :=
  ⟨fun h => exact_only freshAddr_fresh hs.1 he (h freshAddr freshAddr_allocates),
    fun h _ hal sched => C131_safe_partial hs (fun th hth => (h th hth).1) (fun th hth => (h th hth).2) hal sched⟩

/-! ### A program that meets the hypotheses -/

/-- The thing that made the mailbox lets go of it at once; a worker goes on with it, and has a mailbox of its own. -/
def maker : List (PStmt Nat) := [.reset 0]

def worker : List (PStmt Nat) := [.subscribe 0 0, .make 1 "own".toList, .subscribe 1 1, .call 0 (.put (some 7) none), .call 0 (.get 0),
  .move 2 0, .copy 2 1, .drop 1, .reset 1, .subscribe 1 2, .drop 1, .drop 2, .reset 0, .reset 2]

theorem worker_started : Started ["m".toList] [([0], maker), ([0], worker)] := by
  refine ⟨by simp, by decide⟩

theorem worker_fine : ∀ th ∈ [([0], maker), ([0], worker)], (Vars.initial ["m".toList].length th.1).Careful th.2 ∧
    (Vars.initial ["m".toList].length th.1).Keeps th.2 ∧ (Vars.initial ["m".toList].length th.1).Closed th.2 := by
  simp only [List.mem_cons, List.not_mem_nil, or_false, forall_eq_or_imp, forall_eq]
  refine ⟨⟨?_, ?_, ?_, ?_⟩, ⟨?_, ?_, ?_, ?_⟩⟩
  · simp [maker, Vars.Careful, Vars.NonNull]
  · simp [maker, Vars.Keeps, Vars.Kept, Vars.after, Vars.initial]
  · intro x
    cases x <;> simp [maker, Vars.after, assign, Vars.initial]
  · simp [maker, Vars.after, Vars.initial]
  · simp [worker, Vars.Careful, Vars.NonNull, Vars.after, assign, Vars.initial]
  · simp only [worker, Vars.Keeps]
    refine ⟨?_, ?_, ?_, ?_, ?_, ?_, ?_, ?_, ?_, ?_, ?_, ?_, ?_, ?_, ?_⟩ <;>
      (rintro (_ | _ | _ | s) k hk <;> simp [Vars.after, assign, Vars.initial] at hk <;> subst hk <;>
        first | exact ⟨0, rfl⟩ | exact ⟨1, rfl⟩ | exact ⟨2, rfl⟩)
  · intro x
    match x with
    | 0 => simp [worker, Vars.after, assign, Vars.initial]
    | 1 => simp [worker, Vars.after, assign, Vars.initial]
    | 2 => simp [worker, Vars.after, assign, Vars.initial]
    | n + 3 => simp [worker, Vars.after, assign, Vars.initial]
  · intro x
    match x with
    | 0 => simp [worker, Vars.after, assign, Vars.initial]
    | 1 => simp [worker, Vars.after, assign, Vars.initial]
    | 2 => simp [worker, Vars.after, assign, Vars.initial]
    | n + 3 => simp [worker, Vars.after, assign, Vars.initial]

example (alloc : PState Nat → Addr) (hal : Allocates alloc) (sched : List Nat) :
    ∃ σ, (PState.start ["m".toList] [([0], maker), ([0], worker)]).run alloc sched = .ok σ :=
  C131_safe_partial worker_started (fun th h => (worker_fine th h).1) (fun th h => (worker_fine th h).2.1) hal sched

/-- There are such ways to manage memory. -/
example : Allocates (freshAddr : PState P → Addr) := freshAddr_allocates

/-- The mailbox is used after the thing that made it has let go of it: the message arrives. -/
example : ∃ σ, (PState.start ["m".toList] [([0], maker), ([0], worker)]).run (fun _ => 5) (0 :: List.replicate 7 1) = .ok σ ∧
    σ.refs 0 = 1 ∧ (σ.world 0).map (·.queues) = some [(0, [some 7])] ∧ (σ.world 5).map (·.name) = some "own".toList :=
  ⟨_, rfl, rfl, rfl, rfl⟩

/-- At the end both mailboxes are gone. -/
example : ∃ σ, (PState.start ["m".toList] [([0], maker), ([0], worker)]).run (fun _ => 5) (0 :: List.replicate 40 1) = .ok σ ∧
    (σ.thr 1).todo = [] ∧ σ.world 0 = none ∧ σ.world 5 = none := ⟨_, rfl, rfl, rfl, rfl⟩

/-- The thread of the refutation does not keep its pointer, and does end. -/
example : ¬(Vars.initial 1 [0]).Keeps (late : List (PStmt P)) ∧ (Vars.initial 1 [0]).Closed (late : List (PStmt P)) := by
  refine ⟨fun h => ?_, fun x => ?_, fun s => ?_⟩
  · obtain ⟨x, hx⟩ := h.2.2.1 0 0 rfl
    cases x <;> simp [Vars.after, assign, Vars.initial] at hx
  · cases x <;> simp [late, Vars.after, assign, Vars.initial]
  · cases s <;> simp [late, Vars.after, assign, Vars.initial]

end SoDa.Mail
