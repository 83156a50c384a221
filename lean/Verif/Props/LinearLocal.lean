import Verif.Proof.LinearLocal
import Verif.Props.Linear
/-!
# C134  Several mailboxes can be judged one by one
-/
namespace SoDa
open Mail Spec

variable {P : Type}

/-- What threads can see of several mailboxes (as long as no call is undefined and no destructor throws): exactly the histories in which each
thread makes one call after the other and what belongs to each mailbox can be seen of this mailbox alone. -/
theorem C134_one_by_one (name : Addr → Str) (H : List (SeenEv Nat (Addr × Op P) (Resp P))) :
    (∃ ls c, Monitors.Steps body (Monitors.Conf.init fun a => Box.new (name a)) ls c ∧ visible ls = H ∧
      ∀ t o r, Monitor.Label.unlock t o r ∈ ls → r.Normal) ↔
    OneByOne H ∧ ∀ a, ∃ ls c, Monitor.Steps (body a) (Monitor.Conf.init (Box.new (name a))) ls c ∧ visible ls = historyOf a H ∧
      ∀ t o r, Monitor.Label.unlock t o r ∈ ls → r.Normal := by
  have hn : ∀ {O : Type} (ls : List (Monitor.Label Nat O (Resp P))),
      (∀ t o r, Monitor.Label.unlock t o r ∈ ls → r.Normal) ↔ ∀ e ∈ Monitor.completed ls, e.2.2.Normal := by
    intro O ls
    simp only [Monitor.completed, List.mem_filterMap]
    constructor
    · rintro h e ⟨l, hl, he⟩
      cases l <;> simp at he
      subst he
      exact h _ _ _ hl
    · intro h t o r hl
      exact h (t, o, r) ⟨_, hl, rfl⟩
  simp only [hn]
  exact Monitors.seen_iff_each body (fun a => Box.new (name a)) (fun e => e.2.2.Normal) H

/-- Linearisability is local: calls of several mailboxes can be put into a common order exactly if the calls of each of them can. -/
theorem C134_local (name : Addr → Str) (H : List (SeenEv Nat (Addr × Op P) (Resp P))) :
    Linearisable (fun es => ∀ a, ∃ m, OneAfterOther a (name a) (onOnly a es) m) H ↔
    OneByOne H ∧ ∀ a, Linearisable (fun es => ∃ m, OneAfterOther a (name a) es m) (historyOf a H) := by
  rw [← C133_many, C134_one_by_one]
  simp only [C133_linearisable]

/-- Two mailboxes cannot block each other: a thread that is in a call of a mailbox can return after steps of its own and of the thread that
holds the mutex of this mailbox, whatever the others do or do not do. -/
theorem C134_not_blocked (name : Addr → Str) {ls : List (Monitor.Label Nat (Addr × Op P) (Resp P))} {c : Monitors.Conf Nat Addr (Box P) (Op P) (Resp P)}
    (h : Monitors.Steps body (Monitors.Conf.init fun a => Box.new (name a)) ls c) (t : Nat) (a : Addr)
    (hb : (∃ o, c.phase t = .wants (a, o)) ∨ (∃ o b, c.phase t = .runs (a, o) b) ∨ ∃ o r, c.phase t = .leaving (a, o) r) :
    ∃ ls' c', Monitors.Steps body c ls' c' ∧ c'.phase t = .idle ∧ ∀ l ∈ ls', l.thread = t ∨ c.holder a = some l.thread := by
  refine Monitors.progress h t a ?_
  rcases hb with ⟨o, h⟩ | ⟨o, b, h⟩ | ⟨o, r, h⟩ <;> rw [h] <;> rfl

/-! ### Examples -/

/-- One mailbox of the example of C133 seen alone. -/
example : ∃ ls c, Monitor.Steps (body 5) (Monitor.Conf.init (Box.new "m".toList)) ls c ∧ visible ls = afterwards (some 7) ∧
    ∀ t o r, Monitor.Label.unlock t o r ∈ ls → r.Normal :=
  ((C134_one_by_one (fun _ => "m".toList) (crossing (some 7) none)).1 crossing_one).2 5

/-- Thread 0 cannot see nothing, whatever thread 1 sees: look at mailbox 5 alone. -/
theorem crossing_not (m6 : Option Nat) : ¬ ∃ ls c, Monitors.Steps body (Monitors.Conf.init fun _ => Box.new "m".toList) ls c ∧
    visible ls = crossing none m6 ∧ ∀ t o r, Monitor.Label.unlock t o r ∈ ls → r.Normal := by
  rw [C134_one_by_one]
  rintro ⟨_, h⟩
  exact afterwards_not (h 5)

/-- A thread that waits for a mailbox whose mutex another thread holds. -/
example : ∃ (ls : List (Monitor.Label Nat (Addr × Op Nat) (Resp Nat))) (c : Monitors.Conf Nat Addr (Box Nat) (Op Nat) (Resp Nat)),
    Monitors.Steps body (Monitors.Conf.init fun _ => Box.new "m".toList) ls c ∧ c.holder 5 = some 0 ∧ ∃ o, c.phase 1 = .wants (5, o) :=
  ⟨_, _, .snoc (.snoc (.snoc .nil (.call (t := 0) (a := 5) (o := .subscribe) rfl)) (.call (t := 1) (a := 5) (o := .minReadyCount) rfl))
    (.lock (t := 0) (a := 5) (o := .subscribe) rfl rfl), rfl, .minReadyCount, rfl⟩

end SoDa
