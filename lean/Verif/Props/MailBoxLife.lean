import Verif.Proof.MailBoxLifeSim
import Verif.Props.MailBox
/-!
# C112: messages as objects

`LSteps this name ls c` is any execution of a program with any number of threads that construct messages, copy and destroy pointers to
them, hand pointers to each other, and call methods of a mailbox; calls are interrupted anywhere by the other threads.
-/
namespace SoDa.Mail
open Spec
open Monitor (Body Conf Phase setPhase)

variable {P : Type} [DecidableEq P]

/-! ### Programs for the examples -/

instance (r : Resp Nat) : Decidable r.Normal :=
  match r with
  | .terminate => isFalse id
  | .ub => isFalse id
  | .sub _ => isTrue trivial
  | .msg _ => isTrue trivial
  | .count _ => isTrue trivial
  | .done => isTrue trivial
  | .threw _ => isTrue trivial

/-- Nothing has happened yet. -/
def demo0 : Mem Nat := { box := Box.new "m".toList, count := fun _ => 0, vars := [], made := [], gone := [] }

/-- Thread `t` calls `o`. -/
def demoCall (t : Nat) (o : Op Nat) (m : Mem Nat) : Mem Nat := Mem.leave t ((bodyL 5 t o).run (m.enter t o.args)).1

/-- Thread 1 subscribes, sends a new message 7 to all and forgets it. -/
def demo1 : Mem Nat :=
  let m := demoCall 1 .subscribe demo0
  let m := demoCall 1 (.put (some 7) none) { m.inc 7 with made := 7 :: m.made, vars := (.var 1, 7) :: m.vars }
  { m with vars := m.vars.erase (.var 1, 7) }.dec false 7

/-- Then thread 2 gets it from the mailbox. -/
def demo2 : Mem Nat := demoCall 2 (.get (some ⟨5, 0⟩)) demo1

/-- Then thread 2 forgets it. -/
def demo3 : Mem Nat := { demo2 with vars := demo2.vars.erase (.var 2, 7) }.dec false 7

/-- Instead of that thread 1 clears the mailbox. -/
def demo4 : Mem Nat := demoCall 1 (.clear (some ⟨5, 0⟩)) demo1

theorem demo1_steps : ∃ ls c, LSteps 5 "m".toList ls c ∧ Quiet c ∧ c.shared = demo1 ∧
    ∀ t o i, LLabel.mon (.call t (t, o)) ∈ ls → ¬ Discards i o := by
  obtain ⟨l1, c1, h1, q1, e1, k1⟩ := whole_call (P := Nat) (this := 5) (name := "m".toList) .init ⟨rfl, fun _ => rfl⟩ 1 .subscribe
    (by intro p hp; cases hp) (by decide +kernel)
  have h2 := h1.snoc (.make (t := 1) (p := 7) (q1.phase 1) (by rw [e1]; decide +kernel))
  obtain ⟨l3, c3, h3, q3, e3, k3⟩ := whole_call h2 ⟨q1.holder, q1.phase⟩ 1 (.put (some 7) none)
    (by intro p hp; rw [show Op.args (.put (some 7) none) = [7] from rfl, List.mem_singleton] at hp; subst hp; simp)
    (by show Resp.Normal (((bodyL 5 1 (.put (some 7) none)).run (Mem.enter 1 [7] { c1.shared.inc 7 with made := _, vars := _ })).2)
        rw [e1]; decide +kernel)
  have e3' : c3.shared = demoCall 1 (.put (some 7) none) (let m := demoCall 1 .subscribe demo0
      { m.inc 7 with made := 7 :: m.made, vars := (.var 1, 7) :: m.vars }) := by
    rw [e3]
    show demoCall 1 _ { c1.shared.inc 7 with made := _, vars := _ } = _
    rw [e1]; rfl
  have h4 := h3.snoc (.release (t := 1) (p := 7) (q3.phase 1) (by rw [e3']; decide +kernel))
  refine ⟨_, _, h4, ⟨q3.holder, q3.phase⟩, ?_, fun t o i hm => ?_⟩
  · show { c3.shared with vars := _ }.dec false 7 = _
    rw [e3']; rfl
  · rw [List.mem_append, List.mem_singleton] at hm
    rcases hm with hm | hm
    · rcases k3 _ _ hm with hm | hm
      · rw [List.mem_append, List.mem_singleton] at hm
        rcases hm with hm | hm
        · rcases k1 _ _ hm with hm | hm
          · cases hm
          · cases hm; exact id
        · cases hm
      · cases hm; exact id
    · cases hm

theorem demo2_steps : ∃ ls c, LSteps 5 "m".toList ls c ∧ Quiet c ∧ c.shared = demo2 ∧
    ∀ t o i, LLabel.mon (.call t (t, o)) ∈ ls → ¬ Discards i o := by
  obtain ⟨l1, c1, h1, q1, e1, k1⟩ := demo1_steps
  obtain ⟨l3, c3, h3, q3, e3, k3⟩ := whole_call h1 q1 2 (.get (some ⟨5, 0⟩)) (by intro p hp; cases hp) (by rw [e1]; decide +kernel)
  refine ⟨_, _, h3, q3, by rw [e3, e1]; rfl, fun t o i hm => ?_⟩
  rcases k3 _ _ hm with hm | hm
  · exact k1 t o i hm
  · cases hm; exact id

theorem demo3_steps : ∃ ls c, LSteps 5 "m".toList ls c ∧ Quiet c ∧ c.shared = demo3 ∧
    ∀ t o i, LLabel.mon (.call t (t, o)) ∈ ls → ¬ Discards i o := by
  obtain ⟨l1, c1, h1, q1, e1, k1⟩ := demo2_steps
  have h4 := h1.snoc (.release (t := 2) (p := 7) (q1.phase 2) (by rw [e1]; decide +kernel))
  refine ⟨_, _, h4, ⟨q1.holder, q1.phase⟩, ?_, fun t o i hm => ?_⟩
  · show { c1.shared with vars := _ }.dec false 7 = _
    rw [e1]; rfl
  · rw [List.mem_append, List.mem_singleton] at hm
    rcases hm with hm | hm
    · exact k1 t o i hm
    · cases hm

theorem demo4_steps : ∃ ls c, LSteps 5 "m".toList ls c ∧ Quiet c ∧ c.shared = demo4 := by
  obtain ⟨l1, c1, h1, q1, e1, k1⟩ := demo1_steps
  obtain ⟨l3, c3, h3, q3, e3, k3⟩ := whole_call h1 q1 1 (.clear (some ⟨5, 0⟩)) (by intro p hp; cases hp) (by rw [e1]; decide +kernel)
  exact ⟨_, _, h3, q3, by rw [e3, e1]; rfl⟩

/-! ### The property -/

/-- C112: a message to which there is a pointer, in the mailbox or in the program, has been constructed and has not been destroyed. -/
theorem C112_alive (this : Addr) (name : Str) (ls : List (LLabel P)) (c : LConf P) (h : LSteps this name ls c) (p : P)
    (hr : Referenced c.shared p) : p ∈ c.shared.made ∧ ¬ Destroyed c.shared p := by
  have hc := (linv h).counted
  have h0 : 0 < c.shared.count p := by rw [hc.cnt p]; simpa using (referenced_iff _ _).mp hr
  refine ⟨(hc.made p).mpr (.inl h0), ?_⟩
  rintro ⟨l, hl⟩
  have := hc.gone0 p (List.mem_map.mpr ⟨_, hl, rfl⟩)
  omega

/-- The program has forgotten message 7, the mailbox has not. -/
example : ∃ ls c, LSteps 5 "m".toList ls c ∧ (∀ o, (o, 7) ∉ c.shared.vars) ∧ ¬ Destroyed c.shared 7 := by
  obtain ⟨ls, c, h, _, e, _⟩ := demo1_steps
  refine ⟨ls, c, h, fun o => ?_, (C112_alive 5 _ ls c h 7 ?_).2⟩
  · rw [e, show demo1.vars = [] by decide +kernel]; simp
  · rw [e]
    exact .inl ⟨(0, [some 7]), by decide +kernel, by simp⟩

/-- C112: a message that has been constructed is destroyed as soon as there is no pointer to it any more. -/
theorem C112_destroyed (this : Addr) (name : Str) (ls : List (LLabel P)) (c : LConf P) (h : LSteps this name ls c) (p : P) :
    Destroyed c.shared p ↔ p ∈ c.shared.made ∧ ¬ Referenced c.shared p := by
  have hc := (linv h).counted
  constructor
  · intro hd
    obtain ⟨l, hl⟩ := id hd
    refine ⟨(hc.made p).mpr (.inr (List.mem_map.mpr ⟨_, hl, rfl⟩)), fun hr => (C112_alive this name ls c h p hr).2 hd⟩
  · rintro ⟨hm, hr⟩
    rcases (hc.made p).mp hm with h0 | hg
    · rw [hc.cnt p] at h0
      exact absurd ((referenced_iff _ _).mpr (by simpa using h0)) hr
    · obtain ⟨⟨p', l⟩, hl, rfl⟩ := List.mem_map.mp hg
      exact ⟨l, hl⟩

/-- Thread 2 has got message 7 and forgotten it. -/
example : ∃ ls c, LSteps 5 "m".toList ls c ∧ Destroyed c.shared 7 := by
  obtain ⟨ls, c, h, _, e, _⟩ := demo3_steps
  refine ⟨ls, c, h, (C112_destroyed 5 _ ls c h 7).mpr ?_⟩
  rw [e]
  refine ⟨by decide +kernel, ?_⟩
  rintro (⟨kq, hk, hq⟩ | ⟨o, ho⟩)
  · rw [show demo3.box.queues = [(0, [])] by decide +kernel, List.mem_singleton] at hk
    subst hk; simp at hq
  · rw [show demo3.vars = [] by decide +kernel] at ho; simp at ho

/-- C112: no message is destroyed twice. -/
theorem C112_once (this : Addr) (name : Str) (ls : List (LLabel P)) (c : LConf P) (h : LSteps this name ls c) :
    (c.shared.gone.map (·.1)).Nodup := (linv h).counted.nodup

example : ∃ ls c, LSteps 5 "m".toList ls c ∧ c.shared.gone.map (·.1) = [(7 : Nat)] := by
  obtain ⟨ls, c, h, _, e, _⟩ := demo3_steps
  exact ⟨ls, c, h, by rw [e]; decide +kernel⟩

/-- C112: a message is destroyed where the program destroys its last pointer to it; at the end of the call of `put` it was given to; or
inside a call that throws away the messages of a subscriber, when it is the oldest of them.  The mutex is held in the last case, and
only then. -/
theorem C112_where (this : Addr) (name : Str) (ls : List (LLabel P)) (c : LConf P) (h : LSteps this name ls c) (l : LLabel P)
    (c' : LConf P) (hs : LStep this c l c') (p : P) (locked : Bool) (hd : (p, locked) ∈ c'.shared.gone) (hn : ¬ Destroyed c.shared p) :
    (locked = false ∧ ∃ t, l = .release t p) ∨
    (locked = false ∧ ∃ t subs r, l = .mon (.ret t (t, .put (some p) subs) r)) ∨
    (locked = true ∧ ∃ t o b i q, l = .mon (.act t) ∧ c.phase t = .runs (t, o) b ∧ c.holder = some t ∧ Discards i o ∧
      (i, some p :: q) ∈ c.shared.box.queues) := by
  have hi := linv h
  have hc := cinv h
  have hno : (p, locked) ∉ c.shared.gone := fun hx => hn ⟨_, hx⟩
  cases hs with
  | make => exact absurd hd hno
  | copy => exact absurd hd hno
  | @release t p' hidle hp =>
    rcases decO_gone_sub false (some p') _ _ hd with hx | ⟨hx, hy⟩
    · exact absurd hx hno
    · exact .inl ⟨hy, t, by rw [Option.some.inj hx]⟩
  | @call t o =>
    rw [show (c.shared.enter t o.args).gone = c.shared.gone from (incs_same _ _).2.2.2] at hd
    exact absurd hd hno
  | move => exact absurd hd hno
  | lock hs hw => cases hs; exact absurd hd hno
  | act hs =>
    rename_i t
    cases hs with
    | act hw =>
      rename_i o f k
      obtain ⟨hh, Pre, hpre, hg⟩ := hi.own t o _ hw
      obtain ⟨_, ⟨_, hx⟩, _⟩ := hg c.shared ⟨hi.counted, hi.params t o (.inr ⟨_, hw⟩)⟩ hpre
      have ht : o.1 = t := called_self h (hc.called t o (.inr (.inl ⟨_, hw⟩)))
      rcases hx with hx | ⟨i, p', q, hdis, hq, hx⟩
      · rw [show f c.shared = _ from rfl, hx] at hd
        exact absurd hd hno
      · rw [hx] at hd
        rcases List.mem_append.mp hd with hd | hd
        · exact absurd hd hno
        · rw [List.mem_singleton] at hd
          cases hd
          refine .inr (.inr ⟨rfl, t, o.2, Body.act f k, i, q, rfl, ?_, hh, hdis, (mapFind_mem intLess_order i _ _ hi.counted.sorted).1 hq⟩)
          rw [hw, ← ht]
  | unlock hs hn => cases hs; exact absurd hd hno
  | @ret t o r hw =>
    have ht : o.1 = t := called_self h (hc.called t o (.inr (.inr ⟨_, hw⟩)))
    rcases decs_gone_sub false _ _ _ hd with hx | ⟨hx, hy⟩
    · exact absurd hx hno
    · obtain ⟨v, hv, he⟩ := List.mem_map.mp hx
      obtain ⟨hv, hv1⟩ := List.mem_filter.mp hv
      obtain ⟨v1, v2⟩ := v
      simp only [Option.some.injEq, decide_eq_true_eq] at he hv1
      subst he hv1
      obtain ⟨o', ho, ha⟩ := hc.params t _ hv
      cases inside_unique (.inr (.inr ⟨_, hw⟩)) ho
      refine .inr (.inl ⟨hy, t, ?_⟩)
      obtain ⟨t', o⟩ := o
      cases ht
      cases o with
      | put msg subs =>
        cases msg with
        | none => cases ha
        | some x =>
          rw [show Op.args (.put (some x) subs) = [x] from rfl, List.mem_singleton] at ha
          subst ha
          exact ⟨subs, r, rfl⟩
      | _ => cases ha

/-- Thread 2 destroys message 7 when it forgets it. -/
example : ∃ ls c c', LSteps 5 "m".toList ls c ∧ LStep 5 c (.release 2 7) c' ∧ (7, false) ∈ c'.shared.gone ∧ ¬ Destroyed c.shared 7 := by
  obtain ⟨ls, c, h, q, e, _⟩ := demo2_steps
  refine ⟨ls, c, _, h, .release (t := 2) (p := 7) (q.phase 2) (by rw [e]; decide +kernel), ?_, ?_⟩
  · show _ ∈ ({ c.shared with vars := _ }.dec false 7).gone
    rw [e]; decide +kernel
  · rw [e]
    rintro ⟨f, hf⟩
    rw [show demo2.gone = [] by decide +kernel] at hf
    cases hf

/-- C112 (what a program may expect): no message is destroyed while the mutex of the mailbox is held, so that the destructor of a
message may use the mailbox. -/
def C112_claim : Prop :=
  ∀ (P : Type) [DecidableEq P] (this : Addr) (name : Str) (ls : List (LLabel P)) (c : LConf P), LSteps this name ls c →
    ∀ p locked, (p, locked) ∈ c.shared.gone → locked = false

/-- C112: the destructor of a message runs inside of `clear`, with the mutex held.  If it uses the mailbox, the thread locks the
mutex a second time, which is undefined. -/
theorem C112_refuted : ¬ C112_claim := by
  intro hc
  obtain ⟨ls, c, h, _, e⟩ := demo4_steps
  have := hc Nat 5 _ ls c h 7 true (by rw [e]; decide +kernel)
  cases this

/-- C112, for programs that do not call `clear` or `unsubscribe` and keep their subscriptions: no message is destroyed with the mutex
held. -/
theorem C112_unlocked_partial (this : Addr) (name : Str) (ls : List (LLabel P)) (c : LConf P) (h : LSteps this name ls c)
    (hno : ∀ t o i, .mon (.call t (t, o)) ∈ ls → ¬ Discards i o) (p : P) (locked : Bool) (hp : (p, locked) ∈ c.shared.gone) :
    locked = false := by
  induction h with
  | init => cases hp
  | @snoc ls c l c' h hs ih =>
    have ih := ih fun t o i hm => hno t o i (List.mem_append_left _ hm)
    by_cases hd : Destroyed c.shared p
    · obtain ⟨f, hf⟩ := hd
      have hn := (linv (h.snoc hs)).counted.nodup
      have hsub : (p, f) ∈ c'.shared.gone := gone_mono (linv h) hs _ hf
      have := List.inj_on_of_nodup_map hn hp hsub rfl
      cases this
      exact ih hf
    · rcases C112_where this name ls c h l c' hs p locked hp hd with ⟨h1, _⟩ | ⟨h1, _⟩ | ⟨_, t, o, b, i, q, _, hr, _, hdis, _⟩
      · exact h1
      · exact h1
      · exact absurd hdis (hno t o i (List.mem_append_left _ ((cinv h).called t _ (.inr (.inl ⟨_, hr⟩)))))

/-- Thread 2 has destroyed message 7 outside of the mailbox. -/
example : ∃ ls c, LSteps 5 "m".toList ls c ∧ (∀ t o i, LLabel.mon (.call t (t, o)) ∈ ls → ¬ Discards i o) ∧
    c.shared.gone = [((7 : Nat), false)] := by
  obtain ⟨ls, c, h, _, e, k⟩ := demo3_steps
  exact ⟨ls, c, h, k, by rw [e]; decide +kernel⟩

/-- C112: to the mailbox, and in the answers, this is the mailbox of C40 to C47. -/
theorem C112_mailbox (this : Addr) (name : Str) (ls : List (LLabel P)) (c : LConf P) (h : LSteps this name ls c) :
    ∃ c1, Concurrent this name (ls.filterMap LLabel.call?) c1 ∧ c1.shared = c.shared.box ∧ c1.holder = c.holder := by
  obtain ⟨c1, h1, h2⟩ := sim h
  refine ⟨c1, ⟨h1, ?_⟩, h2.shared, h2.holder⟩
  rintro ⟨t, o, r⟩ he
  unfold Monitor.completed at he
  obtain ⟨l, hl, hr⟩ := List.mem_filterMap.mp he
  cases l with
  | unlock t' o' r' =>
    cases hr
    obtain ⟨l, hl, hr⟩ := List.mem_filterMap.mp hl
    cases l with
    | mon l =>
      cases l with
      | unlock t o r =>
        cases hr
        exact unlock_normal h hl
      | _ => cases hr
    | _ => cases hr
  | _ => cases hr

/-- After thread 2 got the message: the mailbox of C40 to C47 with one subscriber for whom nothing waits. -/
example : ∃ (ls : List (LLabel Nat)) (c1 : _), Concurrent 5 "m".toList (ls.filterMap LLabel.call?) c1 ∧ c1.shared.queues = [(0, [])] := by
  obtain ⟨ls, c, h, _, e, _⟩ := demo2_steps
  obtain ⟨c1, h1, h2, _⟩ := C112_mailbox 5 _ ls c h
  exact ⟨ls, c1, h1, by rw [h2, e]; decide +kernel⟩

/-- C112: when the mailbox is destroyed, every message to which the program has no pointer has been destroyed, once. -/
theorem C112_close (this : Addr) (name : Str) (ls : List (LLabel P)) (c : LConf P) (h : LSteps this name ls c) (p : P) :
    (Destroyed c.shared.close p ↔ p ∈ c.shared.made ∧ ¬ ∃ o, (o, p) ∈ c.shared.vars) ∧ (c.shared.close.gone.map (·.1)).Nodup := by
  have hc := counted_close (linv h).counted
  have hs := decs_same false (c.shared.box.queues.flatMap fun kq => kq.2) { c.shared with box := { c.shared.box with queues := [] } }
  refine ⟨?_, hc.nodup⟩
  have hr : refs c.shared.close p = (c.shared.vars.map (·.2)).count p := by
    unfold refs Mem.close
    rw [hs.1, hs.2.1]
    simp [flat]
  have hv : (∃ o, (o, p) ∈ c.shared.vars) ↔ 0 < (c.shared.vars.map (·.2)).count p := by
    rw [List.count_pos_iff]; simp
  have hm : c.shared.close.made = c.shared.made := hs.2.2
  have hcnt := hc.cnt p
  rw [hr, List.count_nil, Nat.add_zero] at hcnt
  constructor
  · rintro ⟨f, hf⟩
    have hg : p ∈ c.shared.close.gone.map (·.1) := List.mem_map.mpr ⟨_, hf, rfl⟩
    refine ⟨hm ▸ (hc.made p).mpr (.inr hg), fun ho => ?_⟩
    have := hc.gone0 p hg
    have := hv.mp ho
    omega
  · rintro ⟨hp, ho⟩
    rcases (hc.made p).mp (hm.symm ▸ hp) with h0 | hg
    · exact absurd (hv.mpr (by omega)) ho
    · obtain ⟨⟨p', l⟩, hl, rfl⟩ := List.mem_map.mp hg
      exact ⟨l, hl⟩

/-- The mailbox is destroyed with message 7 in it. -/
example : ∃ ls c, LSteps 5 "m".toList ls c ∧ ¬ Destroyed c.shared 7 ∧ Destroyed c.shared.close 7 := by
  obtain ⟨ls, c, h, _, e, _⟩ := demo1_steps
  refine ⟨ls, c, h, ?_, (C112_close 5 _ ls c h 7).1.mpr ?_⟩
  · rw [e]
    rintro ⟨f, hf⟩
    rw [show demo1.gone = [] by decide +kernel] at hf
    cases hf
  · rw [e, show demo1.vars = [] by decide +kernel, show demo1.made = [7] by decide +kernel]
    simp

end SoDa.Mail
