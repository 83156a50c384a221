import Verif.Spec.MonitorTrace
import Verif.Proof.HappensBefore
import Verif.Props.Session
/-!
Property C82: data races and memory ordering at the mailbox.
-/
namespace SoDa.Monitor
open Spec

variable {T S O R : Type} [DecidableEq T]

/-- The states between the steps of an execution. -/
theorem Steps.states {body : O → Body S R} {c0 c : Conf T S O R} {ls : List (Label T O R)}
    (h : Steps body c0 ls c) : ∃ st : Nat → Conf T S O R, st 0 = c0 ∧ st ls.length = c ∧
      ∀ i (hi : i < ls.length), Step body (st i) ls[i] (st (i + 1)) := by
  induction h with
  | nil => exact ⟨fun _ => c0, rfl, rfl, by simp⟩
  | @snoc ls c' l c'' h hs ih =>
    obtain ⟨st, h1, h2, h3⟩ := ih
    refine ⟨fun i => if i ≤ ls.length then st i else c'', by simpa using h1, by simp, ?_⟩
    intro i hi
    simp only [List.length_append, List.length_singleton] at hi
    by_cases hlt : i < ls.length
    · simp only [if_pos (Nat.le_of_lt hlt), if_pos (Nat.succ_le_of_lt hlt), List.getElem_append_left hlt]
      exact h3 i hlt
    · obtain rfl : i = ls.length := by omega
      simp only [Nat.le_refl, if_true, Nat.not_succ_le_self, if_false, List.getElem_concat_length]
      rw [h2]; exact hs

theorem steps_take {body : O → Body S R} {ls : List (Label T O R)} {st : Nat → Conf T S O R}
    (h : ∀ i (hi : i < ls.length), Step body (st i) ls[i] (st (i + 1))) {i : Nat} (hi : i ≤ ls.length) :
    Steps body (st 0) (ls.take i) (st i) := by
  induction i with
  | zero => exact .nil
  | succ i ih =>
    rw [List.take_succ_eq_append_getElem (by omega)]
    exact .snoc (ih (by omega)) (h i (by omega))

theorem owned {body : O → Body S R} {s0 : S} {ls : List (Label T O R)} {st : Nat → Conf T S O R}
    (h0 : st 0 = Conf.init s0) (h : ∀ i (hi : i < ls.length), Step body (st i) ls[i] (st (i + 1))) :
    Owned (actAt ls) (fun i => (st i).holder) := by
  have key : ∀ i a, actAt ls i = some a → ∃ hi : i < ls.length, a = labelAct ls[i] := by
    intro i a ha
    simp only [actAt, Option.map_eq_some_iff, List.getElem?_eq_some_iff] at ha
    obtain ⟨l, ⟨h1, h2⟩, h3⟩ := ha
    exact ⟨h1, by rw [h2, h3]⟩
  constructor
  all_goals
    intro i a ha hs
    obtain ⟨hi, rfl⟩ := key i a ha
    have hst := h i hi
    have hinv := inv_steps (h0 ▸ steps_take h (Nat.le_of_lt hi))
    generalize ls[i] = l at hst hs ⊢
    generalize st (i + 1) = c' at hst ⊢
    cases hst with
    | call hp => simp [labelAct] at hs ⊢
    | lock hp hf => simp [labelAct, hf] at hs ⊢
    | act hp => simp [labelAct] at hs ⊢
    | unlock hp => simp [labelAct, hinv.excl _ _ _ hp] at hs ⊢
    | ret hp => simp [labelAct] at hs ⊢

/-- Steps executed inside critical sections, the releases of the mutex included. -/
def InSection : Label T O R → Prop
  | .act _ => True
  | .unlock _ _ _ => True
  | _ => False

theorem ordered {body : O → Body S R} {s0 : S} {ls : List (Label T O R)} {c : Conf T S O R}
    (h : Steps body (Conf.init s0) ls c) {i j : Nat} (hij : i < j) {l l' : Label T O R}
    (hi : ls[i]? = some l) (hj : ls[j]? = some l') (h1 : InSection l) (h2 : InSection l') :
    HB (actAt ls) i j := by
  obtain ⟨st, s1, -, s3⟩ := h.states
  obtain ⟨ei, rfl⟩ := List.getElem?_eq_some_iff.1 hi
  obtain ⟨ej, rfl⟩ := List.getElem?_eq_some_iff.1 hj
  have crit : ∀ k (hk : k < ls.length), InSection ls[k] → (st k).holder = some (labelAct ls[k]).thread := by
    intro k hk hin
    have hst := s3 k hk
    have hinv := inv_steps (s1 ▸ steps_take s3 (Nat.le_of_lt hk))
    generalize ls[k] = l at hst hin ⊢
    generalize st (k + 1) = c' at hst
    cases hst with
    | call hp => exact hin.elim
    | lock hp hf => exact hin.elim
    | act hp => exact hinv.excl _ _ _ hp
    | unlock hp => exact hinv.excl _ _ _ hp
    | ret hp => exact hin.elim
  exact (owned s1 s3).ordered (N := ls.length) (by intro k hk; simp [actAt, hk]) hij ej
    (a := labelAct ls[i]) (b := labelAct ls[j]) (by simp [actAt, ei]) (by simp [actAt, ej])
    (.inr (crit i ei h1)) (.inr (crit j ej h2))

/-- A thread inside a call of `o` has called it. -/
theorem called {body : O → Body S R} {s0 : S} {ls : List (Label T O R)} {c : Conf T S O R}
    (h : Steps body (Conf.init s0) ls c) (t : T) (o : O)
    (hp : c.phase t = .wants o ∨ (∃ b, c.phase t = .runs o b) ∨ ∃ r, c.phase t = .leaving o r) :
    ∃ i < ls.length, ls[i]? = some (.call t o) := by
  generalize hc : Conf.init s0 = c0 at h
  induction h with
  | nil => subst hc; simp [Conf.init] at hp
  | @snoc ls c' l c'' h hs ih =>
    have up : (∃ i < ls.length, ls[i]? = some (.call t o)) →
        ∃ i < (ls ++ [l]).length, (ls ++ [l])[i]? = some (.call t o) := by
      rintro ⟨i, h1, h2⟩
      exact ⟨i, by simp; omega, by rw [List.getElem?_append_left h1]; exact h2⟩
    cases hs with
    | @call u o' h1 =>
      by_cases e : t = u
      · subst e
        simp at hp
        subst hp
        exact ⟨ls.length, by simp, by simp⟩
      · simp only [setPhase_ne _ _ e] at hp; exact up (ih hp)
    | @lock u o' h1 h2 =>
      by_cases e : t = u
      · subst e
        simp at hp
        obtain ⟨rfl, -⟩ := hp
        exact up (ih (.inl h1))
      · simp only [setPhase_ne _ _ e] at hp; exact up (ih hp)
    | @act u o' f k h1 =>
      by_cases e : t = u
      · subst e
        simp at hp
        obtain ⟨rfl, -⟩ := hp
        exact up (ih (.inr (.inl ⟨_, h1⟩)))
      · simp only [setPhase_ne _ _ e] at hp; exact up (ih hp)
    | @unlock u o' r h1 =>
      by_cases e : t = u
      · subst e
        simp at hp
        obtain ⟨rfl, -⟩ := hp
        exact up (ih (.inr (.inl ⟨_, h1⟩)))
      · simp only [setPhase_ne _ _ e] at hp; exact up (ih hp)
    | @ret u o' r h1 =>
      by_cases e : t = u
      · subst e
        simp at hp
      · simp only [setPhase_ne _ _ e] at hp; exact up (ih hp)

/-- A thread that is about to return a response has released the mutex with that response. -/
theorem released {body : O → Body S R} {s0 : S} {ls : List (Label T O R)} {c : Conf T S O R}
    (h : Steps body (Conf.init s0) ls c) (t : T) (o : O) (r : R) (hp : c.phase t = .leaving o r) :
    ∃ i < ls.length, ls[i]? = some (.unlock t o r) := by
  generalize hc : Conf.init s0 = c0 at h
  induction h with
  | nil => subst hc; simp [Conf.init] at hp
  | @snoc ls c' l c'' h hs ih =>
    have up : (∃ i < ls.length, ls[i]? = some (.unlock t o r)) →
        ∃ i < (ls ++ [l]).length, (ls ++ [l])[i]? = some (.unlock t o r) := by
      rintro ⟨i, h1, h2⟩
      exact ⟨i, by simp; omega, by rw [List.getElem?_append_left h1]; exact h2⟩
    cases hs with
    | @call u o' h1 =>
      by_cases e : t = u
      · subst e; simp at hp
      · simp only [setPhase_ne _ _ e] at hp; exact up (ih hp)
    | @lock u o' h1 h2 =>
      by_cases e : t = u
      · subst e; simp at hp
      · simp only [setPhase_ne _ _ e] at hp; exact up (ih hp)
    | @act u o' f k h1 =>
      by_cases e : t = u
      · subst e; simp at hp
      · simp only [setPhase_ne _ _ e] at hp; exact up (ih hp)
    | @unlock u o' r' h1 =>
      by_cases e : t = u
      · subst e
        simp at hp
        obtain ⟨rfl, rfl⟩ := hp
        exact ⟨ls.length, by simp, by simp⟩
      · simp only [setPhase_ne _ _ e] at hp; exact up (ih hp)
    | @ret u o' r' h1 =>
      by_cases e : t = u
      · subst e; simp at hp
      · simp only [setPhase_ne _ _ e] at hp; exact up (ih hp)

omit [DecidableEq T] in
theorem same_thread {ls : List (Label T O R)} {i j : Nat} (hij : i < j) {l l' : Label T O R}
    (hi : ls[i]? = some l) (hj : ls[j]? = some l') (ht : (labelAct l).thread = (labelAct l').thread) :
    HB (actAt ls) i j :=
  .thread hij (a := labelAct l) (b := labelAct l') (by simp [actAt, hi]) (by simp [actAt, hj]) ht

end SoDa.Monitor

namespace SoDa.Mail
open Spec Monitor

variable {P : Type}

/-! ## C82  data races and memory ordering -/

/-- Any two accesses to the state of the mailbox (steps `act`; no other step reads or changes it) are
ordered by happens-before: there are no data races. -/
theorem C82_no_data_race (this : Addr) (name : Str) (ls : List (Label Nat (Op P) (Resp P)))
    (c : Conf Nat (Box P) (Op P) (Resp P)) (h : Steps (body this) (Conf.init (Box.new name)) ls c)
    (i j t u : Nat) (hij : i < j) (hi : ls[i]? = some (.act t)) (hj : ls[j]? = some (.act u)) :
    HB (actAt ls) i j := ordered h hij hi hj trivial trivial

/-- If a `get` returns a message then the call of a `put` of this message happens before the return
of the `get`.  So what the sender did before the `put`, such as filling in the message, happens
before what the receiver does with the message. -/
theorem C82_ordering (this : Addr) (name : Str) (ls : List (Label Nat (Op P) (Resp P)))
    (c : Conf Nat (Box P) (Op P) (Resp P)) (h : Concurrent this name ls c) (j t : Nat) (s : Sub) (m : P)
    (hj : ls[j]? = some (.ret t (.get (some s)) (.msg (some m)))) :
    ∃ i t' subs, ls[i]? = some (.call t' (.put (some m) subs)) ∧ HB (actAt ls) i j := by
  obtain ⟨st, s1, -, s3⟩ := h.steps.states
  obtain ⟨ej, hj'⟩ := List.getElem?_eq_some_iff.1 hj
  have pre : ∀ k ≤ ls.length, Steps (body this) (Conf.init (Box.new name)) (ls.take k) (st k) := fun k hk =>
    s1 ▸ steps_take s3 hk
  have take : ∀ {k i : Nat} {l}, i < (ls.take k).length → (ls.take k)[i]? = some l → i < k ∧ ls[i]? = some l := by
    intro k i l h1 h2
    have h3 : i < k := by simp at h1; omega
    exact ⟨h3, by rw [← h2, List.getElem?_take_of_lt h3]⟩
  -- the release of the mutex by `get`
  have hphase : (st j).phase t = .leaving (.get (some s)) (.msg (some m)) := by
    have hst := s3 j ej
    rw [hj'] at hst
    generalize st (j + 1) = c' at hst
    cases hst with
    | ret hp => exact hp
  obtain ⟨g, hg, hgl⟩ := released (pre j (by omega)) t _ _ hphase
  obtain ⟨hgj, hgl⟩ := take hg hgl
  -- a `put` in the history before it
  have hconc : Concurrent this name (ls.take (g + 1)) (st (g + 1)) := by
    refine ⟨pre _ (by omega), ?_⟩
    intro e he
    refine h.normal e ?_
    rw [← List.take_append_drop (g + 1) ls, completed_append]
    exact List.mem_append_left _ he
  have hin : m ∈ receivedEver s.idx (historyOf (ls.take (g + 1))) := by
    unfold receivedEver
    rw [List.mem_filterMap]
    refine ⟨⟨t, .get (some s), .msg (some m)⟩, ?_, by simp [gives]⟩
    unfold historyOf history
    rw [List.mem_map]
    refine ⟨(t, .get (some s), .msg (some m)), ?_, rfl⟩
    unfold completed
    rw [List.mem_filterMap]
    refine ⟨.unlock t (.get (some s)) (.msg (some m)), ?_, rfl⟩
    exact List.mem_of_getElem? (i := g) (by rw [List.getElem?_take_of_lt (by omega)]; exact hgl)
  have hsent := (C41_subsequence this name _ _ hconc s.idx).subset hin
  unfold sentLog at hsent
  rw [List.mem_filterMap] at hsent
  obtain ⟨e, he, hse⟩ := hsent
  obtain ⟨subs, hop, hresp⟩ : ∃ subs, e.op = .put (some m) subs ∧ e.resp = .done := by
    obtain ⟨t', o, r⟩ := e
    unfold sends at hse
    split at hse
    · next h1 h2 =>
      simp only [Option.some.injEq] at hse
      subst hse
      exact ⟨_, h1, h2⟩
    · cases hse
  unfold historyOf history at he
  rw [List.mem_map] at he
  obtain ⟨⟨t', o, r⟩, he, rfl⟩ := he
  simp only at hop hresp
  subst hop; subst hresp
  unfold completed at he
  rw [List.mem_filterMap] at he
  obtain ⟨l, hl, hle⟩ := he
  have hl' : l = .unlock t' (.put (some m) subs) .done := by
    cases l <;> simp at hle
    obtain ⟨rfl, rfl, rfl⟩ := hle
    rfl
  subst hl'
  obtain ⟨p, hp, hpt⟩ := List.mem_iff_getElem.1 hl
  obtain ⟨hpg, hpl⟩ := take hp (by rw [List.getElem?_eq_getElem hp, hpt])
  have hpg' : p < g := by
    rcases Nat.lt_or_ge p g with h1 | h1
    · exact h1
    · obtain rfl : p = g := by omega
      rw [hgl] at hpl; cases hpl
  -- the call of that `put`
  obtain ⟨ep, hpl'⟩ := List.getElem?_eq_some_iff.1 hpl
  have hrun : ∃ b, (st p).phase t' = .runs (.put (some m) subs) b := by
    have hst := s3 p ep
    rw [hpl'] at hst
    generalize st (p + 1) = c' at hst
    cases hst with
    | unlock hp => exact ⟨_, hp⟩
  obtain ⟨i, hi, hil⟩ := called (pre p (by omega)) t' _ (.inr (.inl hrun))
  obtain ⟨hip, hil⟩ := take hi hil
  refine ⟨i, t', subs, hil, ?_⟩
  exact .trans (same_thread hip hil hpl rfl)
    (.trans (ordered h.steps hpg' hpl hgl trivial trivial) (same_thread hgj hgl hj rfl))

/-- Two threads exchanging messages (the execution shown for C64): the last step at
the mailbox is the return of a `get` to thread 0 with the message 10 sent by thread 1. -/
example : ∃ s : Session.State 2 Nat,
    Session.runAll 5 Session.sampleSchedule (Session.State.new 2 "m".toList) = some s ∧
    Concurrent 5 "m".toList s.ls s.mc ∧
    s.ls[34]? = some (.ret 0 (.get (some ⟨5, 0⟩)) (.msg (some 10))) ∧
    s.ls[14]? = some (.call 1 (.put (some 10) none)) ∧
    s.ls[2]? = some (.act 0) ∧ s.ls[9]? = some (.act 1) := by
  refine ⟨_, rfl, ⟨(Session.runAll_exec Session.sampleSchedule (s := Session.State.new 2 "m".toList) .init
    rfl).mailSteps, ?_⟩, rfl, rfl, rfl, rfl⟩
  intro e he
  have : e ∈ [(0, Mail.Op.subscribe, Mail.Resp.sub ⟨5, 0⟩), (1, .subscribe, .sub ⟨5, 1⟩),
    (1, .put (some 10) none, .done), (0, .put (some 20) (some ⟨5, 0⟩), .done),
    (0, .get (some ⟨5, 0⟩), .msg (some 10))] := he
  simp only [List.mem_cons, List.not_mem_nil, or_false] at this
  rcases this with rfl | rfl | rfl | rfl | rfl <;> trivial

end SoDa.Mail
