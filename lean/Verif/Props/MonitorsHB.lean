import Verif.Spec.MonitorsHB
import Verif.Props.MailBoxHB
import Verif.Props.LinearLocal
/-!
# C135  Several mailboxes order memory
-/
namespace SoDa.Monitors
open Monitor (Body Phase Label setPhase setPhase_self setPhase_ne completed completed_append)
open Spec

variable {T A S O R : Type} [DecidableEq T] [DecidableEq A]

/-- The states between the steps of an execution. -/
theorem Steps.states {body : A → O → Body S R} {c0 c : Conf T A S O R} {ls : List (Label T (A × O) R)}
    (h : Steps body c0 ls c) : ∃ st : Nat → Conf T A S O R, st 0 = c0 ∧ st ls.length = c ∧
      ∀ i (hi : i < ls.length), Step body (st i) ls[i] (st (i + 1)) := by
  induction h with
  | nil => exact ⟨fun _ => c0, rfl, rfl, by simp⟩
  | @snoc ls c' l c'' h hs ih =>
    obtain ⟨st, h1, h2, h3⟩ := ih
    refine ⟨fun i => if i ≤ ls.length then st i else c'', by simpa using h1, by simp, ?_⟩
    intro i hi
    simp only [List.length_append, List.length_singleton] at hi
    by_cases hlt : i < ls.length
    · simp only [if_pos (Nat.le_of_lt hlt), if_pos (Nat.succ_le_of_lt hlt), List.getElem_append_left hlt]
      exact h3 i hlt
    · obtain rfl : i = ls.length := by omega
      simp only [Nat.le_refl, if_true, Nat.not_succ_le_self, if_false, List.getElem_concat_length]
      rw [h2]; exact hs

theorem steps_take {body : A → O → Body S R} {ls : List (Label T (A × O) R)} {st : Nat → Conf T A S O R}
    (h : ∀ i (hi : i < ls.length), Step body (st i) ls[i] (st (i + 1))) {i : Nat} (hi : i ≤ ls.length) :
    Steps body (st 0) (ls.take i) (st i) := by
  induction i with
  | zero => exact .nil
  | succ i ih =>
    rw [List.take_succ_eq_append_getElem (by omega)]
    exact .snoc (ih (by omega)) (h i (by omega))

omit [DecidableEq A] in
theorem lastObject_snoc (t : T) (ls : List (Label T (A × O) R)) (l : Label T (A × O) R) :
    lastObject t (ls ++ [l]) = match l with | .call u o => if u = t then some o.1 else lastObject t ls | _ => lastObject t ls := by
  cases l with
  | call u o => by_cases h : u = t <;> simp [lastObject, h]
  | _ => simp [lastObject]

/-- A thread in a call of an object has called this object last. -/
theorem busy_last {body : A → O → Body S R} {s0 : A → S} {ls : List (Label T (A × O) R)} {c : Conf T A S O R}
    (h : Steps body (Conf.init s0) ls c) (t : T) (a : A) (hb : busyWith (c.phase t) = some a) : lastObject t ls = some a := by
  generalize hc : Conf.init s0 = c0 at h
  induction h with
  | nil => subst hc; simp [Conf.init, busyWith] at hb
  | @snoc ls c' l c'' h hs ih =>
    rw [lastObject_snoc]
    cases hs with
    | @call u a' o h1 =>
      by_cases e : t = u
      · subst e
        simp [busyWith] at hb
        simp [hb]
      · simp only [setPhase_ne _ _ e] at hb
        have : ¬ u = t := fun e' => e e'.symm
        simpa [this] using ih hb
    | @lock u a' o h1 h2 =>
      by_cases e : t = u
      · subst e
        exact ih (by simpa [h1, busyWith] using hb)
      · simp only [setPhase_ne _ _ e] at hb; exact ih hb
    | @act u a' o f k h1 =>
      by_cases e : t = u
      · subst e
        exact ih (by simpa [h1, busyWith] using hb)
      · simp only [setPhase_ne _ _ e] at hb; exact ih hb
    | @unlock u a' o r h1 =>
      by_cases e : t = u
      · subst e
        exact ih (by simpa [h1, busyWith] using hb)
      · simp only [setPhase_ne _ _ e] at hb; exact ih hb
    | @ret u a' o r h1 =>
      by_cases e : t = u
      · subst e
        simp [busyWith] at hb
      · simp only [setPhase_ne _ _ e] at hb; exact ih hb

theorem owned {body : A → O → Body S R} {s0 : A → S} {ls : List (Label T (A × O) R)} {st : Nat → Conf T A S O R} (a : A)
    (h0 : st 0 = Conf.init s0) (h : ∀ i (hi : i < ls.length), Step body (st i) ls[i] (st (i + 1))) :
    Owned (actOn a ls) (fun i => (st i).holder a) := by
  have key : ∀ i x, actOn a ls i = some x → ∃ hi : i < ls.length, x = actOf a (ls.take i) ls[i] := by
    intro i x hx
    simp only [actOn, Option.map_eq_some_iff, List.getElem?_eq_some_iff] at hx
    obtain ⟨l, ⟨h1, h2⟩, h3⟩ := hx
    exact ⟨h1, by rw [h2, h3]⟩
  have step : ∀ i (hi : i < ls.length) (x : Act T), x = actOf a (ls.take i) ls[i] →
      (x.sync = .acquire → (st i).holder a = none ∧ (st (i + 1)).holder a = some x.thread) ∧
      (x.sync = .release → (st i).holder a = some x.thread ∧ (st (i + 1)).holder a = none) ∧
      (x.sync = .other → (st (i + 1)).holder a = (st i).holder a) := by
    intro i hi x hx
    have hst := h i hi
    have hpre := h0 ▸ steps_take h (Nat.le_of_lt hi)
    have hinv := inv_steps hpre
    generalize ls[i] = l at hst hx
    generalize st (i + 1) = c' at hst ⊢
    cases hst with
    | call hp => subst hx; simp [actOf]
    | @lock t a' o hp hf =>
      have hlast := busy_last hpre t a' (by rw [hp]; rfl)
      subst hx
      simp only [actOf, hlast, Option.some.injEq]
      by_cases ha : a' = a
      · subst ha; simp [hf]
      · simp [ha, setAt_ne _ _ (fun e => ha e.symm : a ≠ a')]
    | act hp => subst hx; simp [actOf]
    | @unlock t a' o r hp =>
      have hold := hinv.excl _ _ _ _ hp
      subst hx
      by_cases ha : a' = a
      · subst ha; simp [actOf, hold]
      · simp [actOf, ha, setAt_ne _ _ (fun e => ha e.symm : a ≠ a')]
    | ret hp => subst hx; simp [actOf]
  constructor
  · intro i x hx hs
    obtain ⟨hi, hx⟩ := key i x hx
    exact (step i hi x hx).1 hs
  · intro i x hx hs
    obtain ⟨hi, hx⟩ := key i x hx
    exact (step i hi x hx).2.1 hs
  · intro i x hx hs
    obtain ⟨hi, hx⟩ := key i x hx
    exact (step i hi x hx).2.2 hs

/-- The thread of a step as happens-before sees it. -/
theorem actOn_thread (a : A) {ls : List (Label T (A × O) R)} {i : Nat} {l : Label T (A × O) R} (h : ls[i]? = some l) :
    ∃ x, actOn a ls i = some x ∧ x.thread = l.thread := by
  rw [actOn, h]
  cases l <;> exact ⟨_, rfl, rfl⟩

theorem same_thread (a : A) {ls : List (Label T (A × O) R)} {i j : Nat} (hij : i < j) {l l' : Label T (A × O) R}
    (hi : ls[i]? = some l) (hj : ls[j]? = some l') (ht : l.thread = l'.thread) : HBMany ls i j := by
  obtain ⟨x, hx, ex⟩ := actOn_thread a hi
  obtain ⟨y, hy, ey⟩ := actOn_thread a hj
  exact .one (a := a) (.thread hij hx hy (by rw [ex, ey, ht]))

/-- Steps executed with the mutex of `a` held are ordered. -/
theorem ordered {body : A → O → Body S R} {s0 : A → S} {ls : List (Label T (A × O) R)} {st : Nat → Conf T A S O R} (a : A)
    (h0 : st 0 = Conf.init s0) (h : ∀ i (hi : i < ls.length), Step body (st i) ls[i] (st (i + 1))) {i j : Nat} (hij : i < j)
    {l l' : Label T (A × O) R} (hi : ls[i]? = some l) (hj : ls[j]? = some l') (h1 : (st i).holder a = some l.thread)
    (h2 : (st j).holder a = some l'.thread) : HBMany ls i j := by
  obtain ⟨x, hx, ex⟩ := actOn_thread a hi
  obtain ⟨y, hy, ey⟩ := actOn_thread a hj
  have ej := (List.getElem?_eq_some_iff.1 hj).1
  exact .one ((owned a h0 h).ordered (N := ls.length) (by intro k hk; simp [actOn, hk]) hij ej hx hy (.inr (by rw [h1, ex])) (.inr (by rw [h2, ey])))

/-- A thread inside a call of `o` has called it. -/
theorem called {body : A → O → Body S R} {s0 : A → S} {ls : List (Label T (A × O) R)} {c : Conf T A S O R}
    (h : Steps body (Conf.init s0) ls c) (t : T) (o : A × O)
    (hp : c.phase t = .wants o ∨ (∃ b, c.phase t = .runs o b) ∨ ∃ r, c.phase t = .leaving o r) :
    ∃ i < ls.length, ls[i]? = some (.call t o) := by
  generalize hc : Conf.init s0 = c0 at h
  induction h with
  | nil => subst hc; simp [Conf.init] at hp
  | @snoc ls c' l c'' h hs ih =>
    have up : (∃ i < ls.length, ls[i]? = some (.call t o)) → ∃ i < (ls ++ [l]).length, (ls ++ [l])[i]? = some (.call t o) := by
      rintro ⟨i, h1, h2⟩
      exact ⟨i, by simp; omega, by rw [List.getElem?_append_left h1]; exact h2⟩
    cases hs with
    | @call u a' o' h1 =>
      by_cases e : t = u
      · subst e
        simp at hp
        subst hp
        exact ⟨ls.length, by simp, by simp⟩
      · simp only [setPhase_ne _ _ e] at hp; exact up (ih hp)
    | @lock u a' o' h1 h2 =>
      by_cases e : t = u
      · subst e
        simp at hp
        obtain ⟨rfl, -⟩ := hp
        exact up (ih (.inl h1))
      · simp only [setPhase_ne _ _ e] at hp; exact up (ih hp)
    | @act u a' o' f k h1 =>
      by_cases e : t = u
      · subst e
        simp at hp
        obtain ⟨rfl, -⟩ := hp
        exact up (ih (.inr (.inl ⟨_, h1⟩)))
      · simp only [setPhase_ne _ _ e] at hp; exact up (ih hp)
    | @unlock u a' o' r h1 =>
      by_cases e : t = u
      · subst e
        simp at hp
        obtain ⟨rfl, -⟩ := hp
        exact up (ih (.inr (.inl ⟨_, h1⟩)))
      · simp only [setPhase_ne _ _ e] at hp; exact up (ih hp)
    | @ret u a' o' r h1 =>
      by_cases e : t = u
      · subst e
        simp at hp
      · simp only [setPhase_ne _ _ e] at hp; exact up (ih hp)

/-- A thread that is about to return a response has released the mutex with that response. -/
theorem released {body : A → O → Body S R} {s0 : A → S} {ls : List (Label T (A × O) R)} {c : Conf T A S O R}
    (h : Steps body (Conf.init s0) ls c) (t : T) (o : A × O) (r : R) (hp : c.phase t = .leaving o r) :
    ∃ i < ls.length, ls[i]? = some (.unlock t o r) := by
  generalize hc : Conf.init s0 = c0 at h
  induction h with
  | nil => subst hc; simp [Conf.init] at hp
  | @snoc ls c' l c'' h hs ih =>
    have up : (∃ i < ls.length, ls[i]? = some (.unlock t o r)) → ∃ i < (ls ++ [l]).length, (ls ++ [l])[i]? = some (.unlock t o r) := by
      rintro ⟨i, h1, h2⟩
      exact ⟨i, by simp; omega, by rw [List.getElem?_append_left h1]; exact h2⟩
    cases hs with
    | @call u a' o' h1 =>
      by_cases e : t = u
      · subst e; simp at hp
      · simp only [setPhase_ne _ _ e] at hp; exact up (ih hp)
    | @lock u a' o' h1 h2 =>
      by_cases e : t = u
      · subst e; simp at hp
      · simp only [setPhase_ne _ _ e] at hp; exact up (ih hp)
    | @act u a' o' f k h1 =>
      by_cases e : t = u
      · subst e; simp at hp
      · simp only [setPhase_ne _ _ e] at hp; exact up (ih hp)
    | @unlock u a' o' r' h1 =>
      by_cases e : t = u
      · subst e
        simp at hp
        obtain ⟨rfl, rfl⟩ := hp
        exact ⟨ls.length, by simp, by simp⟩
      · simp only [setPhase_ne _ _ e] at hp; exact up (ih hp)
    | @ret u a' o' r' h1 =>
      by_cases e : t = u
      · subst e; simp at hp
      · simp only [setPhase_ne _ _ e] at hp; exact up (ih hp)

end SoDa.Monitors

namespace SoDa
open Spec Monitor Mail

variable {P : Type}

/-- Any two accesses to the state of the same mailbox (steps `act` of threads that have called it last) are ordered by happens-before. -/
theorem C135_no_data_race (name : Addr → Str) (ls : List (Label Nat (Addr × Op P) (Resp P)))
    (c : Monitors.Conf Nat Addr (Box P) (Op P) (Resp P)) (h : Monitors.Steps body (Monitors.Conf.init fun a => Box.new (name a)) ls c)
    (a : Addr) (i j t u : Nat) (hij : i < j) (hi : ls[i]? = some (.act t)) (hj : ls[j]? = some (.act u))
    (ha : lastObject t (ls.take i) = some a) (hb : lastObject u (ls.take j) = some a) : HBMany ls i j := by
  obtain ⟨st, s1, -, s3⟩ := h.states
  have crit : ∀ k v, ls[k]? = some (.act v) → lastObject v (ls.take k) = some a → (st k).holder a = some v := by
    intro k v hk hv
    obtain ⟨ek, hk⟩ := List.getElem?_eq_some_iff.1 hk
    have hst := s3 k ek
    have hpre := s1 ▸ Monitors.steps_take s3 (Nat.le_of_lt ek)
    have hinv := Monitors.inv_steps hpre
    rw [hk] at hst
    generalize st (k + 1) = c' at hst
    cases hst with
    | @act _ a' o f k' hp =>
      have := Monitors.busy_last hpre v a' (by rw [hp]; rfl)
      rw [hv] at this
      cases this
      exact hinv.excl _ _ _ _ hp
  exact Monitors.ordered a s1 s3 hij hi hj (crit i t hi ha) (crit j u hj hb)

/-- If a `get` of a mailbox returns a message then the call of a `put` of this message at this mailbox happens before the return of the `get`. -/
theorem C135_ordering (name : Addr → Str) (ls : List (Label Nat (Addr × Op P) (Resp P)))
    (c : Monitors.Conf Nat Addr (Box P) (Op P) (Resp P)) (h : Monitors.Steps body (Monitors.Conf.init fun a => Box.new (name a)) ls c)
    (hn : ∀ t o r, Label.unlock t o r ∈ ls → r.Normal) (a : Addr) (j t : Nat) (s : Sub) (m : P)
    (hj : ls[j]? = some (.ret t (a, .get (some s)) (.msg (some m)))) :
    ∃ (i t' : Nat) (subs : Option Sub), ls[i]? = some (.call t' (a, .put (some m) subs)) ∧ HBMany ls i j := by
  obtain ⟨st, s1, -, s3⟩ := h.states
  obtain ⟨ej, hj'⟩ := List.getElem?_eq_some_iff.1 hj
  have pre : ∀ k ≤ ls.length, Monitors.Steps body (Monitors.Conf.init fun a => Box.new (name a)) (ls.take k) (st k) := fun k hk =>
    s1 ▸ Monitors.steps_take s3 hk
  have take : ∀ {k i : Nat} {l}, i < (ls.take k).length → (ls.take k)[i]? = some l → i < k ∧ ls[i]? = some l := by
    intro k i l h1 h2
    have h3 : i < k := by simp at h1; omega
    exact ⟨h3, by rw [← h2, List.getElem?_take_of_lt h3]⟩
  -- the release of the mutex by `get`
  have hphase : (st j).phase t = .leaving (a, .get (some s)) (.msg (some m)) := by
    have hst := s3 j ej
    rw [hj'] at hst
    generalize st (j + 1) = c' at hst
    cases hst with
    | ret hp => exact hp
  obtain ⟨g, hg, hgl⟩ := Monitors.released (pre j (by omega)) t _ _ hphase
  obtain ⟨hgj, hgl⟩ := take hg hgl
  -- a `put` in the history of this mailbox before it
  obtain ⟨la, g1, -, g3⟩ := Monitors.steps_on a (pre (g + 1) (by omega))
  have hcomp : ∀ e : Nat × (Addr × Op P) × Resp P, e ∈ completed (ls.take (g + 1)) → Label.unlock e.1 e.2.1 e.2.2 ∈ ls.take (g + 1) := by
    intro e he
    unfold completed at he
    rw [List.mem_filterMap] at he
    obtain ⟨l, hl, hle⟩ := he
    cases l <;> simp at hle
    subst hle
    exact hl
  have hconc : Concurrent a (name a) la (Monitors.confOn a (st (g + 1))) := by
    refine ⟨g1, ?_⟩
    intro e he
    rw [g3] at he
    obtain ⟨x, hx, hxe⟩ := List.mem_filterMap.1 he
    split at hxe
    · cases hxe
      exact hn _ _ _ (List.mem_of_mem_take (hcomp x hx))
    · cases hxe
  have hin : m ∈ receivedEver s.idx (Mail.historyOf la) := by
    unfold receivedEver
    rw [List.mem_filterMap]
    refine ⟨⟨t, .get (some s), .msg (some m)⟩, ?_, by simp [gives]⟩
    unfold Mail.historyOf history
    rw [List.mem_map]
    refine ⟨(t, .get (some s), .msg (some m)), ?_, rfl⟩
    rw [g3]
    refine List.mem_filterMap.2 ⟨(t, (a, .get (some s)), .msg (some m)), ?_, by simp⟩
    unfold completed
    rw [List.mem_filterMap]
    refine ⟨.unlock t (a, .get (some s)) (.msg (some m)), ?_, rfl⟩
    exact List.mem_of_getElem? (i := g) (by rw [List.getElem?_take_of_lt (by omega)]; exact hgl)
  have hsent := (C41_subsequence a (name a) _ _ hconc s.idx).subset hin
  unfold sentLog at hsent
  rw [List.mem_filterMap] at hsent
  obtain ⟨e, he, hse⟩ := hsent
  obtain ⟨subs, hop, hresp⟩ : ∃ subs, e.op = .put (some m) subs ∧ e.resp = .done := by
    obtain ⟨t', o, r⟩ := e
    unfold sends at hse
    split at hse
    · next h1 h2 =>
      simp only [Option.some.injEq] at hse
      subst hse
      exact ⟨_, h1, h2⟩
    · cases hse
  unfold Mail.historyOf history at he
  rw [List.mem_map] at he
  obtain ⟨⟨t', o, r⟩, he, rfl⟩ := he
  simp only at hop hresp
  subst hop; subst hresp
  rw [g3] at he
  obtain ⟨⟨t'', ⟨a', o⟩, r⟩, hx, hxe⟩ := List.mem_filterMap.1 he
  simp only at hxe
  split at hxe
  · rename_i haa
    subst haa
    cases hxe
    obtain ⟨p, hp, hpt⟩ := List.mem_iff_getElem.1 (hcomp _ hx)
    obtain ⟨hpg, hpl⟩ := take hp (by rw [List.getElem?_eq_getElem hp, hpt])
    have hpg' : p < g := by
      rcases Nat.lt_or_ge p g with h1 | h1
      · exact h1
      · obtain rfl : p = g := by omega
        rw [hgl] at hpl; cases hpl
    have hunlock : ∀ k v o r, ls[k]? = some (.unlock v (a', o) r) → (∃ b, (st k).phase v = .runs (a', o) b) ∧ (st k).holder a' = some v := by
      intro k v o r hk
      obtain ⟨ek, hk⟩ := List.getElem?_eq_some_iff.1 hk
      have hst := s3 k ek
      have hinv := Monitors.inv_steps (pre k (by omega))
      rw [hk] at hst
      generalize st (k + 1) = c' at hst
      cases hst with
      | unlock hp => exact ⟨⟨_, hp⟩, hinv.excl _ _ _ _ hp⟩
    obtain ⟨ep, -⟩ := List.getElem?_eq_some_iff.1 hpl
    obtain ⟨hrun, hhold⟩ := hunlock p _ _ _ hpl
    obtain ⟨i, hi, hil⟩ := Monitors.called (pre p (by omega)) t' _ (.inr (.inl hrun))
    obtain ⟨hip, hil⟩ := take hi hil
    refine ⟨i, t', subs, hil, ?_⟩
    exact .trans (Monitors.same_thread a' hip hil hpl rfl)
      (.trans (Monitors.ordered a' s1 s3 hpg' hpl hgl hhold (hunlock g _ _ _ hgl).2) (Monitors.same_thread a' hgj hgl hj rfl))
  · cases hxe

/-- A message sent on: if the mailbox `b` gets the message `m'` only from threads that have received `m` from the mailbox `a` before, then a
`put` of `m` at `a` happens before every return of `m'` by a `get` of `b`. -/
theorem C135_relay (name : Addr → Str) (ls : List (Label Nat (Addr × Op P) (Resp P)))
    (c : Monitors.Conf Nat Addr (Box P) (Op P) (Resp P)) (h : Monitors.Steps body (Monitors.Conf.init fun a => Box.new (name a)) ls c)
    (hn : ∀ t o r, Label.unlock t o r ∈ ls → r.Normal) (a b : Addr) (m m' : P)
    (hr : ∀ (k u : Nat) (subs : Option Sub), ls[k]? = some (.call u (b, .put (some m') subs)) →
      ∃ j : Nat, j < k ∧ ∃ s : Sub, ls[j]? = some (.ret u (a, .get (some s)) (.msg (some m))))
    (n t : Nat) (s : Sub) (hg : ls[n]? = some (.ret t (b, .get (some s)) (.msg (some m')))) :
    ∃ (i t' : Nat) (subs : Option Sub), ls[i]? = some (.call t' (a, .put (some m) subs)) ∧ HBMany ls i n := by
  obtain ⟨k, u, subs, hk, hkn⟩ := C135_ordering name ls c h hn b n t s m' hg
  obtain ⟨j, hjk, s', hj⟩ := hr k u subs hk
  obtain ⟨i, t', subs', hi, hij⟩ := C135_ordering name ls c h hn a j u s' m hj
  exact ⟨i, t', subs', hi, .trans hij (.trans (Monitors.same_thread a hjk hj hk rfl) hkn)⟩

/-! ### Example -/

/-- Thread 0 sends 7 to mailbox 5, thread 1 takes it from there and sends 8 to mailbox 6, thread 2 takes it from there. -/
def relayed : List (SeenEv Nat (Addr × Op Nat) (Resp Nat)) :=
  [.call 1 (5, .subscribe), .call 2 (6, .subscribe), .ret 1 (5, .subscribe) (.sub ⟨5, 0⟩), .ret 2 (6, .subscribe) (.sub ⟨6, 0⟩),
   .call 0 (5, .put (some 7) none), .call 1 (5, .get (some ⟨5, 0⟩)), .ret 1 (5, .get (some ⟨5, 0⟩)) (.msg (some 7)),
   .call 2 (6, .get (some ⟨6, 0⟩)), .call 1 (6, .put (some 8) none), .ret 2 (6, .get (some ⟨6, 0⟩)) (.msg (some 8)),
   .ret 0 (5, .put (some 7) none) .done]

/-- It can be seen: there are executions as in `C135_relay`. -/
example : ∃ ls c, Monitors.Steps body (Monitors.Conf.init fun _ => Box.new "m".toList) ls c ∧
    (∀ t o r, Label.unlock t o r ∈ ls → r.Normal) ∧ visible ls = relayed ∧
    ∃ n : Nat, ls[n]? = some (.ret 2 (6, .get (some ⟨6, 0⟩)) (.msg (some 8))) := by
  have h : ∃ ls c, Monitors.Steps body (Monitors.Conf.init fun _ => Box.new "m".toList) ls c ∧ visible ls = relayed ∧
      ∀ t o r, Label.unlock t o r ∈ ls → r.Normal := by
    rw [C133_many]
    refine linearisable_of_checks [(0, .sub ⟨5, 0⟩), (1, .sub ⟨6, 0⟩), (4, .done), (5, .msg (some 7)), (8, .done), (7, .msg (some 8))]
      [(1, (5, .subscribe), .sub ⟨5, 0⟩), (2, (6, .subscribe), .sub ⟨6, 0⟩), (0, (5, .put (some 7) none), .done),
       (1, (5, .get (some ⟨5, 0⟩)), .msg (some 7)), (1, (6, .put (some 8) none), .done), (2, (6, .get (some ⟨6, 0⟩)), .msg (some 8))]
      (fun a => ?_) (by decide +kernel)
    by_cases h5 : a = 5
    · subst h5
      exact ⟨_, .snoc (.snoc (.snoc .nil (t := 1) (.subscribe (by decide))) (t := 0) (.put (p := some 7)))
        (t := 1) (.get (s := ⟨5, 0⟩) (p := some 7) (q := []) rfl rfl)⟩
    · by_cases h6 : a = 6
      · subst h6
        exact ⟨_, .snoc (.snoc (.snoc .nil (t := 2) (.subscribe (by decide))) (t := 1) (.put (p := some 8)))
          (t := 2) (.get (s := ⟨6, 0⟩) (p := some 8) (q := []) rfl rfl)⟩
      · have e5 : ¬ 5 = a := fun e => h5 e.symm
        have e6 : ¬ 6 = a := fun e => h6 e.symm
        refine ⟨Imagined.new, ?_⟩
        simp only [onOnly, List.filterMap_cons, if_neg e5, if_neg e6, List.filterMap_nil]
        exact .nil
  obtain ⟨ls, c, h1, h2, h3⟩ := h
  have hm : SeenEv.ret 2 (6, .get (some ⟨6, 0⟩)) (.msg (some 8)) ∈ visible ls := by rw [h2]; decide
  obtain ⟨l, hl, he⟩ := List.mem_filterMap.1 hm
  cases l <;> simp at he
  obtain ⟨rfl, rfl, rfl⟩ := he
  exact ⟨ls, c, h1, h3, h2, List.mem_iff_getElem?.1 hl⟩

/-- Two threads that use different mailboxes. -/
def strangers : List (Label Nat (Addr × Op Nat) (Resp Nat)) :=
  [.call 0 (5, .minReadyCount), .lock 0, .act 0, .unlock 0 (5, .minReadyCount) (.count 4294967295), .ret 0 (5, .minReadyCount) (.count 4294967295),
   .call 1 (6, .minReadyCount), .lock 1, .act 1, .unlock 1 (6, .minReadyCount) (.count 4294967295), .ret 1 (6, .minReadyCount) (.count 4294967295)]

example : ∃ c, Monitors.Steps body (Monitors.Conf.init fun _ => Box.new "m".toList) strangers c :=
  ⟨_, .snoc (.snoc (.snoc (.snoc (.snoc (.snoc (.snoc (.snoc (.snoc (.snoc .nil (.call rfl)) (.lock rfl rfl)) (.act rfl)) (.unlock rfl)) (.ret rfl))
    (.call rfl)) (.lock rfl rfl)) (.act rfl)) (.unlock rfl)) (.ret rfl)⟩

/-- Nothing that one does happens before anything that the other does. -/
theorem strangers_not (i j : Nat) (hi : i < 5) (hj : 5 ≤ j) : ¬ HBMany strangers i j := by
  have one : ∀ a i j, HB (actOn a strangers) i j → i < 5 → j < 5 := by
    intro a i j h hi
    by_contra hj
    refine not_hb (fun i => i < 5) ?_ ?_ hi hj h
    · intro i j x y _ hx hy ht hi
      by_contra hj
      have hj' : j < 10 := by
        by_contra hn
        have : strangers[j]? = none := List.getElem?_eq_none (by simp [strangers]; omega)
        simp [actOn, this] at hy
      have h1 : i = 0 ∨ i = 1 ∨ i = 2 ∨ i = 3 ∨ i = 4 := by omega
      have h2 : j = 5 ∨ j = 6 ∨ j = 7 ∨ j = 8 ∨ j = 9 := by omega
      have ex : x.thread = 0 := by rcases h1 with rfl | rfl | rfl | rfl | rfl <;> cases hx <;> rfl
      have ey : y.thread = 1 := by rcases h2 with rfl | rfl | rfl | rfl | rfl <;> cases hy <;> rfl
      omega
    · intro i j x y _ hx hy hr hq hi
      by_contra hj
      have hj' : j < 10 := by
        by_contra hn
        have : strangers[j]? = none := List.getElem?_eq_none (by simp [strangers]; omega)
        simp [actOn, this] at hy
      have h1 : i = 0 ∨ i = 1 ∨ i = 2 ∨ i = 3 ∨ i = 4 := by omega
      have h2 : j = 5 ∨ j = 6 ∨ j = 7 ∨ j = 8 ∨ j = 9 := by omega
      have ex : 5 = a := by
        rcases h1 with rfl | rfl | rfl | rfl | rfl <;> cases hx <;> simp [actOf] at hr
        · split at hr <;> cases hr
        · exact hr
      have ey : 6 = a := by
        rcases h2 with rfl | rfl | rfl | rfl | rfl <;> cases hy <;> simp [actOf] at hq
        · exact Option.some.inj hq
        · split at hq <;> cases hq
      exact absurd (ex.trans ey.symm) (by decide)
  intro h
  have key : ∀ i j, HBMany strangers i j → i < 5 → j < 5 := by
    intro i j h
    induction h with
    | one h => exact one _ _ _ h
    | trans _ _ h1 h2 => exact fun hi => h2 (h1 hi)
  have := key i j h hi
  omega

end SoDa
