import Verif.Proof.MailBox
import Verif.Spec.MailBoxAlloc
import Mathlib.Data.List.Nodup
import Batteries.Data.List.Perm
/-!
Auxiliary lemmas about mailboxes when memory runs out.
-/
namespace SoDa.Mail
open Spec Monitor

variable {P : Type}

/-! ### The steps of a call and the uninterrupted call -/

theorem mapBody_run {S R R' : Type} (f : R → R') : ∀ (b : Body S R) (s : S),
    (mapBody f b).run s = ((b.run s).1, f (b.run s).2) := by
  intro b
  induction b with
  | ret r => intro s; rfl
  | act g k ih => intro s; simp only [mapBody, Body.run, ih]

theorem pushTo_nil (m : Option P) (b : Box P) : pushTo m [] b = b := by
  simp [pushTo]

theorem pushLoopA_run (msg : Option P) (k : Int) : ∀ (ks : List Int) (n : Nat) (b : Box P), ks.Nodup →
    (pushLoopA msg k n ks).run b =
      (pushTo msg ((ks.filter (· ≠ k)).take n) b,
        if n < (ks.filter (· ≠ k)).length then .badAlloc else .normal .done) := by
  intro ks
  induction ks with
  | nil => intro n b _; simp [pushLoopA, Body.run, pushTo_nil]
  | cons a ks ih =>
    intro n b hnd
    rw [List.nodup_cons] at hnd
    by_cases hak : a = k
    · subst hak
      simp only [pushLoopA, ne_eq, not_true_eq_false, if_false]
      rw [ih _ _ hnd.2]
      simp
    · cases n with
      | zero => simp [pushLoopA, hak, Body.run, pushTo_nil]
      | succ n =>
        simp only [pushLoopA, ne_eq, hak, not_false_eq_true, if_true, Body.run]
        rw [ih _ _ hnd.2]
        simp only [ne_eq, hak, not_false_eq_true, decide_true, List.filter_cons_of_pos,
          List.take_succ_cons, List.length_cons, Nat.add_lt_add_iff_right]
        congr 1
        unfold pushTo
        simp only [List.map_map]
        congr 1
        apply List.map_congr_left
        intro x _
        by_cases hx : x.1 = a
        · have hna : a ∉ (ks.filter fun x => decide ¬ x = k).take n := fun h =>
            hnd.1 (List.mem_filter.mp (List.mem_of_mem_take h)).1
          simp only [Function.comp, hx, if_true, List.mem_cons, true_or, hna, if_false]
        · simp only [Function.comp, hx, if_false, List.mem_cons, false_or]

theorem minLoopA_run (b : Box P) : ∀ (l : List (Int × List (Option P))) (n ret : Nat),
    (∀ x ∈ l, mapFind intLess x.1 b.queues = some x.2) →
    (minLoopA ret n (l.map (·.1))).run b = (b, if n < l.length then .badAlloc else
      .normal (.count (l.foldl
        (fun ret kq => (if ret < kq.2.length then ret else kq.2.length) % 4294967296) ret))) := by
  intro l
  induction l with
  | nil => intro n ret _; simp [minLoopA, Body.run]
  | cons x l ih =>
    intro n ret h
    cases n with
    | zero => simp [minLoopA, Body.run]
    | succ n =>
      have h1 := h x (by simp)
      simp only [List.map_cons, minLoopA, minLoopA.look', Body.run, id_eq, h1]
      rw [ih _ _ fun y hy => h y (by simp [hy])]
      simp

/-- `put` in terms of `omitKey`. -/
theorem exec_put (this : Addr) (b : Box P) (msg : Option P) (subs : Option Sub) :
    exec this b (.put msg subs) = match omitKey this b subs with
      | .ok k => ({ b with queues := Box.pushAll msg k b.queues }, .done)
      | .throw e => (b, .threw e)
      | .ub => (b, .ub) := by
  cases subs with
  | none => rfl
  | some s =>
    simp only [exec, Box.put, omitKey]
    cases getIndex this (some s) <;> rfl

theorem pushTo_all (msg : Option P) (k : Int) (b : Box P) (n : Nat) (h : ¬ n < (receivers b k).length) :
    pushTo msg ((receivers b k).take n) b = { b with queues := Box.pushAll msg k b.queues } := by
  unfold pushTo Box.pushAll
  rw [List.take_of_length_le (Nat.not_lt.mp h)]
  congr 1
  apply List.map_congr_left
  intro x hx
  have : x.1 ∈ receivers b k ↔ x.1 ≠ k := by
    unfold receivers
    simp only [List.mem_filter, decide_eq_true_eq, and_iff_right_iff_imp]
    intro _; exact List.mem_map.mpr ⟨x, hx, rfl⟩
  by_cases hk : x.1 = k
  · have h1 : x.1 ∉ receivers b k := fun h => (this.1 h) hk
    rw [if_neg h1, if_neg (by simp [hk])]
  · simp only [this.2 hk, if_true, ne_eq, hk, not_false_eq_true]

/-- Executed without interruption, the critical section of a call does what `execA` says. -/
theorem bodyA_run {b : Box P} (h : b.Wf) (this : Addr) (c : OpA P) :
    ((bodyA this c).run b).2 = (execA this b c).2 ∧
    ((execA this b c).2.Normal → (bodyA this c).run b = execA this b c) := by
  obtain ⟨o, f⟩ := c
  have hb := body_run h this o
  cases f with
  | none =>
    simp only [bodyA, execA, mapBody_run]
    refine ⟨by rw [hb.1], fun hn => ?_⟩
    rw [hb.2 hn]
  | some n =>
    have other : ∀ (hx : (mapBody textFails (body this o)).run b =
        (((body this o).run b).1, textFails ((body this o).run b).2)),
        ((mapBody textFails (body this o)).run b).2 =
          (match (exec this b o).2 with
            | .threw _ => (b, RespA.badAlloc)
            | _ => ((exec this b o).1, RespA.normal (exec this b o).2)).2 ∧
        ((match (exec this b o).2 with
            | .threw _ => (b, RespA.badAlloc)
            | _ => ((exec this b o).1, RespA.normal (exec this b o).2)).2.Normal →
          (mapBody textFails (body this o)).run b =
          (match (exec this b o).2 with
            | .threw _ => (b, RespA.badAlloc)
            | _ => ((exec this b o).1, RespA.normal (exec this b o).2))) := by
      intro hx
      rw [hx, hb.1]
      have keep : ∀ e, (exec this b o).2 = .threw e → (exec this b o).1 = b := by
        intro e he
        cases o with
        | drop s =>
          simp only [exec] at he ⊢
          split at he <;> simp at he
        | minReadyCount => rfl
        | subscriberCount => rfl
        | _ =>
          simp only [exec, ofRes] at he ⊢
          split at he
          all_goals first | rfl | simp at he
      cases hr : (exec this b o).2 with
      | threw e =>
        have h2 := hb.2 (by rw [hr]; trivial)
        refine ⟨rfl, fun _ => ?_⟩
        rw [h2, keep e hr]; rfl
      | ub => exact ⟨rfl, fun hn => hn.elim⟩
      | terminate => exact ⟨rfl, fun hn => hn.elim⟩
      | _ =>
        have h2 := hb.2 (by rw [hr]; trivial)
        refine ⟨rfl, fun _ => ?_⟩
        rw [h2]; rfl
    have other' := other (mapBody_run _ _ _)
    cases o with
    | subscribe =>
      simp only [bodyA, execA]
      by_cases hn : n = 0
      · simp [hn, Body.run]
      · simp [hn, Body.run]
    | put msg subs =>
      simp only [bodyA, execA, Body.run, id_eq, exec_put]
      cases hk : omitKey this b subs with
      | ub => exact ⟨rfl, fun hn => hn.elim⟩
      | throw e => exact ⟨rfl, fun _ => rfl⟩
      | ok k =>
        simp only [Body.run, id_eq]
        rw [pushLoopA_run _ _ _ _ _ (sorted_nodup h)]
        change _ = (if n < (receivers b k).length then (pushTo msg ((receivers b k).take n) b, RespA.badAlloc)
          else ({ b with queues := Box.pushAll msg k b.queues }, RespA.normal .done)).2 ∧ _
        by_cases hl : n < (receivers b k).length
        · have hl' : n < ((b.queues.map (·.1)).filter (· ≠ k)).length := hl
          simp only [hl, if_true, hl']
          exact ⟨trivial, fun _ => rfl⟩
        · have hl' : ¬ n < ((b.queues.map (·.1)).filter (· ≠ k)).length := hl
          simp only [hl, if_false, hl']
          refine ⟨trivial, fun _ => ?_⟩
          rw [← pushTo_all msg k b n hl]; rfl
    | minReadyCount =>
      simp only [bodyA, execA, Body.run, id_eq]
      rw [minLoopA_run b b.queues _ _ fun x hx => (mapFind_mem intLess_order x.1 x.2 _ h.sorted).2 hx]
      simp only [exec]
      by_cases hl : n < b.queues.length
      · simp [hl]
      · simp [hl, Box.minReadyCount]
    | get subs => exact other'
    | readyCount subs => exact other'
    | clear subs => exact other'
    | unsubscribe k => exact other'
    | subscriberCount => exact other'
    | drop s => exact other'

/-! ### Calls that run out of memory -/

/-- A call that did not run out of memory did what it always does. -/
theorem execA_normal {this : Addr} {b b' : Box P} {c : OpA P} {r : Resp P}
    (he : execA this b c = (b', .normal r)) (hn : r.Normal) : exec this b c.op = (b', r) := by
  obtain ⟨o, f⟩ := c
  have key : ((exec this b o).1, RespA.normal (exec this b o).2) = (b', .normal r) →
      exec this b o = (b', r) := by
    intro h
    obtain ⟨h1, h2⟩ := Prod.mk.injEq .. ▸ h
    simp only [RespA.normal.injEq] at h2
    exact Prod.ext h1 h2
  unfold execA at he
  cases f with
  | none => exact key he
  | some n =>
    cases o with
    | subscribe =>
      simp only at he
      split at he
      · simp at he
      · simp only [Prod.mk.injEq, RespA.normal.injEq] at he
        rw [← he.2] at hn; exact hn.elim
    | put msg subs =>
      simp only at he
      split at he
      · split at he
        · simp at he
        · exact key he
      · simp at he
      · exact key he
    | minReadyCount =>
      simp only at he
      split at he
      · simp at he
      · exact key he
    | get subs => simp only at he; split at he; (· simp at he); exact key he
    | readyCount subs => simp only at he; split at he; (· simp at he); exact key he
    | clear subs => simp only at he; split at he; (· simp at he); exact key he
    | unsubscribe k => simp only at he; split at he; (· simp at he); exact key he
    | subscriberCount => simp only at he; split at he; (· simp at he); exact key he
    | drop s => simp only at he; split at he; (· simp at he); exact key he

/-- A call that ran out of memory changed nothing, unless it is a `put`. -/
theorem execA_badAlloc {this : Addr} {b b' : Box P} {c : OpA P}
    (he : execA this b c = (b', .badAlloc)) :
    (b' = b ∧ ∀ m subs k, c.op = .put m subs → omitKey this b subs ≠ .ok k) ∨
    ∃ m subs n k, c = ⟨.put m subs, some n⟩ ∧ omitKey this b subs = .ok k ∧
      n < (receivers b k).length ∧ b' = pushTo m ((receivers b k).take n) b := by
  obtain ⟨o, f⟩ := c
  unfold execA at he
  cases f with
  | none => simp at he
  | some n =>
    cases o with
    | put msg subs =>
      simp only at he
      split at he
      · rename_i k hk
        split at he
        · rename_i hl
          simp only [Prod.mk.injEq, and_true] at he
          exact .inr ⟨msg, subs, n, k, rfl, hk, hl, he.symm⟩
        · simp at he
      · rename_i e hk
        simp only [Prod.mk.injEq, and_true] at he
        refine .inl ⟨he.symm, fun m subs' k h => ?_⟩
        simp only [Op.put.injEq] at h
        rw [← h.2, hk]; simp
      · simp at he
    | _ =>
      simp only at he
      split at he
      all_goals first
        | (simp only [Prod.mk.injEq, and_true] at he; exact .inl ⟨he.symm, fun _ _ _ h => by cases h⟩)
        | simp at he

theorem waiting_pushTo (b : Box P) (i : Int) (ks : List Int) (m : Option P) :
    waiting (pushTo m ks b) i = (waiting b i).map fun q => if i ∈ ks then q ++ [m] else q := by
  have : (pushTo m ks b).queues =
      b.queues.map fun kq => (kq.1, if kq.1 ∈ ks then kq.2 ++ [m] else kq.2) := by
    unfold pushTo
    apply List.map_congr_left
    intro x _
    split <;> rfl
  unfold waiting
  rw [this]
  exact mapFind_map intLess_order (fun i q => if i ∈ ks then q ++ [m] else q) i _

theorem wf_pushTo {b : Box P} (h : b.Wf) (m : Option P) (ks : List Int) : (pushTo m ks b).Wf := by
  refine ⟨?_, ?_, h.counter⟩
  · have := h.sorted
    unfold pushTo Sorted at *
    rw [List.pairwise_map]
    refine this.imp fun {x y} hxy => ?_
    split <;> split <;> exact hxy
  · intro i hi
    rw [waiting_pushTo] at hi
    exact h.keys i fun hn => hi (by rw [hn]; rfl)

/-! ### What the history says -/

theorem succeeded_snoc (tr : List (EventA P)) (e : EventA P) :
    succeeded (tr ++ [e]) = succeeded tr ++ succeeded [e] := List.filterMap_append ..

theorem seenFrom_snoc (this : Addr) (i : Int) (e : EventA P) : ∀ (tr past : List (EventA P)),
    seenFrom this i past (tr ++ [e]) = seenFrom this i past tr ++ looksTo this i (past ++ tr) e := by
  intro tr
  induction tr with
  | nil => intro past; simp [seenFrom]
  | cons a tr ih => intro past; simp [seenFrom, ih]

theorem seenBy_snoc (this : Addr) (i : Int) (tr : List (EventA P)) (e : EventA P) :
    seenBy this i (tr ++ [e]) = seenBy this i tr ++ looksTo this i tr e := by
  simpa [seenBy] using seenFrom_snoc this i e tr []

/-- The ids in the map are the subscribers, in the same order. -/
theorem keys_eq {tr : List (EventA P)} {b : Box P} (k : KnownIds (succeeded tr) b) :
    b.queues.map (·.1) = subscribers tr := by
  obtain ⟨n, _, hids⟩ := k.ids
  have hs1 : (b.queues.map (·.1)).Pairwise (· < ·) := by
    rw [List.pairwise_map]
    exact k.wf.sorted.imp fun {x y} h => by simpa [intLess] using h
  have hs2 : (subscribers tr).Pairwise (· < ·) := by
    unfold subscribers
    rw [hids]
    refine List.Pairwise.filter _ ?_
    rw [List.pairwise_map]
    exact List.pairwise_lt_range.imp fun {x y} h => by simpa using h
  have hmem : ∀ i, i ∈ b.queues.map (·.1) ↔ i ∈ subscribers tr := by
    intro i
    have h1 : i ∈ b.queues.map (·.1) ↔ waiting b i ≠ none := by
      constructor
      · intro h
        obtain ⟨x, hx, rfl⟩ := List.mem_map.mp h
        have := (mapFind_mem intLess_order x.1 x.2 _ k.wf.sorted).2 hx
        simp [waiting, this]
      · intro h
        cases hw : waiting b i with
        | none => exact absurd hw h
        | some q =>
          have := (mapFind_mem intLess_order i q _ k.wf.sorted).1 hw
          exact List.mem_map.mpr ⟨_, this, rfl⟩
    have h2 : i ∈ idsGiven (succeeded tr) ↔ ∃ e ∈ succeeded tr, Subscribes i e = true := by
      unfold idsGiven
      rw [List.mem_filterMap]
      constructor
      · rintro ⟨e, he, hx⟩
        refine ⟨e, he, subscribes_iff.2 ?_⟩
        cases hr : e.resp with
        | sub s => rw [hr] at hx; exact ⟨s, rfl, by simpa using hx⟩
        | _ => rw [hr] at hx; simp at hx
      · rintro ⟨e, he, hx⟩
        obtain ⟨s, hr, hi⟩ := subscribes_iff.1 hx
        exact ⟨e, he, by rw [hr]; simp [hi]⟩
    rw [h1, k.live i, subscribers, List.mem_filter, h2, Live]
    simp
  have hnd1 : (b.queues.map (·.1)).Nodup := hs1.imp fun h => Int.ne_of_lt h
  have hnd2 : (subscribers tr).Nodup := hs2.imp fun h => Int.ne_of_lt h
  have hp : (b.queues.map (·.1)).Perm (subscribers tr) := (List.perm_ext_iff_of_nodup hnd1 hnd2).2 hmem
  exact hp.eq_of_pairwise (fun a b _ _ h1 h2 => absurd h1 (by omega)) hs1 hs2

/-- The subscribers that a failing `put` reaches. -/
theorem reached_eq {this : Addr} {tr : List (EventA P)} {b : Box P} (k : KnownIds (succeeded tr) b)
    (n : Nat) {subs : Option Sub} {key : Int} (hk : omitKey this b subs = .ok key) :
    reached this tr n subs = (receivers b key).take n := by
  unfold receivers
  rw [keys_eq k]
  cases subs with
  | none =>
    simp only [omitKey, Res.ok.injEq] at hk
    subst hk
    simp only [reached]
    congr 1
    symm
    apply List.filter_eq_self.2
    intro i hi
    rw [← keys_eq k] at hi
    obtain ⟨x, hx, rfl⟩ := List.mem_map.mp hi
    have := (k.wf.keys_mem x hx).2
    simp only [decide_eq_true_eq]; omega
  | some s =>
    simp only [omitKey, getIndex] at hk
    split at hk
    · simp at hk
    · rename_i hb
      simp only [Res.ok.injEq] at hk
      subst hk
      simp only [reached, Decidable.of_not_not hb, if_true]

/-- What is known about a mailbox after a history with calls that ran out of memory. -/
structure KnownA (this : Addr) (tr : List (EventA P)) (b : Box P) : Prop where
  ids : KnownIds (succeeded tr) b
  mail : ∀ i q, waiting b i = some q →
    received i (seenBy this i tr) ++ q.filterMap id = sentTo i (seenBy this i tr)
  order : ∀ i, (receivedEver i (seenBy this i tr) ++ ((waiting b i).getD []).filterMap id).Sublist
    ((seenBy this i tr).filterMap (sendsTo i))

theorem knownA_snoc {this : Addr} {tr : List (EventA P)} {b b' : Box P} {c : OpA P} {r : RespA P}
    (t : Nat) (k : KnownA this tr b) (he : execA this b c = (b', r)) (hn : r.Normal) :
    KnownA this (tr ++ [⟨t, c, r⟩]) b' := by
  cases r with
  | normal r =>
    have hx := execA_normal he hn
    have hn' : r.Normal := hn
    obtain ⟨_, heff, _, _, _, _⟩ := exec_effect k.ids.wf hx hn' t
    refine ⟨?_, fun i => ?_, fun i => ?_⟩
    · rw [succeeded_snoc]
      exact knownIds_snoc t k.ids hx hn'
    · rw [seenBy_snoc]
      refine mail_snoc (k.mail i) (heff i) ?_
      intro q hp hw
      obtain ⟨q', hq', hg⟩ := gives_head t k.ids.wf hx hn' hp
      rw [hw] at hq'
      obtain rfl := Option.some.inj hq'
      exact hg
    · rw [seenBy_snoc]
      refine order_snoc (k.order i) (heff i) ?_ ?_
      · intro q hp hw
        obtain ⟨q', hq', hg⟩ := gives_head t k.ids.wf hx hn' hp
        rw [hw] at hq'
        obtain rfl := Option.some.inj hq'
        exact hg
      · intro hp
        obtain ⟨q', hq', _⟩ := gives_head t k.ids.wf hx hn' hp
        simp [hq']
  | badAlloc =>
    rcases execA_badAlloc he with ⟨rfl, hno⟩ | ⟨m, subs, n, key, rfl, hk, hl, rfl⟩
    · have hs : succeeded (tr ++ [⟨t, c, .badAlloc⟩]) = succeeded tr := by
        rw [succeeded_snoc]; simp [succeeded]
      have hse : ∀ i, seenBy this i (tr ++ [⟨t, c, .badAlloc⟩]) = seenBy this i tr := by
        intro i
        rw [seenBy_snoc]
        obtain ⟨o, f⟩ := c
        simp only [looksTo]
        split
        · rename_i m subs n heq
          simp only [OpA.mk.injEq] at heq
          obtain ⟨ho, _⟩ := heq
          have : reached this tr n subs = [] := by
            cases subs with
            | none => exact absurd rfl (hno m none b'.counter ho)
            | some s =>
              have := fun k => hno m (some s) k ho
              simp only [omitKey, getIndex] at this
              simp only [reached]
              split
              · rename_i hb
                exact absurd (by simp [hb]) (this s.idx)
              · rfl
          simp [this]
        · simp
      refine ⟨by rw [hs]; exact k.ids, fun i => ?_, fun i => ?_⟩
      · rw [hse i]; exact k.mail i
      · rw [hse i]; exact k.order i
    · have hs : succeeded (tr ++ [(⟨t, ⟨.put m subs, some n⟩, .badAlloc⟩ : EventA P)]) = succeeded tr := by
        rw [succeeded_snoc]; simp [succeeded]
      have hre := reached_eq k.ids n hk
      have hw := fun i => waiting_pushTo b i ((receivers b key).take n) m
      refine ⟨?_, fun i => ?_, fun i => ?_⟩
      · rw [hs]
        refine ⟨wf_pushTo k.ids.wf _ _, k.ids.ids, ?_, k.ids.mentioned, k.ids.ended⟩
        intro i
        rw [← k.ids.live i, hw i]
        simp
      · rw [seenBy_snoc, hw i]
        simp only [looksTo, hre]
        by_cases hi : i ∈ (receivers b key).take n
        · simp only [hi, if_true]
          refine mail_snoc (k.mail i) ?_ ?_
          · simp [effect, Subscribes, Ends, Clears, Pops, pushes]
          · simp [Pops]
        · simp only [hi, if_false, List.append_nil, Option.map_id']
          exact k.mail i
      · rw [seenBy_snoc, hw i]
        simp only [looksTo, hre]
        by_cases hi : i ∈ (receivers b key).take n
        · simp only [hi, if_true]
          refine order_snoc (k.order i) ?_ ?_ ?_
          · simp [effect, Subscribes, Ends, Clears, Pops, pushes]
          · simp [Pops]
          · simp [Pops]
        · simp only [hi, if_false, List.append_nil, Option.map_id']
          exact k.order i

theorem knownA {this : Addr} {name : Str} {tr : List (EventA P)} {b : Box P}
    (h : RunA this (Box.new name) tr b) : KnownA this tr b := by
  generalize hb : (Box.new name : Box P) = b0 at h
  induction h with
  | nil =>
    subst hb
    exact ⟨knownIds_nil name, (known_nil name).mail, (known_nil name).order⟩
  | @snoc tr b' t c r b'' h he hn ih => exact knownA_snoc t ih he hn

/-- The history of a concurrent execution. -/
def historyA (es : List (Nat × OpA P × RespA P)) : List (EventA P) := es.map fun e => ⟨e.1, e.2.1, e.2.2⟩

theorem serial_runA {this : Addr} {name : Str} {b : Box P} {es : List (Nat × OpA P × RespA P)}
    (h : Monitor.Serial (bodyA this) (Box.new name) es b) (hn : ∀ e ∈ es, e.2.2.Normal) :
    RunA this (Box.new name) (historyA es) b := by
  generalize hb : (Box.new name : Box P) = b0 at h ⊢
  induction h with
  | nil => exact .nil
  | @snoc es' s' t o r s'' hs he ih =>
    have hr := ih fun e h => hn e (List.mem_append.mpr (.inl h))
    have hnr : r.Normal := hn (t, o, r) (by simp)
    have hwf := (knownA (hb ▸ hr)).ids.wf
    have hb := bodyA_run hwf this o
    rw [he] at hb
    have hx := hb.2 (by rw [← hb.1]; exact hnr)
    have := RunA.snoc (t := t) hr hx.symm hnr
    simpa [historyA] using this

theorem runA_serial {this : Addr} {name : Str} {b : Box P} {tr : List (EventA P)}
    (h : RunA this (Box.new name) tr b) :
    Monitor.Serial (bodyA this) (Box.new name) (tr.map fun e => (e.thread, e.call, e.resp)) b ∧
      ∀ e ∈ tr, e.resp.Normal := by
  generalize hb : (Box.new name : Box P) = b0 at h ⊢
  induction h with
  | nil => exact ⟨.nil, by simp⟩
  | @snoc tr b' t c r b'' h he hn ih =>
    obtain ⟨ih1, ih2⟩ := ih
    have hb := (bodyA_run (knownA (hb ▸ h)).ids.wf this c).2 (by rw [he]; exact hn)
    rw [he] at hb
    refine ⟨?_, ?_⟩
    · rw [List.map_append]; exact .snoc ih1 hb
    · intro e hx
      rcases List.mem_append.mp hx with hx | hx
      · exact ih2 e hx
      · rw [List.mem_singleton.mp hx]; exact hn

end SoDa.Mail
