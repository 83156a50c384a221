import Verif.Spec.MailBox
import Verif.Proof.StdMap
import Verif.Proof.Monitor
/-!
Auxiliary lemmas about the model of `MailBox`.
-/
namespace SoDa.Mail
open Spec

variable {P : Type}

/-! ### The map of queues -/

theorem mapFind_map {K W : Type} {less : K → K → Bool} (ho : StrictOrder less) (g : K → W → W)
    (k : K) (m : List (K × W)) :
    mapFind less k (m.map fun kq => (kq.1, g kq.1 kq.2)) = (mapFind less k m).map (g k) := by
  induction m with
  | nil => rfl
  | cons p m ih =>
    obtain ⟨q, w⟩ := p
    simp only [List.map_cons, mapFind]
    by_cases hc : (!less k q && !less q k) = true
    · simp only [hc, if_true, Option.map_some]
      simp at hc
      rw [ho.antisymm _ _ hc.1 hc.2]
    · simp only [hc, if_false, Bool.false_eq_true]; exact ih

/-- `mapSet` on a key that is present replaces its value. -/
theorem mapSet_present {K W : Type} [DecidableEq K] {less : K → K → Bool} (ho : StrictOrder less)
    {k : K} {v w : W} {m : List (K × W)} (hs : Sorted less m) (h : mapFind less k m = some w) :
    mapSet less k v m = m.map fun kq => (kq.1, if kq.1 = k then v else kq.2) := by
  induction m with
  | nil => simp [mapFind] at h
  | cons p m ih =>
    obtain ⟨q, x⟩ := p
    simp only [Sorted, List.pairwise_cons] at hs
    have hid : ∀ (l : List (K × W)), (∀ y ∈ l, y.1 ≠ k) →
        (l.map fun kq => (kq.1, if kq.1 = k then v else kq.2)) = l := by
      intro l hl
      refine (List.map_congr_left (g := id) ?_).trans (List.map_id l)
      intro y hy; simp [hl y hy]
    by_cases hkq : q = k
    · subst hkq
      have := hid m fun y hy he => by
        have := hs.1 y hy; rw [he, ho.irrefl] at this; simp at this
      simp only [mapSet, ho.irrefl, Bool.false_eq_true, if_false, List.map_cons, if_true, this]
    · have hm : mapFind less k m = some w := by
        have hc : (!less k q && !less q k) = false := by
          cases h1 : less k q <;> cases h2 : less q k <;> simp
          exact hkq (ho.antisymm _ _ h2 h1)
        simpa [mapFind, hc] using h
      have hlt : less q k = true := hs.1 _ ((mapFind_mem ho _ _ _ hs.2).1 hm)
      have hnlt : less k q = false := by
        cases h1 : less k q with
        | false => rfl
        | true => have := ho.trans h1 hlt; rw [ho.irrefl] at this; simp at this
      simp only [mapSet, hnlt, hlt, if_true, Bool.false_eq_true, if_false, List.map_cons, hkq, ih hs.2 hm]

/-- `mapSet` with a key above all others appends. -/
theorem mapSet_above {W : Type} {k : Int} {v : W} {m : List (Int × W)} (h : ∀ x ∈ m, x.1 < k) :
    mapSet intLess k v m = m ++ [(k, v)] := by
  induction m with
  | nil => rfl
  | cons p m ih =>
    obtain ⟨q, x⟩ := p
    have h1 : q < k := h (q, x) (by simp)
    have h2 : ¬ k < q := by omega
    simp only [mapSet, intLess, h1, h2, decide_true, decide_false, if_true, if_false,
      Bool.false_eq_true, List.cons_append]
    rw [ih fun y hy => h y (by simp [hy])]

/-- The waiting messages of subscriber `i`. -/
def waiting (b : Box P) (i : Int) : Option (List (Option P)) := mapFind intLess i b.queues

/-- Facts about every reachable mailbox. -/
structure Box.Wf (b : Box P) : Prop where
  sorted : Sorted intLess b.queues
  keys : ∀ i, waiting b i ≠ none → 0 ≤ i ∧ i < b.counter
  counter : 0 ≤ b.counter ∧ b.counter ≤ 2147483647

theorem wf_new (name : Str) : (Box.new name : Box P).Wf :=
  ⟨by simp [Box.new], by simp [Box.new, waiting, mapFind], by simp [Box.new]⟩

theorem Box.Wf.keys_mem {b : Box P} (h : b.Wf) : ∀ x ∈ b.queues, 0 ≤ x.1 ∧ x.1 < b.counter := by
  intro x hx
  apply h.keys
  have := (mapFind_mem intLess_order x.1 x.2 _ h.sorted).2 hx
  simp [waiting, this]

theorem waiting_setQueue (b : Box P) (i k : Int) (q : List (Option P)) :
    waiting (b.setQueue k q) i = if i = k then some q else waiting b i :=
  mapFind_mapSet intLess_order k i q _

theorem pushAll_eq (m : Option P) (k : Int) (qs : List (Int × List (Option P))) :
    Box.pushAll m k qs = qs.map fun kq => (kq.1, if kq.1 ≠ k then kq.2 ++ [m] else kq.2) := by
  unfold Box.pushAll
  apply List.map_congr_left
  intro x _
  split <;> rfl

theorem sorted_map {W : Type} {less : Int → Int → Bool} {m : List (Int × W)} (g : Int → W → W)
    (h : Sorted less m) : Sorted less (m.map fun kq => (kq.1, g kq.1 kq.2)) := by
  unfold Sorted; rw [List.pairwise_map]; exact h

theorem waiting_push (b : Box P) (i k : Int) (m : Option P) :
    waiting { b with queues := Box.pushAll m k b.queues } i =
      (waiting b i).map fun q => if i ≠ k then q ++ [m] else q := by
  unfold waiting
  simp only [pushAll_eq]
  exact mapFind_map intLess_order (fun i q => if i ≠ k then q ++ [m] else q) i _

theorem waiting_erase {b : Box P} (h : b.Wf) (i k : Int) :
    waiting { b with queues := mapErase intLess k b.queues } i = if i = k then none else waiting b i :=
  mapFind_mapErase intLess_order k i h.sorted

/-! ### The effect of one call -/

/-- The message a call appends to the queue of `i`, null pointers included. -/
def pushes (i : Int) (e : Event P) : Option (Option P) :=
  match e.op, e.resp with
  | .put m none, .done => some m
  | .put m (some s), .done => if s.idx = i then none else some m
  | _, _ => none

/-- The call is a `get` of subscriber `i` that returned. -/
def Pops (i : Int) (e : Event P) : Bool :=
  match e.op, e.resp with
  | .get (some s), .msg _ => s.idx = i
  | _, _ => false

/-- The effect of a call on the queue of subscriber `i`. -/
def effect (i : Int) (e : Event P) (q : Option (List (Option P))) : Option (List (Option P)) :=
  if Subscribes i e then some []
  else if Ends i e then none
  else if Clears i e then q.map fun _ => []
  else if Pops i e then q.map List.tail
  else q.map (· ++ (pushes i e).toList)

theorem getIndex_ok {this : Addr} {subs : Option Sub} {i : Int} :
    getIndex this subs = .ok i ↔ subs = some ⟨this, i⟩ := by
  cases subs with
  | none => simp [getIndex]
  | some s =>
    obtain ⟨bx, ix⟩ := s
    simp only [getIndex]
    by_cases h : this = bx
    · subst h; simp
    · simp [h]; intro h'; exact absurd h'.symm h

theorem getQueue_ok {this : Addr} {b : Box P} {subs : Option Sub} {i : Int} {q : List (Option P)} :
    b.getQueue this subs = .ok (i, q) ↔ subs = some ⟨this, i⟩ ∧ waiting b i = some q := by
  unfold Box.getQueue
  constructor
  · intro h
    cases hg : getIndex this subs with
    | ub => rw [hg] at h; simp at h
    | throw e => rw [hg] at h; simp at h
    | ok j =>
      rw [hg, Res.bind_ok] at h
      cases hw : mapFind intLess j b.queues with
      | none => simp [Box.getQueueI, hw] at h
      | some q' =>
        simp [Box.getQueueI, hw] at h
        obtain ⟨rfl, rfl⟩ := h
        exact ⟨getIndex_ok.1 hg, hw⟩
  · rintro ⟨h1, h2⟩
    rw [getIndex_ok.2 h1, Res.bind_ok]
    unfold waiting at h2
    simp [Box.getQueueI, h2]

theorem getQueueI_ok {b : Box P} {i : Int} {q : List (Option P)} :
    b.getQueueI i = .ok q ↔ waiting b i = some q := by
  unfold Box.getQueueI waiting
  cases mapFind intLess i b.queues <;> simp

theorem getQueueI_ne_ub (b : Box P) (i : Int) : b.getQueueI i ≠ .ub := by
  unfold Box.getQueueI
  cases mapFind intLess i b.queues <;> simp

/-- Every normal call has the effect described by `effect`, for every subscriber; and it keeps the
mailbox well-formed. -/
theorem exec_effect {this : Addr} {b b' : Box P} {o : Op P} {r : Resp P} (h : b.Wf)
    (he : exec this b o = (b', r)) (hn : r.Normal) (t : Nat) :
    b'.Wf ∧ (∀ i, waiting b' i = effect i ⟨t, o, r⟩ (waiting b i)) ∧
    (∀ s, r = .sub s → s = ⟨this, b.counter⟩ ∧ b'.counter = b.counter + 1) ∧
    ((∀ s, r ≠ .sub s) → b'.counter = b.counter) ∧
    (∀ s m, o = .get (some s) → r = .msg m → s.box = this ∧
      ∃ q, waiting b s.idx = some q ∧ m = (q.head?).join) ∧ b'.name = b.name := by
  -- calls without effect
  have same : (∀ i, effect i ⟨t, o, r⟩ (waiting b i) = waiting b i) → (∀ s, r ≠ .sub s) →
      (∀ s m, o = .get (some s) → r = .msg m → s.box = this ∧
        ∃ q, waiting b s.idx = some q ∧ m = (q.head?).join) → b' = b →
      b'.Wf ∧ (∀ i, waiting b' i = effect i ⟨t, o, r⟩ (waiting b i)) ∧
      (∀ s, r = .sub s → s = ⟨this, b.counter⟩ ∧ b'.counter = b.counter + 1) ∧
      ((∀ s, r ≠ .sub s) → b'.counter = b.counter) ∧
      (∀ s m, o = .get (some s) → r = .msg m → s.box = this ∧
        ∃ q, waiting b s.idx = some q ∧ m = (q.head?).join) ∧ b'.name = b.name := by
    rintro h1 h2 h3 rfl
    exact ⟨h, fun i => (h1 i).symm, fun s hs => absurd hs (h2 s), fun _ => rfl, h3, rfl⟩
  have wfset : ∀ k q, waiting b k ≠ none → (b.setQueue k q).Wf := by
    intro k q hk
    refine ⟨(mapSet_sorted intLess_order _ _ _ h.sorted).1, ?_, h.counter⟩
    intro i hi
    rw [waiting_setQueue] at hi
    show 0 ≤ i ∧ i < b.counter
    by_cases hik : i = k
    · rw [hik]; exact h.keys k hk
    · rw [if_neg hik] at hi; exact h.keys i hi
  have wferase : ∀ k, Box.Wf { b with queues := mapErase intLess k b.queues } := by
    intro k
    refine ⟨mapErase_sorted k h.sorted, ?_, h.counter⟩
    intro i hi
    rw [waiting_erase h] at hi
    split at hi
    · simp at hi
    · exact h.keys i hi
  cases o with
  | subscribe =>
    simp only [exec, Box.subscribe] at he
    by_cases hc : b.counter = 2147483647
    · simp only [hc, if_true, ofRes, Prod.mk.injEq] at he
      rw [← he.2] at hn; exact hn.elim
    · simp only [hc, if_false, ofRes, Prod.mk.injEq] at he
      obtain ⟨rfl, rfl⟩ := he
      refine ⟨⟨(mapSet_sorted intLess_order _ _ _ h.sorted).1, ?_, ?_⟩, ?_, ?_, ?_, by simp, rfl⟩
      · intro i hi
        have : waiting (b.setQueue b.counter []) i ≠ none := hi
        rw [waiting_setQueue] at this
        have hc0 := h.counter
        show 0 ≤ i ∧ i < b.counter + 1
        by_cases hik : i = b.counter
        · omega
        · rw [if_neg hik] at this; have := h.keys i this; omega
      · have hc0 := h.counter
        show 0 ≤ b.counter + 1 ∧ b.counter + 1 ≤ 2147483647
        omega
      · intro i
        show waiting (b.setQueue b.counter []) i = _
        rw [waiting_setQueue]
        by_cases hik : i = b.counter
        · subst hik; simp [effect, Subscribes]
        · have : ¬ b.counter = i := fun e => hik e.symm
          simp [effect, Subscribes, Ends, Clears, Pops, pushes, hik, this]
      · intro s hs
        simp only [Resp.sub.injEq] at hs
        exact ⟨hs.symm, rfl⟩
      · intro hs; exact absurd rfl (hs _)
  | get subs =>
    simp only [exec, Box.get] at he
    cases hg : b.getQueue this subs with
    | ub => simp only [hg, Res.bind_ub, ofRes, Prod.mk.injEq] at he; rw [← he.2] at hn; exact hn.elim
    | throw e =>
      simp only [hg, Res.bind_throw, ofRes, Prod.mk.injEq] at he
      obtain ⟨rfl, rfl⟩ := he
      refine same ?_ (by simp) (by simp) rfl
      intro i; cases subs <;> simp [effect, Subscribes, Ends, Clears, Pops, pushes]
    | ok iq =>
      obtain ⟨k, q⟩ := iq
      obtain ⟨hsub, hw⟩ := getQueue_ok.1 hg
      subst hsub
      cases q with
      | nil =>
        simp only [hg, Res.bind_ok, ofRes, Prod.mk.injEq] at he
        obtain ⟨rfl, rfl⟩ := he
        refine same ?_ (by simp) ?_ rfl
        · intro i
          by_cases hik : k = i
          · subst hik; simp [effect, Subscribes, Ends, Clears, Pops, hw]
          · simp [effect, Subscribes, Ends, Clears, Pops, pushes, hik]
        · intro s m hs hm
          simp only [Op.get.injEq, Option.some.injEq] at hs
          subst hs
          simp only [Resp.msg.injEq] at hm
          subst hm
          exact ⟨rfl, [], hw, rfl⟩
      | cons m rest =>
        simp only [hg, Res.bind_ok, ofRes, Prod.mk.injEq] at he
        obtain ⟨rfl, rfl⟩ := he
        refine ⟨wfset k rest (by simp [hw]), ?_, by simp, fun _ => rfl, ?_, rfl⟩
        · intro i
          rw [waiting_setQueue]
          by_cases hik : i = k
          · subst hik; simp [effect, Subscribes, Ends, Clears, Pops, hw]
          · have : ¬ k = i := fun e => hik e.symm
            simp [effect, Subscribes, Ends, Clears, Pops, pushes, hik, this]
        · intro s m' hs hm
          simp only [Op.get.injEq, Option.some.injEq] at hs
          subst hs
          simp only [Resp.msg.injEq] at hm
          subst hm
          exact ⟨rfl, m :: rest, hw, rfl⟩
  | put msg subs =>
    simp only [exec, Box.put] at he
    have wfpush : ∀ k, Box.Wf { b with queues := Box.pushAll msg k b.queues } := by
      intro k
      refine ⟨?_, ?_, h.counter⟩
      · simp only [pushAll_eq]; exact sorted_map (fun i q => if i ≠ k then q ++ [msg] else q) h.sorted
      · intro i hi
        rw [waiting_push] at hi
        refine h.keys i ?_
        intro hnone; simp [hnone] at hi
    cases subs with
    | none =>
      simp only [Res.bind_ok, ofRes, Prod.mk.injEq] at he
      obtain ⟨rfl, rfl⟩ := he
      refine ⟨wfpush _, ?_, by simp, fun _ => rfl, by simp, rfl⟩
      intro i
      rw [waiting_push]
      cases hw : waiting b i with
      | none => simp [effect, Subscribes, Ends, Clears, Pops]
      | some q =>
        have := h.keys i (by simp [hw])
        have hne : i ≠ b.counter := by omega
        simp [effect, Subscribes, Ends, Clears, Pops, pushes, hne]
    | some s =>
      cases hg : getIndex this (some s) with
      | ub => simp only [hg, Res.bind_ub, ofRes, Prod.mk.injEq] at he; rw [← he.2] at hn; exact hn.elim
      | throw e =>
        simp only [hg, Res.bind_throw, ofRes, Prod.mk.injEq] at he
        obtain ⟨rfl, rfl⟩ := he
        refine same ?_ (by simp) (by simp) rfl
        intro i; simp [effect, Subscribes, Ends, Clears, Pops, pushes]
      | ok k =>
        have hs := getIndex_ok.1 hg
        simp only [Option.some.injEq] at hs
        subst hs
        simp only [hg, Res.bind_ok, ofRes, Prod.mk.injEq] at he
        obtain ⟨rfl, rfl⟩ := he
        refine ⟨wfpush _, ?_, by simp, fun _ => rfl, by simp, rfl⟩
        intro i
        rw [waiting_push]
        by_cases hik : i = k
        · subst hik; cases waiting b i <;> simp [effect, Subscribes, Ends, Clears, Pops, pushes]
        · have : ¬ k = i := fun e => hik e.symm
          cases waiting b i <;> simp [effect, Subscribes, Ends, Clears, Pops, pushes, hik, this]
  | readyCount subs =>
    simp only [exec] at he
    have hnr : b' = b ∧ ∀ s, r ≠ .sub s := by
      cases hg : b.readyCount this subs <;> simp only [hg, ofRes, Prod.mk.injEq] at he <;>
        obtain ⟨rfl, rfl⟩ := he <;> simp
    refine same ?_ hnr.2 (by simp) hnr.1
    intro i
    have : Subscribes i (⟨t, .readyCount subs, r⟩ : Event P) = false := by
      unfold Subscribes; cases r <;> simp; exact absurd rfl (hnr.2 _)
    cases r <;> simp [effect, this, Ends, Clears, Pops, pushes]
  | minReadyCount =>
    simp only [exec, Prod.mk.injEq] at he
    obtain ⟨rfl, rfl⟩ := he
    refine same ?_ (by simp) (by simp) rfl
    intro i; simp [effect, Subscribes, Ends, Clears, Pops, pushes]
  | subscriberCount =>
    simp only [exec, Prod.mk.injEq] at he
    obtain ⟨rfl, rfl⟩ := he
    refine same ?_ (by simp) (by simp) rfl
    intro i; simp [effect, Subscribes, Ends, Clears, Pops, pushes]
  | clear subs =>
    simp only [exec, Box.clear] at he
    cases hg : b.getQueue this subs with
    | ub => simp only [hg, Res.map_ub, ofRes, Prod.mk.injEq] at he; rw [← he.2] at hn; exact hn.elim
    | throw e =>
      simp only [hg, Res.map_throw, ofRes, Prod.mk.injEq] at he
      obtain ⟨rfl, rfl⟩ := he
      refine same ?_ (by simp) (by simp) rfl
      intro i; cases subs <;> simp [effect, Subscribes, Ends, Clears, Pops, pushes]
    | ok iq =>
      obtain ⟨k, q⟩ := iq
      obtain ⟨hsub, hw⟩ := getQueue_ok.1 hg
      subst hsub
      simp only [hg, Res.map_ok, ofRes, Prod.mk.injEq] at he
      obtain ⟨rfl, rfl⟩ := he
      refine ⟨wfset k [] (by simp [hw]), ?_, by simp, fun _ => rfl, by simp, rfl⟩
      intro i
      rw [waiting_setQueue]
      by_cases hik : i = k
      · subst hik; simp [effect, Subscribes, Ends, Clears, hw]
      · have : ¬ k = i := fun e => hik e.symm
        simp [effect, Subscribes, Ends, Clears, Pops, pushes, hik, this]
  | unsubscribe k =>
    simp only [exec, Box.unsubscribe] at he
    cases hg : b.getQueueI k with
    | ub => exact absurd hg (getQueueI_ne_ub b k)
    | throw e =>
      simp only [hg, Res.map_throw, ofRes, Prod.mk.injEq] at he
      obtain ⟨rfl, rfl⟩ := he
      refine same ?_ (by simp) (by simp) rfl
      intro i; simp [effect, Subscribes, Ends, Clears, Pops, pushes]
    | ok q =>
      simp only [hg, Res.map_ok, ofRes, Prod.mk.injEq] at he
      obtain ⟨rfl, rfl⟩ := he
      refine ⟨wferase k, ?_, by simp, fun _ => rfl, by simp, rfl⟩
      intro i
      rw [waiting_erase h]
      by_cases hik : i = k
      · subst hik; simp [effect, Subscribes, Ends]
      · have : ¬ k = i := fun e => hik e.symm
        simp [effect, Subscribes, Ends, Clears, Pops, pushes, hik, this]
  | drop s =>
    simp only [exec, Box.unsubscribe] at he
    cases hg : b.getQueueI s.idx with
    | ub => exact absurd hg (getQueueI_ne_ub b s.idx)
    | throw e =>
      simp only [hg, Res.map_throw, Prod.mk.injEq] at he
      rw [← he.2] at hn; exact hn.elim
    | ok q =>
      simp only [hg, Res.map_ok, Prod.mk.injEq] at he
      obtain ⟨rfl, rfl⟩ := he
      refine ⟨wferase s.idx, ?_, by simp, fun _ => rfl, by simp, rfl⟩
      intro i
      rw [waiting_erase h]
      by_cases hik : i = s.idx
      · subst hik; simp [effect, Subscribes, Ends]
      · have : ¬ s.idx = i := fun e => hik e.symm
        simp [effect, Subscribes, Ends, Clears, Pops, pushes, hik, this]

/-! ### Critical sections as single steps -/

open Monitor (Body)

@[simp] theorem run_look {R : Type} (k : Box P → Body (Box P) R) (b : Box P) :
    (look k).run b = (k b).run b := rfl

theorem sorted_nodup {b : Box P} (h : b.Wf) : (b.queues.map (·.1)).Nodup := by
  unfold List.Nodup
  rw [List.pairwise_map]
  refine h.sorted.imp fun {x y} hxy he => ?_
  rw [he, intLess_order.irrefl] at hxy; simp at hxy

theorem pushLoop_run (msg : Option P) (k : Int) : ∀ (ks : List Int) (b : Box P), ks.Nodup →
    (pushLoop msg k ks).run b =
      ({ b with queues := b.queues.map fun kq =>
          (kq.1, if kq.1 ≠ k ∧ kq.1 ∈ ks then kq.2 ++ [msg] else kq.2) }, .done) := by
  intro ks
  induction ks with
  | nil => intro b _; simp [pushLoop, Body.run]
  | cons a ks ih =>
    intro b hnd
    rw [List.nodup_cons] at hnd
    by_cases hak : a ≠ k
    · simp only [pushLoop, if_pos hak, Body.run]
      rw [ih _ hnd.2]
      simp only [List.map_map]
      congr 2
      apply List.map_congr_left
      intro x _
      by_cases hx : x.1 = a
      · subst hx; simp [hnd.1, hak]
      · simp [hx]
    · simp only [pushLoop, if_neg hak]
      rw [ih _ hnd.2]
      congr 2
      apply List.map_congr_left
      intro x _
      have hak : a = k := Decidable.of_not_not hak
      by_cases hx : x.1 = a
      · subst hx; simp [hak]
      · simp [hx]

theorem popLoop_run (idx : Int) (fin : Body (Box P) (Resp P)) : ∀ (n : Nat) (b : Box P),
    (popLoop idx fin n).run b =
      fin.run { b with queues := b.queues.map fun kq =>
        (kq.1, if kq.1 = idx then kq.2.drop n else kq.2) } := by
  intro n
  induction n with
  | zero => intro b; simp [popLoop]
  | succ n ih =>
    intro b
    simp only [popLoop, Body.run]
    rw [ih]
    simp only [List.map_map]
    congr 2
    apply List.map_congr_left
    intro x _
    by_cases hx : x.1 = idx <;> simp [hx]

theorem popAll_eq {b : Box P} (h : b.Wf) {idx : Int} {q : List (Option P)} (hw : waiting b idx = some q) :
    ({ b with queues := b.queues.map fun kq =>
        (kq.1, if kq.1 = idx then kq.2.drop q.length else kq.2) } : Box P) = b.setQueue idx [] := by
  unfold Box.setQueue
  rw [mapSet_present intLess_order h.sorted hw]
  congr 1
  apply List.map_congr_left
  intro x hx
  by_cases hi : x.1 = idx
  · have := (mapFind_mem intLess_order x.1 x.2 _ h.sorted).2 hx
    unfold waiting at hw
    rw [hi, hw] at this
    simp [hi, ← Option.some.inj this]
  · simp [hi]

theorem minLoop_run (b : Box P) : ∀ (l : List (Int × List (Option P))) (ret : Nat),
    (∀ x ∈ l, mapFind intLess x.1 b.queues = some x.2) →
    (minLoop ret (l.map (·.1))).run b = (b, .count (l.foldl
      (fun ret kq => (if ret < kq.2.length then ret else kq.2.length) % 4294967296) ret)) := by
  intro l
  induction l with
  | nil => intro ret _; rfl
  | cons x l ih =>
    intro ret h
    simp only [List.map_cons, minLoop, run_look, h x (by simp), List.foldl_cons]
    exact ih _ fun y hy => h y (by simp [hy])

theorem mapErase_map {g : Int → List (Option P) → List (Option P)} (k : Int)
    (m : List (Int × List (Option P))) (hg : ∀ i q, i ≠ k → g i q = q) (hs : Sorted intLess m) :
    mapErase intLess k (m.map fun kq => (kq.1, g kq.1 kq.2)) = mapErase intLess k m := by
  rw [mapErase_eq_filter intLess_order k hs, mapErase_eq_filter intLess_order k (sorted_map g hs)]
  rw [List.filter_map]
  have : ((fun x : Int × List (Option P) => decide (x.1 ≠ k)) ∘
      fun kq : Int × List (Option P) => (kq.1, g kq.1 kq.2)) = fun x => decide (x.1 ≠ k) := by
    funext x; rfl
  rw [this]
  refine (List.map_congr_left (g := id) ?_).trans (List.map_id _)
  intro x hx
  have := (List.mem_filter.mp hx).2
  simp only [ne_eq, decide_not, Bool.not_eq_true', decide_eq_false_iff_not] at this
  simp [hg x.1 x.2 this]

/-- Executed without interruption, the critical section of a call does what `exec` says. -/
theorem body_run {b : Box P} (h : b.Wf) (this : Addr) (o : Op P) :
    ((body this o).run b).2 = (exec this b o).2 ∧
    ((exec this b o).2.Normal → (body this o).run b = exec this b o) := by
  have both : ∀ {x y : Box P × Resp P}, x = y → x.2 = y.2 ∧ (y.2.Normal → x = y) :=
    fun e => ⟨by rw [e], fun _ => e⟩
  cases o with
  | subscribe =>
    simp only [body, run_look, Body.run, exec, Box.subscribe]
    by_cases hc : b.counter = 2147483647
    · simp [hc, Body.run, ofRes, Resp.Normal]
    · simp [hc, Body.run, ofRes, Box.setQueue]
  | get subs =>
    apply both
    simp only [body, run_look, exec, Box.get]
    cases hg : b.getQueue this subs with
    | ub => simp [onRes, Body.run, ofRes]
    | throw e => simp [onRes, Body.run, ofRes]
    | ok iq =>
      obtain ⟨k, q⟩ := iq
      obtain ⟨_, hw⟩ := getQueue_ok.1 hg
      cases q with
      | nil => simp [onRes, Body.run, ofRes]
      | cons m rest =>
        simp only [onRes, Body.run, ofRes, Res.bind_ok]
        congr 1
        unfold Box.setQueue
        rw [mapSet_present intLess_order h.sorted hw]
        congr 1
        apply List.map_congr_left
        intro x hx
        by_cases hi : x.1 = k
        · have := (mapFind_mem intLess_order x.1 x.2 _ h.sorted).2 hx
          unfold waiting at hw
          rw [hi, hw] at this
          simp [hi, ← Option.some.inj this]
        · simp [hi]
  | put msg subs =>
    apply both
    simp only [body, run_look, exec, Box.put]
    have key : ∀ k, (pushLoop msg k (b.queues.map (·.1))).run b =
        ({ b with queues := Box.pushAll msg k b.queues }, .done) := by
      intro k
      rw [pushLoop_run _ _ _ _ (sorted_nodup h), pushAll_eq]
      congr 2
      apply List.map_congr_left
      intro x hx
      have : x.1 ∈ b.queues.map (·.1) := List.mem_map.mpr ⟨x, hx, rfl⟩
      simp only [this, and_true]
    cases subs with
    | none => simp [onRes, ofRes, key]
    | some s =>
      cases hg : getIndex this (some s) with
      | ub => simp [onRes, Body.run, ofRes, hg]
      | throw e => simp [onRes, Body.run, ofRes, hg]
      | ok k => simp [onRes, ofRes, hg, key]
  | readyCount subs =>
    apply both
    simp only [body, run_look, exec]
    cases b.readyCount this subs <;> simp [onRes, Body.run, ofRes]
  | minReadyCount =>
    apply both
    simp only [body, run_look, exec, Box.minReadyCount]
    exact minLoop_run b b.queues _ fun x hx => (mapFind_mem intLess_order x.1 x.2 _ h.sorted).2 hx
  | subscriberCount => exact both rfl
  | clear subs =>
    apply both
    simp only [body, run_look, exec, Box.clear]
    cases hg : b.getQueue this subs with
    | ub => simp [onRes, Body.run, ofRes]
    | throw e => simp [onRes, Body.run, ofRes]
    | ok iq =>
      obtain ⟨k, q⟩ := iq
      obtain ⟨_, hw⟩ := getQueue_ok.1 hg
      simp only [onRes, ofRes, Res.map_ok, popLoop_run, Body.run]
      rw [popAll_eq h hw]
  | unsubscribe k =>
    apply both
    simp only [body, unsubBody, run_look, exec, Box.unsubscribe]
    cases hg : b.getQueueI k with
    | ub => exact absurd hg (getQueueI_ne_ub b k)
    | throw e => simp [Body.run, ofRes]
    | ok q =>
      simp only [ofRes, Res.map_ok, popLoop_run, Body.run]
      rw [mapErase_map (g := fun i l => if i = k then l.drop q.length else l) k _
        (by intro i l hi; simp [hi]) h.sorted]
  | drop s =>
    apply both
    simp only [body, unsubBody, run_look, exec, Box.unsubscribe]
    cases hg : b.getQueueI s.idx with
    | ub => exact absurd hg (getQueueI_ne_ub b s.idx)
    | throw e => simp [Body.run]
    | ok q =>
      simp only [Res.map_ok, popLoop_run, Body.run]
      rw [mapErase_map (g := fun i l => if i = s.idx then l.drop q.length else l) s.idx _
        (by intro i l hi; simp [hi]) h.sorted]

theorem run_wf {this : Addr} {b0 b : Box P} {tr : List (Event P)} (h0 : b0.Wf) (h : Run this b0 tr b) :
    b.Wf := by
  induction h with
  | nil => exact h0
  | snoc _ he hn ih => exact (exec_effect ih he hn 0).1

/-- The history of a concurrent execution: the completed calls, in the order in which they
released the mutex. -/
def history (es : List (Nat × Op P × Resp P)) : List (Event P) := es.map fun e => ⟨e.1, e.2.1, e.2.2⟩

theorem serial_run {this : Addr} {b0 b : Box P} {es : List (Nat × Op P × Resp P)} (h0 : b0.Wf)
    (h : Monitor.Serial (body this) b0 es b) (hn : ∀ e ∈ es, e.2.2.Normal) :
    Run this b0 (history es) b := by
  induction h with
  | nil => exact .nil
  | @snoc es' s' t o r s'' hs he ih =>
    have hr := ih fun e h => hn e (List.mem_append.mpr (.inl h))
    have hnr : r.Normal := hn (t, o, r) (by simp)
    have hb := body_run (run_wf h0 hr) this o
    rw [he] at hb
    have hx := hb.2 (by rw [← hb.1]; exact hnr)
    have := Run.snoc (t := t) hr hx.symm hnr
    simpa [history] using this

/-- Every sequential history is the history of some execution by threads. -/
theorem run_serial {this : Addr} {b0 b : Box P} {tr : List (Event P)} (h0 : b0.Wf)
    (h : Run this b0 tr b) :
    Monitor.Serial (body this) b0 (tr.map fun e => (e.thread, e.op, e.resp)) b ∧
      ∀ e ∈ tr, e.resp.Normal := by
  induction h with
  | nil => exact ⟨.nil, by simp⟩
  | @snoc tr b' t o r b'' h he hn ih =>
    obtain ⟨ih1, ih2⟩ := ih
    have hb := (body_run (run_wf h0 h) this o).2 (by rw [he]; exact hn)
    rw [he] at hb
    refine ⟨?_, ?_⟩
    · rw [List.map_append]; exact .snoc ih1 hb
    · intro e hx
      rcases List.mem_append.mp hx with hx | hx
      · exact ih2 e hx
      · rw [List.mem_singleton.mp hx]; exact hn

/-! ### Histories -/

/-- What the history says about the queue of `i` in a mailbox that started empty. -/
theorem run_waiting {this : Addr} {b0 b : Box P} {tr : List (Event P)} (h0 : b0.Wf)
    (h : Run this b0 tr b) (i : Int) :
    waiting b i = tr.foldl (fun q e => effect i e q) (waiting b0 i) := by
  induction h with
  | nil => rfl
  | @snoc tr b' t o r b'' h he hn ih =>
    rw [List.foldl_append, ← ih]
    exact (exec_effect (run_wf h0 h) he hn t).2.1 i

theorem since_snoc (p : Event P → Bool) (tr : List (Event P)) (e : Event P) :
    since p (tr ++ [e]) = if p e then [] else since p tr ++ [e] := by
  unfold since
  rw [List.reverse_append]
  by_cases h : p e = true <;> simp [h]

theorem sendsTo_eq (i : Int) (e : Event P) : sendsTo i e = (pushes i e).join := by
  obtain ⟨t, o, r⟩ := e
  cases o with
  | put m subs =>
    cases m <;> cases subs <;> cases r <;> simp [sendsTo, pushes] <;> split <;> simp
  | _ => cases r <;> simp [sendsTo, pushes]

theorem sendsTo_sends {i : Int} {e : Event P} {p : P} (h : sendsTo i e = some p) : sends e = some p := by
  obtain ⟨t, o, r⟩ := e
  cases o with
  | put m subs =>
    cases m <;> cases subs <;> cases r <;> simp [sendsTo, sends] at h ⊢
    · exact h
    · exact h.2
  | _ => cases r <;> simp [sendsTo] at h

theorem pops_pushes {i j : Int} {e : Event P} (h : Pops i e = true) : pushes j e = none := by
  obtain ⟨t, o, r⟩ := e
  cases o <;> simp [Pops] at h <;> simp [pushes]

theorem not_pops_gives {i : Int} {e : Event P} (h : Pops i e = false) : gives i e = none := by
  obtain ⟨t, o, r⟩ := e
  cases o with
  | get subs =>
    cases subs with
    | none => simp [gives]
    | some s =>
      cases r with
      | msg m =>
        simp only [Pops, decide_eq_false_iff_not] at h
        cases m <;> simp [gives, h]
      | _ => simp [gives]
  | _ => cases r <;> simp [gives]

theorem subscribes_pushes {i j : Int} {e : Event P} (h : Subscribes i e = true) :
    pushes j e = none ∧ Pops j e = false ∧ Ends j e = false ∧ Clears j e = false := by
  obtain ⟨t, o, r⟩ := e
  cases r <;> simp [Subscribes] at h
  cases o <;> simp [pushes, Pops, Ends, Clears]
  all_goals rename_i x; cases x <;> simp

theorem ends_pushes {i j : Int} {e : Event P} (h : Ends i e = true) :
    pushes j e = none ∧ Pops j e = false := by
  obtain ⟨t, o, r⟩ := e
  cases o <;> cases r <;> simp [Ends] at h <;> simp [pushes, Pops]

theorem clears_pushes {i j : Int} {e : Event P} (h : Clears i e = true) :
    pushes j e = none ∧ Pops j e = false := by
  obtain ⟨t, o, r⟩ := e
  cases o <;> cases r <;> simp [Clears] at h <;> simp [pushes, Pops]

/-- What is known about the ids of a mailbox after a history. -/
structure KnownIds (tr : List (Event P)) (b : Box P) : Prop where
  wf : b.Wf
  ids : ∃ n : Nat, b.counter = n ∧ idsGiven tr = (List.range n).map Int.ofNat
  live : ∀ i, waiting b i ≠ none ↔ Live i tr
  mentioned : ∀ i, (∃ e ∈ tr, Subscribes i e = true) ↔ 0 ≤ i ∧ i < b.counter
  ended : ∀ i, (∃ e ∈ tr, Ends i e = true) → ∃ e ∈ tr, Subscribes i e = true

/-- What is known about a mailbox after a history. -/
structure Known (tr : List (Event P)) (b : Box P) : Prop extends KnownIds tr b where
  mail : ∀ i q, waiting b i = some q → received i tr ++ q.filterMap id = sentTo i tr
  order : ∀ i, (receivedEver i tr ++ ((waiting b i).getD []).filterMap id).Sublist
    (tr.filterMap (sendsTo i))
  nonnull : NoNull tr → ∀ i q, waiting b i = some q → ∀ m ∈ q, m.isSome = true

theorem knownIds_nil (name : Str) : KnownIds [] (Box.new name : Box P) := by
  refine ⟨wf_new name, ⟨0, rfl, rfl⟩, ?_, ?_, ?_⟩
  · intro i; simp [Box.new, waiting, mapFind, Live]
  · intro i; simp [Box.new]
  · simp

theorem known_nil (name : Str) : Known [] (Box.new name : Box P) := by
  refine ⟨knownIds_nil name, ?_, ?_, ?_⟩
  · intro i q h; simp [Box.new, waiting, mapFind] at h
  · intro i; simp [Box.new, waiting, mapFind, receivedEver]
  · intro _ i q h; simp [Box.new, waiting, mapFind] at h

/-- `Subscribes` in terms of the response. -/
theorem subscribes_iff {i : Int} {e : Event P} : Subscribes i e = true ↔ ∃ s, e.resp = .sub s ∧ s.idx = i := by
  obtain ⟨t, o, r⟩ := e
  cases r <;> simp [Subscribes]

/-- A call that ends a subscription requires that subscription to exist. -/
theorem ends_exists {this : Addr} {b b' : Box P} {o : Op P} {r : Resp P} {t : Nat} {i : Int}
    (he : exec this b o = (b', r)) (h : Ends i (⟨t, o, r⟩ : Event P) = true) :
    waiting b i ≠ none := by
  cases o with
  | unsubscribe k =>
    cases r <;> simp [Ends] at h
    subst h
    intro hn
    unfold waiting at hn
    simp [exec, Box.unsubscribe, Box.getQueueI, hn, ofRes] at he
  | drop s =>
    cases r <;> simp [Ends] at h
    subst h
    intro hn
    unfold waiting at hn
    simp [exec, Box.unsubscribe, Box.getQueueI, hn] at he
  | _ => cases r <;> simp [Ends] at h

theorem knownIds_snoc {this : Addr} {tr : List (Event P)} {b b' : Box P} {o : Op P} {r : Resp P} (t : Nat)
    (k : KnownIds tr b) (he : exec this b o = (b', r)) (hn : r.Normal) :
    KnownIds (tr ++ [⟨t, o, r⟩]) b' := by
  obtain ⟨hwf, heff, hsub, hcnt, _, _⟩ := exec_effect k.wf he hn t
  obtain ⟨n, hn1, hn2⟩ := k.ids
  have hge := fun i => ends_exists (t := t) (i := i) he
  generalize hev : (⟨t, o, r⟩ : Event P) = e at *
  have her : e.resp = r := by rw [← hev]
  have hment : ∀ i, (∃ e' ∈ tr ++ [e], Subscribes i e' = true) ↔ 0 ≤ i ∧ i < b'.counter := by
    intro i
    have h0 := k.wf.counter
    by_cases hs : ∃ s, r = .sub s
    · obtain ⟨s, hs⟩ := hs
      obtain ⟨h1, h2⟩ := hsub s hs
      rw [h2]
      constructor
      · rintro ⟨e', he', hse⟩
        rcases List.mem_append.mp he' with h | h
        · have := (k.mentioned i).1 ⟨e', h, hse⟩; omega
        · rw [List.mem_singleton.mp h] at hse
          obtain ⟨s', h3, h4⟩ := subscribes_iff.1 hse
          rw [her, hs] at h3
          simp only [Resp.sub.injEq] at h3
          subst h3; subst h1; simp only at h4; omega
      · rintro ⟨h3, h4⟩
        by_cases hi : i = b.counter
        · exact ⟨e, by simp, subscribes_iff.2 ⟨s, by rw [her, hs], by rw [h1, hi]⟩⟩
        · obtain ⟨e', h5, h6⟩ := (k.mentioned i).2 ⟨h3, by omega⟩
          exact ⟨e', by simp [h5], h6⟩
    · have hne : ∀ s, r ≠ .sub s := fun s h => hs ⟨s, h⟩
      rw [hcnt hne, ← k.mentioned i]
      constructor
      · rintro ⟨e', he', hse⟩
        rcases List.mem_append.mp he' with h | h
        · exact ⟨e', h, hse⟩
        · rw [List.mem_singleton.mp h] at hse
          obtain ⟨s', h3, _⟩ := subscribes_iff.1 hse
          rw [her] at h3; exact absurd h3 (hne s')
      · rintro ⟨e', h5, h6⟩; exact ⟨e', by simp [h5], h6⟩
  -- a new subscription was not mentioned before
  have hnew : ∀ i, Subscribes i e = true → i = b.counter := by
    intro i hse
    obtain ⟨s', h3, h4⟩ := subscribes_iff.1 hse
    rw [her] at h3
    rw [← h4, (hsub s' h3).1]
  refine ⟨hwf, ?_, ?_, hment, ?_⟩
  · by_cases hs : ∃ s, r = .sub s
    · obtain ⟨s, hs⟩ := hs
      obtain ⟨h1, h2⟩ := hsub s hs
      refine ⟨n + 1, by rw [h2, hn1]; rfl, ?_⟩
      have : idsGiven [e] = [(n : Int)] := by simp [idsGiven, her, hs, h1, hn1]
      unfold idsGiven at this hn2 ⊢
      rw [List.filterMap_append, this, hn2, List.range_succ]
      simp
    · have hne : ∀ s, r ≠ .sub s := fun s h => hs ⟨s, h⟩
      refine ⟨n, by rw [hcnt hne, hn1], ?_⟩
      have : idsGiven [e] = [] := by
        unfold idsGiven
        simp only [her, List.filterMap_cons, List.filterMap_nil]
      unfold idsGiven at this hn2 ⊢
      rw [List.filterMap_append, this, hn2, List.append_nil]
  · intro i
    rw [heff i]
    unfold effect
    by_cases h1 : Subscribes i e = true
    · simp only [h1, if_true, ne_eq, reduceCtorEq, not_false_eq_true, true_iff]
      refine ⟨⟨e, by simp, h1⟩, ?_⟩
      intro e' he'
      rcases List.mem_append.mp he' with h | h
      · cases hc : Ends i e' with
        | false => rfl
        | true =>
          have := (k.mentioned i).1 (k.ended i ⟨e', h, hc⟩)
          have := hnew i h1; omega
      · rw [List.mem_singleton.mp h]; exact (subscribes_pushes h1).2.2.1
    · simp only [h1, if_false, Bool.false_eq_true]
      by_cases h2 : Ends i e = true
      · simp only [h2, if_true, ne_eq, not_true_eq_false, false_iff]
        rintro ⟨_, h3⟩
        have := h3 e (by simp); rw [h2] at this; simp at this
      · simp only [h2, if_false, Bool.false_eq_true]
        have hl : Live i (tr ++ [e]) ↔ Live i tr := by
          constructor
          · rintro ⟨⟨e', he', hse⟩, h3⟩
            refine ⟨?_, fun x hx => h3 x (by simp [hx])⟩
            rcases List.mem_append.mp he' with h | h
            · exact ⟨e', h, hse⟩
            · rw [List.mem_singleton.mp h] at hse; exact absurd hse h1
          · rintro ⟨⟨e', he', hse⟩, h3⟩
            refine ⟨⟨e', by simp [he'], hse⟩, ?_⟩
            intro x hx
            rcases List.mem_append.mp hx with h | h
            · exact h3 x h
            · rw [List.mem_singleton.mp h]; simpa using h2
        rw [hl, ← k.live i]
        split
        · simp
        · split <;> simp
  · intro i
    rintro ⟨e', he', hee⟩
    rcases List.mem_append.mp he' with h | h
    · obtain ⟨x, hx, hs⟩ := k.ended i ⟨e', h, hee⟩
      exact ⟨x, by simp [hx], hs⟩
    · rw [List.mem_singleton.mp h] at hee
      obtain ⟨⟨x, hx, hs⟩, _⟩ := (k.live i).1 (hge i hee)
      exact ⟨x, by simp [hx], hs⟩

/-- A `get` that returned gives the first waiting message. -/
theorem gives_head {this : Addr} {b b' : Box P} {o : Op P} {r : Resp P} (t : Nat)
    (hwf : b.Wf) (he : exec this b o = (b', r)) (hn : r.Normal) {i : Int}
    (hp : Pops i (⟨t, o, r⟩ : Event P) = true) :
    ∃ q, waiting b i = some q ∧ gives i (⟨t, o, r⟩ : Event P) = (q.head?).join := by
  obtain ⟨_, _, _, _, hget, _⟩ := exec_effect hwf he hn t
  cases o with
  | get subs =>
    cases subs with
    | none => simp [Pops] at hp
    | some s =>
      cases r with
      | msg m =>
        simp only [Pops, decide_eq_true_eq] at hp
        obtain ⟨_, q, hq, hm⟩ := hget s m rfl rfl
        rw [hp] at hq
        refine ⟨q, hq, ?_⟩
        subst hm
        cases (q.head?).join <;> simp [gives, hp]
      | _ => simp [Pops] at hp
  | _ => simp [Pops] at hp

/-- Delivery to one subscriber, one event further. -/
theorem mail_snoc {tr : List (Event P)} {e : Event P} {i : Int} {w w' : Option (List (Option P))}
    (hk : ∀ q, w = some q → received i tr ++ q.filterMap id = sentTo i tr)
    (heff : w' = effect i e w)
    (hgives : ∀ q, Pops i e = true → w = some q → gives i e = (q.head?).join) :
    ∀ q, w' = some q → received i (tr ++ [e]) ++ q.filterMap id = sentTo i (tr ++ [e]) := by
  intro q' hq'
  rw [heff] at hq'
  unfold effect at hq'
  unfold received sentTo sinceFresh
  rw [since_snoc]
  by_cases h1 : Subscribes i e = true
  · simp only [h1, if_true, Option.some.injEq] at hq'
    subst hq'; simp [h1]
  · simp only [h1, if_false, Bool.false_eq_true] at hq'
    by_cases h2 : Ends i e = true
    · simp [h2] at hq'
    · simp only [h2, if_false, Bool.false_eq_true] at hq'
      by_cases h3 : Clears i e = true
      · simp only [h3, if_true, Option.map_eq_some_iff] at hq'
        obtain ⟨q, _, rfl⟩ := hq'
        simp [h3]
      · simp only [h3, if_false, Bool.false_eq_true] at hq'
        simp only [h1, h3, Bool.or_self, Bool.false_eq_true, if_false, List.filterMap_append]
        by_cases h4 : Pops i e = true
        · simp only [h4, if_true, Option.map_eq_some_iff] at hq'
          obtain ⟨q, hq, rfl⟩ := hq'
          have hm := hk q hq
          unfold received sentTo sinceFresh at hm
          rw [← hm]
          simp only [List.filterMap_cons, List.filterMap_nil, hgives q h4 hq, sendsTo_eq,
            pops_pushes h4, Option.join_none, List.append_nil]
          cases q with
          | nil => simp
          | cons m rest => cases m <;> simp
        · simp only [h4, if_false, Bool.false_eq_true, Option.map_eq_some_iff] at hq'
          obtain ⟨q, hq, rfl⟩ := hq'
          have hm := hk q hq
          unfold received sentTo sinceFresh at hm
          rw [← hm]
          simp only [List.filterMap_cons, List.filterMap_nil, not_pops_gives (by simpa using h4),
            sendsTo_eq, List.append_nil, List.filterMap_append]
          cases pushes i e with
          | none => simp
          | some m => cases m <;> simp

/-- The order for one subscriber, one event further. -/
theorem order_snoc {tr : List (Event P)} {e : Event P} {i : Int} {w w' : Option (List (Option P))}
    (ho : (receivedEver i tr ++ (w.getD []).filterMap id).Sublist (tr.filterMap (sendsTo i)))
    (heff : w' = effect i e w)
    (hgives : ∀ q, Pops i e = true → w = some q → gives i e = (q.head?).join)
    (hpopw : Pops i e = true → w ≠ none) :
    (receivedEver i (tr ++ [e]) ++ (w'.getD []).filterMap id).Sublist
      ((tr ++ [e]).filterMap (sendsTo i)) := by
  rw [heff]
  unfold effect receivedEver
  unfold receivedEver at ho
  simp only [List.filterMap_append, List.filterMap_cons, List.filterMap_nil, sendsTo_eq i e]
  have weak : (tr.filterMap (gives i)).Sublist (tr.filterMap (sendsTo i)) :=
    (List.sublist_append_left _ _).trans ho
  by_cases h1 : Subscribes i e = true
  · have h := subscribes_pushes (j := i) h1
    simp only [h1, if_true, not_pops_gives h.2.1, h.1]
    simpa using weak
  · simp only [h1, if_false, Bool.false_eq_true]
    by_cases h2 : Ends i e = true
    · have h := ends_pushes (j := i) h2
      simp only [h2, if_true, not_pops_gives h.2, h.1]
      simpa using weak
    · simp only [h2, if_false, Bool.false_eq_true]
      by_cases h3 : Clears i e = true
      · have h := clears_pushes (j := i) h3
        simp only [h3, if_true, not_pops_gives h.2, h.1]
        cases w <;> simpa using weak
      · simp only [h3, if_false, Bool.false_eq_true]
        by_cases h4 : Pops i e = true
        · simp only [h4, if_true, pops_pushes h4]
          cases hw : w with
          | none => exact absurd hw (hpopw h4)
          | some q =>
            rw [hgives q h4 hw]
            rw [hw] at ho
            cases q with
            | nil => simpa using ho
            | cons m rest => cases m <;> simpa using ho
        · simp only [h4, if_false, Bool.false_eq_true, not_pops_gives (show Pops i e = false by simpa using h4)]
          cases hw : w with
          | none =>
            rw [hw] at ho
            simp only [Option.map_none, Option.getD_none, List.filterMap_nil, List.append_nil] at ho ⊢
            exact ho.trans (List.sublist_append_left _ _)
          | some q =>
            rw [hw] at ho
            simp only [Option.map_some, Option.getD_some, List.filterMap_append, List.append_nil] at ho ⊢
            rw [← List.append_assoc]
            refine ho.append ?_
            cases pushes i e with
            | none => simp
            | some m => cases m <;> simp

theorem known_snoc {this : Addr} {tr : List (Event P)} {b b' : Box P} {o : Op P} {r : Resp P} (t : Nat)
    (k : Known tr b) (he : exec this b o = (b', r)) (hn : r.Normal) : Known (tr ++ [⟨t, o, r⟩]) b' := by
  obtain ⟨_, heff, _, _, _, _⟩ := exec_effect k.wf he hn t
  have hgives : ∀ i q, Pops i (⟨t, o, r⟩ : Event P) = true → waiting b i = some q →
      gives i (⟨t, o, r⟩ : Event P) = (q.head?).join := by
    intro i q hp hw
    obtain ⟨q', hq', hg⟩ := gives_head t k.wf he hn hp
    rw [hw] at hq'
    obtain rfl := Option.some.inj hq'
    exact hg
  have hpopw : ∀ i, Pops i (⟨t, o, r⟩ : Event P) = true → waiting b i ≠ none := by
    intro i hp
    obtain ⟨q', hq', _⟩ := gives_head t k.wf he hn hp
    simp [hq']
  refine ⟨knownIds_snoc t k.toKnownIds he hn, fun i => mail_snoc (k.mail i) (heff i) (hgives i),
    fun i => order_snoc (k.order i) (heff i) (hgives i) (hpopw i), ?_⟩
  generalize (⟨t, o, r⟩ : Event P) = e at *
  intro hnn i q' hq' m hm
  have hnn' : NoNull tr := fun e' he' => hnn e' (by simp [he'])
  rw [heff i] at hq'
  unfold effect at hq'
  split at hq'
  · simp only [Option.some.injEq] at hq'; subst hq'; simp at hm
  · split at hq'
    · simp at hq'
    · split at hq'
      · simp only [Option.map_eq_some_iff] at hq'
        obtain ⟨_, _, rfl⟩ := hq'; simp at hm
      · split at hq'
        · simp only [Option.map_eq_some_iff] at hq'
          obtain ⟨q, hq, rfl⟩ := hq'
          exact k.nonnull hnn' i q hq m (List.mem_of_mem_tail hm)
        · simp only [Option.map_eq_some_iff] at hq'
          obtain ⟨q, hq, rfl⟩ := hq'
          rcases List.mem_append.mp hm with h | h
          · exact k.nonnull hnn' i q hq m h
          · have h' : pushes i e = some m := by simpa using h
            have hx := hnn e (by simp)
            obtain ⟨t', o', r'⟩ := e
            cases o' with
            | put m' subs =>
              cases m' with
              | none => exact absurd rfl (hx subs)
              | some p =>
                cases subs <;> cases r' <;> simp [pushes] at h'
                · simp [← h']
                · simp [← h'.2]
            | _ => cases r' <;> simp [pushes] at h'

theorem known {this : Addr} {name : Str} {tr : List (Event P)} {b : Box P}
    (h : Run this (Box.new name) tr b) : Known tr b := by
  generalize hb : (Box.new name : Box P) = b0 at h
  induction h with
  | nil => subst hb; exact known_nil name
  | @snoc tr b' t o r b'' h he hn ih => exact known_snoc t ih he hn

/-- With no null messages the queue of a live subscriber is exactly its outstanding messages. -/
theorem Known.waiting_eq {tr : List (Event P)} {b : Box P} (k : Known tr b) (hnn : NoNull tr) {i : Int}
    (hl : Live i tr) : waiting b i = some ((outstanding i tr).map some) := by
  cases hw : waiting b i with
  | none => exact absurd hw ((k.live i).2 hl)
  | some q =>
    have hm := k.mail i q hw
    have hs := k.nonnull hnn i q hw
    have : outstanding i tr = q.filterMap id := by
      unfold outstanding; rw [← hm]; simp
    rw [this]
    congr 1
    clear hm this hw
    induction q with
    | nil => rfl
    | cons m q ih =>
      have h1 := hs m (by simp)
      cases m with
      | none => simp at h1
      | some p => simp [← ih fun x hx => hs x (by simp [hx])]

end SoDa.Mail
