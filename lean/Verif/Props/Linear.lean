import Verif.Proof.LinearMany
import Verif.Props.MailBox
/-!
# C133  What threads see of a mailbox is linearisable, and everything linearisable can be seen
-/
namespace SoDa
open Mail Spec

variable {P : Type}

/-- The mailbox a user imagines. -/
def imagine (b : Box P) : Imagined P := ⟨b.counter.toNat, waiting b⟩

theorem count_keys {b : Box P} (h : b.Wf) :
    b.subscriberCount = (List.range b.counter.toNat).countP fun (i : Nat) => (waiting b (i : Int)).isSome := by
  have hlen : b.queues.length = ((List.range b.counter.toNat).filter fun (i : Nat) => (waiting b (i : Int)).isSome).length := by
    have hp : (b.queues.map fun x => x.1.toNat).Perm ((List.range b.counter.toNat).filter fun (i : Nat) => (waiting b (i : Int)).isSome) := by
      refine (List.perm_ext_iff_of_nodup ?_ (List.Nodup.filter _ List.nodup_range)).2 fun n => ?_
      · have hn := sorted_nodup h
        rw [List.Nodup, List.pairwise_map] at hn ⊢
        refine hn.imp_of_mem fun {x y} hx hy hne he => hne ?_
        have := h.keys_mem x hx
        have := h.keys_mem y hy
        omega
      · rw [List.mem_map, List.mem_filter, List.mem_range]
        constructor
        · rintro ⟨x, hx, rfl⟩
          have hk := h.keys_mem x hx
          have hw : waiting b x.1 = some x.2 := (mapFind_mem intLess_order x.1 x.2 _ h.sorted).2 hx
          have he : ((x.1.toNat : Nat) : Int) = x.1 := by omega
          refine ⟨by omega, ?_⟩
          rw [he, hw]
          rfl
        · rintro ⟨_, hs⟩
          obtain ⟨q, hq⟩ := Option.isSome_iff_exists.1 hs
          exact ⟨(n, q), (mapFind_mem intLess_order _ _ _ h.sorted).1 hq, by simp⟩
    rw [← hp.length_eq, List.length_map]
  have hle : ((List.range b.counter.toNat).filter fun (i : Nat) => (waiting b (i : Int)).isSome).length ≤ b.counter.toNat := by
    simpa using List.length_filter_le (fun (i : Nat) => (waiting b (i : Int)).isSome) (List.range b.counter.toNat)
  have := h.counter
  rw [List.countP_eq_length_filter, Box.subscriberCount, hlen, Nat.mod_eq_of_lt (by omega)]

theorem getQueueI_none {b : Box P} {i : Int} (h : waiting b i = none) : b.getQueueI i = .throw (.missing b.name "get()".toList i) := by
  unfold waiting at h
  simp [Box.getQueueI, h]

/-- What can happen to a subscription given to a call. -/
theorem getQueue_either (this : Addr) (b : Box P) (s : Sub) :
    (∃ x, CallRefused this b.name (imagine b) s x ∧ b.getQueue this (some s) = .throw x) ∨
    ∃ q, s.box = this ∧ waiting b s.idx = some q ∧ b.getQueue this (some s) = .ok (s.idx, q) := by
  by_cases hb : s.box = this
  · cases hw : waiting b s.idx with
    | none =>
      refine .inl ⟨_, .ended hb hw, ?_⟩
      simp [Box.getQueue, getIndex, hb, getQueueI_none hw]
    | some q =>
      refine .inr ⟨q, hb, rfl, getQueue_ok.2 ⟨?_, hw⟩⟩
      rw [← hb]
  · refine .inl ⟨_, .other hb, ?_⟩
    have hb' : this ≠ s.box := fun e => hb e.symm
    simp [Box.getQueue, getIndex, hb']

/-- A normal call does what the user imagines. -/
theorem exec_does {this : Addr} {b : Box P} (h : b.Wf) (o : Op P) (hn : (exec this b o).2.Normal) :
    CallDoes this b.name (imagine b) o (imagine (exec this b o).1) (exec this b o).2 := by
  have erase : ∀ i, imagine { b with queues := mapErase intLess i b.queues } = (imagine b).with i none := by
    intro i
    simp only [imagine, Imagined.with, Imagined.mk.injEq, true_and]
    funext j
    exact waiting_erase h j i
  have set : ∀ i q, imagine (b.setQueue i q) = (imagine b).with i (some q) := by
    intro i q
    simp only [imagine, Imagined.with, Imagined.mk.injEq]
    exact ⟨rfl, funext fun j => waiting_setQueue b j i q⟩
  cases o with
  | subscribe =>
    by_cases hc : b.counter = 2147483647
    · simp [exec, Box.subscribe, hc, ofRes, Resp.Normal] at hn
    · have hcc := h.counter
      have e0 : ((b.counter.toNat : Nat) : Int) = b.counter := by omega
      have hd := CallDoes.subscribe (this := this) (name := b.name) (m := imagine b) (show b.counter.toNat < 2147483647 by omega)
      have e1 : (exec this b (.subscribe : Op P)) = ({ b.setQueue b.counter [] with counter := b.counter + 1 }, .sub ⟨this, b.counter⟩) := by
        simp [exec, Box.subscribe, hc, ofRes]
      rw [e1]
      have e2 : imagine { b.setQueue b.counter [] with counter := b.counter + 1 } =
          ⟨b.counter.toNat + 1, ((imagine b).with b.counter (some [])).mail⟩ := by
        simp only [imagine, Imagined.mk.injEq]
        refine ⟨by omega, funext fun j => waiting_setQueue b j b.counter []⟩
      rw [e2]
      simpa only [imagine, e0] using hd
  | get subs =>
    cases subs with
    | none => simp [exec, Box.get, Box.getQueue, getIndex, ofRes, Resp.Normal] at hn
    | some s =>
      rcases getQueue_either this b s with ⟨x, hr, he⟩ | ⟨q, hb, hw, he⟩
      · simp only [exec, Box.get, he, Res.bind_throw, ofRes]
        exact .refusedGet hr
      · cases q with
        | nil =>
          simp only [exec, Box.get, he, Res.bind_ok, ofRes]
          exact .getEmpty hb hw
        | cons p q =>
          simp only [exec, Box.get, he, Res.bind_ok, ofRes, set]
          exact .get hb hw
  | put p subs =>
    cases subs with
    | none =>
      simp only [exec, Box.put, Res.bind_ok, ofRes]
      have : imagine { b with queues := Box.pushAll p b.counter b.queues } = ⟨(imagine b).given, fun j => ((imagine b).mail j).map (· ++ [p])⟩ := by
        simp only [imagine, Imagined.mk.injEq, true_and]
        funext j
        rw [waiting_push]
        cases hw : waiting b j with
        | none => rfl
        | some q =>
          have := (h.keys j (by simp [hw])).2
          rw [Option.map_some, Option.map_some, if_pos (by omega)]
      rw [this]
      exact .put
    | some s =>
      by_cases hb : s.box = this
      · simp only [exec, Box.put, getIndex, hb, ne_eq, not_true, if_false, Res.bind_ok, ofRes]
        have : imagine { b with queues := Box.pushAll p s.idx b.queues } =
            ⟨(imagine b).given, fun j => if j = s.idx then (imagine b).mail j else ((imagine b).mail j).map (· ++ [p])⟩ := by
          simp only [imagine, Imagined.mk.injEq, true_and]
          funext j
          rw [waiting_push]
          by_cases hj : j = s.idx
          · simp [hj]
          · simp [hj]
        rw [this]
        exact .putOthers hb
      · have hb' : this ≠ s.box := fun e => hb e.symm
        simp only [exec, Box.put, getIndex, if_pos hb', Res.bind_throw, ofRes]
        exact .refusedPut hb
  | readyCount subs =>
    cases subs with
    | none => simp [exec, Box.readyCount, Box.getQueue, getIndex, ofRes, Resp.Normal] at hn
    | some s =>
      rcases getQueue_either this b s with ⟨x, hr, he⟩ | ⟨q, hb, hw, he⟩
      · simp only [exec, Box.readyCount, he, Res.map_throw, ofRes]
        exact .refusedReady hr
      · have : (if q.isEmpty = true then 0 else q.length % 4294967296) = q.length % 4294967296 := by
          cases q <;> simp
        simp only [exec, Box.readyCount, he, Res.map_ok, ofRes, this]
        exact .ready hb hw
  | minReadyCount =>
    obtain ⟨h1, h2, h3⟩ := foldl_min b.queues 4294967295 (by decide)
    refine .minReady h1 (fun i q hq => h2 _ ((mapFind_mem intLess_order _ _ _ h.sorted).1 hq)) ?_
    rcases h3 with h3 | ⟨x, hx, h3⟩
    · exact .inl h3
    · exact .inr ⟨x.1, x.2, (mapFind_mem intLess_order x.1 x.2 _ h.sorted).2 hx, h3⟩
  | clear subs =>
    cases subs with
    | none => simp [exec, Box.clear, Box.getQueue, getIndex, ofRes, Resp.Normal] at hn
    | some s =>
      rcases getQueue_either this b s with ⟨x, hr, he⟩ | ⟨q, hb, hw, he⟩
      · simp only [exec, Box.clear, he, Res.map_throw, ofRes]
        exact .refusedClear hr
      · simp only [exec, Box.clear, he, Res.map_ok, ofRes, set]
        exact .clear hb hw
  | unsubscribe i =>
    cases hw : waiting b i with
    | none =>
      simp only [exec, Box.unsubscribe, getQueueI_none hw, Res.map_throw, ofRes]
      exact .notSubscribed hw
    | some q =>
      simp only [exec, Box.unsubscribe, getQueueI_ok.2 hw, Res.map_ok, ofRes, erase]
      exact .unsubscribe hw
  | subscriberCount =>
    simp only [exec, count_keys h]
    exact .subscribers
  | drop s =>
    cases hw : waiting b s.idx with
    | none => simp [exec, Box.unsubscribe, getQueueI_none hw, Resp.Normal] at hn
    | some q =>
      simp only [exec, Box.unsubscribe, getQueueI_ok.2 hw, Res.map_ok, erase]
      exact .drop hw

/-- A call has one effect and one answer. -/
theorem does_unique {this : Addr} {name : Str} {m m1 m2 : Imagined P} {o : Op P} {r1 r2 : Resp P} (h1 : CallDoes this name m o m1 r1)
    (h2 : CallDoes this name m o m2 r2) : m1 = m2 ∧ r1 = r2 := by
  have hmin : ∀ n n', n ≤ 4294967295 → n' ≤ 4294967295 → (∀ i q, m.mail i = some q → n ≤ q.length) →
      (∀ i q, m.mail i = some q → n' ≤ q.length) → (n = 4294967295 ∨ ∃ i q, m.mail i = some q ∧ n = q.length) →
      (n' = 4294967295 ∨ ∃ i q, m.mail i = some q ∧ n' = q.length) → n = n' := by
    intro n n' a b c d e f
    rcases e with e | ⟨i, q, e1, e2⟩ <;> rcases f with f | ⟨i', q', f1, f2⟩
    · omega
    · have := c i' q' f1; omega
    · have := d i q e1; omega
    · have := c i' q' f1; have := d i q e1; omega
  have href : ∀ s x x', CallRefused this name m s x → CallRefused this name m s x' → x = x' := by
    rintro s x x' (h | ⟨h, hm⟩) (h' | ⟨h', hm'⟩)
    · rfl
    · exact absurd h' h
    · exact absurd h h'
    · rfl
  have hrq : ∀ s x q, CallRefused this name m s x → s.box = this → m.mail s.idx = some q → False := by
    rintro s x q (h | ⟨h, hm⟩) hb hq
    · exact h hb
    · rw [hm] at hq; cases hq
  cases h1 <;> cases h2 <;> simp_all
  all_goals first
    | exact hrq _ _ _ (by assumption) (by assumption) (by assumption)
    | exact hmin _ _ (by assumption) (by assumption) (by assumption) (by assumption) (by assumption) (by assumption)
    | exact href _ _ _ (by assumption) (by assumption)

theorem does_normal {this : Addr} {b : Box P} {o : Op P} {m : Imagined P} {r : Resp P}
    (hd : CallDoes this b.name (imagine b) o m r) : (exec this b o).2.Normal := by
  have hget : ∀ s, (∃ x, b.getQueue this (some s) = .throw x) ∨ ∃ q, b.getQueue this (some s) = .ok (s.idx, q) := fun s => by
    rcases getQueue_either this b s with ⟨x, _, he⟩ | ⟨q, _, _, he⟩
    · exact .inl ⟨x, he⟩
    · exact .inr ⟨q, he⟩
  cases o with
  | subscribe =>
    cases hd with
    | subscribe h =>
      have : ¬ b.counter = 2147483647 := by intro e; simp [imagine, e] at h
      simp [exec, Box.subscribe, this, ofRes, Resp.Normal]
  | get subs =>
    cases subs with
    | none => cases hd
    | some s =>
      rcases hget s with ⟨x, he⟩ | ⟨q, he⟩
      · simp [exec, Box.get, he, ofRes, Resp.Normal]
      · cases q <;> simp [exec, Box.get, he, ofRes, Resp.Normal]
  | put p subs =>
    cases subs with
    | none => simp [exec, Box.put, ofRes, Resp.Normal]
    | some s => by_cases hb : this = s.box <;> simp [exec, Box.put, getIndex, hb, ofRes, Resp.Normal]
  | readyCount subs =>
    cases subs with
    | none => cases hd
    | some s => rcases hget s with ⟨x, he⟩ | ⟨q, he⟩ <;> simp [exec, Box.readyCount, he, ofRes, Resp.Normal]
  | minReadyCount => simp [exec, Resp.Normal]
  | clear subs =>
    cases subs with
    | none => cases hd
    | some s => rcases hget s with ⟨x, he⟩ | ⟨q, he⟩ <;> simp [exec, Box.clear, he, ofRes, Resp.Normal]
  | unsubscribe i =>
    cases hw : waiting b i with
    | none => simp [exec, Box.unsubscribe, getQueueI_none hw, ofRes, Resp.Normal]
    | some q => simp [exec, Box.unsubscribe, getQueueI_ok.2 hw, ofRes, Resp.Normal]
  | subscriberCount => simp [exec, Resp.Normal]
  | drop s =>
    cases hd with
    | drop hm => simp [exec, Box.unsubscribe, getQueueI_ok.2 hm, Resp.Normal]

/-- Calls one after the other, with normal results. -/
theorem serial_alone (this : Addr) (name : Str) (es : List (Nat × Op P × Resp P)) :
    ((∃ b, Monitor.Serial (body this) (Box.new name) es b) ∧ ∀ e ∈ es, e.2.2.Normal) ↔ ∃ m, OneAfterOther this name es m := by
  have hist : ∀ es : List (Nat × Op P × Resp P), (history es).map (fun e => (e.thread, e.op, e.resp)) = es := fun es => by
    simp [history, Function.comp_def]
  constructor
  · rintro ⟨⟨b, hs⟩, hn⟩
    have hr := serial_run (wf_new name) hs hn
    suffices ∀ (tr : List (Event P)) b, Run this (Box.new name) tr b → b.name = name ∧
        OneAfterOther this name (tr.map fun e => (e.thread, e.op, e.resp)) (imagine b) by
      have := (this _ b hr).2
      rw [hist] at this
      exact ⟨_, this⟩
    intro tr b h
    generalize hb0 : Box.new name = b0 at h
    induction h with
    | nil =>
      subst hb0
      refine ⟨rfl, ?_⟩
      have : imagine (Box.new name : Box P) = Imagined.new := by
        simp only [imagine, Imagined.new, Box.new]
        rfl
      rw [this]
      exact .nil
    | @snoc tr b' t o r b'' h he hn ih =>
      subst hb0
      obtain ⟨e1, e2⟩ := ih
      have hw := run_wf (wf_new name) h
      have hx := (exec_effect hw he hn 0).2.2.2.2.2
      have hd := exec_does (this := this) hw o (by rw [he]; exact hn)
      rw [he, e1] at hd
      refine ⟨hx.trans e1, ?_⟩
      rw [List.map_append]
      exact .snoc e2 hd
  · rintro ⟨m, h⟩
    suffices ∃ b tr, Run this (Box.new name) tr b ∧ tr.map (fun e => (e.thread, e.op, e.resp)) = es ∧ b.name = name ∧ imagine b = m by
      obtain ⟨b, tr, h1, h2, _⟩ := this
      have := run_serial (wf_new name) h1
      rw [h2] at this
      refine ⟨⟨b, this.1⟩, ?_⟩
      rw [← h2]
      intro e he
      obtain ⟨x, hx, rfl⟩ := List.mem_map.1 he
      exact this.2 x hx
    induction h with
    | nil =>
      refine ⟨_, [], .nil, rfl, rfl, ?_⟩
      simp only [imagine, Imagined.new, Box.new]
      rfl
    | @snoc es m t o r m' h hd ih =>
      obtain ⟨b, tr, h1, h2, h3, rfl⟩ := ih
      have hw := run_wf (wf_new name) h1
      subst h3
      have hn := does_normal hd
      have hx := exec_does (this := this) hw o hn
      obtain ⟨rfl, rfl⟩ := does_unique hd hx
      refine ⟨(exec this b o).1, tr ++ [⟨t, o, (exec this b o).2⟩], .snoc h1 rfl hn, ?_, ?_, rfl⟩
      · rw [List.map_append, h2]; rfl
      · exact (exec_effect hw rfl hn 0).2.2.2.2.2

/-- What threads can see of a mailbox, as long as no call is undefined and no destructor throws, is exactly what is linearisable. -/
theorem C133_linearisable (this : Addr) (name : Str) (H : List (SeenEv Nat (Op P) (Resp P))) :
    (∃ ls c, Monitor.Steps (body this) (Monitor.Conf.init (Box.new name)) ls c ∧ visible ls = H ∧
      ∀ t o r, Monitor.Label.unlock t o r ∈ ls → r.Normal) ↔
    Linearisable (fun es => ∃ m, OneAfterOther this name es m) H := by
  have hp : (fun es : List (Nat × Op P × Resp P) => ∃ m, OneAfterOther this name es m) =
      fun es => (∃ b, Monitor.Serial (body this) (Box.new name) es b) ∧ ∀ e ∈ es, e.2.2.Normal :=
    funext fun es => propext (serial_alone this name es).symm
  rw [hp, ← Monitor.seen_iff_linearisable (body this) (Box.new name) (fun e => e.2.2.Normal) H]
  refine exists_congr fun ls => exists_congr fun c => and_congr_right fun _ => and_congr_right fun _ => ?_
  simp only [Monitor.completed, List.mem_filterMap]
  constructor
  · rintro h e ⟨l, hl, he⟩
    cases l <;> simp at he
    subst he
    exact h _ _ _ hl
  · intro h t o r hl
    exact h (t, o, r) ⟨_, hl, rfl⟩

/-- The same for any number of mailboxes, each with its mutex: what threads can see of all of them together, as long as no call is undefined
and no destructor throws, is exactly what is linearisable with the calls of each mailbox possible one after the other. -/
theorem C133_many (name : Addr → Str) (H : List (SeenEv Nat (Addr × Op P) (Resp P))) :
    (∃ ls c, Monitors.Steps body (Monitors.Conf.init fun a => Box.new (name a)) ls c ∧ visible ls = H ∧
      ∀ t o r, Monitor.Label.unlock t o r ∈ ls → r.Normal) ↔
    Linearisable (fun es => ∀ a, ∃ m, OneAfterOther a (name a) (onOnly a es) m) H := by
  have hp : (fun es : List (Nat × (Addr × Op P) × Resp P) => ∀ a, ∃ m, OneAfterOther a (name a) (onOnly a es) m) =
      fun es => (∃ s : Addr → Box P, ∀ a, Monitor.Serial (body a) (Box.new (name a)) (onOnly a es) (s a)) ∧ ∀ e ∈ es, e.2.2.Normal := by
    funext es
    refine propext ((forall_congr' fun a => (serial_alone a (name a) (onOnly a es)).symm).trans ⟨fun h => ⟨?_, fun e he => ?_⟩, fun h a => ⟨?_, ?_⟩⟩)
    · exact ⟨fun a => Classical.choose (h a).1, fun a => Classical.choose_spec (h a).1⟩
    · exact (h e.2.1.1).2 (e.1, e.2.1.2, e.2.2) (List.mem_filterMap.2 ⟨e, he, by simp⟩)
    · obtain ⟨s, hs⟩ := h.1
      exact ⟨s a, hs a⟩
    · intro e he
      obtain ⟨x, hx, he⟩ := List.mem_filterMap.1 he
      split at he
      · cases he
        exact h.2 x hx
      · cases he
  rw [hp, ← Monitors.seen_iff_linearisable body (fun a => Box.new (name a)) (fun e => e.2.2.Normal) H]
  refine exists_congr fun ls => exists_congr fun c => and_congr_right fun _ => and_congr_right fun _ => ?_
  simp only [Monitor.completed, List.mem_filterMap]
  constructor
  · rintro h e ⟨l, hl, he⟩
    cases l <;> simp at he
    subst he
    exact h _ _ _ hl
  · intro h t o r hl
    exact h (t, o, r) ⟨_, hl, rfl⟩

/-! ### Examples -/

section
variable {T O R : Type} [DecidableEq T] [DecidableEq O] [DecidableEq R]

instance (H : List (SeenEv T O R)) (t : T) (i j : Nat) : Decidable (LastBefore H t i j) :=
  decidable_of_iff (i < j ∧ H[i]?.map SeenEv.who = some t ∧ ∀ k < j, i < k → H[k]?.map SeenEv.who ≠ some t) (by
    constructor
    · rintro ⟨h1, h2, h3⟩
      refine ⟨h1, Option.map_eq_some_iff.1 h2, fun k e hk hkj he hw => h3 k hkj hk ?_⟩
      rw [he, ← hw]
      rfl
    · rintro ⟨h1, h2, h3⟩
      refine ⟨h1, Option.map_eq_some_iff.2 h2, fun k hkj hk he => ?_⟩
      obtain ⟨e, he, hw⟩ := Option.map_eq_some_iff.1 he
      exact h3 k e hk hkj he hw)

/-- The call at `i` ends at `j`: the result. -/
def result? (H : List (SeenEv T O R)) (i j : Nat) : Option R :=
  match H[i]?, H[j]? with
  | some (.call t o), some (.ret t' o' r) => if t = t' ∧ o = o' ∧ LastBefore H t i j then some r else none
  | _, _ => none

omit [DecidableEq R] in
theorem result?_iff (H : List (SeenEv T O R)) (i j : Nat) (r : R) : result? H i j = some r ↔ EndsAt H i j r := by
  unfold result? EndsAt
  constructor
  · intro h
    split at h
    · rename_i t o t' o' r' h1 h2
      split at h
      · rename_i hh
        obtain ⟨rfl, rfl, hl⟩ := hh
        cases h
        exact ⟨t, o, h1, h2, hl⟩
      · cases h
    · cases h
  · rintro ⟨t, o, h1, h2, h3⟩
    rw [h1, h2]
    simp [h3]

/-- Everything that has to be checked of an order, for the positions of the history. -/
def checks (H : List (SeenEv T O R)) (L : List (Nat × R)) (es : List (T × O × R)) : Bool :=
  decide (L.map (fun x => (H[x.1]?, x.2)) = es.map fun e => (some (.call e.1 e.2.1), e.2.2)) &&
  decide (L.map (·.1)).Nodup &&
  (List.range H.length).all (fun j => (match H[j]? with
    | some (.ret t o _) => (List.range j).any fun i => decide (H[i]? = some (.call t o) ∧ LastBefore H t i j)
    | some (.call t _) => (List.range j).all fun i => !decide (LastBefore H t i j) || (match H[i]? with | some (.ret _ _ _) => true | _ => false)
    | none => true)) &&
  (List.range H.length).all (fun i => (List.range H.length).all fun j => match result? H i j with | some r => decide ((i, r) ∈ L) | none => true) &&
  decide (L.Pairwise fun x y => ∀ j < H.length, (result? H y.1 j).isSome = true → ¬ j < x.1)

theorem linearisable_of_checks {Possible : List (T × O × R) → Prop} {H : List (SeenEv T O R)} (L : List (Nat × R)) (es : List (T × O × R))
    (hp : Possible es) (h : checks H L es = true) : Linearisable Possible H := by
  simp only [checks, Bool.and_eq_true, decide_eq_true_eq, List.all_eq_true, List.mem_range] at h
  obtain ⟨⟨⟨⟨h1, h2⟩, h3⟩, h4⟩, h5⟩ := h
  refine ⟨⟨fun j t o r hj => ?_, fun j t o i hj hl => ?_⟩, L, es, hp, ?_, h2, fun i j r he => ?_, h5.imp fun {x y} hh j r he => ?_⟩
  · have := h3 j (Monitor.get_lt hj)
    rw [hj] at this
    obtain ⟨i, _, hi⟩ := List.any_eq_true.1 this
    exact ⟨i, by simpa using hi⟩
  · have := h3 j (Monitor.get_lt hj)
    rw [hj] at this
    simp only [List.all_eq_true, List.mem_range] at this
    have := this i hl.1
    simp only [hl, decide_true, Bool.not_true, Bool.false_or] at this
    obtain ⟨_, ⟨e, he, hw⟩, _⟩ := hl
    rw [he] at this ⊢
    cases e with
    | call t' o' => cases this
    | ret t' o' r => cases hw; exact ⟨o', r, rfl⟩
  · clear h2 h3 h4 h5 hp
    induction L generalizing es with
    | nil => cases es with
      | nil => exact .nil
      | cons => simp at h1
    | cons x L ih => cases es with
      | nil => simp at h1
      | cons e es =>
        simp only [List.map_cons, List.cons.injEq, Prod.mk.injEq] at h1
        exact .cons h1.1 (ih es h1.2)
  · have hl := Monitor.endsAt_lt he
    have := h4 i (by omega) j hl.2
    rw [(result?_iff H i j r).2 he] at this
    simpa using this
  · exact hh j (Monitor.endsAt_lt he).2 (by rw [(result?_iff H y.1 j r).2 he]; rfl)

end

/-- Thread 0 subscribes and asks for a message while thread 1 sends one. -/
def overlapping (m : Option Nat) : List (SeenEv Nat (Op Nat) (Resp Nat)) :=
  [.call 0 .subscribe, .ret 0 .subscribe (.sub ⟨5, 0⟩), .call 1 (.put (some 7) none), .call 0 (.get (some ⟨5, 0⟩)),
   .ret 0 (.get (some ⟨5, 0⟩)) (.msg m), .ret 1 (.put (some 7) none) .done]

/-- It gets the message or not: both can be seen. -/
theorem overlapping_both : ∀ m, m = none ∨ m = some 7 → ∃ ls c, Monitor.Steps (body 5) (Monitor.Conf.init (Box.new "m".toList)) ls c ∧
    visible ls = overlapping m ∧ ∀ t o r, Monitor.Label.unlock t o r ∈ ls → r.Normal := by
  intro m hm
  rw [C133_linearisable]
  have h0 : OneAfterOther (T := Nat) (P := Nat) 5 "m".toList [(0, .subscribe, .sub ⟨5, 0⟩)] _ := .snoc .nil (.subscribe (by decide))
  rcases hm with rfl | rfl
  · exact linearisable_of_checks [(0, .sub ⟨5, 0⟩), (3, .msg none), (2, .done)] _
      ⟨_, .snoc (.snoc h0 (t := 0) (.getEmpty (s := ⟨5, 0⟩) rfl rfl)) (t := 1) (.put (p := some 7))⟩ (by decide +kernel)
  · exact linearisable_of_checks [(0, .sub ⟨5, 0⟩), (2, .done), (3, .msg (some 7))] _
      ⟨_, .snoc (.snoc h0 (t := 1) (.put (p := some 7))) (t := 0) (.get (s := ⟨5, 0⟩) (p := some 7) (q := []) rfl rfl)⟩ (by decide +kernel)

/-- Thread 1 sends to mailbox 5 and then looks into mailbox 6 while thread 0 sends to mailbox 6 and then looks into mailbox 5. -/
def crossing (m5 m6 : Option Nat) : List (SeenEv Nat (Addr × Op Nat) (Resp Nat)) :=
  [.call 1 (6, .subscribe), .call 0 (5, .subscribe), .ret 1 (6, .subscribe) (.sub ⟨6, 0⟩), .ret 0 (5, .subscribe) (.sub ⟨5, 0⟩),
   .call 1 (5, .put (some 7) none), .call 0 (6, .put (some 8) none), .ret 1 (5, .put (some 7) none) .done, .call 1 (6, .get (some ⟨6, 0⟩)),
   .ret 1 (6, .get (some ⟨6, 0⟩)) (.msg m6), .ret 0 (6, .put (some 8) none) .done, .call 0 (5, .get (some ⟨5, 0⟩)),
   .ret 0 (5, .get (some ⟨5, 0⟩)) (.msg m5)]

/-- Thread 1 can see nothing while thread 0 sees the message. -/
theorem crossing_one : ∃ ls c, Monitors.Steps body (Monitors.Conf.init fun _ => Box.new "m".toList) ls c ∧
    visible ls = crossing (some 7) none ∧ ∀ t o r, Monitor.Label.unlock t o r ∈ ls → r.Normal := by
  rw [C133_many]
  refine linearisable_of_checks [(0, .sub ⟨6, 0⟩), (1, .sub ⟨5, 0⟩), (4, .done), (7, .msg none), (5, .done), (10, .msg (some 7))]
    [(1, (6, .subscribe), .sub ⟨6, 0⟩), (0, (5, .subscribe), .sub ⟨5, 0⟩), (1, (5, .put (some 7) none), .done),
     (1, (6, .get (some ⟨6, 0⟩)), .msg none), (0, (6, .put (some 8) none), .done), (0, (5, .get (some ⟨5, 0⟩)), .msg (some 7))]
    (fun a => ?_) (by decide +kernel)
  by_cases h5 : a = 5
  · subst h5
    exact ⟨_, .snoc (.snoc (.snoc .nil (t := 0) (.subscribe (by decide))) (t := 1) (.put (p := some 7)))
      (t := 0) (.get (s := ⟨5, 0⟩) (p := some 7) (q := []) rfl rfl)⟩
  · by_cases h6 : a = 6
    · subst h6
      exact ⟨_, .snoc (.snoc (.snoc .nil (t := 1) (.subscribe (by decide))) (t := 1) (.getEmpty (s := ⟨6, 0⟩) rfl rfl)) (t := 0) (.put (p := some 8))⟩
    · have e5 : ¬ 5 = a := fun e => h5 e.symm
      have e6 : ¬ 6 = a := fun e => h6 e.symm
      refine ⟨Imagined.new, ?_⟩
      simp only [onOnly, List.filterMap_cons, if_neg e5, if_neg e6, List.filterMap_nil]
      exact .nil

/-- Thread 0 asks for a message after thread 1 has sent one. -/
def afterwards (m : Option Nat) : List (SeenEv Nat (Op Nat) (Resp Nat)) :=
  [.call 0 .subscribe, .ret 0 .subscribe (.sub ⟨5, 0⟩), .call 1 (.put (some 7) none), .ret 1 (.put (some 7) none) .done,
   .call 0 (.get (some ⟨5, 0⟩)), .ret 0 (.get (some ⟨5, 0⟩)) (.msg m)]

/-- It cannot get nothing. -/
theorem afterwards_not : ¬ ∃ ls c, Monitor.Steps (body 5) (Monitor.Conf.init (Box.new "m".toList)) ls c ∧ visible ls = afterwards none ∧
    ∀ t o r, Monitor.Label.unlock t o r ∈ ls → r.Normal := by
  rw [C133_linearisable]
  rintro ⟨_, L, es, hp, hc, hn, he, ho⟩
  have m0 := he 0 1 _ ((result?_iff (afterwards none) 0 1 (.sub ⟨5, 0⟩)).1 (by decide))
  have m2 := he 2 3 _ ((result?_iff (afterwards none) 2 3 .done).1 (by decide))
  have m4 := he 4 5 _ ((result?_iff (afterwards none) 4 5 (.msg none)).1 (by decide))
  have e0 := (result?_iff (afterwards none) 0 1 (.sub ⟨5, 0⟩)).1 (by decide)
  have e2 := (result?_iff (afterwards none) 2 3 .done).1 (by decide)
  have keys : ∀ x ∈ L, x.1 = 0 ∨ x.1 = 2 ∨ x.1 = 4 := by
    intro x hx
    obtain ⟨k, hk, rfl⟩ := List.getElem_of_mem hx
    have := (hc.get hk (by rw [← hc.length_eq]; exact hk)).1
    simp only [List.get_eq_getElem] at this
    have hl := Monitor.get_lt this
    simp only [afterwards, List.length_cons, List.length_nil] at hl
    generalize L[k].1 = n at this hl
    match n, hl with
    | 0, _ => simp
    | 1, _ => cases this
    | 2, _ => simp
    | 3, _ => cases this
    | 4, _ => simp
    | 5, _ => cases this
  have sorted : (L.map (·.1)).Pairwise (· < ·) := by
    rw [List.pairwise_map]
    rw [List.Nodup, List.pairwise_map] at hn
    refine (hn.and ho).imp_of_mem fun {x y} hx hy ⟨hne, hh⟩ => ?_
    rcases keys x hx with h | h | h <;> rcases keys y hy with h' | h' | h' <;> rw [h, h'] at hne ⊢ <;> first | omega | skip
    · exact absurd (by omega) (hh 1 _ (h' ▸ e0))
    · exact absurd (by omega) (hh 1 _ (h' ▸ e0))
    · exact absurd (by omega) (hh 3 _ (h' ▸ e2))
  have hL : L.map (·.1) = [0, 2, 4] := by
    refine List.Perm.eq_of_pairwise (le := (· < ·)) (fun a b _ _ h h' => by omega) sorted (by decide)
      ((List.perm_ext_iff_of_nodup hn (by decide)).2 fun n => ?_)
    constructor
    · intro h
      obtain ⟨x, hx, rfl⟩ := List.mem_map.1 h
      simpa using keys x hx
    · intro h
      simp only [List.mem_cons, List.not_mem_nil, or_false] at h
      rcases h with rfl | rfl | rfl
      · exact List.mem_map.2 ⟨_, m0, rfl⟩
      · exact List.mem_map.2 ⟨_, m2, rfl⟩
      · exact List.mem_map.2 ⟨_, m4, rfl⟩
  obtain ⟨m, hp⟩ := hp
  have hs := (serial_alone _ _ _).2 ⟨m, hp⟩
  obtain ⟨x, y, z, rfl⟩ := List.length_eq_three.1 (show L.length = 3 by simpa using congrArg List.length hL)
  cases hc with
  | @cons _ a _ _ ha hc =>
  cases hc with
  | @cons _ b _ _ hb hc =>
  cases hc with
  | @cons _ c _ _ hc hnil =>
  cases hnil
  simp only [List.map_cons, List.map_nil, List.cons.injEq, and_true] at hL
  obtain ⟨hx, hy, hz⟩ := hL
  simp only [List.mem_cons, List.not_mem_nil, or_false, Prod.ext_iff, hx, hy, hz] at m0 m2 m4
  simp at m0 m2 m4
  obtain ⟨t1, o1, r1⟩ := a
  obtain ⟨t2, o2, r2⟩ := b
  obtain ⟨t3, o3, r3⟩ := c
  simp only [hx, hy, hz, ← m0, ← m2, ← m4] at ha hb hc
  obtain ⟨ha, rfl⟩ := ha
  obtain ⟨hb, rfl⟩ := hb
  obtain ⟨hc, rfl⟩ := hc
  cases ha
  cases hb
  cases hc
  obtain ⟨⟨s, hs⟩, _⟩ := hs
  obtain ⟨s1, q1, hs⟩ := Monitor.serial_cons hs
  cases q1
  obtain ⟨s2, q2, hs⟩ := Monitor.serial_cons hs
  cases q2
  obtain ⟨s3, q3, hs⟩ := Monitor.serial_cons hs
  cases q3

end SoDa
