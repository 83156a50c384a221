import Verif.Proof.MailBoxPtr
import Verif.Props.MailBoxWorld
import Mathlib.Algebra.Order.BigOperators.Group.Finset
/-!
Threads that have a pointer to every mailbox to which they have a subscription.
-/
namespace SoDa.Mail
open Spec PState

variable {P : Type}

/-! ### Calls -/

/-- The subscription that is an argument of the call. -/
def PCall.uses : PCall P → Option Nat
  | .get s => some s
  | .put _ s => s
  | .readyCount s => some s
  | .clear s => some s
  | _ => none

/-- The mailboxes exist as before, with the same subscribers. -/
def SameKeys (w w' : World P) : Prop := ∀ x, (w x = none ↔ w' x = none) ∧ ∀ B B', w x = some B → w' x = some B' →
  (B.Wf → B'.Wf) ∧ B'.counter = B.counter ∧ ∀ i, waiting B' i ≠ none ↔ waiting B i ≠ none

theorem getQueue_cases (a : Addr) (b : Box P) (v : Sub) : (∃ x, b.getQueue a (some v) = .ok x) ∨
    (∃ n o i, b.getQueue a (some v) = .throw (.missing n o i)) ∨ b.getQueue a (some v) = .throw (.mismatch a v.box) := by
  by_cases h : a = v.box
  · unfold Box.getQueue getIndex Box.getQueueI
    simp only [h, ne_eq, not_true_eq_false, if_false, Res.bind_ok]
    cases mapFind intLess v.idx b.queues with
    | none => right; left; exact ⟨_, _, _, rfl⟩
    | some q => left; exact ⟨_, rfl⟩
  · right; right
    unfold Box.getQueue getIndex
    simp only [ne_eq, h, not_false_eq_true, if_true]
    rfl

/-- What a call can answer. -/
theorem exec_kind (a : Addr) (b : Box P) (c : PCall P) (sub : Nat → Option Sub)
    (hn : match c with
      | .get s => sub s ≠ none
      | .readyCount s => sub s ≠ none
      | .clear s => sub s ≠ none
      | _ => True) :
    let r := (exec a b (c.op sub)).2
    r ≠ .ub ∧ r ≠ .terminate ∧ (∀ v, r ≠ .sub v) ∧
    ∀ m t, r = .threw (.mismatch m t) → ∃ s v, c.uses = some s ∧ sub s = some v ∧ v.box = t := by
  cases c with
  | get s =>
    obtain ⟨v, hv⟩ := Option.ne_none_iff_exists'.1 hn
    simp only [PCall.op, hv, exec, Box.get, PCall.uses]
    rcases getQueue_cases a b v with ⟨⟨i, q⟩, h⟩ | ⟨n, o, i, h⟩ | h
    · rw [h]
      cases q <;> simp [ofRes]
    · rw [h]; simp [ofRes]
    · rw [h]; simp [ofRes]
      exact ⟨v, hv, rfl⟩
  | put msg s =>
    simp only [PCall.op, exec, Box.put, PCall.uses]
    cases s with
    | none => simp [ofRes]
    | some s =>
      simp only [Option.bind_some]
      cases hv : sub s with
      | none => simp [ofRes]
      | some v =>
        by_cases h : a = v.box
        · simp [getIndex, h, ofRes]
        · simp [getIndex, h, ofRes]
          exact ⟨v, hv, rfl⟩
  | readyCount s =>
    obtain ⟨v, hv⟩ := Option.ne_none_iff_exists'.1 hn
    simp only [PCall.op, hv, exec, Box.readyCount, PCall.uses]
    rcases getQueue_cases a b v with ⟨⟨i, q⟩, h⟩ | ⟨n, o, i, h⟩ | h
    · rw [h]; simp [ofRes]
    · rw [h]; simp [ofRes]
    · rw [h]; simp [ofRes]
      exact ⟨v, hv, rfl⟩
  | minReadyCount => simp [PCall.op, exec]
  | clear s =>
    obtain ⟨v, hv⟩ := Option.ne_none_iff_exists'.1 hn
    simp only [PCall.op, hv, exec, Box.clear, PCall.uses]
    rcases getQueue_cases a b v with ⟨⟨i, q⟩, h⟩ | ⟨n, o, i, h⟩ | h
    · rw [h]; simp [ofRes]
    · rw [h]; simp [ofRes]
    · rw [h]; simp [ofRes]
      exact ⟨v, hv, rfl⟩
  | subscriberCount => simp [PCall.op, exec]

theorem sameKeys_set {w : World P} {a : Addr} {b b' : Box P} (hb : w a = some b) (h1 : b.Wf → b'.Wf) (h2 : b'.counter = b.counter)
    (h3 : ∀ i, waiting b' i ≠ none ↔ waiting b i ≠ none) : SameKeys w (w.set a (some b')) := by
  intro x
  by_cases hx : x = a
  · subst hx
    simp only [set_self, hb]
    refine ⟨by simp, fun B B' e1 e2 => ?_⟩
    cases e1; cases e2
    exact ⟨h1, h2, h3⟩
  · rw [set_other _ _ hx]
    refine ⟨Iff.rfl, fun B B' e1 e2 => ?_⟩
    rw [e1] at e2; cases e2
    exact ⟨id, rfl, fun i => Iff.rfl⟩

theorem call_fine {w : World P} (hwf : ∀ x B, w x = some B → B.Wf) {a : Addr} (ha : w a ≠ none) (c : PCall P) (sub : Nat → Option Sub)
    (hn : match c with
      | .get s => sub s ≠ none
      | .readyCount s => sub s ≠ none
      | .clear s => sub s ≠ none
      | _ => True)
    (hal : ∀ s v, sub s = some v → w v.box ≠ none) :
    ∃ w' r, w.exec (.call a (c.op sub)) = (w', r) ∧ r ≠ .ub ∧ r ≠ .terminate ∧ (∀ v, r ≠ .sub v) ∧ SameKeys w w' := by
  obtain ⟨b, hb⟩ := Option.ne_none_iff_exists'.1 ha
  obtain ⟨k1, k2, k3, k4⟩ := exec_kind a b c sub hn
  have hcases : ∃ w' r, w.exec (.call a (c.op sub)) = (w', r) ∧ r ≠ .ub ∧ r ≠ .terminate ∧ ∀ v, r ≠ .sub v := by
    simp only [World.exec, hb]
    rcases he : exec a b (c.op sub) with ⟨b', r⟩
    rw [he] at k1 k2 k3 k4
    cases r with
    | ub => exact absurd rfl k1
    | terminate => exact absurd rfl k2
    | sub v => exact absurd rfl (k3 v)
    | threw e =>
      cases e with
      | mismatch m t =>
        obtain ⟨s, v, -, hv, rfl⟩ := k4 m t rfl
        have := hal s v hv
        simp only [Option.isSome_iff_ne_none.2 this, if_true]
        exact ⟨_, _, rfl, by simp, by simp, by simp⟩
      | missing n o i => exact ⟨_, _, rfl, by simp, by simp, by simp⟩
    | msg m => exact ⟨_, _, rfl, by simp, by simp, by simp⟩
    | count n => exact ⟨_, _, rfl, by simp, by simp, by simp⟩
    | done => exact ⟨_, _, rfl, by simp, by simp, by simp⟩
  obtain ⟨w', r, h1, h2, h3, h4⟩ := hcases
  refine ⟨w', r, h1, h2, h3, h4, ?_⟩
  have hnorm : r.Normal := by cases r <;> simp_all [Resp.Normal]
  obtain ⟨b0, b', e1, e2, e3⟩ := wexec_call h1 hnorm
  rw [hb] at e1; cases e1
  obtain ⟨f1, f2, -, f4, -⟩ := exec_effect (hwf a b hb) e2 hnorm 0
  have : w' = w.set a (some b') := funext e3
  rw [this]
  refine sameKeys_set hb (fun _ => f1) (f4 h4) fun i => ?_
  rw [f2 i]
  have hS : Subscribes i ⟨0, c.op sub, r⟩ = false := by
    by_contra hh
    obtain ⟨s, hs, -⟩ := subscribes_iff.1 (by simpa using hh)
    exact h4 s hs
  have hE : Ends i ⟨0, c.op sub, r⟩ = false := by
    cases c <;> simp [Ends, PCall.op]
  unfold effect
  rw [hS, hE]
  simp only [Bool.false_eq_true, if_false]
  cases waiting b i with
  | none => split <;> [simp; split <;> simp]
  | some q => split <;> [simp; split <;> simp]

theorem subscribe_fine {w : World P} {a : Addr} {b : Box P} (hb : w a = some b) (hwf : b.Wf) (hc : b.counter < 2147483647) :
    ∃ b', w.exec (.call a .subscribe) = (w.set a (some b'), .sub ⟨a, b.counter⟩) ∧ b'.Wf ∧ b'.counter = b.counter + 1 ∧
      ∀ i, waiting b' i = if i = b.counter then some [] else waiting b i := by
  have he : exec a b .subscribe = ({ b.setQueue b.counter [] with counter := b.counter + 1 }, .sub ⟨a, b.counter⟩) := by
    simp only [exec, Box.subscribe, if_neg hc.ne]
    rfl
  refine ⟨_, ?_, (exec_effect hwf he trivial 0).1, rfl, fun i => waiting_setQueue b i b.counter []⟩
  simp only [World.exec, hb, he]

theorem drop_fine {w : World P} {v : Sub} {b : Box P} (hb : w v.box = some b) (hwf : b.Wf) (hk : waiting b v.idx ≠ none) :
    ∃ b', w.exec (.drop v) = (w.set v.box (some b'), .done) ∧ b'.Wf ∧ b'.counter = b.counter ∧
      ∀ i, waiting b' i = if i = v.idx then none else waiting b i := by
  obtain ⟨q, hq⟩ := Option.ne_none_iff_exists'.1 hk
  have he : exec v.box b (.drop v) = ({ b with queues := mapErase intLess v.idx b.queues }, .done) := by
    simp only [exec, Box.unsubscribe, getQueueI_ok.2 hq]
    rfl
  refine ⟨_, ?_, (exec_effect hwf he trivial 0).1, rfl, fun i => waiting_erase hwf i v.idx⟩
  simp only [World.exec, hb, he]

/-! ### The invariant -/

/-- The subscriptions belong to the mailboxes that the thread alone would say. -/
def Subs (th : PThread P) (l : Vars) (ρ : Nat → Addr) : Prop := ∀ s, (th.sub s).map Sub.box = (l.sub s).map ρ

/-- No null subscription where one is needed. -/
def PCall.Full (sub : Nat → Option Sub) : PCall P → Prop
  | .get s => sub s ≠ none
  | .readyCount s => sub s ≠ none
  | .clear s => sub s ≠ none
  | _ => True

/-- A thread that is inside of a method, or is not. -/
def BusyInv (th : PThread P) (l : Vars) (ρ : Nat → Addr) : Prop :=
  match th.busy with
  | none => Subs th l ρ
  | some (.drop b) => Subs th l ρ ∧ ∃ x, th.ptr x = some b.box
  | some (.call a o none) => Subs th l ρ ∧ (∃ x, th.ptr x = some a) ∧ ∃ c : PCall P, o = c.op th.sub ∧ c.Full th.sub
  | some (.call a o (some s)) => (∃ x, th.ptr x = some a) ∧ o = .subscribe ∧ (∃ k, l.sub s = some k ∧ ρ k = a) ∧
      (∀ s', s' ≠ s → (th.sub s').map Sub.box = (l.sub s').map ρ) ∧ ∀ b, th.sub s = some b → ∃ x, th.ptr x = some b.box

/-- A thread and what it would be alone. -/
structure TInv (th : PThread P) (l : Vars) (ρ : Nat → Addr) : Prop where
  careful : l.Careful th.todo
  keeps : l.Keeps th.todo
  ptr : ∀ x, th.ptr x = (l.ptr x).map ρ
  low : ∀ x k, l.ptr x = some k → k < l.next
  busy : BusyInv th l ρ

theorem kept_of_keeps {l : Vars} {prog : List (PStmt P)} (h : l.Keeps prog) : l.Kept := by
  cases prog with
  | nil => exact h
  | cons st prog => exact h.1

theorem TInv.subHeld {th : PThread P} {l : Vars} {ρ : Nat → Addr} (h : TInv th l ρ) {s : Nat} {b : Sub}
    (hs : (th.sub s).map Sub.box = (l.sub s).map ρ) (hb : th.sub s = some b) : ∃ x, th.ptr x = some b.box := by
  rw [hb] at hs
  cases hk : l.sub s with
  | none => rw [hk] at hs; cases hs
  | some k =>
    rw [hk] at hs
    simp only [Option.map_some, Option.some.injEq] at hs
    obtain ⟨x, hx⟩ := kept_of_keeps h.keeps s k hk
    exact ⟨x, by rw [h.ptr, hx, hs]; rfl⟩

/-- Where a subscription is: in a variable, or in a destructor. -/
def subAt (σ : PState P) (v : Nat × Option Nat) : Option Sub :=
  match v.2 with
  | some s => (σ.thr v.1).sub s
  | none => match (σ.thr v.1).busy with
    | some (.drop b) => some b
    | _ => none

theorem TInv.held {σ : PState P} {t : Nat} {l : Vars} {ρ : Nat → Addr} (h : TInv (σ.thr t) l ρ) {o : Option Nat} {b : Sub}
    (hb : subAt σ (t, o) = some b) : ∃ x, (σ.thr t).ptr x = some b.box := by
  have hbusy := h.busy
  unfold BusyInv at hbusy
  cases o with
  | none =>
    simp only [subAt] at hb
    split at hb
    · rename_i b' hb'
      cases hb
      rw [hb'] at hbusy
      exact hbusy.2
    · cases hb
  | some s =>
    simp only [subAt] at hb
    split at hbusy
    · exact h.subHeld (hbusy s) hb
    · exact h.subHeld (hbusy.1 s) hb
    · exact h.subHeld (hbusy.1 s) hb
    · rename_i s' _
      by_cases hs : s = s'
      · subst hs; exact hbusy.2.2.2.2 b hb
      · exact h.subHeld (hbusy.2.2.2.1 s hs) hb

theorem TInv.busyHeld {th : PThread P} {l : Vars} {ρ : Nat → Addr} (h : TInv th l ρ) {p : Pending P} (hp : th.busy = some p) :
    ∃ x, th.ptr x = some p.on := by
  have hbusy := h.busy
  unfold BusyInv at hbusy
  rw [hp] at hbusy
  cases p with
  | drop b => exact hbusy.2
  | call a o dest =>
    cases dest with
    | none => exact hbusy.2.1
    | some s => exact hbusy.1

/-- The calls of `subscribe` that a thread has not finished. -/
def leftT (th : PThread P) : Nat := subscribes th.todo + match th.busy with
  | some (.call _ .subscribe _) => 1
  | _ => 0

def left (σ : PState P) : Nat := ∑ t ∈ Finset.range σ.n, leftT (σ.thr t)

theorem left_eq {σ σ' : PState P} {t : Nat} (ht : t < σ.n) (hn : σ'.n = σ.n) (ho : ∀ u, u ≠ t → σ'.thr u = σ.thr u) :
    left σ' + leftT (σ.thr t) = left σ + leftT (σ'.thr t) := by
  unfold left
  rw [hn, ← Finset.add_sum_erase _ _ (Finset.mem_range.2 ht), ← Finset.add_sum_erase (Finset.range σ.n) (fun t => leftT (σ.thr t)) (Finset.mem_range.2 ht)]
  have : ∑ x ∈ (Finset.range σ.n).erase t, leftT (σ'.thr x) = ∑ x ∈ (Finset.range σ.n).erase t, leftT (σ.thr x) :=
    Finset.sum_congr rfl fun u hu => by rw [ho u (Finset.ne_of_mem_erase hu)]
  rw [this]
  omega

/-- What is true in all states if the threads keep their pointers.  `M` bounds the number of calls of `subscribe`. -/
structure GInv (M : Nat) (σ : PState P) : Prop where
  counted : PtrCounted σ
  thr : ∃ (L : Nat → Vars) (ρ : Nat → Nat → Addr), ∀ t, TInv (σ.thr t) (L t) (ρ t)
  keys : ∀ v b B, subAt σ v = some b → σ.world b.box = some B → waiting B b.idx ≠ none
  uniq : ∀ v v' b, subAt σ v = some b → subAt σ v' = some b → v = v'
  wf : ∀ a B, σ.world a = some B → B.Wf ∧ B.counter + (left σ : Int) ≤ M
  left : left σ ≤ M

theorem GInv.alive {M : Nat} {σ : PState P} (h : GInv M σ) {v : Nat × Option Nat} {b : Sub} (hb : subAt σ v = some b) :
    σ.world b.box ≠ none := by
  obtain ⟨L, ρ, ht⟩ := h.thr
  obtain ⟨x, hx⟩ := (ht v.1).held (o := v.2) hb
  exact h.counted.held hx

theorem thr_put {σ σ' : PState P} {t : Nat} {L : Nat → Vars} {ρ : Nat → Nat → Addr} (h : ∀ u, TInv (σ.thr u) (L u) (ρ u))
    (ho : ∀ u, u ≠ t → σ'.thr u = σ.thr u) {l : Vars} {r : Nat → Addr} (ht : TInv (σ'.thr t) l r) :
    ∃ (L : Nat → Vars) (ρ : Nat → Nat → Addr), ∀ u, TInv (σ'.thr u) (L u) (ρ u) := by
  refine ⟨fun u => if u = t then l else L u, fun u => if u = t then r else ρ u, fun u => ?_⟩
  by_cases hu : u = t
  · subst hu; simpa using ht
  · simp only [if_neg hu]; rw [ho u hu]; exact h u

/-- Steps that leave the mailboxes and the pointers alone; `f` says where a subscription was before. -/
theorem GInv.quiet {M : Nat} {σ σ' : PState P} (h : GInv M σ) {t : Nat} (ht : t < σ.n) (hn : σ'.n = σ.n) (hw : σ'.world = σ.world)
    (hr : σ'.refs = σ.refs) (hmd : σ'.made = σ.made) (ho : ∀ u, u ≠ t → σ'.thr u = σ.thr u) (hp : (σ'.thr t).ptr = (σ.thr t).ptr) {l : Vars} {r : Nat → Addr}
    (hT : TInv (σ'.thr t) l r) (f : Option Nat → Option Nat) (hf : Function.Injective f)
    (hsub : ∀ o b, subAt σ' (t, o) = some b → subAt σ (t, f o) = some b) (hl : leftT (σ'.thr t) ≤ leftT (σ.thr t)) : GInv M σ' := by
  have hleft := left_eq ht hn ho
  have hsub' : ∀ v b, subAt σ' v = some b → subAt σ (v.1, if v.1 = t then f v.2 else v.2) = some b := by
    rintro ⟨u, o⟩ b hb
    by_cases hu : u = t
    · subst hu; simp only [if_true]; exact hsub o b hb
    · simp only [hu, if_false]
      simp only [subAt, ho u hu] at hb ⊢
      exact hb
  obtain ⟨L, ρ, hTs⟩ := h.thr
  refine ⟨h.counted.same (fun u => ?_) hr hmd (fun a => by rw [hw]) (fun u hu => ?_), thr_put hTs ho hT, ?_, ?_, ?_, ?_⟩
  · by_cases hu : u = t
    · subst hu; exact hp
    · rw [ho u hu]
  · rw [hn] at hu
    rw [ho u (by omega)]
    exact h.counted.beyond u hu
  · intro v b B hb hB
    rw [hw] at hB
    exact h.keys _ b B (hsub' v b hb) hB
  · intro v v' b hb hb'
    have := h.uniq _ _ b (hsub' v b hb) (hsub' v' b hb')
    obtain ⟨u, o⟩ := v
    obtain ⟨u', o'⟩ := v'
    simp only [Prod.mk.injEq] at this ⊢
    obtain ⟨rfl, h2⟩ := this
    refine ⟨rfl, ?_⟩
    by_cases hu : u = t
    · simp only [hu, if_true] at h2; exact hf h2
    · simpa [hu] using h2
  · intro a B hB
    rw [hw] at hB
    have := h.wf a B hB
    exact ⟨this.1, by omega⟩
  · have := h.left
    omega

theorem subAt_put (σ : PState P) (t : Nat) (th : PThread P) (o : Option Nat) : subAt (σ.put t th) (t, o) =
    match o with
    | some s => th.sub s
    | none => match th.busy with
      | some (.drop b) => some b
      | _ => none := by
  cases o <;> simp [subAt]

/-- A statement that assigns to a pointer. -/
theorem ginv_ptr {alloc : PState P → Addr} (hal : Allocates alloc) {M : Nat} {σ : PState P} (h : GInv M σ) {t : Nat}
    (ht : t < σ.n) {st : PStmt P} {rest : List (PStmt P)} (hb : (σ.thr t).busy = none) (htd : (σ.thr t).todo = st :: rest)
    {x : Nat} {o : Option Addr} (ho : newPtr alloc (σ.put t { σ.thr t with todo := rest }) t st = some (x, o)) :
    ∃ σ', (σ.put t { σ.thr t with todo := rest }).begin alloc t st = .ok σ' ∧ GInv M σ' := by
  obtain ⟨L, ρ, hTs⟩ := h.thr
  have hT := hTs t
  have hcar := hT.careful
  have hkp := hT.keeps
  rw [htd] at hcar hkp
  have hsubs : Subs (σ.thr t) (L t) (ρ t) := by
    have := hT.busy
    unfold BusyInv at this
    rw [hb] at this
    exact this
  have hc0 : PtrCounted (σ.put t { σ.thr t with todo := rest }) := by
    refine h.counted.same (fun u => ?_) rfl rfl (fun a => Iff.rfl) (fun u hu => ?_)
    · by_cases hu : u = t
      · subst hu; simp
      · rw [put_other _ _ hu]
    · rw [put_n] at hu
      rw [put_other _ _ (by omega)]
      exact h.counted.beyond u hu
  have hother : ∀ u, u ≠ t → ((σ.put t { σ.thr t with todo := rest }).put t
      (((σ.put t { σ.thr t with todo := rest }).thr t).setPtr x o)).thr u = σ.thr u := by
    intro u hu
    rw [put_other _ _ hu, put_other _ _ hu]
  -- the thread afterwards
  have hT' : ∃ l r, TInv (((σ.put t { σ.thr t with todo := rest }).put t
      (((σ.put t { σ.thr t with todo := rest }).thr t).setPtr x o)).thr t) l r := by
    simp only [put_self]
    have hmake : ∀ y name, st = .make y name → y = x ∧ o = some (alloc (σ.put t { σ.thr t with todo := rest })) := by
      rintro y name rfl
      simp only [newPtr, Option.some.injEq, Prod.mk.injEq] at ho
      exact ⟨ho.1, ho.2.symm⟩
    have hsub_low : ∀ s k, (L t).sub s = some k → k < (L t).next := by
      intro s k hk
      obtain ⟨y, hy⟩ := hkp.1 s k hk
      exact hT.low y k hy
    cases st with
    | make y name =>
      obtain ⟨rfl, rfl⟩ := hmake y name rfl
      refine ⟨(L t).after (.make y name : PStmt P),
        fun k => if k = (L t).next then alloc (σ.put t { σ.thr t with todo := rest }) else ρ t k, hcar.2, hkp.2, ?_, ?_, ?_⟩
      · intro z
        simp only [PThread.setPtr, Vars.after, assign]
        by_cases hz : z = y
        · simp [hz]
        · simp only [hz, if_false, hT.ptr z]
          cases hk : (L t).ptr z with
          | none => rfl
          | some k =>
            have := hT.low z k hk
            simp [show k ≠ (L t).next by omega]
      · intro z k hk
        simp only [Vars.after, assign] at hk ⊢
        split at hk
        · cases hk; omega
        · have := hT.low z k hk; omega
      · unfold BusyInv
        simp only [PThread.setPtr, hb]
        intro s
        rw [show (L t).after (.make y name : PStmt P) = { L t with ptr := assign (L t).ptr y (some (L t).next), next := (L t).next + 1 } from rfl]
        simp only
        have := hsubs s
        rw [this]
        cases hk : (L t).sub s with
        | none => rfl
        | some k =>
          have := hsub_low s k hk
          simp [show k ≠ (L t).next by omega]
    | copy y z =>
      simp only [newPtr, Option.some.injEq, Prod.mk.injEq, put_self] at ho
      obtain ⟨rfl, rfl⟩ := ho
      refine ⟨(L t).after (.copy y z : PStmt P), ρ t, hcar.2, hkp.2, ?_, ?_, ?_⟩
      · intro w
        simp only [PThread.setPtr, Vars.after, assign]
        split <;> exact hT.ptr _
      · intro w k hk
        simp only [Vars.after, assign] at hk ⊢
        split at hk <;> exact hT.low _ k hk
      · unfold BusyInv
        simp only [PThread.setPtr, hb]
        exact hsubs
    | reset y =>
      simp only [newPtr, Option.some.injEq, Prod.mk.injEq] at ho
      obtain ⟨rfl, rfl⟩ := ho
      refine ⟨(L t).after (.reset y : PStmt P), ρ t, hcar.2, hkp.2, ?_, ?_, ?_⟩
      · intro w
        simp only [PThread.setPtr, Vars.after, assign]
        split
        · rfl
        · exact hT.ptr _
      · intro w k hk
        simp only [Vars.after, assign] at hk ⊢
        split at hk
        · cases hk
        · exact hT.low _ k hk
      · unfold BusyInv
        simp only [PThread.setPtr, hb]
        exact hsubs
    | subscribe s x => simp [newPtr] at ho
    | drop s => simp [newPtr] at ho
    | move s s' => simp [newPtr] at ho
    | call x c => simp [newPtr] at ho
  obtain ⟨l', r', hT'⟩ := hT'
  have hfree := hal _ (hc0.free.imp fun _ h => h.2)
  rcases beginPtr hfree hc0 (by simpa using ht) ho with ⟨σ', e, hc, e1, e2, -, -, e3⟩ | ⟨e, a, ⟨u, hu, p, hp, rfl⟩, hh⟩
  · refine ⟨σ', e, ?_⟩
    have hther : ∀ u, u ≠ t → σ'.thr u = σ.thr u := fun u hu => by rw [e1]; exact hother u hu
    have hself : σ'.thr t = ({ σ.thr t with todo := rest } : PThread P).setPtr x o := by rw [e1]; simp
    have hsub : ∀ v, subAt σ' v = subAt σ v := by
      rintro ⟨u, w⟩
      by_cases hu : u = t
      · subst hu
        cases w <;> simp [subAt, hself, PThread.setPtr]
      · simp only [subAt, hther u hu]
    have hlt : left σ' ≤ left σ := by
      have := left_eq ht e2 hther
      have h2 : leftT (σ'.thr t) ≤ leftT (σ.thr t) := by
        rw [hself]
        simp only [leftT, PThread.setPtr, htd, subscribes, List.countP_cons]
        omega
      omega
    rw [← e1] at hT'
    refine ⟨hc, thr_put hTs hther hT', fun v b B hv hB => ?_, fun v v' b hv hv' => ?_, fun a B hB => ?_, ?_⟩
    · rw [hsub] at hv
      rcases e3 _ _ hB with hB | ⟨y, name, -, hb', -⟩
      · exact h.keys v b B hv hB
      · have := h.alive hv
        rw [hb'] at this
        exact absurd (show σ.world _ = none from hfree) this
    · rw [hsub] at hv hv'
      exact h.uniq v v' b hv hv'
    · rcases e3 _ _ hB with hB | ⟨y, name, -, -, rfl⟩
      · have := h.wf a B hB
        exact ⟨this.1, by omega⟩
      · refine ⟨wf_new name, ?_⟩
        have := h.left
        simp only [Box.new]
        omega
    · have := h.left
      omega
  · exfalso
    by_cases hu' : u = t
    · subst hu'
      simp [PThread.setPtr, hb] at hp
    · rw [hother u hu'] at hp
      obtain ⟨y, hy⟩ := (hTs u).busyHeld hp
      exact hh u y (by rw [hother u hu']; exact hy)

theorem subs_of {th : PThread P} {l : Vars} {ρ : Nat → Addr} (h : TInv th l ρ) (hb : th.busy = none) : Subs th l ρ := by
  have := h.busy
  unfold BusyInv at this
  rw [hb] at this
  exact this

/-- The other statements. -/
theorem ginv_begin {alloc : PState P → Addr} (hal : Allocates alloc) {M : Nat} {σ : PState P} (h : GInv M σ) {t : Nat}
    (ht : t < σ.n) {st : PStmt P} {rest : List (PStmt P)} (hb : (σ.thr t).busy = none) (htd : (σ.thr t).todo = st :: rest) :
    ∃ σ', (σ.put t { σ.thr t with todo := rest }).begin alloc t st = .ok σ' ∧ GInv M σ' := by
  obtain ⟨L, ρ, hTs⟩ := h.thr
  have hT := hTs t
  have hcar := hT.careful
  have hkp := hT.keeps
  rw [htd] at hcar hkp
  have hsubs := subs_of hT hb
  have hother : ∀ (th : PThread P) u, u ≠ t → (σ.put t th).thr u = σ.thr u := fun th u hu => put_other _ _ hu
  have hlow' : ∀ z k, (L t).ptr z = some k → k < (L t).next := hT.low
  -- the state after the subscription in `b` has been taken out of the variables
  have hdrop : ∀ (th : PThread P) (l : Vars) (old : Option Sub) (f : Option Nat → Option Nat), Function.Injective f →
      th.ptr = (σ.thr t).ptr → th.busy = none → th.todo = rest → TInv th l (ρ t) →
      (∀ b, old = some b → subAt σ (t, f none) = some b) → (∀ s b, th.sub s = some b → subAt σ (t, f (some s)) = some b) →
      ∃ σ', (σ.put t th).dropOld t old = .ok σ' ∧ GInv M σ' := by
    intro th l old f hf hp hbn htd' hTh hold hsub
    have hlt : leftT th ≤ leftT (σ.thr t) := by
      simp only [leftT, htd, htd', hbn, subscribes, List.countP_cons]; omega
    cases old with
    | none =>
      refine ⟨_, rfl, h.quiet ht rfl rfl rfl rfl (hother th) (by simpa using hp) (by rw [put_self]; exact hTh) f hf ?_ (by simpa using hlt)⟩
      intro o b hb'
      rw [subAt_put] at hb'
      cases o with
      | none => simp [hbn] at hb'
      | some s => exact hsub s b hb'
    | some b =>
      have hal' := h.alive (hold b rfl)
      obtain ⟨y, hy⟩ := hT.held (hold b rfl)
      obtain ⟨B, hB⟩ := Option.ne_none_iff_exists'.1 hal'
      refine ⟨σ.put t { th with busy := some (.drop b) }, ?_, ?_⟩
      · simp [PState.dropOld, PState.enter, Pending.on, hB]
      · refine h.quiet ht rfl rfl rfl rfl (hother _) (by simpa using hp) (l := l) (r := ρ t) ?_ f hf ?_ ?_
        · rw [put_self]
          refine ⟨hTh.careful, hTh.keeps, hTh.ptr, hTh.low, ?_⟩
          unfold BusyInv
          have hS := subs_of hTh hbn
          exact ⟨fun s => hS s, y, by rw [← hy]; exact congrFun hp y⟩
        · intro o b' hb'
          rw [subAt_put] at hb'
          cases o with
          | none => simp only [Option.some.injEq] at hb'; subst hb'; exact hold _ rfl
          | some s => exact hsub s b' hb'
        · rw [put_self]
          simp only [leftT, hbn] at hlt ⊢
          exact hlt
  cases st with
  | make y name => exact ginv_ptr hal h ht hb htd rfl
  | copy y z => exact ginv_ptr hal h ht hb htd rfl
  | reset y => exact ginv_ptr hal h ht hb htd rfl
  | subscribe s x =>
    obtain ⟨k, hk⟩ := Option.ne_none_iff_exists'.1 hcar.1
    have hpx : (σ.thr t).ptr x = some (ρ t k) := by rw [hT.ptr, hk]; rfl
    obtain ⟨B, hB⟩ := Option.ne_none_iff_exists'.1 (h.counted.held hpx)
    refine ⟨σ.put t { σ.thr t with todo := rest, busy := some (.call (ρ t k) .subscribe (some s)) }, ?_, ?_⟩
    · simp [PState.begin, hpx, PState.enter, Pending.on, hB]
    · refine h.quiet ht rfl rfl rfl rfl (hother _) (by simp) (l := (L t).after (.subscribe s x : PStmt P)) (r := ρ t) ?_ id
        Function.injective_id ?_ ?_
      · rw [put_self]
        refine ⟨hcar.2, hkp.2, hT.ptr, hT.low, ?_⟩
        unfold BusyInv
        refine ⟨⟨x, hpx⟩, rfl, ⟨k, by simp [Vars.after, assign, hk], rfl⟩, fun s' hs' => ?_, fun b hb' => hT.subHeld (hsubs s) hb'⟩
        simp only [Vars.after, assign, hs', if_false]
        exact hsubs s'
      · intro o b hb'
        rw [subAt_put] at hb'
        cases o with
        | none => simp at hb'
        | some s' => exact hb'
      · rw [put_self]
        simp only [leftT, htd, hb, subscribes, List.countP_cons]
        simp
  | drop s =>
    have := hdrop (({ σ.thr t with todo := rest } : PThread P).setSub s none) ((L t).after (.drop s : PStmt P)) ((σ.thr t).sub s)
      (fun o => match o with
        | none => some s
        | some s' => if s' = s then none else some s') ?_ rfl hb rfl ⟨hcar.2, hkp.2, hT.ptr, hT.low, ?_⟩ (fun b hb' => hb') ?_
    · simpa [PState.begin] using this
    · intro a b
      cases a <;> cases b <;> simp <;> (try split) <;> (try split) <;> simp_all <;> omega
    · unfold BusyInv
      simp only [PThread.setSub, hb]
      intro s'
      simp only [Vars.after, assign]
      split
      · rfl
      · exact hsubs s'
    · intro s' b hb'
      simp only [PThread.setSub] at hb'
      split at hb'
      · cases hb'
      · rename_i hne; simp only [hne, if_false]; exact hb'
  | move s s' =>
    by_cases hss : s = s'
    · refine ⟨σ.put t { σ.thr t with todo := rest }, by simp [PState.begin, hss], ?_⟩
      refine h.quiet ht rfl rfl rfl rfl (hother _) (by simp) (l := L t) (r := ρ t) ?_ id Function.injective_id ?_ ?_
      · rw [put_self]
        have e : (L t).after (.move s s' : PStmt P) = L t := by simp [Vars.after, hss]
        have c2 := hcar.2
        have k2 := hkp.2
        rw [e] at c2 k2
        exact ⟨c2, k2, hT.ptr, hT.low, hT.busy⟩
      · intro o b hb'
        rw [subAt_put] at hb'
        cases o with
        | none => simp [hb] at hb'
        | some s' => exact hb'
      · rw [put_self]
        simp only [leftT, htd, hb, subscribes, List.countP_cons]
        simp
    · have hss' : s' ≠ s := fun e => hss e.symm
      have := hdrop ((({ σ.thr t with todo := rest } : PThread P).setSub s' none).setSub s ((σ.thr t).sub s'))
        ((L t).after (.move s s' : PStmt P)) ((σ.thr t).sub s)
        (fun o => match o with
          | none => some s
          | some r => if r = s then some s' else if r = s' then none else some r) ?_ rfl hb rfl ⟨hcar.2, hkp.2, ?_, ?_, ?_⟩ (fun b hb' => hb') ?_
      · simpa [PState.begin, hss] using this
      · intro a b
        cases a with
        | none =>
          cases b with
          | none => simp
          | some b =>
            simp only
            split
            · intro e; simp at e; exact absurd e hss
            · split
              · intro e; simp at e
              · intro e; simp at e; simp_all
        | some a =>
          cases b with
          | none =>
            simp only
            split
            · intro e; simp at e; exact absurd e hss'
            · split
              · intro e; simp at e
              · intro e; simp at e; simp_all
          | some b =>
            simp only
            split <;> split <;> (try split) <;> (try split) <;> simp_all <;> (intro e; simp_all)
      · intro z
        simp only [Vars.after, hss, if_false]
        exact hT.ptr z
      · intro z k hk
        simp only [Vars.after, hss, if_false] at hk ⊢
        exact hT.low z k hk
      · unfold BusyInv
        simp only [PThread.setSub, hb]
        intro r
        simp only [Vars.after, hss, if_false, assign]
        split
        · exact hsubs s'
        · split
          · rfl
          · exact hsubs r
      · intro r b hb'
        simp only [PThread.setSub] at hb'
        split at hb'
        · rename_i e; simp only [e, if_true]; exact hb'
        · rename_i e
          split at hb'
          · cases hb'
          · rename_i e2; simp only [e, e2, if_false]; exact hb'
  | call x c =>
    obtain ⟨k, hk⟩ := Option.ne_none_iff_exists'.1 hcar.1.1
    have hpx : (σ.thr t).ptr x = some (ρ t k) := by rw [hT.ptr, hk]; rfl
    obtain ⟨B, hB⟩ := Option.ne_none_iff_exists'.1 (h.counted.held hpx)
    refine ⟨σ.put t { σ.thr t with todo := rest, busy := some (.call (ρ t k) (c.op (σ.thr t).sub) none) }, ?_, ?_⟩
    · simp [PState.begin, hpx, PState.enter, Pending.on, hB]
    · refine h.quiet ht rfl rfl rfl rfl (hother _) (by simp) (l := L t) (r := ρ t) ?_ id Function.injective_id ?_ ?_
      · rw [put_self]
        refine ⟨hcar.2, hkp.2, hT.ptr, hT.low, ?_⟩
        unfold BusyInv
        refine ⟨hsubs, ⟨x, hpx⟩, c, rfl, ?_⟩
        have hnn := hcar.1.2
        have conv : ∀ s, (L t).sub s ≠ none → (σ.thr t).sub s ≠ none := by
          intro s hs e
          have := hsubs s
          rw [e] at this
          cases hk' : (L t).sub s with
          | none => exact hs hk'
          | some k => rw [hk'] at this; cases this
        cases c <;> first | exact trivial | exact conv _ hnn
      · intro o b hb'
        rw [subAt_put] at hb'
        cases o with
        | none => simp at hb'
        | some s' => exact hb'
      · rw [put_self]
        simp only [leftT, htd, hb, subscribes, List.countP_cons]
        cases c <;> simp [PCall.op]

/-- Another state of the mailboxes, with the same ones alive. -/
theorem PtrCounted.world {σ : PState P} (h : PtrCounted σ) {w' : World P} {t : Nat} {th : PThread P} (ht : t < σ.n)
    (hw : ∀ a, w' a ≠ none ↔ σ.world a ≠ none) (hp : th.ptr = (σ.thr t).ptr) : PtrCounted (PState.put { σ with world := w' } t th) := by
  refine h.same (fun u => ?_) rfl rfl hw (fun u hu => ?_)
  · by_cases hu : u = t
    · subst hu; simpa using hp
    · rw [put_other _ _ hu]
  · have hu' : σ.n ≤ u := hu
    rw [put_other _ _ (by omega)]
    exact h.beyond u hu'

theorem set_alive {w : World P} {a : Addr} {b b' : Box P} (hb : w a = some b) (x : Addr) : w.set a (some b') x ≠ none ↔ w x ≠ none := by
  by_cases hx : x = a
  · subst hx; simp [set_self, hb]
  · rw [set_other _ _ hx]

/-- A method returns. -/
theorem ginv_finish {M : Nat} (hM : M ≤ 2147483647) {σ : PState P} (h : GInv M σ) {t : Nat} (ht : t < σ.n) {p : Pending P}
    (hp : (σ.thr t).busy = some p) : ∃ σ', σ.finish t p = .ok σ' ∧ GInv M σ' := by
  obtain ⟨L, ρ, hTs⟩ := h.thr
  have hT := hTs t
  have hbusy := hT.busy
  unfold BusyInv at hbusy
  rw [hp] at hbusy
  have hother : ∀ (w' : World P) (th : PThread P) u, u ≠ t → (PState.put { σ with world := w' } t th).thr u = σ.thr u :=
    fun w' th u hu => put_other _ _ hu
  have hwf : ∀ x B, σ.world x = some B → B.Wf := fun x B hB => (h.wf x B hB).1
  cases p with
  | drop b =>
    obtain ⟨hsubs, x, hx⟩ := hbusy
    have hsb : subAt σ (t, none) = some b := by simp [subAt, hp]
    obtain ⟨B, hB⟩ := Option.ne_none_iff_exists'.1 (h.alive hsb)
    obtain ⟨B', e, hB'wf, hB'c, hB'w⟩ := drop_fine hB (hwf _ _ hB) (h.keys _ _ _ hsb hB)
    refine ⟨PState.put { σ with world := σ.world.set b.box (some B') } t { σ.thr t with busy := none }, by simp only [PState.finish, e], ?_⟩
    have hleft := left_eq (σ' := PState.put { σ with world := σ.world.set b.box (some B') } t { σ.thr t with busy := none }) ht rfl (hother _ _)
    have hlt : leftT ({ σ.thr t with busy := none } : PThread P) = leftT (σ.thr t) := by simp [leftT, hp]
    rw [put_self, hlt] at hleft
    have hsub : ∀ v b2, subAt (PState.put { σ with world := σ.world.set b.box (some B') } t { σ.thr t with busy := none }) v = some b2 →
        subAt σ v = some b2 ∧ v ≠ (t, none) := by
      rintro ⟨u, o⟩ b2 hb2
      by_cases hu : u = t
      · subst hu
        rw [subAt_put] at hb2
        cases o with
        | none => simp at hb2
        | some s => exact ⟨hb2, by simp⟩
      · simp only [subAt, hother _ _ u hu] at hb2
        exact ⟨hb2, fun e => hu (congrArg Prod.fst e)⟩
    refine ⟨h.counted.world ht (set_alive hB) rfl, thr_put hTs (hother _ _) (l := L t) (r := ρ t) ?_, ?_, ?_, ?_, ?_⟩
    · rw [put_self]
      refine ⟨hT.careful, hT.keeps, hT.ptr, hT.low, ?_⟩
      unfold BusyInv
      exact fun s => hsubs s
    · intro v b2 B2 hb2 hB2
      obtain ⟨h1, h2⟩ := hsub v b2 hb2
      replace hB2 : σ.world.set b.box (some B') b2.box = some B2 := hB2
      by_cases hbx : b2.box = b.box
      · rw [hbx, set_self] at hB2
        cases hB2
        rw [hB'w, if_neg]
        · exact h.keys v b2 B h1 (by rw [hbx]; exact hB)
        · intro hi
          have : b2 = b := by cases b2; cases b; simp_all
          exact h2 (h.uniq _ _ b (this ▸ h1) hsb)
      · rw [set_other _ _ hbx] at hB2
        exact h.keys v b2 B2 h1 hB2
    · intro v v' b2 h1 h2
      exact h.uniq v v' b2 (hsub v b2 h1).1 (hsub v' b2 h2).1
    · intro a B2 hB2
      replace hB2 : σ.world.set b.box (some B') a = some B2 := hB2
      by_cases hbx : a = b.box
      · rw [hbx, set_self] at hB2
        cases hB2
        have := (h.wf _ _ hB).2
        exact ⟨hB'wf, by rw [hB'c]; omega⟩
      · rw [set_other _ _ hbx] at hB2
        have := h.wf a B2 hB2
        exact ⟨this.1, by omega⟩
    · have := h.left; omega
  | call a o dest =>
    cases dest with
    | none =>
      obtain ⟨hsubs, ⟨x, hx⟩, c, rfl, hfull⟩ := hbusy
      have halv : ∀ s v, (σ.thr t).sub s = some v → σ.world v.box ≠ none := fun s v hv => h.alive (v := (t, some s)) hv
      obtain ⟨w', r, e, r1, r2, r3, hk⟩ := call_fine hwf (h.counted.held hx) c (σ.thr t).sub (by cases c <;> exact hfull) halv
      refine ⟨PState.put { σ with world := w' } t { σ.thr t with busy := none }, ?_, ?_⟩
      · simp only [PState.finish, e]
      have hleft := left_eq (σ' := PState.put { σ with world := w' } t { σ.thr t with busy := none }) ht rfl (hother _ _)
      have hlt : leftT ({ σ.thr t with busy := none } : PThread P) = leftT (σ.thr t) := by
        simp only [leftT, hp]
        cases c <;> simp [PCall.op]
      rw [put_self, hlt] at hleft
      have hsub : ∀ v b2, subAt (PState.put { σ with world := w' } t { σ.thr t with busy := none }) v = some b2 → subAt σ v = some b2 := by
        rintro ⟨u, o⟩ b2 hb2
        by_cases hu : u = t
        · subst hu
          rw [subAt_put] at hb2
          cases o with
          | none => simp at hb2
          | some s => exact hb2
        · simp only [subAt, hother _ _ u hu] at hb2
          exact hb2
      refine ⟨h.counted.world ht (fun x => not_congr (hk x).1.symm) rfl, thr_put hTs (hother _ _) (l := L t) (r := ρ t) ?_, ?_, ?_, ?_, ?_⟩
      · rw [put_self]
        refine ⟨hT.careful, hT.keeps, hT.ptr, hT.low, ?_⟩
        unfold BusyInv
        exact fun s => hsubs s
      · intro v b2 B2 hb2 hB2
        replace hB2 : w' b2.box = some B2 := hB2
        obtain ⟨B, hB⟩ := Option.ne_none_iff_exists'.1 (h.alive (hsub v b2 hb2))
        exact (((hk b2.box).2 B B2 hB hB2).2.2 _).2 (h.keys v b2 B (hsub v b2 hb2) hB)
      · intro v v' b2 h1 h2
        exact h.uniq v v' b2 (hsub v b2 h1) (hsub v' b2 h2)
      · intro a' B2 hB2
        replace hB2 : w' a' = some B2 := hB2
        obtain ⟨B, hB⟩ := Option.ne_none_iff_exists'.1 (show σ.world a' ≠ none from fun e => by rw [(hk a').1.1 e] at hB2; cases hB2)
        have h1 := (hk a').2 B B2 hB hB2
        have h2 := h.wf a' B hB
        exact ⟨h1.1 h2.1, by rw [h1.2.1]; omega⟩
      · have := h.left; omega
    | some s =>
      obtain ⟨⟨x, hx⟩, rfl, ⟨k, hk, rfl⟩, hsubs, hold⟩ := hbusy
      obtain ⟨B, hB⟩ := Option.ne_none_iff_exists'.1 (h.counted.held hx)
      have hlt1 : leftT (σ.thr t) = subscribes (σ.thr t).todo + 1 := by simp [leftT, hp]
      have hle : leftT (σ.thr t) ≤ left σ := Finset.single_le_sum (f := fun t => leftT (σ.thr t)) (fun _ _ => Nat.zero_le _) (Finset.mem_range.2 ht)
      have hcnt := (h.wf _ _ hB).2
      obtain ⟨B', e, hB'wf, hB'c, hB'w⟩ := subscribe_fine hB (hwf _ _ hB) (by omega)
      -- the thread with the new subscription, and the old one perhaps in its destructor
      have hfin : σ.finish t (.call (ρ t k) .subscribe (some s)) =
          (PState.put { σ with world := σ.world.set (ρ t k) (some B') } t
            (({ σ.thr t with busy := none } : PThread P).setSub s (some ⟨ρ t k, B.counter⟩))).dropOld t ((σ.thr t).sub s) := by
        simp only [PState.finish, e]
      have hwal := set_alive (b' := B') hB
      have key : ∀ bz : Option (Pending P), (bz = none ∧ (σ.thr t).sub s = none ∨ ∃ b, bz = some (.drop b) ∧ (σ.thr t).sub s = some b) →
          GInv M (PState.put { σ with world := σ.world.set (ρ t k) (some B') } t
            { ({ σ.thr t with busy := none } : PThread P).setSub s (some ⟨ρ t k, B.counter⟩) with busy := bz }) := by
        intro bz hbz
        have hleft := left_eq (σ' := PState.put { σ with world := σ.world.set (ρ t k) (some B') } t
          { ({ σ.thr t with busy := none } : PThread P).setSub s (some ⟨ρ t k, B.counter⟩) with busy := bz }) ht rfl (hother _ _)
        have hlt2 : leftT ({ ({ σ.thr t with busy := none } : PThread P).setSub s (some ⟨ρ t k, B.counter⟩) with busy := bz } : PThread P) =
            subscribes (σ.thr t).todo := by
          rcases hbz with ⟨rfl, -⟩ | ⟨b, rfl, -⟩ <;> simp [leftT, PThread.setSub]
        rw [put_self, hlt1, hlt2] at hleft
        -- where the subscriptions were
        have hsub : ∀ v b2, subAt (PState.put { σ with world := σ.world.set (ρ t k) (some B') } t
            { ({ σ.thr t with busy := none } : PThread P).setSub s (some ⟨ρ t k, B.counter⟩) with busy := bz }) v = some b2 →
            (v = (t, some s) ∧ b2 = ⟨ρ t k, B.counter⟩) ∨
            (v ≠ (t, some s) ∧ subAt σ (if v = (t, none) then (t, some s) else v) = some b2) := by
          rintro ⟨u, o⟩ b2 hb2
          by_cases hu : u = t
          · subst hu
            rw [subAt_put] at hb2
            cases o with
            | none =>
              right
              refine ⟨by simp, ?_⟩
              rw [if_pos rfl]
              rcases hbz with ⟨rfl, -⟩ | ⟨b, rfl, hb⟩
              · simp at hb2
              · simp only [Option.some.injEq] at hb2
                subst hb2
                exact hb
            | some s' =>
              by_cases hs : s' = s
              · left
                subst hs
                simp only [PThread.setSub, if_true, Option.some.injEq] at hb2
                exact ⟨rfl, hb2.symm⟩
              · right
                refine ⟨by simpa using hs, ?_⟩
                rw [if_neg (by simp)]
                simpa [subAt, PThread.setSub, hs] using hb2
          · right
            refine ⟨fun e => hu (congrArg Prod.fst e), ?_⟩
            rw [if_neg (fun e => hu (congrArg Prod.fst e))]
            simp only [subAt, hother _ _ u hu] at hb2
            exact hb2
        have hnew : ∀ v b2, subAt σ v = some b2 → b2 ≠ ⟨ρ t k, B.counter⟩ := by
          rintro v b2 hv rfl
          have := h.keys v _ B hv hB
          have := ((hwf _ _ hB).keys _ this).2
          simp at this
        refine ⟨h.counted.world ht hwal rfl, thr_put hTs (hother _ _) (l := L t) (r := ρ t) ?_, ?_, ?_, ?_, ?_⟩
        · rw [put_self]
          have hS : Subs ({ ({ σ.thr t with busy := none } : PThread P).setSub s (some ⟨ρ t k, B.counter⟩) with busy := bz } : PThread P) (L t) (ρ t) := by
            intro s'
            simp only [PThread.setSub]
            split
            · rename_i e; rw [e, hk]; rfl
            · rename_i e; exact hsubs s' e
          refine ⟨hT.careful, hT.keeps, hT.ptr, hT.low, ?_⟩
          rcases hbz with ⟨rfl, -⟩ | ⟨b, rfl, hb⟩
          · unfold BusyInv; exact hS
          · unfold BusyInv
            exact ⟨hS, hold b hb⟩
        · intro v b2 B2 hb2 hB2
          replace hB2 : σ.world.set (ρ t k) (some B') b2.box = some B2 := hB2
          rcases hsub v b2 hb2 with ⟨-, rfl⟩ | ⟨-, hv⟩
          · rw [set_self] at hB2
            cases hB2
            rw [hB'w]; simp
          · by_cases hbx : b2.box = ρ t k
            · rw [hbx, set_self] at hB2
              cases hB2
              rw [hB'w]
              split
              · simp
              · exact h.keys _ b2 B hv (by rw [hbx]; exact hB)
            · rw [set_other _ _ hbx] at hB2
              exact h.keys _ b2 B2 hv hB2
        · intro v v' b2 h1 h2
          rcases hsub v b2 h1 with ⟨e1, e1'⟩ | ⟨e1, e1'⟩ <;> rcases hsub v' b2 h2 with ⟨e2, e2'⟩ | ⟨e2, e2'⟩
          · rw [e1, e2]
          · exact absurd e1' (hnew _ _ e2')
          · exact absurd e2' (hnew _ _ e1')
          · have := h.uniq _ _ b2 e1' e2'
            by_cases f1 : v = (t, none) <;> by_cases f2 : v' = (t, none)
            · rw [f1, f2]
            · rw [if_pos f1, if_neg f2] at this; exact absurd this.symm e2
            · rw [if_neg f1, if_pos f2] at this; exact absurd this e1
            · rwa [if_neg f1, if_neg f2] at this
        · intro a B2 hB2
          replace hB2 : σ.world.set (ρ t k) (some B') a = some B2 := hB2
          by_cases hbx : a = ρ t k
          · rw [hbx, set_self] at hB2
            cases hB2
            exact ⟨hB'wf, by rw [hB'c]; omega⟩
          · rw [set_other _ _ hbx] at hB2
            have := h.wf a B2 hB2
            exact ⟨this.1, by omega⟩
        · have := h.left; omega
      cases ho : (σ.thr t).sub s with
      | none =>
        refine ⟨_, by rw [hfin, ho]; rfl, ?_⟩
        exact key none (.inl ⟨rfl, ho⟩)
      | some b =>
        obtain ⟨y, hy⟩ := hold b ho
        obtain ⟨C, hC⟩ := Option.ne_none_iff_exists'.1 ((hwal b.box).2 (h.counted.held hy))
        refine ⟨_, ?_, key (some (.drop b)) (.inr ⟨b, rfl, ho⟩)⟩
        rw [hfin, ho]
        simp [PState.dropOld, PState.enter, Pending.on, hC]

theorem ginv_step {alloc : PState P → Addr} (hal : Allocates alloc) {M : Nat} (hM : M ≤ 2147483647) {σ : PState P}
    (h : GInv M σ) {t : Nat} {r : Res Unit (PState P)} (hr : σ.step alloc t = some r) : ∃ σ', r = .ok σ' ∧ GInv M σ' := by
  unfold PState.step at hr
  split at hr
  · rename_i ht
    split at hr
    · rename_i p hp
      cases hr
      exact ginv_finish hM h ht hp
    · rename_i st rest hb htd
      cases hr
      exact ginv_begin hal h ht hb htd
    · cases hr
  · cases hr

theorem ginv_run {alloc : PState P → Addr} (hal : Allocates alloc) {M : Nat} (hM : M ≤ 2147483647)
    (sched : List Nat) : ∀ {σ : PState P}, GInv M σ → ∃ σ', σ.run alloc sched = .ok σ' ∧ GInv M σ' := by
  induction sched with
  | nil => intro σ h; exact ⟨σ, rfl, h⟩
  | cons t ts ih =>
    intro σ h
    rw [PState.run]
    cases hs : σ.step alloc t with
    | none => exact ih h
    | some r =>
      obtain ⟨σ', rfl, h'⟩ := ginv_step hal hM h hs
      exact ih h'

end SoDa.Mail
