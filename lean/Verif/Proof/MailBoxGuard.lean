import Verif.Spec.MailBoxGuard
import Verif.Proof.StdMap
/-!
Proofs about the mutexes of several mailboxes.
-/
namespace SoDa.Mail.Guard
open Spec

variable {P : Type}

/-! ### What the methods put into the mailbox -/

/-- All messages in the mailbox satisfy `fit`. -/
def BoxFit (fit : P → Prop) (b : Box P) : Prop := ∀ kq ∈ b.queues, ∀ p, some p ∈ kq.2 → fit p

/-- The rest of a method that holds the mutex. -/
inductive Inside (fit : P → Prop) : Code P → Prop where
  | unlock {r} (h : ∀ p ∈ resultOf r, fit p) : Inside fit (.unlock (.ret r))
  | act {f k} (hf : ∀ b, BoxFit fit b → BoxFit fit (f b)) (hk : ∀ b, BoxFit fit b → Inside fit (k b)) : Inside fit (.act f k)
  | push {i msg k} (hm : ∀ p ∈ msg.toList, fit p) (hk : Inside fit k) : Inside fit (.push i msg k)
  | pop {i k} (hk : Inside fit k) : Inside fit (.pop i k)
  | take {i k} (hk : Inside fit k) : Inside fit (.take i k)

theorem mapFind_some_mem {K W : Type} {less : K → K → Bool} {k : K} {v : W} {m : List (K × W)} (h : mapFind less k m = some v) :
    ∃ k', (k', v) ∈ m := by
  induction m with
  | nil => simp [mapFind] at h
  | cons x m ih =>
    rw [mapFind] at h
    split at h
    · cases h; exact ⟨_, List.mem_cons_self⟩
    · obtain ⟨k', hk⟩ := ih h
      exact ⟨k', List.mem_cons_of_mem _ hk⟩

theorem mapSet_sub {K W : Type} {less : K → K → Bool} {k : K} {v : W} {m : List (K × W)} {x : K × W} (h : x ∈ mapSet less k v m) :
    x ∈ m ∨ x.2 = v := by
  induction m with
  | nil => simp only [mapSet, List.mem_singleton] at h; exact .inr (by rw [h])
  | cons y m ih =>
    simp only [mapSet] at h
    split at h
    · rcases List.mem_cons.1 h with h | h
      · exact .inr (h ▸ rfl)
      · exact .inl h
    · split at h
      · rcases List.mem_cons.1 h with h | h
        · exact .inl (h ▸ List.mem_cons_self)
        · exact (ih h).imp (List.mem_cons_of_mem _) id
      · rcases List.mem_cons.1 h with h | h
        · exact .inr (h ▸ rfl)
        · exact .inl (List.mem_cons_of_mem _ h)

theorem inside_look {fit : P → Prop} {k : Box P → Code P} (hk : ∀ b, BoxFit fit b → Inside fit (k b).thenUnlock) :
    Inside fit (look k).thenUnlock := .act (fun _ h => h) hk

theorem inside_ret {fit : P → Prop} {r : Resp P} (h : ∀ p ∈ resultOf r, fit p) : Inside fit (Code.ret r).thenUnlock := .unlock h

theorem inside_onRes {α : Type} {fit : P → Prop} {r : Res Err α} {k : α → Code P} (hk : ∀ x, r = .ok x → Inside fit (k x).thenUnlock) :
    Inside fit (onRes r k).thenUnlock := by
  cases r with
  | ok x => exact hk x rfl
  | throw e => exact inside_ret (by simp [resultOf])
  | ub => exact inside_ret (by simp [resultOf])

theorem inside_push {fit : P → Prop} {msg : Option P} (hm : ∀ p ∈ msg.toList, fit p) (o : Int) (ks : List Int) :
    Inside fit (pushLoop msg o ks).thenUnlock := by
  induction ks with
  | nil => exact inside_ret (by simp [resultOf])
  | cons k ks ih =>
    rw [pushLoop]
    split
    · exact .push hm ih
    · exact ih

theorem inside_pops {fit : P → Prop} {fin : Code P} (i : Int) (hf : Inside fit fin.thenUnlock) (n : Nat) :
    Inside fit (popLoop i fin n).thenUnlock := by
  induction n with
  | zero => exact hf
  | succ n ih => exact .pop ih

theorem inside_min {fit : P → Prop} (n : Nat) (ks : List Int) : Inside fit (minLoop (P := P) n ks).thenUnlock := by
  induction ks generalizing n with
  | nil => exact inside_ret (by simp [resultOf])
  | cons k ks ih =>
    rw [minLoop]
    refine inside_look fun b _ => ?_
    split <;> exact ih _

theorem boxFit_erase {fit : P → Prop} {b : Box P} (i : Int) (h : BoxFit fit b) :
    BoxFit fit { b with queues := mapErase intLess i b.queues } := by
  intro kq hk
  exact h kq ((mapErase_sublist _ _ _).subset hk)

theorem boxFit_new {fit : P → Prop} {b : Box P} (i : Int) (h : BoxFit fit b) : BoxFit fit (b.setQueue i []) := by
  intro kq hk p hp
  rcases mapSet_sub hk with hx | hx
  · exact h kq hx p hp
  · rw [hx] at hp; simp at hp

theorem boxFit_push {fit : P → Prop} {b : Box P} (i : Int) {msg : Option P} (hm : ∀ p ∈ msg.toList, fit p) (h : BoxFit fit b) :
    BoxFit fit (pushFn i msg b) := by
  intro kq hk p hp
  obtain ⟨x, hx, rfl⟩ := List.mem_map.1 hk
  split at hp
  · rcases List.mem_append.1 hp with hp | hp
    · exact h x hx p hp
    · rw [List.mem_singleton] at hp
      subst hp
      exact hm p (by simp)
  · exact h x hx p hp

theorem boxFit_pop {fit : P → Prop} {b : Box P} (i : Int) (h : BoxFit fit b) : BoxFit fit (popFn i b) := by
  intro kq hk p hp
  obtain ⟨x, hx, rfl⟩ := List.mem_map.1 hk
  split at hp
  · exact h x hx p (List.mem_of_mem_tail hp)
  · exact h x hx p hp

theorem front_fit {fit : P → Prop} {b : Box P} {i : Int} {p : P} (h : BoxFit fit b) (hf : front i b = some p) : fit p := by
  rw [front] at hf
  split at hf
  · rename_i m q hq
    obtain ⟨k, hk⟩ := mapFind_some_mem hq
    exact h _ hk p (by rw [hf]; exact List.mem_cons_self)
  · cases hf

theorem queue_fit {fit : P → Prop} {b : Box P} {this : Addr} {subs : Option Sub} {i : Int} {q : List (Option P)} (h : BoxFit fit b)
    (hq : b.getQueue this subs = .ok (i, q)) (p : P) (hp : some p ∈ q) : fit p := by
  rw [Box.getQueue] at hq
  cases hi : getIndex this subs with
  | throw e => rw [hi] at hq; cases hq
  | ub => rw [hi] at hq; cases hq
  | ok j =>
    rw [hi] at hq
    simp only [Res.bind] at hq
    rw [Box.getQueueI] at hq
    split at hq
    · cases hq
    · rename_i q' hq'
      simp only [Res.map, Res.bind, Res.ok.injEq, Prod.mk.injEq] at hq
      obtain ⟨k, hk⟩ := mapFind_some_mem hq'
      exact h _ hk p (by rw [hq.2]; exact hp)

theorem inside_unsub {fit : P → Prop} (i : Int) (failed : Err → Resp P) (hf : ∀ e, resultOf (failed e) = []) :
    ∃ c, unsubscribe i failed = .lock c ∧ Inside fit c := by
  refine ⟨_, rfl, inside_look fun b _ => ?_⟩
  split
  · exact inside_pops i (.act (fun b h => boxFit_erase i h) fun b _ => .unlock (by simp [resultOf])) _
  · exact inside_ret (by simp [hf])
  · exact inside_ret (by simp [resultOf])

/-- Every method begins with the `lock_guard`, and holds the mutex until it returns or throws. -/
theorem method_inside {fit : P → Prop} (a : Addr) (o : Call P) (ho : o ≠ .subscribeFails) (hm : ∀ p ∈ o.args, fit p) :
    ∃ c, method a o = .lock c ∧ Inside fit c := by
  cases o with
  | subscribeFails => exact absurd rfl ho
  | op o =>
    cases o with
    | subscribe =>
      refine ⟨_, rfl, inside_look fun b hb => .act (fun b h => boxFit_new _ h) fun b' hb' => ?_⟩
      split
      · exact inside_ret (by simp [resultOf])
      · exact .act (fun b h => h) fun _ _ => inside_ret (by simp [resultOf])
    | get subs =>
      refine ⟨_, rfl, inside_look fun b hb => inside_onRes fun x hx => ?_⟩
      obtain ⟨i, q⟩ := x
      dsimp only
      split
      · exact inside_ret (by simp [resultOf])
      · rename_i m q'
        refine .take (inside_ret fun p hp => queue_fit hb hx p ?_)
        cases m with
        | none => simp [resultOf] at hp
        | some m =>
          simp only [resultOf, List.mem_singleton] at hp
          subst hp
          exact List.mem_cons_self
    | put msg subs =>
      refine ⟨_, rfl, inside_look fun b hb => inside_onRes fun x hx => inside_look fun b' _ => inside_push ?_ _ _⟩
      intro p hp
      cases msg with
      | none => simp at hp
      | some m => exact hm p (by simpa [Call.args] using hp)
    | readyCount subs => exact ⟨_, rfl, inside_look fun b hb => inside_onRes fun x hx => inside_ret (by simp [resultOf])⟩
    | minReadyCount => exact ⟨_, rfl, inside_look fun b hb => inside_min _ _⟩
    | clear subs =>
      refine ⟨_, rfl, inside_look fun b hb => inside_onRes fun x hx => ?_⟩
      obtain ⟨i, q⟩ := x
      exact inside_pops i (inside_ret (by simp [resultOf])) _
    | unsubscribe i => exact inside_unsub i _ fun _ => rfl
    | subscriberCount => exact ⟨_, rfl, inside_look fun b hb => inside_ret (by simp [resultOf])⟩
    | drop s => exact inside_unsub s.idx _ fun _ => rfl

/-! ### What a thread holds -/

/-- The destructor of `p` calls only mailboxes further up than `a`. -/
def Fits (rank : Addr → Nat) (dtor : P → List (Addr × Call P)) (a : Addr) (p : P) : Prop := ∀ x ∈ dtor p, rank a < rank x.1

variable {rank : Addr → Nat} {dtor : P → List (Addr × Call P)}

theorem Fits.up {a b : Addr} {p : P} (h : Fits rank dtor b p) (hab : rank a < rank b) : Fits rank dtor a p :=
  fun x hx => Nat.lt_trans hab (h x hx)

/-- What a thread has to do after the current step; the methods in it hold the mutexes `hs`. -/
inductive Below (rank : Addr → Nat) (dtor : P → List (Addr × Call P)) : List (Item P) → List Addr → Prop where
  | nil : Below rank dtor [] []
  | frame {s hs a o c} (hb : Below rank dtor s hs) (hr : ∀ h ∈ hs, rank h < rank a) (hi : Inside (Fits rank dtor a) c)
      (hm : ∀ p ∈ Call.args o, Fits rank dtor a p) (ho : o ≠ .subscribeFails) : Below rank dtor (.frame a o c :: s) (a :: hs)
  | dtor {s hs os} (hb : Below rank dtor s hs) (hr : ∀ h ∈ hs, ∀ x ∈ os, rank h < rank x.1) : Below rank dtor (.dtor os :: s) hs
  | release {s hs ps} (hb : Below rank dtor s hs) (hr : ∀ h ∈ hs, ∀ p ∈ ps, Fits rank dtor h p) : Below rank dtor (.release ps :: s) hs

/-- What a thread has to do. -/
inductive Top (rank : Addr → Nat) (dtor : P → List (Addr × Call P)) : List (Item P) → List Addr → Prop where
  | below {s hs} (hb : Below rank dtor s hs) : Top rank dtor s hs
  | wants {s hs a o} (hb : Below rank dtor s hs) (hr : ∀ h ∈ hs, rank h < rank a) (hm : ∀ p ∈ Call.args o, Fits rank dtor a p)
      (ho : o ≠ .subscribeFails) : Top rank dtor (.frame a o (method a o) :: s) hs
  | leaving {s hs a o r} (hb : Below rank dtor s hs) (hr : ∀ h ∈ hs, rank h < rank a) (hm : ∀ p ∈ Call.args o, Fits rank dtor a p)
      (ho : o ≠ .subscribeFails) (hq : ∀ p ∈ resultOf r, Fits rank dtor a p) : Top rank dtor (.frame a o (.ret r) :: s) hs

/-- The state of the program. -/
structure Inv (rank : Addr → Nat) (dtor : P → List (Addr × Call P)) (c : Conf P) (held : Nat → List Addr) : Prop where
  top : ∀ t, Top rank dtor (c.stack t) (held t)
  holds : ∀ t a, a ∈ held t ↔ c.holder a = some t
  fits : ∀ a, BoxFit (Fits rank dtor a) (c.boxes a)

theorem update_same {A B : Type} [DecidableEq A] (f : A → B) (a : A) (b : B) : update f a b a = b := by simp [update]

theorem update_ne {A B : Type} [DecidableEq A] (f : A → B) {a x : A} (b : B) (h : x ≠ a) : update f a b x = f x := by simp [update, h]

/-- A step of thread `t` that takes or releases no mutex. -/
theorem Inv.change {c c' : Conf P} {held : Nat → List Addr} (h : Inv rank dtor c held) (t : Nat) (hh : c'.holder = c.holder)
    (hs : ∀ u, u ≠ t → c'.stack u = c.stack u) (ht : Top rank dtor (c'.stack t) (held t))
    (hf : ∀ a, BoxFit (Fits rank dtor a) (c'.boxes a)) : Inv rank dtor c' held :=
  ⟨fun u => by
    by_cases hu : u = t
    · subst hu; exact ht
    · rw [hs u hu]; exact h.top u, fun u a => by rw [hh]; exact h.holds u a, hf⟩

theorem boxes_update {c : Conf P} {held : Nat → List Addr} (h : Inv rank dtor c held) (a : Addr) {b : Box P}
    (hb : BoxFit (Fits rank dtor a) b) (x : Addr) : BoxFit (Fits rank dtor x) (update c.boxes a b x) := by
  by_cases hx : x = a
  · subst hx; rw [update_same]; exact hb
  · rw [update_ne _ _ hx]; exact h.fits x

variable [DecidableEq P]

/-- Every step keeps the order of the mutexes. -/
theorem next_inv {c c' : Conf P} {l : Label P} {t : Nat} {held : Nat → List Addr} (h : Inv rank dtor c held)
    (hn : next dtor c t = some (l, c'))
    (hputs : ∀ a p subs, l = .call t a (.op (.put (some p) subs)) → Fits rank dtor a p)
    (hmem : ∀ a, l ≠ .call t a .subscribeFails) : ∃ held', Inv rank dtor c' held' := by
  have ht := h.top t
  generalize hst : c.stack t = st at ht
  generalize hh : held t = hs at ht
  have keep : ∀ (s : List (Item P)), ∀ u, u ≠ t → update c.stack t s u = c.stack u := fun s u hu => update_ne _ _ hu
  cases ht with
  | below hb =>
    cases hb with
    | nil => rw [next, hst] at hn; cases hn
    | dtor hb hr =>
      rename_i s os
      cases os with
      | nil =>
        simp only [next, hst, Option.some.injEq, Prod.mk.injEq] at hn
        obtain ⟨rfl, rfl⟩ := hn
        exact ⟨held, h.change t rfl (keep _) (by rw [hh]; simp only [Conf.setStack, update_same]; exact .below hb) h.fits⟩
      | cons x os =>
        obtain ⟨a, o⟩ := x
        simp only [next, hst, Option.some.injEq, Prod.mk.injEq] at hn
        obtain ⟨rfl, rfl⟩ := hn
        refine ⟨held, h.change t rfl (keep _) ?_ h.fits⟩
        rw [hh]
        simp only [Conf.enter, update_same]
        refine .wants (.dtor hb fun y hy x hx => hr y hy x (List.mem_cons_of_mem _ hx)) (fun y hy => hr y hy (a, o) List.mem_cons_self) ?_ ?_
        · intro p hp
          cases o with
          | subscribeFails => simp [Call.args] at hp
          | op o =>
            cases o <;> try (simp [Call.args] at hp; done)
            rename_i msg subs
            cases msg with
            | none => simp [Call.args] at hp
            | some m =>
              simp only [Call.args, List.mem_singleton] at hp
              subst hp
              exact hputs a p subs rfl
        · rintro rfl
          exact hmem a rfl
    | release hb hr =>
      rename_i s ps
      cases ps with
      | nil =>
        simp only [next, hst, Option.some.injEq, Prod.mk.injEq] at hn
        obtain ⟨rfl, rfl⟩ := hn
        exact ⟨held, h.change t rfl (keep _) (by rw [hh]; simp only [Conf.setStack, update_same]; exact .below hb) h.fits⟩
      | cons p ps =>
        simp only [next, hst, Option.some.injEq, Prod.mk.injEq] at hn
        obtain ⟨rfl, rfl⟩ := hn
        refine ⟨held, h.change t rfl (keep _) ?_ h.fits⟩
        rw [hh]
        simp only [Conf.lose, update_same]
        have hb' : Below rank dtor (.release ps :: s) hs := .release hb fun y hy x hx => hr y hy x (List.mem_cons_of_mem _ hx)
        split
        · exact .below (.dtor hb' fun y hy x hx => hr y hy p List.mem_cons_self x hx)
        · exact .below hb'
    | frame hb hr hi hm ho =>
      rename_i s hs a o k
      have hh' : held t = a :: hs := hh
      cases hi with
      | unlock hq =>
        rename_i r
        have hcases : r ≠ .ub ∧ r ≠ .terminate ∧ l = .unlock t a o r ∧
            c' = { c with holder := update c.holder a none, stack := update c.stack t (.frame a o (.ret r) :: s) } := by
          cases r <;> simp only [next, hst, Option.some.injEq, Prod.mk.injEq, reduceCtorEq] at hn <;>
            (obtain ⟨rfl, rfl⟩ := hn; simp)
        obtain ⟨-, -, rfl, rfl⟩ := hcases
        have hna : a ∉ hs := fun hx => Nat.lt_irrefl _ (hr a hx)
        refine ⟨update held t hs, fun u => ?_, fun u x => ?_, h.fits⟩
        · by_cases hu : u = t
          · subst hu; simp only [update_same]; exact .leaving hb hr hm ho hq
          · simp only [update_ne _ _ hu]; exact h.top u
        · by_cases hx : x = a
          · subst hx
            simp only [update_same, reduceCtorEq, iff_false]
            by_cases hu : u = t
            · subst hu; rw [update_same]; exact hna
            · rw [update_ne _ _ hu, h.holds]
              intro hc
              have := (h.holds t x).1 (by rw [hh']; exact List.mem_cons_self)
              rw [hc] at this
              exact hu (Option.some.inj this)
          · dsimp only
            rw [update_ne _ _ hx, ← h.holds]
            by_cases hu : u = t
            · subst hu; rw [update_same, hh']; simp [hx]
            · rw [update_ne _ _ hu]
      | act hf hk =>
        simp only [next, hst, Option.some.injEq, Prod.mk.injEq] at hn
        obtain ⟨rfl, rfl⟩ := hn
        refine ⟨held, h.change t rfl (keep _) ?_ (boxes_update h a (hf _ (h.fits a)))⟩
        rw [hh]
        simp only [update_same]
        exact .below (.frame hb hr (hk _ (h.fits a)) hm ho)
      | push hp hk =>
        simp only [next, hst, Option.some.injEq, Prod.mk.injEq] at hn
        obtain ⟨rfl, rfl⟩ := hn
        refine ⟨held, h.change t rfl (keep _) ?_ (boxes_update h a (boxFit_push _ hp (h.fits a)))⟩
        rw [hh]
        simp only [update_same]
        exact .below (.frame hb hr hk hm ho)
      | take hk =>
        simp only [next, hst, Option.some.injEq, Prod.mk.injEq] at hn
        obtain ⟨rfl, rfl⟩ := hn
        refine ⟨held, h.change t rfl (keep _) ?_ (boxes_update h a (boxFit_pop _ (h.fits a)))⟩
        rw [hh]
        simp only [update_same]
        exact .below (.frame hb hr hk hm ho)
      | pop hk =>
        rename_i i k
        have hb' : Below rank dtor (.frame a o k :: s) (a :: hs) := .frame hb hr hk hm ho
        simp only [next, hst, Option.some.injEq, Prod.mk.injEq] at hn
        obtain ⟨rfl, rfl⟩ := hn
        cases hfr : front i (c.boxes a) with
        | none =>
          refine ⟨held, h.change t rfl (keep _) ?_ (boxes_update h a (boxFit_pop _ (h.fits a)))⟩
          rw [hh]
          simp only [update_same]
          exact .below hb'
        | some p =>
          refine ⟨held, h.change t rfl (keep _) ?_ (boxes_update h a (boxFit_pop _ (h.fits a)))⟩
          rw [hh]
          simp only [Conf.lose, update_same]
          have hp : Fits rank dtor a p := front_fit (h.fits a) hfr
          split
          · refine .below (.dtor hb' fun y hy x hx => ?_)
            rcases List.mem_cons.1 hy with rfl | hy
            · exact hp x hx
            · exact Nat.lt_trans (hr y hy) (hp x hx)
          · exact .below hb'
  | wants hb hr hm ho =>
    rename_i s a o
    obtain ⟨k, hk, hi⟩ := method_inside (fit := Fits rank dtor a) a o ho hm
    rw [hk] at hst
    simp only [next, hst] at hn
    split at hn
    · rename_i hfree
      simp only [Option.some.injEq, Prod.mk.injEq] at hn
      obtain ⟨rfl, rfl⟩ := hn
      refine ⟨update held t (a :: hs), fun u => ?_, fun u x => ?_, h.fits⟩
      · by_cases hu : u = t
        · subst hu; simp only [update_same]; exact .below (.frame hb hr hi hm ho)
        · simp only [update_ne _ _ hu]; exact h.top u
      · by_cases hx : x = a
        · subst hx
          simp only [update_same, Option.some.injEq]
          by_cases hu : u = t
          · subst hu; simp [update_same]
          · rw [update_ne _ _ hu, h.holds, hfree]
            simp [Ne.symm hu]
        · dsimp only
          rw [update_ne _ _ hx, ← h.holds]
          by_cases hu : u = t
          · subst hu; rw [update_same, hh]; simp [hx]
          · rw [update_ne _ _ hu]
    · cases hn
  | leaving hb hr hm ho hq =>
    rename_i s a o r
    cases s with
    | nil =>
      simp only [next, hst, Option.some.injEq, Prod.mk.injEq] at hn
      obtain ⟨rfl, rfl⟩ := hn
      cases hb
      refine ⟨held, h.change t rfl (keep _) ?_ h.fits⟩
      rw [hh]
      simp only [update_same]
      exact .below (.release .nil fun y hy => by cases hy)
    | cons x s =>
      have hcases : l = .ret t a o r ∧ c' = c.setStack t (.release (o.args ++ resultOf r) :: x :: s) := by
        cases r <;> simp only [next, hst, Option.some.injEq, Prod.mk.injEq, reduceCtorEq] at hn <;>
          (obtain ⟨rfl, rfl⟩ := hn; simp)
      obtain ⟨rfl, rfl⟩ := hcases
      refine ⟨held, h.change t rfl (keep _) ?_ h.fits⟩
      rw [hh]
      simp only [Conf.setStack, update_same]
      refine .below (.release hb fun y hy p hp => ?_)
      rcases List.mem_append.1 hp with hp | hp
      · exact (hm p hp).up (hr y hy)
      · exact (hq p hp).up (hr y hy)

theorem next_stack {c c' : Conf P} {l : Label P} {t : Nat} (hn : next dtor c t = some (l, c')) (u : Nat) (hu : u ≠ t) :
    c'.stack u = c.stack u := by
  rw [next] at hn
  repeat' split at hn
  all_goals first
    | (cases hn; done)
    | (simp only [Option.some.injEq, Prod.mk.injEq] at hn
       obtain ⟨rfl, rfl⟩ := hn
       first
         | exact update_ne _ _ hu
         | (split <;> exact update_ne _ _ hu))

omit [DecidableEq P] in
theorem puts_fit {a : Addr} {o : Call P} (h : ∀ p subs, o = .op (.put (some p) subs) → Fits rank dtor a p) :
    ∀ p ∈ Call.args o, Fits rank dtor a p := by
  intro p hp
  cases o with
  | subscribeFails => simp [Call.args] at hp
  | op o =>
    cases o <;> try (simp [Call.args] at hp; done)
    rename_i msg subs
    cases msg with
    | none => simp [Call.args] at hp
    | some m =>
      simp only [Call.args, List.mem_singleton] at hp
      subst hp
      exact h p subs rfl

omit [DecidableEq P] in
theorem _root_.SoDa.Spec.Upwards.front {ls : List (Label P)} {l : Label P} (h : Upwards rank dtor (ls ++ [l])) : Upwards rank dtor ls :=
  ⟨fun t a p subs hm => h.puts t a p subs (List.mem_append_left _ hm), fun t a hm => h.memory t a (List.mem_append_left _ hm)⟩

theorem steps_inv {name : Addr → Str} {ls : List (Label P)} {c : Conf P} (h : Steps dtor name ls c) (ho : Upwards rank dtor ls) :
    ∃ held, Inv rank dtor c held := by
  induction h with
  | init => exact ⟨fun _ => [], fun _ => .below .nil, fun _ _ => by simp, fun a kq hk => by cases hk⟩
  | make _ _ _ ih =>
    obtain ⟨held, h⟩ := ih ho.front
    exact ⟨held, h.top, h.holds, h.fits⟩
  | copy _ _ _ ih =>
    obtain ⟨held, h⟩ := ih ho.front
    exact ⟨held, h.top, h.holds, h.fits⟩
  | release hs hst hpos ih =>
    rename_i t p
    obtain ⟨held, h⟩ := ih ho.front
    refine ⟨held, h.change t rfl (fun u hu => update_ne _ _ hu) ?_ h.fits⟩
    have ht := h.top t
    rw [hst] at ht
    dsimp only
    rw [update_same]
    generalize held t = hs at ht ⊢
    cases ht with
    | below hb => cases hb; exact .below (.release .nil fun y hy => by cases hy)
  | call hs hst hpos ih =>
    rename_i t a o
    obtain ⟨held, h⟩ := ih ho.front
    refine ⟨held, h.change t rfl (fun u hu => update_ne _ _ hu) ?_ h.fits⟩
    have ht := h.top t
    rw [hst] at ht
    simp only [Conf.enter]
    rw [update_same]
    generalize held t = hs at ht ⊢
    cases ht with
    | below hb =>
      cases hb
      refine .wants .nil (fun y hy => by cases hy) (puts_fit fun p subs e => ho.puts t a p subs (by simp [e])) ?_
      rintro rfl
      exact ho.memory t a (by simp)
  | go hs hn ih =>
    obtain ⟨held, h⟩ := ih ho.front
    exact next_inv h hn (fun a p subs e => ho.puts _ a p subs (List.mem_append_right _ (by rw [e]; exact List.mem_singleton.2 rfl)))
      (fun a e => ho.memory _ a (List.mem_append_right _ (by rw [e]; exact List.mem_singleton.2 rfl)))

/-- Only finitely many threads have something to do. -/
theorem steps_finite {name : Addr → Str} {ls : List (Label P)} {c : Conf P} (h : Steps dtor name ls c) :
    ∃ ts : List Nat, ∀ t, t ∉ ts → c.stack t = [] := by
  induction h with
  | init => exact ⟨[], fun _ _ => rfl⟩
  | make _ _ _ ih => exact ih
  | copy _ _ _ ih => exact ih
  | release hs hst hpos ih =>
    rename_i t p
    obtain ⟨ts, h⟩ := ih
    exact ⟨t :: ts, fun u hu => by
      dsimp only
      rw [update_ne _ _ (show u ≠ t from fun e => hu (by rw [e]; exact List.mem_cons_self)), h u fun hx => hu (List.mem_cons_of_mem _ hx)]⟩
  | call hs hst hpos ih =>
    rename_i t a o
    obtain ⟨ts, h⟩ := ih
    exact ⟨t :: ts, fun u hu => by
      simp only [Conf.enter]
      rw [update_ne _ _ (show u ≠ t from fun e => hu (by rw [e]; exact List.mem_cons_self)), h u fun hx => hu (List.mem_cons_of_mem _ hx)]⟩
  | go hs hn ih =>
    rename_i c t l c'
    obtain ⟨ts, h⟩ := ih
    refine ⟨t :: ts, fun u hu => ?_⟩
    rw [next_stack hn u (fun e => hu (e ▸ List.mem_cons_self)), h u fun hx => hu (List.mem_cons_of_mem _ hx)]

end SoDa.Mail.Guard
