import Verif.Proof.MailBoxPtrStart
/-!
Threads that run one after the other, and what must be true of them if nothing goes wrong in any order.
-/
namespace SoDa.Mail
open Spec PState

variable {P : Type}

/-- Nothing goes wrong, in whatever order the threads go on. -/
def AllOk (alloc : PState P → Addr) (σ : PState P) : Prop := ∀ sched, ∃ σ', σ.run alloc sched = .ok σ'

theorem AllOk.step {alloc : PState P → Addr} {σ : PState P} (h : AllOk alloc σ) {t : Nat} {r : Res Unit (PState P)}
    (hs : σ.step alloc t = some r) : ∃ σ', r = .ok σ' ∧ AllOk alloc σ' := by
  have hr : ∀ sched, ∃ σ', (r.bind fun σ' => σ'.run alloc sched) = .ok σ' := by
    intro sched
    have := h (t :: sched)
    rw [PState.run, hs] at this
    exact this
  cases r with
  | ok σ1 => exact ⟨σ1, rfl, hr⟩
  | throw e => obtain ⟨_, h⟩ := hr []; cases h
  | ub => obtain ⟨_, h⟩ := hr []; cases h

theorem step_busy (alloc : PState P → Addr) {σ : PState P} {t : Nat} (ht : t < σ.n) {p : Pending P} (hp : (σ.thr t).busy = some p) :
    σ.step alloc t = some (σ.finish t p) := by
  simp only [PState.step, ht, if_true, hp]

theorem step_put_busy (alloc : PState P → Addr) {σ : PState P} {t : Nat} (ht : t < σ.n) {th : PThread P} {p : Pending P}
    (hp : th.busy = some p) : (σ.put t th).step alloc t = some ((σ.put t th).finish t p) :=
  step_busy alloc (σ := σ.put t th) ht (by simpa using hp)

theorem step_begin (alloc : PState P → Addr) {σ : PState P} {t : Nat} (ht : t < σ.n) (hb : (σ.thr t).busy = none) {st : PStmt P}
    {rest : List (PStmt P)} (htd : (σ.thr t).todo = st :: rest) :
    σ.step alloc t = some ((σ.put t { σ.thr t with todo := rest }).begin alloc t st) := by
  simp only [PState.step, ht, if_true, hb, htd]

/-- Calls neither make nor destroy mailboxes. -/
theorem exec_alive (w : World P) (a : Addr) (o : Op P) (x : Addr) : (w.exec (.call a o)).1 x ≠ none ↔ w x ≠ none := by
  simp only [World.exec]
  cases hb : w a with
  | none => rfl
  | some b =>
    simp only
    rcases exec a b o with ⟨b', r⟩
    have := set_alive (b' := b') hb x
    cases r with
    | threw e =>
      cases e with
      | mismatch m t => simp only; split <;> rfl
      | missing n p i => exact this
    | _ => exact this

theorem drop_alive (w : World P) (v : Sub) (x : Addr) : (w.exec (.drop v)).1 x ≠ none ↔ w x ≠ none := by
  simp only [World.exec]
  cases hb : w v.box with
  | none => rfl
  | some b => exact set_alive hb x

/-- A thread between two statements. -/
structure SInv (th : PThread P) (l : Vars) (ρ : Nat → Addr) (made : List Addr) : Prop where
  ptr : ∀ x, th.ptr x = (l.ptr x).map ρ
  sub : Subs th l ρ
  low : ∀ x k, l.ptr x = some k → k < l.next
  lowS : ∀ s k, l.sub s = some k → k < l.next
  inj : ∀ k k', k < l.next → k' < l.next → ρ k = ρ k' → k = k'
  made : ∀ k, k < l.next → ρ k ∈ made

/-- What one statement of one thread changes. -/
structure Moved (alloc : PState P → Addr) (t : Nat) (σ σ' : PState P) : Prop where
  ok : AllOk alloc σ'
  counted : PtrCounted σ'
  n : σ'.n = σ.n
  other : ∀ u, u ≠ t → σ'.thr u = σ.thr u
  busy : (σ'.thr t).busy = none
  made : ∀ a ∈ σ.made, a ∈ σ'.made
  dead : ∀ a ∈ σ.made, σ.world a = none → σ'.world a = none
  sub : ∀ s b, (σ.thr t).sub s = some b → σ.world b.box = none → ∃ s', (σ'.thr t).sub s' = some b

/-- The end of a statement that assigns to a subscription. -/
theorem solo_drop {alloc : PState P → Addr} {σ σ2 : PState P} {t : Nat} (ht : t < σ.n) (hc : PtrCounted σ) (hb : (σ.thr t).busy = none)
    {old : Option Sub} (he : σ.dropOld t old = .ok σ2) (hA : AllOk alloc σ2) :
    ∃ σ3, AllOk alloc σ3 ∧ PtrCounted σ3 ∧ σ3.thr = σ.thr ∧ σ3.n = σ.n ∧ σ3.made = σ.made ∧ (∀ a, σ3.world a ≠ none ↔ σ.world a ≠ none) ∧
      ∀ b, old = some b → σ.world b.box ≠ none := by
  cases old with
  | none =>
    cases he
    exact ⟨σ, hA, hc, rfl, rfl, rfl, fun _ => Iff.rfl, fun _ h => by cases h⟩
  | some b =>
    simp only [PState.dropOld, PState.enter, Pending.on] at he
    cases hw : σ.world b.box with
    | none => rw [hw] at he; cases he
    | some B =>
      rw [hw] at he
      cases he
      obtain ⟨σ3, e, hA3⟩ := hA.step (step_put_busy alloc ht (p := .drop b) rfl)
      have hal := drop_alive σ.world b
      have hth : ({ σ.thr t with busy := none } : PThread P) = σ.thr t := by
        cases hh : σ.thr t; simp_all
      have : σ3 = PState.put { σ with world := (σ.world.exec (.drop b)).1 } t (σ.thr t) := by
        simp only [PState.finish, put_world, put_self] at e
        split at e
        · cases e
        · cases e
        · simp only [Res.ok.injEq] at e
          rw [← e]
          refine (put_put { σ with world := (σ.world.exec (.drop b)).1 } t _ _).trans ?_
          rw [← hth]
      subst this
      refine ⟨_, hA3, hc.world ht hal rfl, ?_, rfl, rfl, hal, fun b' h => by cases h; simp [hw]⟩
      funext u
      by_cases hu : u = t
      · subst hu; simp
      · rw [put_other _ _ hu]

theorem PtrCounted.todo {σ : PState P} (h : PtrCounted σ) {t : Nat} (ht : t < σ.n) (rest : List (PStmt P)) :
    PtrCounted (σ.put t { σ.thr t with todo := rest }) := h.world (w' := σ.world) ht (fun _ => Iff.rfl) rfl

/-- A change of the subscriptions of one thread. -/
theorem PtrCounted.subs {σ : PState P} (h : PtrCounted σ) {t : Nat} (ht : t < σ.n) {th : PThread P} (hp : th.ptr = (σ.thr t).ptr) :
    PtrCounted (σ.put t th) := h.world (w' := σ.world) ht (fun _ => Iff.rfl) hp

/-- A statement that assigns to a pointer. -/
theorem solo_ptr {alloc : PState P → Addr} (hal : ∀ σ : PState P, PtrCounted σ → alloc σ ∉ σ.made ∧ σ.world (alloc σ) = none) {σ : PState P}
    (hA : AllOk alloc σ) (hc : PtrCounted σ) {t : Nat} (ht : t < σ.n) (hb : (σ.thr t).busy = none) {st : PStmt P} {rest : List (PStmt P)}
    (htd : (σ.thr t).todo = st :: rest) {l : Vars} {ρ : Nat → Addr} (hs : SInv (σ.thr t) l ρ σ.made)
    {x : Nat} {o : Option Addr} (ho : newPtr alloc (σ.put t { σ.thr t with todo := rest }) t st = some (x, o)) :
    ∃ σ' ρ', Moved alloc t σ σ' ∧ (σ'.thr t).todo = rest ∧ SInv (σ'.thr t) (l.after st) ρ' σ'.made := by
  obtain ⟨hm, hw⟩ := hal _ (hc.todo ht rest)
  obtain ⟨σ1, e1, hA1⟩ := hA.step (step_begin alloc ht hb htd)
  rcases beginPtr hw (hc.todo ht rest) (by simpa using ht) ho with ⟨σ', e, hc', f1, f2, f3, f4, f5⟩ | ⟨e, -⟩
  · rw [e] at e1
    obtain rfl := Res.ok.inj e1
    have hself : σ'.thr t = ({ σ.thr t with todo := rest } : PThread P).setPtr x o := by rw [f1]; simp
    have hdead : ∀ a ∈ σ.made, σ.world a = none → σ'.world a = none := by
      intro a ha hn
      cases hB : σ'.world a with
      | none => rfl
      | some B =>
        rcases f5 a B hB with h | ⟨y, name, -, rfl, -⟩
        · rw [put_world, hn] at h; cases h
        · exact absurd ha hm
    have hmv : Moved alloc t σ σ' := by
      refine ⟨hA1, hc', f2, fun u hu => ?_, by rw [hself]; exact hb, f3, hdead, fun s b hsb _ => ⟨s, by rw [hself]; exact hsb⟩⟩
      rw [f1, put_other _ _ hu, put_other _ _ hu]
    cases st with
    | make y name =>
      simp only [newPtr, Option.some.injEq, Prod.mk.injEq] at ho
      obtain ⟨rfl, rfl⟩ := ho
      refine ⟨σ', fun k => if k = l.next then alloc (σ.put t { σ.thr t with todo := rest }) else ρ k, hmv, by rw [hself]; rfl, ?_⟩
      rw [hself]
      refine ⟨fun z => ?_, fun s => ?_, fun z k hk => ?_, fun s k hk => ?_, fun k k' hk hk' hkk => ?_, fun k hk => ?_⟩
      · simp only [PThread.setPtr, Vars.after, assign]
        by_cases hz : z = y
        · simp [hz]
        · simp only [hz, if_false, hs.ptr z]
          cases hk : l.ptr z with
          | none => rfl
          | some k =>
            have := hs.low z k hk
            simp [show k ≠ l.next by omega]
      · simp only [PThread.setPtr, Vars.after]
        have := hs.sub s
        rw [this]
        cases hk : l.sub s with
        | none => rfl
        | some k =>
          have := hs.lowS s k hk
          simp [show k ≠ l.next by omega]
      · simp only [Vars.after, assign] at hk ⊢
        split at hk
        · cases hk; omega
        · have := hs.low z k hk; omega
      · have := hs.lowS s k hk
        simp only [Vars.after]; omega
      · simp only [Vars.after] at hk hk' hkk
        split at hkk <;> split at hkk
        · omega
        · rename_i h1 h2
          exact absurd (hkk ▸ hs.made k' (by omega)) hm
        · rename_i h1 h2
          exact absurd (hkk ▸ hs.made k (by omega)) hm
        · exact hs.inj k k' (by omega) (by omega) hkk
      · simp only [Vars.after] at hk
        simp only
        split
        · exact f4 y name rfl
        · exact f3 _ (hs.made k (by omega))
    | copy y z =>
      simp only [newPtr, Option.some.injEq, Prod.mk.injEq, put_self] at ho
      obtain ⟨rfl, rfl⟩ := ho
      refine ⟨σ', ρ, hmv, by rw [hself]; rfl, ?_⟩
      rw [hself]
      refine ⟨fun w => ?_, hs.sub, fun w k hk => ?_, hs.lowS, hs.inj, fun k hk => f3 _ (hs.made k hk)⟩
      · simp only [PThread.setPtr, Vars.after, assign]
        split <;> exact hs.ptr _
      · simp only [Vars.after, assign] at hk ⊢
        split at hk <;> exact hs.low _ k hk
    | reset y =>
      simp only [newPtr, Option.some.injEq, Prod.mk.injEq] at ho
      obtain ⟨rfl, rfl⟩ := ho
      refine ⟨σ', ρ, hmv, by rw [hself]; rfl, ?_⟩
      rw [hself]
      refine ⟨fun w => ?_, hs.sub, fun w k hk => ?_, hs.lowS, hs.inj, fun k hk => f3 _ (hs.made k hk)⟩
      · simp only [PThread.setPtr, Vars.after, assign]
        split
        · rfl
        · exact hs.ptr _
      · simp only [Vars.after, assign] at hk ⊢
        split at hk
        · cases hk
        · exact hs.low _ k hk
    | subscribe s x => simp [newPtr] at ho
    | drop s => simp [newPtr] at ho
    | move s s' => simp [newPtr] at ho
    | call x c => simp [newPtr] at ho
  · rw [e] at e1; cases e1

/-- A call with a null pointer for the subscription. -/
theorem call_null {w : World P} {a : Addr} (c : PCall P) {sub : Nat → Option Sub}
    (h : ¬match c with
      | .get s => sub s ≠ none
      | .readyCount s => sub s ≠ none
      | .clear s => sub s ≠ none
      | _ => True) : (w.exec (.call a (c.op sub))).2 = .ub := by
  cases hw : w a with
  | none => simp [World.exec, hw]
  | some b =>
    cases c with
    | get s =>
      have h : sub s = none := by simpa using h
      simp [World.exec, hw, PCall.op, h, exec, Box.get, Box.getQueue, getIndex, ofRes, Res.bind]
    | readyCount s =>
      have h : sub s = none := by simpa using h
      simp [World.exec, hw, PCall.op, h, exec, Box.readyCount, Box.getQueue, getIndex, ofRes, Res.bind, Res.map]
    | clear s =>
      have h : sub s = none := by simpa using h
      simp [World.exec, hw, PCall.op, h, exec, Box.clear, Box.getQueue, getIndex, ofRes, Res.bind, Res.map]
    | put m s => simp at h
    | minReadyCount => simp at h
    | subscriberCount => simp at h

/-- One statement of one thread. -/
theorem solo {alloc : PState P → Addr} (hal : ∀ σ : PState P, PtrCounted σ → alloc σ ∉ σ.made ∧ σ.world (alloc σ) = none) {σ : PState P}
    (hA : AllOk alloc σ) (hc : PtrCounted σ) {t : Nat} (ht : t < σ.n) (hb : (σ.thr t).busy = none) {st : PStmt P} {rest : List (PStmt P)}
    (htd : (σ.thr t).todo = st :: rest) {l : Vars} {ρ : Nat → Addr} (hs : SInv (σ.thr t) l ρ σ.made) :
    l.NonNull st ∧ ∃ σ' ρ', Moved alloc t σ σ' ∧ (σ'.thr t).todo = rest ∧ SInv (σ'.thr t) (l.after st) ρ' σ'.made := by
  obtain ⟨σ1, e1, hA1⟩ := hA.step (step_begin alloc ht hb htd)
  -- the end of a statement that assigns to a subscription
  have hend : ∀ (w' : World P) (th : PThread P) (old : Option Sub) (σ2 : PState P), (∀ a, w' a ≠ none ↔ σ.world a ≠ none) →
      th.ptr = (σ.thr t).ptr → th.busy = none → th.todo = rest → SInv th (l.after st) ρ σ.made →
      (∀ s b, (σ.thr t).sub s = some b → (∃ s', th.sub s' = some b) ∨ old = some b) →
      (PState.put { σ with world := w' } t th).dropOld t old = .ok σ2 → AllOk alloc σ2 →
      ∃ σ' ρ', Moved alloc t σ σ' ∧ (σ'.thr t).todo = rest ∧ SInv (σ'.thr t) (l.after st) ρ' σ'.made := by
    intro w' th old σ2 hw hp hbn htd' hS hold he hA2
    obtain ⟨σ3, hA3, hc3, f1, f2, f3, f4, f5⟩ := solo_drop (σ := PState.put { σ with world := w' } t th) (t := t) ht (hc.world ht hw hp)
      (by simpa using hbn) he hA2
    have hself : σ3.thr t = th := by rw [f1]; simp
    refine ⟨σ3, ρ, ⟨hA3, hc3, f2, fun u hu => ?_, by rw [hself]; exact hbn, fun a ha => by rw [f3]; exact ha, fun a _ hn => ?_,
      fun s b hsb hn => ?_⟩, by rw [hself]; exact htd', by rw [hself, f3]; exact hS⟩
    · rw [f1, put_other _ _ hu]
    · by_contra h3
      exact (hw a).1 ((f4 a).1 h3) hn
    · rcases hold s b hsb with ⟨s', h⟩ | h
      · exact ⟨s', by rw [hself]; exact h⟩
      · exact absurd hn ((hw b.box).1 (f5 b h))
  cases st with
  | make y name => exact ⟨trivial, solo_ptr hal hA hc ht hb htd hs rfl⟩
  | copy y z => exact ⟨trivial, solo_ptr hal hA hc ht hb htd hs rfl⟩
  | reset y => exact ⟨trivial, solo_ptr hal hA hc ht hb htd hs rfl⟩
  | drop s =>
    refine ⟨trivial, hend σ.world (({ σ.thr t with todo := rest } : PThread P).setSub s none) ((σ.thr t).sub s) σ1 (fun _ => Iff.rfl) rfl hb rfl
      ⟨hs.ptr, fun s' => ?_, hs.low, fun s' k hk => ?_, hs.inj, hs.made⟩ (fun s' b hsb => ?_) ?_ hA1⟩
    · simp only [PThread.setSub, Vars.after, assign]
      split
      · rfl
      · exact hs.sub s'
    · simp only [Vars.after, assign] at hk
      split at hk
      · cases hk
      · exact hs.lowS s' k hk
    · by_cases h : s' = s
      · right; rw [← h]; exact hsb
      · left; exact ⟨s', by simp [PThread.setSub, h, hsb]⟩
    · simpa [PState.begin] using e1
  | move s s' =>
    by_cases hss : s = s'
    · have e : l.after (.move s s' : PStmt P) = l := by simp [Vars.after, hss]
      simp only [PState.begin, hss, if_true, Res.ok.injEq] at e1
      subst e1
      refine ⟨trivial, σ.put t { σ.thr t with todo := rest }, ρ, ⟨hA1, hc.todo ht rest, rfl, fun u hu => put_other _ _ hu, by simpa using hb,
        fun a h => h, fun a _ h => h, fun s b h _ => ⟨s, by simpa using h⟩⟩, by simp, ?_⟩
      rw [e, put_self]
      exact ⟨hs.ptr, hs.sub, hs.low, hs.lowS, hs.inj, hs.made⟩
    · refine ⟨trivial, hend σ.world ((({ σ.thr t with todo := rest } : PThread P).setSub s' none).setSub s ((σ.thr t).sub s'))
        ((σ.thr t).sub s) σ1 (fun _ => Iff.rfl) rfl hb rfl ⟨?_, fun z => ?_, ?_, fun z k hk => ?_, ?_, ?_⟩ (fun z b hsb => ?_) ?_ hA1⟩
      · simp only [Vars.after, hss, if_false]; exact hs.ptr
      · simp only [PThread.setSub, Vars.after, assign, hss, if_false]
        split
        · exact hs.sub s'
        · split
          · rfl
          · exact hs.sub z
      · simp only [Vars.after, hss, if_false]; exact hs.low
      · simp only [Vars.after, assign, hss, if_false] at hk ⊢
        split at hk
        · exact hs.lowS s' k hk
        · split at hk
          · cases hk
          · exact hs.lowS z k hk
      · simp only [Vars.after, hss, if_false]; exact hs.inj
      · simp only [Vars.after, hss, if_false]; exact hs.made
      · by_cases h : z = s
        · right; rw [← h]; exact hsb
        · left
          by_cases h' : z = s'
          · exact ⟨s, by simp [PThread.setSub, ← h', hsb]⟩
          · exact ⟨z, by simp [PThread.setSub, h, h', hsb]⟩
      · simpa [PState.begin, hss] using e1
  | subscribe s x =>
    cases hx : (σ.thr t).ptr x with
    | none => simp [PState.begin, hx] at e1
    | some a =>
      have hnn : l.ptr x ≠ none := fun h => by
        have := hs.ptr x
        rw [hx, h] at this
        cases this
      refine ⟨hnn, ?_⟩
      obtain ⟨k, hk⟩ := Option.ne_none_iff_exists'.1 hnn
      have ha : a = ρ k := by
        have := hs.ptr x
        rw [hx, hk] at this
        exact Option.some.inj this
      obtain ⟨B, hB⟩ := Option.ne_none_iff_exists'.1 (hc.held hx)
      simp only [PState.begin, put_self, hx, PState.enter, Pending.on, put_world, hB, Res.ok.injEq, put_put] at e1
      subst e1
      obtain ⟨σ2, e2, hA2⟩ := hA1.step (step_put_busy alloc ht (p := .call a .subscribe (some s)) rfl)
      have hex : ∃ B' i, σ.world.exec (.call a .subscribe) = (σ.world.set a (some B'), .sub ⟨a, i⟩) := by
        simp only [PState.finish, put_world] at e2
        simp only [World.exec, hB, exec, Box.subscribe] at e2 ⊢
        by_cases hcn : B.counter = 2147483647
        · simp [hcn, ofRes] at e2
        · simp only [hcn, if_false, ofRes]
          exact ⟨_, _, rfl⟩
      obtain ⟨B', i, hex⟩ := hex
      simp only [PState.finish, put_world, hex, put_self] at e2
      refine hend (σ.world.set a (some B')) (({ σ.thr t with todo := rest, busy := none } : PThread P).setSub s (some ⟨a, i⟩)) ((σ.thr t).sub s) σ2
        (set_alive hB) rfl rfl rfl ⟨hs.ptr, fun z => ?_, hs.low, fun z k' hk' => ?_, hs.inj, hs.made⟩ (fun z b hsb => ?_) ?_ hA2
      · simp only [PThread.setSub, Vars.after, assign]
        split
        · rw [hk]; simp [ha]
        · exact hs.sub z
      · simp only [Vars.after, assign] at hk' ⊢
        split at hk'
        · exact hs.low x k' hk'
        · exact hs.lowS z k' hk'
      · by_cases h : z = s
        · right; rw [← h]; exact hsb
        · left; exact ⟨z, by simp [PThread.setSub, h, hsb]⟩
      · rw [← e2]
        congr 1
        exact (put_put { σ with world := σ.world.set a (some B') } t _ _).symm
  | call x c =>
    cases hx : (σ.thr t).ptr x with
    | none => simp [PState.begin, hx] at e1
    | some a =>
      have hnn : l.ptr x ≠ none := fun h => by
        have := hs.ptr x
        rw [hx, h] at this
        cases this
      obtain ⟨B, hB⟩ := Option.ne_none_iff_exists'.1 (hc.held hx)
      simp only [PState.begin, put_self, hx, PState.enter, Pending.on, put_world, hB, Res.ok.injEq, put_put] at e1
      subst e1
      obtain ⟨σ2, e2, hA2⟩ := hA1.step (step_put_busy alloc ht (p := .call a (c.op (σ.thr t).sub) none) rfl)
      have hsn : ∀ z, (σ.thr t).sub z ≠ none ↔ l.sub z ≠ none := by
        intro z
        have := hs.sub z
        cases h1 : (σ.thr t).sub z <;> cases h2 : l.sub z <;> simp_all
      have hnu : (σ.world.exec (.call a (c.op (σ.thr t).sub))).2 ≠ .ub := by
        intro h
        simp only [PState.finish, put_world, h] at e2
        cases e2
      refine ⟨⟨hnn, ?_⟩, ?_⟩
      · by_contra hcon
        refine hnu (call_null c fun h => hcon ?_)
        cases c with
        | get z => exact (hsn z).1 h
        | readyCount z => exact (hsn z).1 h
        | clear z => exact (hsn z).1 h
        | put m z => trivial
        | minReadyCount => trivial
        | subscriberCount => trivial
      · have hal' := exec_alive σ.world a (c.op (σ.thr t).sub)
        have e3 : σ2 = PState.put { σ with world := (σ.world.exec (.call a (c.op (σ.thr t).sub))).1 } t
            { σ.thr t with todo := rest, busy := none } := by
          simp only [PState.finish, put_world, put_self] at e2
          split at e2
          · cases e2
          · cases e2
          · rename_i h; cases h
          · simp only [Res.ok.injEq] at e2
            rw [← e2]
            exact put_put { σ with world := (σ.world.exec (.call a (c.op (σ.thr t).sub))).1 } t _ _
        subst e3
        refine hend (σ.world.exec (.call a (c.op (σ.thr t).sub))).1 { σ.thr t with todo := rest, busy := none } none _ hal' rfl rfl rfl
          ⟨hs.ptr, hs.sub, hs.low, hs.lowS, hs.inj, hs.made⟩ (fun z b h => .inl ⟨z, h⟩) rfl hA2

/-! ### A whole thread -/

theorem SInv.box {th : PThread P} {l : Vars} {ρ : Nat → Addr} {made : List Addr} (h : SInv th l ρ made) {s : Nat} {b : Sub}
    (hb : th.sub s = some b) : ∃ k, l.sub s = some k ∧ b.box = ρ k ∧ b.box ∈ made := by
  have := h.sub s
  rw [hb] at this
  cases hk : l.sub s with
  | none => rw [hk] at this; cases this
  | some k =>
    rw [hk] at this
    have e : b.box = ρ k := Option.some.inj this
    exact ⟨k, rfl, e, e ▸ h.made k (h.lowS s k hk)⟩

theorem solo_prog {alloc : PState P → Addr} (hal : ∀ σ : PState P, PtrCounted σ → alloc σ ∉ σ.made ∧ σ.world (alloc σ) = none) {t : Nat}
    (prog : List (PStmt P)) : ∀ {σ : PState P} {l : Vars} {ρ : Nat → Addr}, AllOk alloc σ → PtrCounted σ → t < σ.n → (σ.thr t).busy = none →
    (σ.thr t).todo = prog → SInv (σ.thr t) l ρ σ.made →
    l.Careful prog ∧ ∃ σ' ρ', Moved alloc t σ σ' ∧ (σ'.thr t).todo = [] ∧ SInv (σ'.thr t) (prog.foldl Vars.after l) ρ' σ'.made := by
  induction prog with
  | nil =>
    intro σ l ρ hA hc ht hb htd hs
    exact ⟨trivial, σ, ρ, ⟨hA, hc, rfl, fun _ _ => rfl, hb, fun _ h => h, fun _ _ h => h, fun s b h _ => ⟨s, h⟩⟩, htd, hs⟩
  | cons st rest ih =>
    intro σ l ρ hA hc ht hb htd hs
    obtain ⟨hnn, σ1, ρ1, m1, htd1, hs1⟩ := solo hal hA hc ht hb htd hs
    obtain ⟨hcar, σ2, ρ2, m2, htd2, hs2⟩ := ih m1.ok m1.counted (by rw [m1.n]; exact ht) m1.busy htd1 hs1
    refine ⟨⟨hnn, hcar⟩, σ2, ρ2, ⟨m2.ok, m2.counted, m2.n.trans m1.n, fun u hu => (m2.other u hu).trans (m1.other u hu), m2.busy,
      fun a ha => m2.made a (m1.made a ha), fun a ha hn => m2.dead a (m1.made a ha) (m1.dead a ha hn), fun s b h hn => ?_⟩, htd2, hs2⟩
    obtain ⟨s1, h1⟩ := m1.sub s b h hn
    exact m2.sub s1 b h1 (m1.dead _ (hs.box h).choose_spec.2.2 hn)

theorem solo_keeps {alloc : PState P → Addr} (hal : ∀ σ : PState P, PtrCounted σ → alloc σ ∉ σ.made ∧ σ.world (alloc σ) = none) {t : Nat}
    (prog : List (PStmt P)) : ∀ {σ : PState P} {l : Vars} {ρ : Nat → Addr}, AllOk alloc σ → PtrCounted σ → t < σ.n → (σ.thr t).busy = none →
    (σ.thr t).todo = prog → SInv (σ.thr t) l ρ σ.made → (∀ u, u ≠ t → ∀ x, (σ.thr u).ptr x = none) → l.Closed prog → l.Keeps prog := by
  have kept : ∀ (prog : List (PStmt P)) {σ : PState P} {l : Vars} {ρ : Nat → Addr}, AllOk alloc σ → PtrCounted σ → t < σ.n → (σ.thr t).busy = none →
      (σ.thr t).todo = prog → SInv (σ.thr t) l ρ σ.made → (∀ u, u ≠ t → ∀ x, (σ.thr u).ptr x = none) → l.Closed prog → l.Kept := by
    intro prog σ l ρ hA hc ht hb htd hs ho hcl s k hk
    by_contra hno
    obtain ⟨b, hbs, hbk⟩ : ∃ b, (σ.thr t).sub s = some b ∧ b.box = ρ k := by
      have := hs.sub s
      rw [hk] at this
      obtain ⟨b, h1, h2⟩ := Option.map_eq_some_iff.1 this
      exact ⟨b, h1, h2⟩
    have hdead : σ.world b.box = none := by
      refine hc.unheld fun u x hx => ?_
      by_cases hu : u = t
      · subst hu
        rw [hs.ptr] at hx
        obtain ⟨k', h1, h2⟩ := Option.map_eq_some_iff.1 hx
        have := hs.inj k' k (hs.low x k' h1) (hs.lowS s k hk) (h2.trans hbk)
        exact hno ⟨x, this ▸ h1⟩
      · rw [ho u hu x] at hx; cases hx
    obtain ⟨-, σ', ρ', m, -, hs'⟩ := solo_prog hal prog hA hc ht hb htd hs
    obtain ⟨s', h'⟩ := m.sub s b hbs hdead
    obtain ⟨k', h1, -⟩ := hs'.box h'
    rw [hcl.2 s'] at h1
    cases h1
  induction prog with
  | nil =>
    intro σ l ρ hA hc ht hb htd hs ho hcl
    exact kept [] hA hc ht hb htd hs ho hcl
  | cons st rest ih =>
    intro σ l ρ hA hc ht hb htd hs ho hcl
    obtain ⟨hnn, σ1, ρ1, m1, htd1, hs1⟩ := solo hal hA hc ht hb htd hs
    refine ⟨kept _ hA hc ht hb htd hs ho hcl, ih m1.ok m1.counted (by rw [m1.n]; exact ht) m1.busy htd1 hs1 (fun u hu x => ?_) hcl⟩
    rw [m1.other u hu]
    exact ho u hu x

/-! ### One thread after the other -/

theorem start_sinv {names : List Str} {threads : List (List Nat × List (PStmt P))}
    (hargs : ∀ th ∈ threads, ∀ a ∈ th.1, a < names.length) {t : Nat} {th : List Nat × List (PStmt P)} (h : threads[t]? = some th)
    {made : List Addr} (hm : ∀ a, a < names.length → a ∈ made) :
    SInv ((PState.start names threads).thr t) (Vars.initial names.length th.1) id made := by
  rw [start_thr h]
  refine ⟨fun x => ?_, fun s => rfl, fun x k hk => hargs th (List.mem_of_getElem? h) k (List.mem_of_getElem? hk), ?_, fun _ _ _ _ h => h, hm⟩
  · simp [Vars.initial]
  · intro s k hk; cases hk

theorem others {alloc : PState P → Addr} (hal : ∀ σ : PState P, PtrCounted σ → alloc σ ∉ σ.made ∧ σ.world (alloc σ) = none)
    {names : List Str} {threads : List (List Nat × List (PStmt P))} (hargs : ∀ th ∈ threads, ∀ a ∈ th.1, a < names.length)
    (hcl : ∀ th ∈ threads, (Vars.initial names.length th.1).Closed th.2) (us : List Nat) : ∀ {σ : PState P}, us.Nodup → AllOk alloc σ → PtrCounted σ →
    σ.n = threads.length → (∀ u ∈ us, u < threads.length) → (∀ u ∈ us, σ.thr u = (PState.start names threads).thr u) →
    (∀ a, a < names.length → a ∈ σ.made) →
    ∃ σ' : PState P, AllOk alloc σ' ∧ PtrCounted σ' ∧ σ'.n = threads.length ∧ (∀ v, v ∉ us → σ'.thr v = σ.thr v) ∧
      (∀ u ∈ us, ∀ x, (σ'.thr u).ptr x = none) ∧ ∀ a, a < names.length → a ∈ σ'.made := by
  induction us with
  | nil =>
    intro σ _ hA hc hn _ _ hm
    exact ⟨σ, hA, hc, hn, fun _ _ => rfl, by simp, hm⟩
  | cons u us ih =>
    intro σ hnd hA hc hn hlt hsame hm
    obtain ⟨hu, hnd'⟩ := List.nodup_cons.1 hnd
    have hul := hlt u List.mem_cons_self
    have hth := List.getElem?_eq_getElem hul
    have hthr := hsame u List.mem_cons_self
    have hs := start_sinv hargs hth hm
    rw [← hthr] at hs
    rw [start_thr hth] at hthr
    obtain ⟨-, σ1, ρ1, m, -, hs1⟩ := solo_prog hal threads[u].2 hA hc (by rw [hn]; exact hul) (by rw [hthr]) (by rw [hthr]) hs
    obtain ⟨σ2, hA2, hc2, hn2, ho2, hp2, hm2⟩ := ih hnd' m.ok m.counted (m.n.trans hn) (fun v hv => hlt v (List.mem_cons_of_mem _ hv))
      (fun v hv => (m.other v (fun e => hu (e ▸ hv))).trans (hsame v (List.mem_cons_of_mem _ hv))) (fun a ha => m.made a (hm a ha))
    refine ⟨σ2, hA2, hc2, hn2, fun v hv => ?_, fun v hv x => ?_, hm2⟩
    · rw [List.mem_cons, not_or] at hv
      rw [ho2 v hv.2, m.other v hv.1]
    · rcases List.mem_cons.1 hv with rfl | hv
      · rw [ho2 v hu, hs1.ptr x, (hcl _ (List.getElem_mem hul)).1 x]; rfl
      · exact hp2 v hv x

theorem exact_only {alloc : PState P → Addr} (hal : ∀ σ : PState P, PtrCounted σ → alloc σ ∉ σ.made ∧ σ.world (alloc σ) = none)
    {names : List Str} {threads : List (List Nat × List (PStmt P))} (hargs : ∀ th ∈ threads, ∀ a ∈ th.1, a < names.length)
    (hcl : ∀ th ∈ threads, (Vars.initial names.length th.1).Closed th.2) (hA : AllOk alloc (PState.start names threads)) :
    ∀ th ∈ threads, (Vars.initial names.length th.1).Careful th.2 ∧ (Vars.initial names.length th.1).Keeps th.2 := by
  intro th hth
  obtain ⟨t, ht, rfl⟩ := List.mem_iff_getElem.1 hth
  have hget := List.getElem?_eq_getElem ht
  obtain ⟨σ, hA', hc, hn, ho, hp, hm⟩ := others hal hargs hcl ((List.range threads.length).filter (· ≠ t)) (σ := PState.start names threads)
    (List.nodup_range.filter _) hA (start_counted hargs) rfl (fun u hu => by simpa using (List.mem_filter.1 hu).1) (fun _ _ => rfl)
    (fun a ha => List.mem_range.2 ha)
  have hthr : σ.thr t = (PState.start names threads).thr t := ho t (by simp)
  have hs := start_sinv hargs hget hm
  rw [← hthr] at hs
  rw [start_thr hget] at hthr
  have htn : t < σ.n := by rw [hn]; exact ht
  refine ⟨(solo_prog hal _ hA' hc htn (by rw [hthr]) (by rw [hthr]) hs).1,
    solo_keeps hal _ hA' hc htn (by rw [hthr]) (by rw [hthr]) hs (fun u hu x => ?_) (hcl _ hth)⟩
  by_cases hul : u < threads.length
  · exact hp u (List.mem_filter.2 ⟨List.mem_range.2 hul, by simpa using hu⟩) x
  · exact (hc.beyond u (by rw [hn]; omega)).1 x

/-! ### Memory that is never used again -/

open Classical in
/-- An address that has never been used. -/
noncomputable def freshAddr (σ : PState P) : Addr :=
  if σ.world (σ.made.sum + 1) = none then σ.made.sum + 1
  else if h : ∃ a, σ.world a = none then h.choose else 0

theorem freshAddr_allocates : Allocates (freshAddr : PState P → Addr) := by
  intro σ h
  unfold freshAddr
  split
  · assumption
  · exact h.choose_spec

theorem freshAddr_fresh (σ : PState P) (h : PtrCounted σ) : freshAddr σ ∉ σ.made ∧ σ.world (freshAddr σ) = none := by
  have hm : σ.made.sum + 1 ∉ σ.made := fun hm => Nat.not_succ_le_self _ (List.le_sum_of_mem hm)
  have hw : σ.world (σ.made.sum + 1) = none := by_contra fun hw => hm (h.made _ hw)
  have e : freshAddr σ = σ.made.sum + 1 := by unfold freshAddr; rw [if_pos hw]
  rw [e]
  exact ⟨hm, hw⟩

/-! ### The pointers at the end -/

theorem release_thr {σ σ' : PState P} {o : Option Addr} (h : σ.release o = .ok σ') : σ'.thr = σ.thr ∧ σ'.n = σ.n := by
  cases o with
  | none => cases h; exact ⟨rfl, rfl⟩
  | some a =>
    simp only [PState.release] at h
    split at h
    · split at h
      · cases h
      · cases h; exact ⟨rfl, rfl⟩
    · cases h; exact ⟨rfl, rfl⟩

/-- The pointers of the threads are null where a look at the thread alone says so, and at the end all will be. -/
def Ending (σ : PState P) : Prop := ∀ t, ∃ l : Vars, (∀ x, (σ.thr t).ptr x = none ↔ l.ptr x = none) ∧
  ∀ x, ((σ.thr t).todo.foldl Vars.after l).ptr x = none

theorem Ending.put {σ σ' : PState P} (h : Ending σ) {t : Nat} (ho : ∀ u, u ≠ t → σ'.thr u = σ.thr u)
    (ht : ∃ l : Vars, (∀ x, (σ'.thr t).ptr x = none ↔ l.ptr x = none) ∧ ∀ x, ((σ'.thr t).todo.foldl Vars.after l).ptr x = none) : Ending σ' := by
  intro u
  by_cases hu : u = t
  · subst hu; exact ht
  · rw [ho u hu]; exact h u

theorem dropOld_thr {σ σ' : PState P} {t : Nat} {o : Option Sub} (h : σ.dropOld t o = .ok σ') : (∀ u, u ≠ t → σ'.thr u = σ.thr u) ∧
    (σ'.thr t).ptr = (σ.thr t).ptr ∧ (σ'.thr t).todo = (σ.thr t).todo := by
  cases o with
  | none => cases h; exact ⟨fun _ _ => rfl, rfl, rfl⟩
  | some b =>
    simp only [PState.dropOld, PState.enter] at h
    split at h
    · cases h
    · cases h
      exact ⟨fun u hu => put_other _ _ hu, by simp, by simp⟩

theorem ending_step {alloc : PState P → Addr} {σ σ' : PState P} (h : Ending σ) {t : Nat} (hs : σ.step alloc t = some (.ok σ')) : Ending σ' := by
  obtain ⟨l, h1, h2⟩ := h t
  unfold PState.step at hs
  split at hs
  · split at hs
    · rename_i p hp
      -- a method returns
      have : (∀ u, u ≠ t → σ'.thr u = σ.thr u) ∧ (σ'.thr t).ptr = (σ.thr t).ptr ∧ (σ'.thr t).todo = (σ.thr t).todo := by
        have hs := Option.some.inj hs
        cases p with
        | drop b =>
          simp only [PState.finish] at hs
          split at hs
          · cases hs
          · cases hs
          · cases hs
            exact ⟨fun u hu => put_other _ _ hu, by simp, by simp⟩
        | call a o dest =>
          simp only [PState.finish] at hs
          split at hs
          · cases hs
          · cases hs
          · obtain ⟨e1, e2, e3⟩ := dropOld_thr hs
            refine ⟨fun u hu => (e1 u hu).trans (put_other _ _ hu), e2.trans ?_, e3.trans ?_⟩ <;> simp [PThread.setSub]
          · cases hs
            exact ⟨fun u hu => put_other _ _ hu, by simp, by simp⟩
      exact h.put this.1 ⟨l, by rw [this.2.1]; exact h1, by rw [this.2.2]; exact h2⟩
    · rename_i st rest hb htd
      have hs := Option.some.inj hs
      rw [htd, List.foldl_cons] at h2
      have hsame : ((∀ u, u ≠ t → σ'.thr u = σ.thr u) ∧ (∀ x, (σ'.thr t).ptr x = none ↔ (l.after st).ptr x = none) ∧ (σ'.thr t).todo = rest) →
          Ending σ' := fun ⟨e1, e2, e3⟩ => h.put e1 ⟨l.after st, e2, by rw [e3]; exact h2⟩
      apply hsame
      cases st with
      | make x name =>
        simp only [PState.begin] at hs
        obtain ⟨e1, -⟩ := release_thr hs
        rw [e1]
        refine ⟨fun u hu => by rw [put_other _ _ hu]; exact put_other _ _ hu, fun y => ?_, by simp [PThread.setPtr]⟩
        simp only [put_self, PThread.setPtr, Vars.after, assign]
        split
        · simp
        · exact h1 y
      | copy x y =>
        simp only [PState.begin] at hs
        obtain ⟨e1, -⟩ := release_thr hs
        have hrt : ∀ τ : PState P, (τ.retain ((σ.thr t).ptr y)).thr = τ.thr := by intro τ; cases (σ.thr t).ptr y <;> rfl
        rw [e1]
        refine ⟨fun u hu => ?_, fun z => ?_, by simp [PThread.setPtr]⟩
        · rw [put_other _ _ hu, put_self, hrt]; exact put_other _ _ hu
        · simp only [put_self, PThread.setPtr, Vars.after, assign]
          split
          · exact h1 y
          · exact h1 z
      | reset x =>
        simp only [PState.begin] at hs
        obtain ⟨e1, -⟩ := release_thr hs
        rw [e1]
        refine ⟨fun u hu => by rw [put_other _ _ hu]; exact put_other _ _ hu, fun y => ?_, by simp [PThread.setPtr]⟩
        simp only [put_self, PThread.setPtr, Vars.after, assign]
        split
        · simp
        · exact h1 y
      | subscribe s x =>
        simp only [PState.begin] at hs
        split at hs
        · cases hs
        · simp only [PState.enter] at hs
          split at hs
          · cases hs
          · cases hs
            exact ⟨fun u hu => by rw [put_other _ _ hu, put_other _ _ hu], by simpa [Vars.after] using h1, by simp⟩
      | drop s =>
        simp only [PState.begin] at hs
        obtain ⟨e1, e2, e3⟩ := dropOld_thr hs
        refine ⟨fun u hu => by rw [e1 u hu, put_other _ _ hu, put_other _ _ hu], ?_, e3.trans (by simp [PThread.setSub])⟩
        rw [e2]
        simpa [PThread.setSub, Vars.after] using h1
      | move s s' =>
        have hl : (l.after (.move s s' : PStmt P)).ptr = l.ptr := by
          simp only [Vars.after]; split <;> rfl
        rw [hl]
        simp only [PState.begin] at hs
        split at hs
        · cases hs
          exact ⟨fun u hu => put_other _ _ hu, by simpa using h1, by simp⟩
        · obtain ⟨e1, e2, e3⟩ := dropOld_thr hs
          refine ⟨fun u hu => by rw [e1 u hu, put_other _ _ hu, put_other _ _ hu], ?_, e3.trans (by simp [PThread.setSub])⟩
          rw [e2]
          simpa [PThread.setSub] using h1
      | call x c =>
        simp only [PState.begin] at hs
        split at hs
        · cases hs
        · simp only [PState.enter] at hs
          split at hs
          · cases hs
          · cases hs
            exact ⟨fun u hu => by rw [put_other _ _ hu, put_other _ _ hu], by simpa [Vars.after] using h1, by simp⟩
    · cases hs
  · cases hs

theorem ending_run {alloc : PState P → Addr} (sched : List Nat) : ∀ {σ σ' : PState P}, Ending σ → σ.run alloc sched = .ok σ' → Ending σ' := by
  induction sched with
  | nil => intro σ σ' h e; cases e; exact h
  | cons t ts ih =>
    intro σ σ' h e
    rw [PState.run] at e
    cases hs : σ.step alloc t with
    | none => rw [hs] at e; exact ih h e
    | some r =>
      rw [hs] at e
      cases r with
      | ok σ1 => exact ih (ending_step h hs) e
      | throw e' => cases e
      | ub => cases e

theorem start_ending {names : List Str} {threads : List (List Nat × List (PStmt P))}
    (hcl : ∀ th ∈ threads, (Vars.initial names.length th.1).Closed th.2) : Ending (PState.start names threads) := by
  intro t
  cases h : threads[t]? with
  | none => exact ⟨Vars.initial 0 [], by rw [start_beyond h]; simp [Vars.initial], by rw [start_beyond h]; simp [Vars.initial]⟩
  | some th =>
    refine ⟨Vars.initial names.length th.1, ?_, ?_⟩
    · rw [start_thr h]; intro x; rfl
    · rw [start_thr h]; exact (hcl th (List.mem_of_getElem? h)).1

end SoDa.Mail
