import Verif.Spec.MailBoxPtr
import Verif.Proof.MailBox
import Mathlib.Data.Set.Card
import Mathlib.Algebra.Order.BigOperators.Group.List
/-!
The counts of the pointers to mailboxes.
-/
namespace SoDa.Mail
open Spec PState

variable {P : Type}

/-! ### Pointers -/

/-- The variables that point to `a`. -/
def holders (σ : PState P) (a : Addr) : Set (Nat × Nat) := {v | (σ.thr v.1).ptr v.2 = some a}

/-- What is true of every state, whatever the threads do. -/
structure PtrCounted (σ : PState P) : Prop where
  fin : ∀ a, (holders σ a).Finite
  refs : ∀ a, σ.refs a = (holders σ a).ncard
  alive : ∀ a, σ.world a ≠ none ↔ σ.refs a ≠ 0
  beyond : ∀ t, σ.n ≤ t → (∀ x, (σ.thr t).ptr x = none) ∧ (∀ s, (σ.thr t).sub s = none) ∧ (σ.thr t).busy = none
  made : ∀ a, σ.world a ≠ none → a ∈ σ.made

/-- There is always room for another mailbox. -/
theorem PtrCounted.free {σ : PState P} (h : PtrCounted σ) : ∃ a, a ∉ σ.made ∧ σ.world a = none := by
  have : σ.made.sum + 1 ∉ σ.made := fun hm => by
    exact Nat.not_succ_le_self _ (List.le_sum_of_mem hm)
  exact ⟨_, this, by_contra fun hw => this (h.made _ hw)⟩

theorem PtrCounted.held {σ : PState P} (h : PtrCounted σ) {t x : Nat} {a : Addr} (hp : (σ.thr t).ptr x = some a) : σ.world a ≠ none := by
  rw [h.alive, h.refs]
  exact (Set.ncard_pos (h.fin a)).2 ⟨(t, x), hp⟩ |>.ne'

theorem PtrCounted.unheld {σ : PState P} (h : PtrCounted σ) {a : Addr} (hp : ∀ t x, (σ.thr t).ptr x ≠ some a) : σ.world a = none := by
  by_contra hw
  rw [← ne_eq, h.alive, h.refs] at hw
  apply hw
  rw [Set.ncard_eq_zero (h.fin a)]
  ext ⟨t, x⟩
  simp [holders, hp t x]

/-- One variable gets another value. -/
theorem ncard_update (p q : Nat × Nat → Option Addr) (v : Nat × Nat) (hq : ∀ u, u ≠ v → q u = p u) (a : Addr)
    (hf : {u | p u = some a}.Finite) : {u | q u = some a}.Finite ∧
      {u | q u = some a}.ncard + (if p v = some a then 1 else 0) = {u | p u = some a}.ncard + (if q v = some a then 1 else 0) := by
  have e : {u | q u = some a} \ {v} = {u | p u = some a} \ {v} := by
    ext u
    simp only [Set.mem_sdiff, Set.mem_ofPred_eq, Set.mem_singleton_iff]
    constructor <;> (rintro ⟨h1, h2⟩; refine ⟨?_, h2⟩; first | rwa [← hq u h2] | rwa [hq u h2])
  have hfd : ({u | p u = some a} \ {v}).Finite := hf.sdiff
  have hqf : {u | q u = some a}.Finite := by
    refine Set.Finite.subset (hfd.union (Set.finite_singleton v)) ?_
    intro u hu
    by_cases huv : u = v
    · exact .inr huv
    · left; rw [← e]; exact ⟨hu, huv⟩
  have key : ∀ r : Nat × Nat → Option Addr, {u | r u = some a}.Finite →
      {u | r u = some a}.ncard = ({u | r u = some a} \ {v}).ncard + (if r v = some a then 1 else 0) := by
    intro r hr
    by_cases hv : r v = some a
    · rw [if_pos hv, Set.ncard_sdiff_singleton_add_one (show v ∈ {u | r u = some a} from hv) hr]
    · rw [if_neg hv, Set.sdiff_singleton_eq_self (show v ∉ {u | r u = some a} from hv), Nat.add_zero]
  refine ⟨hqf, ?_⟩
  rw [key q hqf, key p hf, e]
  omega

@[simp] theorem put_n (σ : PState P) (t : Nat) (th : PThread P) : (σ.put t th).n = σ.n := rfl
@[simp] theorem put_world (σ : PState P) (t : Nat) (th : PThread P) : (σ.put t th).world = σ.world := rfl
@[simp] theorem put_refs (σ : PState P) (t : Nat) (th : PThread P) : (σ.put t th).refs = σ.refs := rfl
@[simp] theorem put_made (σ : PState P) (t : Nat) (th : PThread P) : (σ.put t th).made = σ.made := rfl
@[simp] theorem put_self (σ : PState P) (t : Nat) (th : PThread P) : (σ.put t th).thr t = th := by simp [PState.put]
theorem put_other (σ : PState P) {t u : Nat} (th : PThread P) (h : u ≠ t) : (σ.put t th).thr u = σ.thr u := by simp [PState.put, h]
@[simp] theorem put_put (σ : PState P) (t : Nat) (th th' : PThread P) : (σ.put t th).put t th' = σ.put t th' := by
  simp only [PState.put, PState.mk.injEq, true_and]
  funext u
  split <;> rfl

/-- The same pointers, counts and mailboxes. -/
theorem PtrCounted.same {σ σ' : PState P} (h : PtrCounted σ) (hp : ∀ t, (σ'.thr t).ptr = (σ.thr t).ptr) (hr : σ'.refs = σ.refs) (hm : σ'.made = σ.made)
    (hw : ∀ a, σ'.world a ≠ none ↔ σ.world a ≠ none)
    (hb : ∀ t, σ'.n ≤ t → (∀ x, (σ'.thr t).ptr x = none) ∧ (∀ s, (σ'.thr t).sub s = none) ∧ (σ'.thr t).busy = none) : PtrCounted σ' := by
  have hh : ∀ a, holders σ' a = holders σ a := by intro a; ext v; simp [holders, hp]
  exact ⟨fun a => hh a ▸ h.fin a, fun a => by rw [hr, hh, h.refs], fun a => by rw [hw, hr, h.alive], hb, fun a ha => by rw [hm]; exact h.made a ((hw a).1 ha)⟩

theorem inUse_iff {σ : PState P} {a : Addr} : σ.inUse a = true ↔ ∃ t < σ.n, ∃ p, (σ.thr t).busy = some p ∧ p.on = a := by
  unfold PState.inUse
  simp only [List.any_eq_true, List.mem_range]
  constructor
  · rintro ⟨t, ht, h⟩
    cases hb : (σ.thr t).busy with
    | none => simp [hb] at h
    | some p => exact ⟨t, ht, p, hb, by simpa [hb] using h⟩
  · rintro ⟨t, ht, p, hb, h⟩
    exact ⟨t, ht, by simp [hb, h]⟩

/-- What the statements that assign to a pointer have in common: `σ1` is the state in which the new pointer has been counted and is in the
variable, and the old one has not been destroyed. -/
theorem release_counted {σ σ1 : PState P} (h : PtrCounted σ) {t x : Nat} (ht : t < σ.n) (hn : σ1.n = σ.n)
    (hp : ∀ u y, (u, y) ≠ (t, x) → (σ1.thr u).ptr y = (σ.thr u).ptr y)
    (hr : ∀ a, σ1.refs a = σ.refs a + (if (σ1.thr t).ptr x = some a then 1 else 0))
    (hw : ∀ a, σ1.world a ≠ none ↔ σ1.refs a ≠ 0) (hm : ∀ a, σ1.world a ≠ none → a ∈ σ1.made)
    (hsb : ∀ u, (σ1.thr u).sub = (σ.thr u).sub ∧ (σ1.thr u).busy = (σ.thr u).busy) :
    (∃ σ', σ1.release ((σ.thr t).ptr x) = .ok σ' ∧ PtrCounted σ' ∧ σ'.thr = σ1.thr ∧ σ'.n = σ1.n ∧ σ'.made = σ1.made ∧
      ∀ a, σ'.world a = σ1.world a ∨ σ'.world a = none) ∨
    (σ1.release ((σ.thr t).ptr x) = .ub ∧ ∃ a, (∃ u < σ1.n, ∃ p, (σ1.thr u).busy = some p ∧ p.on = a) ∧ ∀ u y, (σ1.thr u).ptr y ≠ some a) := by
  have hc : ∀ a, (holders σ1 a).Finite ∧ (holders σ1 a).ncard + (if (σ.thr t).ptr x = some a then 1 else 0) = σ1.refs a := by
    intro a
    have := ncard_update (fun v => (σ.thr v.1).ptr v.2) (fun v => (σ1.thr v.1).ptr v.2) (t, x) (fun u hu => hp u.1 u.2 hu) a (h.fin a)
    refine ⟨this.1, ?_⟩
    rw [hr a, h.refs a]
    exact this.2
  have hbey : ∀ u, σ.n ≤ u → (∀ y, (σ1.thr u).ptr y = none) ∧ (∀ s, (σ1.thr u).sub s = none) ∧ (σ1.thr u).busy = none := by
    intro u hu
    have hb := h.beyond u hu
    refine ⟨fun y => ?_, fun s => ?_, ?_⟩
    · rw [hp u y (by rintro e; cases e; omega)]; exact hb.1 y
    · rw [(hsb u).1]; exact hb.2.1 s
    · rw [(hsb u).2]; exact hb.2.2
  cases ho : (σ.thr t).ptr x with
  | none =>
    left
    refine ⟨σ1, rfl, ⟨fun a => (hc a).1, fun a => ?_, hw, by rw [hn]; exact hbey, hm⟩, rfl, rfl, rfl, fun a => .inl rfl⟩
    have := (hc a).2
    rw [ho] at this
    simpa using this.symm
  | some a =>
    have hca := (hc a).2
    rw [ho, if_pos rfl] at hca
    have hcb : ∀ b, b ≠ a → σ1.refs b = (holders σ1 b).ncard := by
      intro b hb
      have := (hc b).2
      rw [ho, if_neg (by simpa using fun e => hb e.symm)] at this
      exact this.symm
    unfold PState.release
    by_cases h1 : σ1.refs a = 1
    · simp only [h1, if_true]
      have h0 : (holders σ1 a).ncard = 0 := by omega
      by_cases hu : σ1.inUse a = true
      · right
        rw [if_pos hu]
        refine ⟨rfl, a, inUse_iff.1 hu, fun u y hy => ?_⟩
        rw [Set.ncard_eq_zero (hc a).1] at h0
        have : (u, y) ∈ holders σ1 a := hy
        rw [h0] at this
        exact this
      · left
        rw [if_neg hu]
        refine ⟨_, rfl, ⟨fun b => (hc b).1, fun b => ?_, fun b => ?_, by show ∀ u, σ1.n ≤ u → _; rw [hn]; exact hbey, fun b hb => hm b ?_⟩, rfl, rfl, rfl, fun b => ?_⟩
        · show (if b = a then 0 else σ1.refs b) = (holders σ1 b).ncard
          by_cases hb : b = a
          · subst hb; rw [if_pos rfl, h0]
          · rw [if_neg hb, hcb b hb]
        · show σ1.world.set a none b ≠ none ↔ (if b = a then 0 else σ1.refs b) ≠ 0
          by_cases hb : b = a
          · simp [World.set, hb]
          · simp only [World.set, if_neg hb]; exact hw b
        · replace hb : σ1.world.set a none b ≠ none := hb
          by_cases hba : b = a
          · simp [World.set, hba] at hb
          · rwa [World.set, if_neg hba] at hb
        · show σ1.world.set a none b = σ1.world b ∨ σ1.world.set a none b = none
          by_cases hb : b = a
          · right; simp [World.set, hb]
          · left; simp [World.set, hb]
    · left
      simp only [h1, if_false]
      refine ⟨_, rfl, ⟨fun b => (hc b).1, fun b => ?_, fun b => ?_, by show ∀ u, σ1.n ≤ u → _; rw [hn]; exact hbey, hm⟩, rfl, rfl, rfl, fun b => .inl rfl⟩
      · show (if b = a then σ1.refs a - 1 else σ1.refs b) = (holders σ1 b).ncard
        by_cases hb : b = a
        · subst hb; rw [if_pos rfl]; omega
        · rw [if_neg hb, hcb b hb]
      · show σ1.world b ≠ none ↔ (if b = a then σ1.refs a - 1 else σ1.refs b) ≠ 0
        by_cases hb : b = a
        · subst hb; rw [if_pos rfl, hw b]; omega
        · rw [if_neg hb, hw b]

/-- The value that a statement assigns to a pointer. -/
def newPtr (alloc : PState P → Addr) (σ : PState P) (t : Nat) : PStmt P → Option (Nat × Option Addr)
  | .make x _ => some (x, some (alloc σ))
  | .copy x y => some (x, (σ.thr t).ptr y)
  | .reset x => some (x, none)
  | _ => none

theorem beginPtr {alloc : PState P → Addr} {σ : PState P} (hal : σ.world (alloc σ) = none) (h : PtrCounted σ) {t : Nat} (ht : t < σ.n)
    {st : PStmt P} {x : Nat} {o : Option Addr} (ho : newPtr alloc σ t st = some (x, o)) :
    (∃ σ', σ.begin alloc t st = .ok σ' ∧ PtrCounted σ' ∧ σ'.thr = (σ.put t ((σ.thr t).setPtr x o)).thr ∧ σ'.n = σ.n ∧
      (∀ a ∈ σ.made, a ∈ σ'.made) ∧ (∀ y name, st = .make y name → alloc σ ∈ σ'.made) ∧
      ∀ a B, σ'.world a = some B → σ.world a = some B ∨ ∃ y name, st = .make y name ∧ a = alloc σ ∧ B = Box.new name) ∨
    (σ.begin alloc t st = .ub ∧ ∃ a, (∃ u < σ.n, ∃ p, ((σ.put t ((σ.thr t).setPtr x o)).thr u).busy = some p ∧ p.on = a) ∧
      ∀ u y, ((σ.put t ((σ.thr t).setPtr x o)).thr u).ptr y ≠ some a) := by
  have hptr : ∀ u y, (u, y) ≠ (t, x) → ((σ.put t ((σ.thr t).setPtr x o)).thr u).ptr y = (σ.thr u).ptr y := by
    intro u y huy
    by_cases hu : u = t
    · subst hu
      have : y ≠ x := fun e => huy (by rw [e])
      simp [PThread.setPtr, this]
    · rw [put_other _ _ hu]
  have hself : ((σ.put t ((σ.thr t).setPtr x o)).thr t).ptr x = o := by simp [PThread.setPtr]
  have hsb : ∀ u, ((σ.put t ((σ.thr t).setPtr x o)).thr u).sub = (σ.thr u).sub ∧
      ((σ.put t ((σ.thr t).setPtr x o)).thr u).busy = (σ.thr u).busy := by
    intro u
    by_cases hu : u = t
    · subst hu; simp [PThread.setPtr]
    · rw [put_other _ _ hu]; exact ⟨rfl, rfl⟩
  have h0 : σ.refs (alloc σ) = 0 := by
    by_contra hh
    exact (h.alive _).2 hh hal
  cases st with
  | make y name =>
    simp only [newPtr, Option.some.injEq, Prod.mk.injEq] at ho
    obtain ⟨rfl, rfl⟩ := ho
    have hA : ∀ a, (if a = alloc σ then 1 else σ.refs a) =
        σ.refs a + if ((σ.put t ((σ.thr t).setPtr y (some (alloc σ)))).thr t).ptr y = some a then 1 else 0 := by
      intro a
      rw [hself]
      by_cases haa : a = alloc σ
      · subst haa; simp [h0]
      · rw [if_neg haa, if_neg (by simpa using fun e => haa e.symm)]
        rfl
    have hB : ∀ a, σ.world.set (alloc σ) (some (Box.new name)) a ≠ none ↔ (if a = alloc σ then 1 else σ.refs a) ≠ 0 := by
      intro a
      by_cases haa : a = alloc σ
      · simp [World.set, haa]
      · simp only [World.set, if_neg haa]; exact h.alive a
    rcases release_counted (σ1 := PState.put { σ.setRefs (alloc σ) 1 with
        world := σ.world.set (alloc σ) (some (Box.new name)), made := alloc σ :: σ.made } t ((σ.thr t).setPtr y (some (alloc σ))))
        h (t := t) (x := y) ht rfl hptr hA hB (fun a ha => by
          by_cases haa : a = alloc σ
          · exact haa ▸ List.mem_cons_self
          · exact List.mem_cons_of_mem _ (h.made a (by simpa [World.set, haa] using ha))) hsb with
      ⟨σ', e, hc, e1, e2, e3, e4⟩ | ⟨e, he⟩
    · left
      refine ⟨σ', e, hc, e1, e2, fun a ha => by rw [e3]; exact List.mem_cons_of_mem _ ha,
        fun _ _ _ => by rw [e3]; exact List.mem_cons_self, fun a B hB => ?_⟩
      rcases e4 a with e4 | e4
      · rw [e4] at hB
        replace hB : σ.world.set (alloc σ) (some (Box.new name)) a = some B := hB
        by_cases haa : a = alloc σ
        · right
          rw [World.set, if_pos haa] at hB
          exact ⟨y, name, rfl, haa, (Option.some.inj hB).symm⟩
        · left
          rwa [World.set, if_neg haa] at hB
      · rw [e4] at hB; cases hB
    · right; exact ⟨e, he⟩
  | copy y z =>
    simp only [newPtr, Option.some.injEq, Prod.mk.injEq] at ho
    obtain ⟨rfl, rfl⟩ := ho
    have hrt : ∀ a, (σ.retain ((σ.thr t).ptr z)).refs a = σ.refs a + if (σ.thr t).ptr z = some a then 1 else 0 := by
      intro a
      cases hz : (σ.thr t).ptr z with
      | none => simp [PState.retain]
      | some b =>
        by_cases hab : a = b
        · simp [PState.retain, PState.setRefs, hab]
        · have : b ≠ a := fun e => hab e.symm
          simp [PState.retain, PState.setRefs, hab, this]
    have hrw : (σ.retain ((σ.thr t).ptr z)).world = σ.world ∧ (σ.retain ((σ.thr t).ptr z)).n = σ.n ∧
        (σ.retain ((σ.thr t).ptr z)).made = σ.made ∧ (σ.retain ((σ.thr t).ptr z)).thr = σ.thr := by
      cases (σ.thr t).ptr z <;> exact ⟨rfl, rfl, rfl, rfl⟩
    have hthr : ((σ.retain ((σ.thr t).ptr z)).put t ((σ.thr t).setPtr y ((σ.thr t).ptr z))).thr =
        (σ.put t ((σ.thr t).setPtr y ((σ.thr t).ptr z))).thr := by
      simp only [PState.put, hrw.2.2.2]
    have hB : ∀ a, ((σ.retain ((σ.thr t).ptr z)).put t ((σ.thr t).setPtr y ((σ.thr t).ptr z))).world a ≠ none ↔
        ((σ.retain ((σ.thr t).ptr z)).put t ((σ.thr t).setPtr y ((σ.thr t).ptr z))).refs a ≠ 0 := by
      intro a
      rw [put_world, put_refs, hrw.1, hrt, h.alive a]
      split
      · rename_i hz
        have := (h.alive a).1 (h.held hz)
        omega
      · omega
    rcases release_counted (σ1 := (σ.retain ((σ.thr t).ptr z)).put t ((σ.thr t).setPtr y ((σ.thr t).ptr z)))
        h (t := t) (x := y) ht hrw.2.1 (by rw [hthr]; exact hptr) (fun a => by rw [hthr, hself]; exact hrt a) hB
        (fun a ha => by rw [put_made, hrw.2.2.1]; rw [put_world, hrw.1] at ha; exact h.made a ha)
        (by rw [hthr]; exact hsb) with
      ⟨σ', e, hc, e1, e2, e3, e4⟩ | ⟨e, he⟩
    · left
      refine ⟨σ', e, hc, e1.trans hthr, e2.trans hrw.2.1, fun a ha => by rw [e3, put_made, hrw.2.2.1]; exact ha,
        (fun _ _ e => by cases e), fun a B hB => .inl ?_⟩
      rcases e4 a with e4 | e4
      · rw [e4, put_world, hrw.1] at hB; exact hB
      · rw [e4] at hB; cases hB
    · right
      refine ⟨e, ?_⟩
      rw [hthr, put_n, hrw.2.1] at he
      exact he
  | reset y =>
    simp only [newPtr, Option.some.injEq, Prod.mk.injEq] at ho
    obtain ⟨rfl, rfl⟩ := ho
    rcases release_counted (σ1 := σ.put t ((σ.thr t).setPtr y none)) h (t := t) (x := y) ht rfl hptr (fun a => by rw [hself]; rfl)
        (fun a => h.alive a) h.made hsb with ⟨σ', e, hc, e1, e2, e3, e4⟩ | ⟨e, he⟩
    · left
      refine ⟨σ', e, hc, e1, e2, fun a ha => by rw [e3]; exact ha, (fun _ _ e => by cases e), fun a B hB => .inl ?_⟩
      rcases e4 a with e4 | e4
      · rw [e4] at hB; exact hB
      · rw [e4] at hB; cases hB
    · right; exact ⟨e, he⟩
  | subscribe s x => simp [newPtr] at ho
  | drop s => simp [newPtr] at ho
  | move s s' => simp [newPtr] at ho
  | call x c => simp [newPtr] at ho

end SoDa.Mail
