import Verif.Proof.MailBoxPtrSafe
import Mathlib.Algebra.BigOperators.Group.Finset.Basic
/-!
The start: threads with pointers to mailboxes in their variables.
-/
namespace SoDa.Mail
open Spec PState

variable {P : Type}

theorem places (a : Nat) : ∀ l : List Nat, {x : Nat | l[x]? = some a}.Finite ∧ {x : Nat | l[x]? = some a}.ncard = l.count a
  | [] => by simp
  | b :: l => by
    obtain ⟨h1, h2⟩ := places a l
    have e : {x : Nat | (b :: l)[x]? = some a} = (if b = a then {0} else ∅) ∪ Nat.succ '' {x : Nat | l[x]? = some a} := by
      ext x
      cases x with
      | zero => by_cases hb : b = a <;> simp [hb]
      | succ x => by_cases hb : b = a <;> simp [hb]
    have hf : (if b = a then {0} else ∅ : Set Nat).Finite := by split <;> simp
    refine ⟨e ▸ hf.union (h1.image _), ?_⟩
    rw [e, Set.ncard_union_eq ?_ hf (h1.image _), Set.ncard_image_of_injective _ Nat.succ_injective, h2, List.count_cons]
    · by_cases hb : b = a
      · simp [hb, Nat.add_comm]
      · simp [hb]
    · rw [Set.disjoint_left]
      intro x hx
      split at hx
      · rw [Set.mem_singleton_iff] at hx; simp [hx]
      · simp at hx

theorem places2 (a : Nat) : ∀ ls : List (List Nat), {v : Nat × Nat | ls[v.1]?.bind (·[v.2]?) = some a}.Finite ∧
    {v : Nat × Nat | ls[v.1]?.bind (·[v.2]?) = some a}.ncard = ls.flatten.count a
  | [] => by simp
  | l :: ls => by
    obtain ⟨h1, h2⟩ := places2 a ls
    obtain ⟨g1, g2⟩ := places a l
    have e : {v : Nat × Nat | (l :: ls)[v.1]?.bind (·[v.2]?) = some a} =
        (fun x => (0, x)) '' {x : Nat | l[x]? = some a} ∪ (fun v : Nat × Nat => (v.1 + 1, v.2)) '' {v : Nat × Nat | ls[v.1]?.bind (·[v.2]?) = some a} := by
      ext ⟨t, x⟩
      cases t with
      | zero => simp
      | succ t => simp
    refine ⟨e ▸ (g1.image _).union (h1.image _), ?_⟩
    rw [e, Set.ncard_union_eq ?_ (g1.image _) (h1.image _), Set.ncard_image_of_injective, Set.ncard_image_of_injective, g2, h2, List.flatten_cons,
      List.count_append]
    · rintro ⟨t, x⟩ ⟨t', x'⟩ h
      simpa using h
    · intro x x' h
      simpa using h
    · rw [Set.disjoint_left]
      rintro ⟨t, x⟩ ⟨y, -, hy⟩ ⟨⟨t', x'⟩, -, hy'⟩
      cases hy
      simp at hy'

theorem start_thr {names : List Str} {threads : List (List Nat × List (PStmt P))} {t : Nat} {th : List Nat × List (PStmt P)}
    (h : threads[t]? = some th) : (PState.start names threads).thr t = ⟨fun x => th.1[x]?, fun _ => none, none, th.2⟩ := by
  simp [PState.start, h]

theorem start_beyond {names : List Str} {threads : List (List Nat × List (PStmt P))} {t : Nat}
    (h : threads[t]? = none) : (PState.start names threads).thr t = ⟨fun _ => none, fun _ => none, none, []⟩ := by
  simp [PState.start, h]

theorem start_counted {names : List Str} {threads : List (List Nat × List (PStmt P))}
    (hargs : ∀ th ∈ threads, ∀ a ∈ th.1, a < names.length) : PtrCounted (PState.start names threads) := by
  have hh : ∀ a, holders (PState.start names threads) a = {v : Nat × Nat | (threads.map (·.1))[v.1]?.bind (·[v.2]?) = some a} := by
    intro a
    ext ⟨t, x⟩
    simp only [holders, Set.mem_ofPred_eq, List.getElem?_map]
    cases h : threads[t]? with
    | none => rw [start_beyond h]; simp
    | some th => rw [start_thr h]; simp
  have hal : ∀ a, (PState.start names threads).world a ≠ none ↔ (PState.start names threads).refs a ≠ 0 := by
    intro a
    show (if (threads.flatMap (·.1)).count a = 0 then none else names[a]?.map Box.new) ≠ none ↔ (threads.flatMap (·.1)).count a ≠ 0
    split
    · rename_i h; simp [h]
    · rename_i h
      have hm := List.one_le_count_iff.1 (Nat.one_le_iff_ne_zero.2 h)
      obtain ⟨th, hth, ha⟩ := List.mem_flatMap.1 hm
      have := hargs th hth a ha
      simp [h, this]
  refine ⟨fun a => ?_, fun a => ?_, hal, fun t ht => ?_, fun a ha => ?_⟩
  · rw [hh]; exact (places2 a _).1
  · rw [hh, (places2 a _).2]; rfl
  · rw [start_beyond (List.getElem?_eq_none ht)]; simp
  · replace ha : (if (threads.flatMap (·.1)).count a = 0 then none else names[a]?.map Box.new) ≠ none := ha
    split at ha
    · simp at ha
    · show a ∈ List.range names.length
      rw [List.mem_range]
      by_contra hlt
      rw [List.getElem?_eq_none (Nat.le_of_not_lt hlt)] at ha
      simp at ha

theorem sum_places : ∀ l : List Nat, ∑ i ∈ Finset.range l.length, (l[i]?).getD 0 = l.sum
  | [] => rfl
  | a :: l => by
    rw [List.length_cons, Finset.sum_range_succ', List.sum_cons]
    have := sum_places l
    simp only [List.getElem?_cons_succ, List.getElem?_cons_zero, Option.getD_some]
    omega

theorem start_left (names : List Str) (threads : List (List Nat × List (PStmt P))) :
    left (PState.start names threads) = (threads.map fun th => subscribes th.2).sum := by
  rw [← sum_places, List.length_map]
  refine Finset.sum_congr rfl fun t ht => ?_
  have ht' : t < threads.length := Finset.mem_range.1 ht
  rw [start_thr (List.getElem?_eq_getElem ht')]
  simp [leftT, ht']

theorem start_ginv {names : List Str} {threads : List (List Nat × List (PStmt P))}
    (hargs : ∀ th ∈ threads, ∀ a ∈ th.1, a < names.length)
    (hcar : ∀ th ∈ threads, (Vars.initial names.length th.1).Careful th.2)
    (hkp : ∀ th ∈ threads, (Vars.initial names.length th.1).Keeps th.2) :
    GInv ((threads.map fun th => subscribes th.2).sum) (PState.start names threads) := by
  have hsub : ∀ v, subAt (PState.start names threads) v = none := by
    rintro ⟨t, o⟩
    cases h : threads[t]? with
    | none => cases o <;> simp [subAt, start_beyond h]
    | some th => cases o <;> simp [subAt, start_thr h]
  have hT : ∀ t, ∃ l, TInv ((PState.start names threads).thr t) l id := by
    intro t
    cases h : threads[t]? with
    | none =>
      rw [start_beyond h]
      refine ⟨Vars.initial names.length [], trivial, ?_, ?_, ?_, ?_⟩
      · rintro s k hk; cases hk
      · intro x; rfl
      · rintro x k hk; simp [Vars.initial] at hk
      · intro s; rfl
    | some th =>
      have hm := List.mem_of_getElem? h
      rw [start_thr h]
      refine ⟨Vars.initial names.length th.1, hcar th hm, hkp th hm, ?_, ?_, ?_⟩
      · intro x; simp [Vars.initial]
      · intro x k hk; exact hargs th hm k (List.mem_of_getElem? hk)
      · intro s; rfl
  choose L hL using hT
  refine ⟨start_counted hargs, ⟨L, fun _ => id, hL⟩, ?_, ?_, ?_, ?_⟩
  · intro v b B hb; rw [hsub] at hb; cases hb
  · intro v v' b hb; rw [hsub] at hb; cases hb
  · intro a B hB
    replace hB : (if (threads.flatMap (·.1)).count a = 0 then none else names[a]?.map Box.new) = some B := hB
    split at hB
    · cases hB
    · obtain ⟨n, -, rfl⟩ := Option.map_eq_some_iff.1 hB
      refine ⟨wf_new n, ?_⟩
      rw [start_left]
      simp [Box.new]
  · rw [start_left]

end SoDa.Mail
