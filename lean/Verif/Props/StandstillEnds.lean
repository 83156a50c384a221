import Verif.Props.Standstill
/-!
# C140  Programs whose threads come to their barriers in a common order
-/
namespace SoDa.Together
open Monitor (Label Phase Body setPhase)
open Spec

variable {β P : Type} [DecidableEq β] {n : β → Nat} {thr : (b : β) → Fin (n b) → Nat} {name : Mail.Addr → Str}

omit [DecidableEq β] in
theorem waits_calls (t : Nat) (L : List (Lab β P n)) : waitsOf thr t L = (callsOf thr t L).filterMap ToCall.barrier := by
  unfold waitsOf callsOf
  rw [List.filterMap_filterMap]
  congr 1
  funext l
  cases l with
  | mail l =>
    cases l with
    | call t' o => by_cases h : t' = t <;> simp [callOf, h, ToCall.barrier]
    | _ => rfl
  | bar b s =>
    obtain ⟨w, m, e, x, y⟩ := s
    cases e with
    | call u => by_cases h : thr b u = t <;> simp [callOf, h, ToCall.barrier]
    | _ => rfl

/-- A thread that is in no call can call anything. -/
theorem may_call {L : List (Lab β P n)} {c : Conf β P n} (h : Exec thr name L c) {t : Nat} (ht : ¬ InCall thr t L) (x : ToCall β P n)
    (hx : ∀ b u, x = .wait b u → thr b u = t) : ∃ l c', Step thr c l c' ∧ callOf thr t l = some x := by
  have hidle : ∀ y, ¬ BusyAt thr c t y := fun y hy => ht ((inCall_iff h t).2 ⟨y, hy⟩)
  have hm : c.mail.phase t = .idle := by
    by_contra hne
    exact hidle none hne
  have hb : ∀ b u, thr b u = t → (c.bars b).pc u = .idle := fun b u e => by
    by_contra hne
    exact hidle (some ⟨b, u⟩) ⟨e, hne⟩
  cases x with
  | mail o =>
    obtain ⟨a, o⟩ := o
    refine ⟨.mail (.call t (a, o)), _, .mail (.call hm) fun t' o' e => ?_, by simp [callOf]⟩
    cases e
    exact hb
  | wait b u =>
    have e := hx b u rfl
    refine ⟨.bar b ⟨u, .call, .call u, _, _⟩, _, .bar (c' := (c.bars b).goto u .start) (by simp [Bar.step, hb b u e]) fun _ => ?_, by simp [callOf, e]⟩
    rw [e]
    exact ⟨hm, hb⟩

/-- Programs with finitely many calls in which all threads come to their barriers in a common order: whenever they can go no further, every thread has made all its
calls, and all have returned. -/
theorem C140_completes {L : List (Lab β P n)} {c : Conf β P n} (h : Exec thr name L c) (hn : ∀ b, n b < 2 ^ 32)
    (hinj : ∀ b, Function.Injective (thr b)) (hd : ∀ b, NoDeadline (barEvents b L)) (prog : Nat → List (ToCall β P n)) (order : List β)
    (hthr : ∀ t b u, .wait b u ∈ prog t → thr b u = t) (ho : ∀ t, (prog t).filterMap ToCall.barrier = order.filter (uses thr t))
    (hf : ∀ t, callsOf thr t L <+: prog t) (hend : NoFurther thr prog L c) (t : Nat) : callsOf thr t L = prog t ∧ ¬ InCall thr t L := by
  have hmade : ∀ t, ¬ InCall thr t L → callsOf thr t L = prog t := by
    intro t ht
    obtain ⟨rest, hr⟩ := hf t
    cases rest with
    | nil => simpa using hr
    | cons x rest =>
      obtain ⟨l, c', hs, hl⟩ := may_call h ht x fun b u e => hthr t b u (by rw [← hr, e]; simp)
      exact absurd ⟨rest, by rw [← hr]; simp⟩ ((hend l c' hs).2 t x hl)
  have hno : ∀ t, ¬ InCall thr t L := by
    intro t ht
    rcases C140_common_order h hn hinj hd order (fun t => by rw [waits_calls, ← ho t]; exact (hf t).filterMap _) t ht with ⟨l, c', hs, hp⟩ | ⟨t', h1, h2⟩
    · exact (hend l c' hs).1 hp
    · exact h2 (by rw [waits_calls, hmade t' h1, ho t'])
  exact ⟨hmade t (hno t), hno t⟩

/-- In an execution that never ends, new calls are made for ever (or threads are woken without reason, or by deadlines, for ever). -/
theorem C140_goes_on (st : Nat → Conf β P n) (ls : Nat → Lab β P n) (h0 : st 0 = Conf.init name)
    (hstep : ∀ i, Step thr (st i) (ls i) (st (i + 1))) (N : Nat) : ∃ i, N ≤ i ∧ ¬ Proceeds (ls i) := by
  have hex : ∀ N, Exec thr name ((List.range N).map ls) (st N) := by
    intro N
    induction N with
    | zero => rw [h0]; exact .init
    | succ N ih =>
      rw [List.range_succ, List.map_append]
      exact ih.snoc (hstep N)
  obtain ⟨i, hi⟩ := C140_settles (hex N) (fun i => st (N + i)) (fun i => ls (N + i)) rfl fun i => hstep (N + i)
  exact ⟨N + i, by omega, hi⟩

/-- When everything has been called and has returned, the program can go no further. -/
theorem ended_of {L : List (Lab β P n)} {c : Conf β P n} (h : Exec thr name L c) (prog : Nat → List (ToCall β P n))
    (hdone : ∀ t, callsOf thr t L = prog t ∧ ¬ InCall thr t L) : NoFurther thr prog L c := by
  have hidle : ∀ t y, ¬ BusyAt thr c t y := fun t y hy => (hdone t).2 ((inCall_iff h t).2 ⟨y, hy⟩)
  have hm : ∀ t, c.mail.phase t = .idle := fun t => by
    by_contra hne
    exact hidle t none hne
  intro l c' hs
  refine ⟨?_, fun t x _ hp => ?_⟩
  · cases hs with
    | mail hs _ =>
      cases hs with
      | call _ => exact id
      | lock h _ => rw [hm] at h; cases h
      | act h => rw [hm] at h; cases h
      | unlock h => rw [hm] at h; cases h
      | ret h => rw [hm] at h; cases h
    | @bar b u m c1 e hs _ =>
      rintro (rfl : m = .go)
      rcases (bar_busy hs).2 with ⟨h, -⟩ | ⟨-, h, -⟩ | ⟨-, h, -⟩
      · cases h
      · exact hidle _ (some ⟨b, u⟩) ⟨rfl, h⟩
      · exact hidle _ (some ⟨b, u⟩) ⟨rfl, h⟩
  · rw [(hdone t).1] at hp
    have := hp.length_le
    simp at this

/-! ### Two threads that wait at two barriers in the same order -/

/-- Both wait at the first, then at the second barrier. -/
def bothTwice : List (Bool × Fin 2 × Bar.Move) :=
  [(false, 0, .call)] ++ List.replicate 5 (false, 0, .go) ++ [(false, 1, .call)] ++ List.replicate 9 (false, 1, .go) ++ List.replicate 4 (false, 0, .go) ++
  [(true, 1, .call)] ++ List.replicate 5 (true, 1, .go) ++ [(true, 0, .call)] ++ List.replicate 9 (true, 0, .go) ++ List.replicate 4 (true, 1, .go)

def progTwice : Nat → List (ToCall Bool Nat fun _ => 2)
  | 0 => [.wait false 0, .wait true 0]
  | 1 => [.wait false 1, .wait true 1]
  | _ => []

def seenCall : ToCall Bool Nat (fun _ => 2) → Nat
  | .mail _ => 0
  | .wait false u => 1 + u.val
  | .wait true u => 3 + u.val

theorem seenCall_inj {x : ToCall Bool Nat fun _ => 2} {b : Bool} {u : Fin 2} (h : seenCall x = seenCall (.wait b u)) : x = .wait b u := by
  have := u.2
  cases x with
  | mail o => cases b <;> simp [seenCall] at h <;> omega
  | wait b' u' =>
    have := u'.2
    cases b <;> cases b' <;> simp only [seenCall] at h
    · exact congrArg _ (Fin.ext (by omega))
    · omega
    · omega
    · exact congrArg _ (Fin.ext (by omega))

theorem seenCall_two {l : List (ToCall Bool Nat fun _ => 2)} {b b' : Bool} {u u' : Fin 2}
    (h : l.map seenCall = [seenCall (.wait b u), seenCall (.wait b' u')]) : l = [.wait b u, .wait b' u'] := by
  match l with
  | [] => simp at h
  | [_] => simp at h
  | x :: y :: z :: l => simp at h
  | [x, y] =>
    simp only [List.map_cons, List.map_nil, List.cons.injEq, and_true] at h
    rw [seenCall_inj h.1, seenCall_inj h.2]

/-- The hypotheses of `C140_completes` are met at the end of this execution. -/
theorem both_twice : ∃ (L : List LabPair) (c : ConfPair), Exec thrPair (fun _ => "m".toList) L c ∧ (∀ b, NoDeadline (barEvents b L)) ∧
    (∀ t b u, .wait b u ∈ progTwice t → thrPair b u = t) ∧ (∀ t, (progTwice t).filterMap ToCall.barrier = [false, true].filter (uses thrPair t)) ∧
    (∀ t, callsOf thrPair t L <+: progTwice t) ∧ NoFurther thrPair progTwice L c ∧ ∀ t, callsOf thrPair t L = progTwice t ∧ ¬ InCall thrPair t L := by
  have chk : ((pairMoves bothTwice pairInit).map fun r => (calmPair r.1, (callsOf thrPair 0 r.1).map seenCall, (callsOf thrPair 1 r.1).map seenCall,
      [r.1.countP (begins thrPair 0), r.1.countP (finishes thrPair 0), r.1.countP (begins thrPair 1), r.1.countP (finishes thrPair 1)])) =
      some (true, [1, 3], [2, 4], [2, 2, 2, 2]) := by decide +kernel
  cases hq : pairMoves bothTwice pairInit with
  | none => rw [hq] at chk; cases chk
  | some r =>
    obtain ⟨L, c⟩ := r
    rw [hq] at chk
    simp only [Option.map_some, Option.some.injEq, Prod.mk.injEq] at chk
    obtain ⟨h2, h3, h4, h5⟩ := chk
    simp only [List.cons.injEq, and_true] at h5
    obtain ⟨h5, h6, h7, h8⟩ := h5
    have he := pairMoves_exec (name := fun _ => "m".toList) _ .init hq
    have hdone : ∀ t, callsOf thrPair t L = progTwice t ∧ ¬ InCall thrPair t L := by
      intro t
      match t with
      | 0 => exact ⟨seenCall_two h3, by unfold InCall; omega⟩
      | 1 => exact ⟨seenCall_two h4, by unfold InCall; omega⟩
      | t + 2 =>
        have hno : ∀ b u, thrPair b u ≠ t + 2 := fun b u h => by have := u.2; simp [thrPair] at h; omega
        have hm := pairMoves_mail bothTwice hq
        have hi : ¬ InCall thrPair (t + 2) L := fun hc => by
          obtain ⟨y, hy⟩ := (inCall_iff he _).1 hc
          match y with
          | none => exact hy (by rw [hm]; rfl)
          | some ⟨b, u⟩ => exact hno b u hy.1
        refine ⟨?_, hi⟩
        have hl : ((pairMoves bothTwice pairInit).map fun r => r.1.all fun l => match l with | .bar _ _ => true | .mail _ => false) = some true := by decide +kernel
        rw [hq] at hl
        have hl' := List.all_eq_true.1 (Option.some.inj hl)
        unfold callsOf
        show _ = []
        rw [List.filterMap_eq_nil_iff]
        intro l hmem
        have := hl' l hmem
        cases l with
        | mail l => cases this
        | bar b s =>
          obtain ⟨w, m, e, x, y⟩ := s
          cases e with
          | call u => simp [callOf, hno b u]
          | _ => rfl
    refine ⟨L, c, he, fun b u => of_decide_eq_true (p := ∀ b, ∀ u : Fin 2, Bar.Ev.deadline u ∉ barEvents b L) h2 b u, ?_, ?_,
      fun t => by rw [(hdone t).1], ended_of he _ hdone, hdone⟩
    · intro t b u h
      match t with
      | 0 => simp [progTwice] at h; rcases h with ⟨rfl, h⟩ | ⟨rfl, h⟩ <;> (cases h; rfl)
      | 1 => simp [progTwice] at h; rcases h with ⟨rfl, h⟩ | ⟨rfl, h⟩ <;> (cases h; rfl)
      | t + 2 => simp [progTwice] at h
    · intro t
      match t with
      | 0 => decide
      | 1 => decide
      | t + 2 =>
        have hno : ∀ b u, thrPair b u ≠ t + 2 := fun b u h => by have := u.2; simp [thrPair] at h; omega
        symm
        show _ = []
        rw [List.filter_eq_nil_iff]
        intro b _
        simpa [uses] using hno b

end SoDa.Together
