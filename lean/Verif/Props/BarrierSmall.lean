import Verif.Proof.BarrierTimeout
/-!
# C136  Barriers for no thread and for one
-/
set_option linter.unusedSectionVars false
namespace SoDa.Bar
open Spec

variable {T : Type} [DecidableEq T]

/-! ### A barrier for no thread -/

/-- Where threads are at a barrier for none. -/
def Pc.okZero : Pc → Prop
  | .idle | .start | .wantLock 0 | .incr 0 | .test 0 | .pred 0 | .waitCv 0 | .woken 0 false => True
  | _ => False

structure InvZero (evs : List (Ev T)) (c : Conf T) : Prop where
  count : c.count = 0
  waiting : c.waiting = arrivals evs
  ok : ∀ t, (c.pc t).okZero
  test : ∀ t old, c.pc t = .test old → 0 < c.waiting
  quiet : ∀ t, Ev.ret t ∉ evs ∧ ∀ e, Ev.raise t e ∉ evs

theorem goto_same (c : Conf T) (t : T) (p : Pc) : (c.goto t p).pc t = p := by simp [Conf.goto]

theorem goto_other (c : Conf T) {t u : T} (p : Pc) (h : u ≠ t) : (c.goto t p).pc u = c.pc u := by simp [Conf.goto, h]

theorem InvZero.goto {evs : List (Ev T)} {c : Conf T} {t : T} {p : Pc} {e : Ev T} {h' : Option T} {w : Nat} (h : InvZero evs c) (hp : p.okZero)
    (hw : w = arrivals (evs ++ [e])) (hle : c.waiting ≤ w) (ht : ∀ old, p = .test old → 0 < w)
    (he : (∀ u, e ≠ .ret u) ∧ ∀ u x, e ≠ .raise u x) : InvZero (evs ++ [e]) ({ c with waiting := w, holder := h' }.goto t p) where
  count := h.count
  waiting := hw
  ok u := by
    by_cases hu : u = t
    · subst hu; rw [goto_same]; exact hp
    · rw [goto_other _ _ hu]; exact h.ok u
  test u old hq := by
    by_cases hu : u = t
    · subst hu; rw [goto_same] at hq; exact ht old hq
    · rw [goto_other _ _ hu] at hq
      exact Nat.lt_of_lt_of_le (h.test u old hq) hle
  quiet u := by
    refine ⟨?_, fun x => ?_⟩
    · simp only [List.mem_append, List.mem_singleton, not_or]
      exact ⟨(h.quiet u).1, fun e' => he.1 u e'.symm⟩
    · simp only [List.mem_append, List.mem_singleton, not_or]
      exact ⟨(h.quiet u).2 x, fun e' => he.2 u x e'.symm⟩

theorem zero_run {evs : List (Ev T)} {c : Conf T} (h : Run 0 evs c) (hd : NoDeadline evs) (hn : arrivals evs < 2 ^ 32) : InvZero evs c := by
  induction h with
  | init => exact ⟨rfl, rfl, fun _ => trivial, fun _ _ h => by simp [Conf.init] at h, fun _ => by simp⟩
  | @snoc evs c t m c' e h hs ih =>
    have ha := arrivals_snoc evs e
    have hd' : NoDeadline evs := fun u hu => hd u (List.mem_append_left _ hu)
    have ih := ih hd' (by omega)
    have keep : ∀ {p : Pc} {h' : Option T} {e : Ev T}, p.okZero → (∀ old, p = .test old → 0 < c.waiting) → (∀ u, e ≠ .ret u) →
        (∀ u x, e ≠ .raise u x) → (∀ u b, e ≠ .arrive u b) → InvZero (evs ++ [e]) ({ c with holder := h' }.goto t p) := by
      intro p h' e hp ht h1 h2 h3
      have : c.waiting = arrivals (evs ++ [e]) := by
        rw [arrivals_snoc, ih.waiting]
        cases e <;> first | rfl | exact absurd rfl (h3 _ _)
      exact ih.goto (w := c.waiting) (h' := h') hp this (Nat.le_refl _) ht ⟨h1, h2⟩
    cases m with
    | call =>
      simp only [step] at hs
      split at hs
      · cases hs
        exact keep (h' := c.holder) trivial (by simp) (by simp) (by simp) (by simp)
      · cases hs
    | deadline =>
      simp only [step] at hs
      split at hs
      · cases hs
        exact absurd (by simp) (hd t)
      · cases hs
    | spurious =>
      have hok := ih.ok t
      simp only [step] at hs
      split at hs
      · rename_i old hp
        cases hs
        rw [hp] at hok
        have : old = 0 := by
          cases old with
          | zero => rfl
          | succ => exact hok.elim
        subst this
        exact keep (h' := c.holder) trivial (by simp) (by simp) (by simp) (by simp)
      · cases hs
    | go =>
      have hok := ih.ok t
      simp only [step, stepGo] at hs
      cases hp : c.pc t with
      | idle => simp [hp] at hs
      | start =>
        simp only [hp, Option.some.injEq, Prod.mk.injEq] at hs
        obtain ⟨rfl, rfl⟩ := hs
        rw [ih.count]
        exact keep (h' := c.holder) trivial (by simp) (by simp) (by simp) (by simp)
      | wantLock old =>
        rw [hp] at hok
        cases old with
        | succ => exact hok.elim
        | zero =>
          simp only [hp] at hs
          split at hs
          · cases hs
            exact keep trivial (by simp) (by simp) (by simp) (by simp)
          · cases hs
      | incr old =>
        rw [hp] at hok
        cases old with
        | succ => exact hok.elim
        | zero =>
          simp only [hp, Option.some.injEq, Prod.mk.injEq] at hs
          obtain ⟨rfl, rfl⟩ := hs
          have hw := ih.waiting
          simp only at ha
          have h32 : (c.waiting + 1) % 4294967296 = c.waiting + 1 := Nat.mod_eq_of_lt (by omega)
          rw [h32]
          refine ih.goto (h' := c.holder) trivial ?_ (by omega) (fun _ _ => by omega) ⟨by simp, by simp⟩
          rw [arrivals_snoc, hw]
      | test old =>
        rw [hp] at hok
        cases old with
        | succ => exact hok.elim
        | zero =>
          have := ih.test t 0 hp
          have hne : ¬ c.waiting = 0 := by omega
          simp only [hp, if_neg hne, Option.some.injEq, Prod.mk.injEq] at hs
          obtain ⟨rfl, rfl⟩ := hs
          exact keep (h' := c.holder) trivial (by simp) (by simp) (by simp) (by simp)
      | pred old =>
        rw [hp] at hok
        cases old with
        | succ => exact hok.elim
        | zero =>
          simp only [hp] at hs
          rw [if_neg (by simp [ih.count])] at hs
          simp only [Option.some.injEq, Prod.mk.injEq] at hs
          obtain ⟨rfl, rfl⟩ := hs
          exact keep trivial (by simp) (by simp) (by simp) (by simp)
      | waitCv old => simp [hp] at hs
      | woken old b =>
        rw [hp] at hok
        cases old with
        | succ => cases b <;> exact hok.elim
        | zero =>
          cases b with
          | true => exact hok.elim
          | false =>
            simp only [hp] at hs
            split at hs
            · cases hs
              exact keep trivial (by simp) (by simp) (by simp) (by simp)
            · cases hs
      | _ => rw [hp] at hok; exact hok.elim

/-- A barrier made for no thread lets nobody through: fewer than 2^32 calls all wait for ever, if their deadlines do not pass. -/
theorem C136_zero {evs : List (Ev T)} {c : Conf T} (h : Run 0 evs c) (hd : NoDeadline evs) (hn : allEntered evs < 2 ^ 32) (t : T) :
    returnsTo t evs = 0 ∧ ∀ r, Ev.raise t r ∉ evs := by
  have hi := zero_run h hd hn
  refine ⟨?_, (hi.quiet t).2⟩
  rw [returnsTo, List.countP_eq_zero]
  intro e he
  simp only [decide_eq_true_eq]
  rintro rfl
  exact (hi.quiet t).1 he

/-- Two threads at a barrier for none: both sleep. -/
example : ∃ evs c, Run (T := Fin 2) 0 evs c ∧ NoDeadline evs ∧ allEntered evs = 2 ∧ c.pc 0 = .waitCv 0 ∧ c.pc 1 = .waitCv 0 := by
  refine ⟨_, _, run_sched (sch := [(0, .call), (1, .call), (0, .go), (1, .go), (0, .go), (0, .go), (0, .go), (0, .go), (1, .go), (1, .go),
    (1, .go), (1, .go)]) rfl, ?_, rfl, rfl, rfl⟩
  unfold NoDeadline
  decide

/-! ### A barrier for one thread -/

/-- Where threads are at a barrier for one. -/
def Pc.okOne : Pc → Prop
  | .idle | .start | .wantLock _ | .incr _ | .test _ | .reset | .bump | .notify | .leave .normal | .out .normal => True
  | _ => False

/-- The thread has been counted and not yet reset the counter. -/
def Pc.notReset : Pc → Prop
  | .test _ | .reset => True
  | _ => False

structure InvOne (evs : List (Ev T)) (c : Conf T) : Prop where
  excl : Excl c
  ok : ∀ t, (c.pc t).okOne
  one : ∀ t, (c.pc t).notReset → c.waiting = 1
  none : (∀ t, ¬ (c.pc t).notReset) → c.waiting = 0
  quiet : ∀ t, Ev.deadline t ∉ evs ∧ Ev.spurious t ∉ evs ∧ ∀ e, Ev.raise t e ∉ evs

theorem notReset_holds {p : Pc} (h : p.notReset) : p.holds = true := by cases p <;> simp_all [Pc.notReset, Pc.holds]

theorem one_run {evs : List (Ev T)} {c : Conf T} (h : Run 1 evs c) : InvOne evs c := by
  induction h with
  | init =>
    exact ⟨fun t => by simp [Conf.init, Pc.holds], fun _ => trivial, fun _ h => h.elim, fun _ => rfl, fun _ => by simp⟩
  | @snoc evs c t m c' e h hs ih =>
    have hx := excl_step ih.excl hs
    have hok := ih.ok t
    -- the step of a thread that is not notReset before and afterwards
    have quiet : ∀ e : Ev T, (∀ u, e ≠ .deadline u) → (∀ u, e ≠ .spurious u) → (∀ u x, e ≠ .raise u x) →
        ∀ u, Ev.deadline u ∉ evs ++ [e] ∧ Ev.spurious u ∉ evs ++ [e] ∧ ∀ x, Ev.raise u x ∉ evs ++ [e] := by
      intro e h1 h2 h3 u
      obtain ⟨q1, q2, q3⟩ := ih.quiet u
      simp only [List.mem_append, List.mem_singleton, not_or]
      exact ⟨⟨q1, fun e' => h1 u e'.symm⟩, ⟨q2, fun e' => h2 u e'.symm⟩, fun x => ⟨q3 x, fun e' => h3 u x e'.symm⟩⟩
    have plain : ∀ {p : Pc} {h' : Option T} {k : Nat} {e : Ev T}, Excl ({ c with holder := h', count := k }.goto t p) → p.okOne →
        ((c.pc t).notReset ↔ p.notReset) → (∀ u, e ≠ .deadline u) → (∀ u, e ≠ .spurious u) → (∀ u x, e ≠ .raise u x) →
        InvOne (evs ++ [e]) ({ c with holder := h', count := k }.goto t p) := by
      intro p h' k e hx hp hc h1 h2 h3
      have hiff : ∀ u, (({ c with holder := h', count := k }.goto t p).pc u).notReset ↔ (c.pc u).notReset := by
        intro u
        by_cases hu : u = t
        · subst hu; rw [goto_same]; exact hc.symm
        · rw [goto_other _ _ hu]
      refine ⟨hx, fun u => ?_, fun u hu => ih.one u ((hiff u).1 hu), fun hno => ih.none fun u hu => hno u ((hiff u).2 hu), quiet e h1 h2 h3⟩
      by_cases hu : u = t
      · subst hu; rw [goto_same]; exact hp
      · rw [goto_other _ _ hu]; exact ih.ok u
    cases m with
    | call =>
      simp only [step] at hs
      split at hs
      · rename_i hp
        cases hs
        exact plain (h' := c.holder) (k := c.count) hx trivial (by simp [hp, Pc.notReset]) (by simp) (by simp) (by simp)
      · cases hs
    | deadline =>
      simp only [step] at hs
      split at hs
      · rename_i hp
        rw [hp] at hok
        exact hok.elim
      · cases hs
    | spurious =>
      simp only [step] at hs
      split at hs
      · rename_i hp
        rw [hp] at hok
        exact hok.elim
      · cases hs
    | go =>
      simp only [step, stepGo] at hs
      have alone : ∀ u, u ≠ t → (c.pc t).holds = true → ¬ (c.pc u).notReset := fun u hu ht hc => hu (ih.excl.eq ht (notReset_holds hc))
      cases hp : c.pc t with
      | idle => simp [hp] at hs
      | start =>
        simp only [hp, Option.some.injEq, Prod.mk.injEq] at hs
        obtain ⟨rfl, rfl⟩ := hs
        exact plain (h' := c.holder) (k := c.count) hx trivial (by simp [hp, Pc.notReset]) (by simp) (by simp) (by simp)
      | wantLock old =>
        simp only [hp] at hs
        split at hs
        · cases hs
          exact plain (k := c.count) hx trivial (by simp [hp, Pc.notReset]) (by simp) (by simp) (by simp)
        · cases hs
      | incr old =>
        have hal := fun u hu => alone u hu (by rw [hp]; rfl)
        have h0 : c.waiting = 0 := ih.none fun u => by
          by_cases hu : u = t
          · subst hu; rw [hp]; exact fun h => h
          · exact hal u hu
        simp only [hp, Option.some.injEq, Prod.mk.injEq, h0] at hs
        obtain ⟨rfl, rfl⟩ := hs
        refine ⟨hx, fun u => ?_, fun u _ => rfl, fun hno => ?_, quiet _ (by simp) (by simp) (by simp)⟩
        · by_cases hu : u = t
          · subst hu; rw [goto_same]; trivial
          · rw [goto_other _ _ hu]; exact ih.ok u
        · exact absurd (by rw [goto_same]; trivial) (hno t)
      | test old =>
        have h1 := ih.one t (by rw [hp]; trivial)
        simp only [hp, h1, if_true, Option.some.injEq, Prod.mk.injEq] at hs
        obtain ⟨rfl, rfl⟩ := hs
        exact plain (h' := c.holder) (k := c.count) hx trivial (by simp [hp, Pc.notReset]) (by simp) (by simp) (by simp)
      | reset =>
        have hal := fun u hu => alone u hu (by rw [hp]; rfl)
        simp only [hp, Option.some.injEq, Prod.mk.injEq] at hs
        obtain ⟨rfl, rfl⟩ := hs
        have hno : ∀ u, ¬ (({ c with waiting := 0 }.goto t .bump).pc u).notReset := by
          intro u
          by_cases hu : u = t
          · subst hu; rw [goto_same]; exact fun h => h
          · rw [goto_other _ _ hu]; exact hal u hu
        refine ⟨hx, fun u => ?_, fun u hu => absurd hu (hno u), fun _ => rfl, quiet _ (by simp) (by simp) (by simp)⟩
        by_cases hu : u = t
        · subst hu; rw [goto_same]; trivial
        · rw [goto_other _ _ hu]; exact ih.ok u
      | bump =>
        simp only [hp, Option.some.injEq, Prod.mk.injEq] at hs
        obtain ⟨rfl, rfl⟩ := hs
        exact plain (h' := c.holder) hx trivial (by simp [hp, Pc.notReset]) (by simp) (by simp) (by simp)
      | notify =>
        have hw : c.wakeAll = c := by
          have : c.wakeAll.pc = c.pc := by
            funext u
            have := ih.ok u
            simp only [Conf.wakeAll]
            split
            · rename_i hq; rw [hq] at this; exact this.elim
            · rfl
          cases c
          simp only [Conf.wakeAll] at this ⊢
          rw [this]
        simp only [hp, hw, Option.some.injEq, Prod.mk.injEq] at hs
        obtain ⟨rfl, rfl⟩ := hs
        exact plain (h' := c.holder) (k := c.count) hx trivial (by simp [hp, Pc.notReset]) (by simp) (by simp) (by simp)
      | leave r =>
        rw [hp] at hok
        cases r with
        | normal =>
          simp only [hp, Option.some.injEq, Prod.mk.injEq] at hs
          obtain ⟨rfl, rfl⟩ := hs
          exact plain (k := c.count) hx trivial (by simp [hp, Pc.notReset]) (by simp) (by simp) (by simp)
        | timeout => exact hok.elim
        | corrupt => exact hok.elim
      | out r =>
        rw [hp] at hok
        cases r with
        | normal =>
          simp only [hp, Option.some.injEq, Prod.mk.injEq] at hs
          obtain ⟨rfl, rfl⟩ := hs
          exact plain (h' := c.holder) (k := c.count) hx trivial (by simp [hp, Pc.notReset]) (by simp) (by simp) (by simp)
        | timeout => exact hok.elim
        | corrupt => exact hok.elim
      | _ => rw [hp] at hok; exact hok.elim

/-- At a barrier for one thread nobody ever sleeps, whoever calls it: no deadline passes and no call ends with an exception. -/
theorem C136_one {evs : List (Ev T)} {c : Conf T} (h : Run 1 evs c) (t : T) :
    (∀ old, c.pc t ≠ .waitCv old) ∧ Ev.deadline t ∉ evs ∧ ∀ r, Ev.raise t r ∉ evs := by
  have hi := one_run h
  refine ⟨fun old hp => ?_, (hi.quiet t).1, (hi.quiet t).2.2⟩
  have := hi.ok t
  rw [hp] at this
  exact this

/-- And every call returns: as long as a thread is in a call, some thread can go on. -/
theorem C136_one_returns {evs : List (Ev T)} {c : Conf T} (h : Run 1 evs c) (hstuck : ∀ u, step 1 c u .go = none) (t : T) : c.pc t = .idle := by
  have hi := one_run h
  have free : c.holder = none := by
    cases hh : c.holder with
    | none => rfl
    | some u =>
      exfalso
      have hu := (hi.excl u).2 hh
      have hs := hstuck u
      have hok := hi.ok u
      cases hp : c.pc u <;> rw [hp] at hu hok <;> simp [step, stepGo, hp] at hs hu hok
      all_goals simp_all [Pc.holds, Pc.okOne]
  have hs := hstuck t
  have hok := hi.ok t
  cases hp : c.pc t <;> rw [hp] at hok <;> simp [step, stepGo, hp, free] at hs <;> first | rfl | exact hok.elim

/-- Two threads at a barrier for one, overtaking each other: both return. -/
example : ∃ evs c, Run (T := Fin 2) 1 evs c ∧ returnsTo 0 evs = 1 ∧ returnsTo 1 evs = 1 ∧ ∀ u, step 1 c u .go = none := by
  refine ⟨_, _, run_sched (sch := [(0, .call), (1, .call), (0, .go), (1, .go), (1, .go), (1, .go), (1, .go), (1, .go), (1, .go), (1, .go), (1, .go),
    (0, .go), (1, .go), (0, .go), (0, .go), (0, .go), (0, .go), (0, .go), (0, .go), (0, .go)]) rfl, rfl, rfl, ?_⟩
  decide

end SoDa.Bar
