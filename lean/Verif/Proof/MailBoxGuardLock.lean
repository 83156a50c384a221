import Verif.Proof.MailBoxGuard
/-!
The members of a mailbox are used only by the thread that holds its mutex, whatever the destructors of the messages do; and threads
that take the mutexes in order do not wait for each other.
-/
namespace SoDa.Mail.Guard
open Spec

variable {P : Type}

/-- The rest of a method that holds the mutex. -/
inductive Locked : Code P → Prop where
  | unlock {r} : Locked (.unlock (.ret r))
  | act {f k} (hk : ∀ b, Locked (k b)) : Locked (.act f k)
  | push {i msg k} (hk : Locked k) : Locked (.push i msg k)
  | pop {i k} (hk : Locked k) : Locked (.pop i k)
  | take {i k} (hk : Locked k) : Locked (.take i k)
  | invoke {os k} (hk : Locked k) : Locked (.invoke os k)

theorem locked_of_inside {c : Code P} (h : Inside (fun _ => True) c) : Locked c := by
  induction h with
  | unlock => exact .unlock
  | act _ _ ih => exact .act fun b => ih b fun _ _ _ _ => trivial
  | push _ _ ih => exact .push ih
  | pop _ ih => exact .pop ih
  | take _ ih => exact .take ih

theorem method_locked (a : Addr) (o : Call P) : ∃ c, method a o = .lock c ∧ Locked c := by
  cases o with
  | subscribeFails => exact ⟨_, rfl, .act fun _ => .invoke .unlock⟩
  | op o =>
    obtain ⟨c, h1, h2⟩ := method_inside (fit := fun _ => True) a (.op o) (by simp) (by simp)
    exact ⟨c, h1, locked_of_inside h2⟩

/-- The methods in `s` hold the mutexes `hs`. -/
inductive Holds : List (Item P) → List Addr → Prop where
  | nil : Holds [] []
  | dtor {s hs os} (hb : Holds s hs) : Holds (.dtor os :: s) hs
  | release {s hs ps} (hb : Holds s hs) : Holds (.release ps :: s) hs
  | inside {s hs a o c} (hb : Holds s hs) (ha : a ∉ hs) (hl : Locked c) : Holds (.frame a o c :: s) (a :: hs)
  | before {s hs a o c} (hb : Holds s hs) (hl : Locked c) : Holds (.frame a o (.lock c) :: s) hs
  | after {s hs a o r} (hb : Holds s hs) : Holds (.frame a o (.ret r) :: s) hs

/-- The holder of a mutex is the thread that has a method that holds it. -/
structure Owned (c : Conf P) (held : Nat → List Addr) : Prop where
  top : ∀ t, Holds (c.stack t) (held t)
  holds : ∀ t a, a ∈ held t ↔ c.holder a = some t

theorem Owned.change {c c' : Conf P} {held : Nat → List Addr} (h : Owned c held) (t : Nat) (hh : c'.holder = c.holder) {s : List (Item P)}
    (hs : c'.stack = update c.stack t s) (ht : Holds s (held t)) : Owned c' held :=
  ⟨fun u => by
    rw [hs]
    by_cases hu : u = t
    · subst hu; rw [update_same]; exact ht
    · rw [update_ne _ _ hu]; exact h.top u, fun u a => by rw [hh]; exact h.holds u a⟩

theorem holds_enter (a : Addr) (o : Call P) {s : List (Item P)} {hs : List Addr} (h : Holds s hs) :
    Holds (.frame a o (method a o) :: s) hs := by
  obtain ⟨k, hk, hl⟩ := method_locked a o
  rw [hk]
  exact .before h hl

variable [DecidableEq P] {dtor : P → List (Addr × Call P)}

theorem next_owned {c c' : Conf P} {l : Label P} {t : Nat} {held : Nat → List Addr} (h : Owned c held)
    (hn : next dtor c t = some (l, c')) : ∃ held', Owned c' held' := by
  have ht := h.top t
  generalize hst : c.stack t = st at ht
  generalize hh : held t = hs at ht
  cases ht with
  | nil => rw [next, hst] at hn; cases hn
  | dtor hb =>
    rename_i s os
    cases os with
    | nil =>
      simp only [next, hst, Option.some.injEq, Prod.mk.injEq] at hn
      obtain ⟨rfl, rfl⟩ := hn
      exact ⟨held, h.change t rfl rfl (hh ▸ hb)⟩
    | cons x os =>
      obtain ⟨a, o⟩ := x
      simp only [next, hst, Option.some.injEq, Prod.mk.injEq] at hn
      obtain ⟨rfl, rfl⟩ := hn
      exact ⟨held, h.change t rfl rfl (hh ▸ holds_enter a o (.dtor hb))⟩
  | release hb =>
    rename_i s ps
    cases ps with
    | nil =>
      simp only [next, hst, Option.some.injEq, Prod.mk.injEq] at hn
      obtain ⟨rfl, rfl⟩ := hn
      exact ⟨held, h.change t rfl rfl (hh ▸ hb)⟩
    | cons p ps =>
      simp only [next, hst, Option.some.injEq, Prod.mk.injEq] at hn
      obtain ⟨rfl, rfl⟩ := hn
      refine ⟨held, h.change t rfl rfl ?_⟩
      rw [hh]
      split
      · exact .dtor (.release hb)
      · exact .release hb
  | inside hb ha hl =>
    rename_i s hs a o k
    cases hl with
    | unlock =>
      rename_i r
      have hcases : l = .unlock t a o r ∧
          c' = { c with holder := update c.holder a none, stack := update c.stack t (.frame a o (.ret r) :: s) } := by
        cases r <;> simp only [next, hst, Option.some.injEq, Prod.mk.injEq, reduceCtorEq] at hn <;>
          (obtain ⟨rfl, rfl⟩ := hn; simp)
      obtain ⟨rfl, rfl⟩ := hcases
      refine ⟨update held t hs, fun u => ?_, fun u x => ?_⟩
      · by_cases hu : u = t
        · subst hu; simp only [update_same]; exact .after hb
        · simp only [update_ne _ _ hu]; exact h.top u
      · dsimp only
        by_cases hx : x = a
        · subst hx
          simp only [update_same, reduceCtorEq, iff_false]
          by_cases hu : u = t
          · subst hu; rw [update_same]; exact ha
          · rw [update_ne _ _ hu, h.holds]
            intro hc
            have := (h.holds t x).1 (by rw [hh]; exact List.mem_cons_self)
            rw [hc] at this
            exact hu (Option.some.inj this)
        · rw [update_ne _ _ hx, ← h.holds]
          by_cases hu : u = t
          · subst hu; rw [update_same, hh]; simp [hx]
          · rw [update_ne _ _ hu]
    | act hk =>
      simp only [next, hst, Option.some.injEq, Prod.mk.injEq] at hn
      obtain ⟨rfl, rfl⟩ := hn
      exact ⟨held, h.change t rfl rfl (hh ▸ .inside hb ha (hk _))⟩
    | push hk =>
      simp only [next, hst, Option.some.injEq, Prod.mk.injEq] at hn
      obtain ⟨rfl, rfl⟩ := hn
      exact ⟨held, h.change t rfl rfl (hh ▸ .inside hb ha hk)⟩
    | take hk =>
      simp only [next, hst, Option.some.injEq, Prod.mk.injEq] at hn
      obtain ⟨rfl, rfl⟩ := hn
      exact ⟨held, h.change t rfl rfl (hh ▸ .inside hb ha hk)⟩
    | invoke hk =>
      simp only [next, hst, Option.some.injEq, Prod.mk.injEq] at hn
      obtain ⟨rfl, rfl⟩ := hn
      exact ⟨held, h.change t rfl rfl (hh ▸ .dtor (.inside hb ha hk))⟩
    | pop hk =>
      simp only [next, hst, Option.some.injEq, Prod.mk.injEq] at hn
      obtain ⟨rfl, rfl⟩ := hn
      split
      · exact ⟨held, h.change t rfl rfl (hh ▸ .inside hb ha hk)⟩
      · refine ⟨held, h.change t rfl rfl ?_⟩
        rw [hh]
        split
        · exact .dtor (.inside hb ha hk)
        · exact .inside hb ha hk
  | before hb hl =>
    rename_i s a o k
    simp only [next, hst] at hn
    split at hn
    · rename_i hfree
      simp only [Option.some.injEq, Prod.mk.injEq] at hn
      obtain ⟨rfl, rfl⟩ := hn
      have hna : a ∉ hs := fun hx => by
        rw [← hh, h.holds, hfree] at hx
        cases hx
      refine ⟨update held t (a :: hs), fun u => ?_, fun u x => ?_⟩
      · by_cases hu : u = t
        · subst hu; simp only [update_same]; exact .inside hb hna hl
        · simp only [update_ne _ _ hu]; exact h.top u
      · dsimp only
        by_cases hx : x = a
        · subst hx
          simp only [update_same, Option.some.injEq]
          by_cases hu : u = t
          · subst hu; simp [update_same]
          · rw [update_ne _ _ hu, h.holds, hfree]
            simp [Ne.symm hu]
        · rw [update_ne _ _ hx, ← h.holds]
          by_cases hu : u = t
          · subst hu; rw [update_same, hh]; simp [hx]
          · rw [update_ne _ _ hu]
    · cases hn
  | after hb =>
    rename_i s a o r
    cases s with
    | nil =>
      simp only [next, hst, Option.some.injEq, Prod.mk.injEq] at hn
      obtain ⟨rfl, rfl⟩ := hn
      exact ⟨held, h.change t rfl rfl (hh ▸ .release hb)⟩
    | cons x s =>
      have hcases : l = .ret t a o r ∧ c' = c.setStack t (.release (o.args ++ resultOf r) :: x :: s) := by
        cases r <;> simp only [next, hst, Option.some.injEq, Prod.mk.injEq, reduceCtorEq] at hn <;>
          (obtain ⟨rfl, rfl⟩ := hn; simp)
      obtain ⟨rfl, rfl⟩ := hcases
      exact ⟨held, h.change t rfl rfl (hh ▸ .release hb)⟩

theorem steps_owned {name : Addr → Str} {ls : List (Label P)} {c : Conf P} (h : Steps dtor name ls c) : ∃ held, Owned c held := by
  induction h with
  | init => exact ⟨fun _ => [], fun _ => .nil, fun _ _ => by simp⟩
  | make _ _ _ ih =>
    obtain ⟨held, h⟩ := ih
    exact ⟨held, h.top, h.holds⟩
  | copy _ _ _ ih =>
    obtain ⟨held, h⟩ := ih
    exact ⟨held, h.top, h.holds⟩
  | release hs hst hpos ih =>
    rename_i t p
    obtain ⟨held, h⟩ := ih
    have ht := h.top t
    rw [hst] at ht
    exact ⟨held, h.change t rfl rfl (.release ht)⟩
  | call hs hst hpos ih =>
    rename_i t a o
    obtain ⟨held, h⟩ := ih
    have ht := h.top t
    rw [hst] at ht
    exact ⟨held, h.change t rfl rfl (holds_enter a o ht)⟩
  | go hs hn ih =>
    obtain ⟨held, h⟩ := ih
    exact next_owned h hn

/-- A thread that has no next step has nothing to do, waits, or has ended the program. -/
theorem stuck_cases {name : Addr → Str} {ls : List (Label P)} {c : Conf P} (h : Steps dtor name ls c) (t : Nat)
    (hn : next dtor c t = none) : c.stack t = [] ∨ EndedBy c t ∨ ∃ u, WaitsFor c t u := by
  obtain ⟨held, h⟩ := steps_owned h
  have ht := h.top t
  generalize hst : c.stack t = st at ht
  generalize held t = hs at ht
  cases ht with
  | nil => exact .inl rfl
  | dtor hb =>
    rename_i s os
    cases os <;> simp only [next, hst, reduceCtorEq] at hn
  | release hb =>
    rename_i s ps
    cases ps <;> simp only [next, hst, reduceCtorEq] at hn
  | inside hb ha hl =>
    rename_i s hs a o k
    cases hl with
    | unlock =>
      rename_i r
      refine .inr (.inl ⟨a, o, s, ?_⟩)
      rw [hst]
      cases r <;> simp only [next, hst, reduceCtorEq] at hn
      · exact .inr (.inl rfl)
      · exact .inl rfl
    | act hk => simp only [next, hst, reduceCtorEq] at hn
    | push hk => simp only [next, hst, reduceCtorEq] at hn
    | take hk => simp only [next, hst, reduceCtorEq] at hn
    | invoke hk => simp only [next, hst, reduceCtorEq] at hn
    | pop hk => simp only [next, hst, reduceCtorEq] at hn
  | before hb hl =>
    rename_i s a o k
    simp only [next, hst] at hn
    split at hn
    · cases hn
    · rename_i hne
      obtain ⟨u, hu⟩ := Option.ne_none_iff_exists'.1 hne
      exact .inr (.inr ⟨u, a, o, k, s, hst, hu⟩)
  | after hb =>
    rename_i s a o r
    refine .inr (.inl ⟨a, o, s, .inr (.inr ?_)⟩)
    cases s with
    | nil => simp only [next, hst, reduceCtorEq] at hn
    | cons x s =>
      refine ⟨by simp, ?_⟩
      rw [hst]
      cases r <;> simp only [next, hst, reduceCtorEq] at hn
      exact ⟨_, rfl⟩

/-! ### Threads that wait for each other -/

theorem exists_greatest (w : Nat → Nat) (ts : List Nat) (h : ts ≠ []) : ∃ t ∈ ts, ∀ u ∈ ts, w u ≤ w t := by
  induction ts with
  | nil => exact absurd rfl h
  | cons x ts ih =>
    by_cases h0 : ts = []
    · subst h0
      exact ⟨x, List.mem_cons_self, fun u hu => by rw [List.mem_singleton] at hu; rw [hu]; exact Nat.le_refl _⟩
    · obtain ⟨t, ht, hm⟩ := ih h0
      by_cases hx : w t ≤ w x
      · refine ⟨x, List.mem_cons_self, fun u hu => ?_⟩
        rcases List.mem_cons.1 hu with rfl | hu
        · exact Nat.le_refl _
        · exact Nat.le_trans (hm u hu) hx
      · refine ⟨t, List.mem_cons_of_mem _ ht, fun u hu => ?_⟩
        rcases List.mem_cons.1 hu with rfl | hu
        · exact Nat.le_of_lt (Nat.lt_of_not_le hx)
        · exact hm u hu

/-- The place in the order of the mailbox whose method is executed. -/
def topRank (rank : Addr → Nat) : List (Item P) → Nat
  | .frame a _ _ :: _ => rank a
  | _ => 0

omit [DecidableEq P] in
theorem wants_above {rank : Addr → Nat} {c : Conf P} {held : Nat → List Addr} (h : Inv rank dtor c held) {t : Nat} {a : Addr} {o : Call P}
    {k : Code P} {s : List (Item P)} (hst : c.stack t = .frame a o (.lock k) :: s) : ∀ x ∈ held t, rank x < rank a := by
  have ht := h.top t
  rw [hst] at ht
  generalize held t = hs at ht ⊢
  generalize he : Item.frame a o (.lock k) :: s = st at ht
  cases ht with
  | below hb =>
    cases hb with
    | nil => cases he
    | dtor => cases he
    | release => cases he
    | frame hb hr hi =>
      cases he
      cases hi
  | wants hb hr =>
    injection he with e1 e2
    injection e1 with e1
    rw [e1]
    exact hr
  | leaving => cases he

omit [DecidableEq P] in
theorem not_deadlocked {rank : Addr → Nat} {c : Conf P} {held : Nat → List Addr} (h : Inv rank dtor c held) (ts : List Nat) :
    ¬ Deadlocked c ts := by
  rintro ⟨hne, hw⟩
  obtain ⟨t, ht, hmax⟩ := exists_greatest (fun t => topRank rank (c.stack t)) ts hne
  obtain ⟨u, hu, a, o, k, s, hst, hh⟩ := hw t ht
  obtain ⟨v, hv, a', o', k', s', hst', hh'⟩ := hw u hu
  have h1 := hmax u hu
  rw [hst, hst'] at h1
  have h2 := wants_above h hst' a ((h.holds u a).2 hh)
  exact absurd h2 (Nat.not_lt_of_le h1)

end SoDa.Mail.Guard
