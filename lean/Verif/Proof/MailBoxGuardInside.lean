import Verif.Proof.MailBoxGuardLock
/-!
In which methods destructors run.
-/
namespace SoDa.Mail.Guard
open Spec

variable {P : Type}

/-- The rest of a method that runs no destructors. -/
inductive Calm : Code P → Prop where
  | ret {r} : Calm (.ret r)
  | lock {k} (hk : Calm k) : Calm (.lock k)
  | unlock {k} (hk : Calm k) : Calm (.unlock k)
  | act {f k} (hk : ∀ b, Calm (k b)) : Calm (.act f k)
  | push {i msg k} (hk : Calm k) : Calm (.push i msg k)
  | take {i k} (hk : Calm k) : Calm (.take i k)

theorem Calm.thenUnlock {c : Code P} (h : Calm c) : Calm c.thenUnlock := by
  induction h with
  | ret => exact .unlock .ret
  | lock _ ih => exact .lock ih
  | unlock _ ih => exact .unlock ih
  | act _ ih => exact .act ih
  | push _ ih => exact .push ih
  | take _ ih => exact .take ih

theorem calm_onRes {α : Type} {r : Res Err α} {k : α → Code P} (hk : ∀ x, Calm (k x)) : Calm (onRes r k) := by
  cases r with
  | ok x => exact hk x
  | throw e => exact .ret
  | ub => exact .ret

theorem calm_push (msg : Option P) (o : Int) (ks : List Int) : Calm (pushLoop msg o ks) := by
  induction ks with
  | nil => exact .ret
  | cons k ks ih =>
    rw [pushLoop]
    split
    · exact .push ih
    · exact ih

theorem calm_min (n : Nat) (ks : List Int) : Calm (minLoop (P := P) n ks) := by
  induction ks generalizing n with
  | nil => exact .ret
  | cons k ks ih =>
    rw [minLoop]
    refine .act fun b => ?_
    split <;> exact ih _

theorem calm_method (a : Addr) (o : Call P) (ho : ¬ Discarding o) : Calm (method a o) := by
  cases o with
  | subscribeFails => exact absurd trivial ho
  | op o =>
    cases o with
    | subscribe =>
      refine .lock (Calm.thenUnlock (.act fun b => .act fun _ => ?_))
      split
      · exact .ret
      · exact .act fun _ => .ret
    | get subs =>
      refine .lock (Calm.thenUnlock (.act fun b => calm_onRes fun x => ?_))
      obtain ⟨i, q⟩ := x
      cases q with
      | nil => exact .ret
      | cons m q => exact .take .ret
    | put msg subs => exact .lock (Calm.thenUnlock (.act fun b => calm_onRes fun x => .act fun b => calm_push _ _ _))
    | readyCount subs => exact .lock (Calm.thenUnlock (.act fun b => calm_onRes fun x => .ret))
    | minReadyCount => exact .lock (Calm.thenUnlock (.act fun b => calm_min _ _))
    | clear subs => exact absurd trivial ho
    | unsubscribe i => exact absurd trivial ho
    | subscriberCount => exact .lock (Calm.thenUnlock (.act fun b => .ret))
    | drop s => exact absurd trivial ho

/-- Methods that are waiting for a destructor throw away messages. -/
inductive Waiting : List (Item P) → Prop where
  | nil : Waiting []
  | dtor {s os} (hb : Waiting s) : Waiting (.dtor os :: s)
  | release {s ps} (hb : Waiting s) : Waiting (.release ps :: s)
  | frame {s a o c} (hb : Waiting s) (ho : Discarding o) : Waiting (.frame a o c :: s)

/-- What a thread has to do. -/
inductive AtTop : List (Item P) → Prop where
  | waiting {s} (h : Waiting s) : AtTop s
  | calm {s a o c} (h : Waiting s) (hc : Calm c) : AtTop (.frame a o c :: s)

theorem atTop_enter (a : Addr) (o : Call P) {s : List (Item P)} (h : Waiting s) : AtTop (.frame a o (method a o) :: s) := by
  by_cases ho : Discarding o
  · exact .waiting (.frame h ho)
  · exact .calm h (calm_method a o ho)

variable [DecidableEq P] {dtor : P → List (Addr × Call P)}

theorem next_atTop {c c' : Conf P} {l : Label P} {t : Nat} (h : AtTop (c.stack t)) (hn : next dtor c t = some (l, c')) :
    AtTop (c'.stack t) := by
  have hu : ∀ s, update c.stack t s t = s := fun s => update_same _ _ _
  generalize hst : c.stack t = st at h
  cases h with
  | calm h hc =>
    rename_i s a o k
    cases hc with
    | ret =>
      rename_i r
      cases s with
      | nil =>
        simp only [next, hst, Option.some.injEq, Prod.mk.injEq] at hn
        obtain ⟨rfl, rfl⟩ := hn
        dsimp only
        rw [hu]
        exact .waiting (.release h)
      | cons x s =>
        have hcases : c' = c.setStack t (.release (o.args ++ resultOf r) :: x :: s) := by
          cases r <;> simp only [next, hst, Option.some.injEq, Prod.mk.injEq, reduceCtorEq] at hn <;>
            (obtain ⟨rfl, rfl⟩ := hn; simp)
        subst hcases
        simp only [Conf.setStack, hu]
        exact .waiting (.release h)
    | lock hk =>
      simp only [next, hst] at hn
      split at hn
      · simp only [Option.some.injEq, Prod.mk.injEq] at hn
        obtain ⟨rfl, rfl⟩ := hn
        dsimp only
        rw [hu]
        exact .calm h hk
      · cases hn
    | unlock hk =>
      rename_i k
      cases k with
      | ret r =>
        have hcases : c' = { c with holder := update c.holder a none, stack := update c.stack t (.frame a o (.ret r) :: s) } := by
          cases r <;> simp only [next, hst, Option.some.injEq, Prod.mk.injEq, reduceCtorEq] at hn <;>
            (obtain ⟨rfl, rfl⟩ := hn; simp)
        subst hcases
        dsimp only
        rw [hu]
        exact .calm h .ret
      | _ => simp only [next, hst, reduceCtorEq] at hn
    | act hk =>
      simp only [next, hst, Option.some.injEq, Prod.mk.injEq] at hn
      obtain ⟨rfl, rfl⟩ := hn
      dsimp only
      rw [hu]
      exact .calm h (hk _)
    | push hk =>
      simp only [next, hst, Option.some.injEq, Prod.mk.injEq] at hn
      obtain ⟨rfl, rfl⟩ := hn
      dsimp only
      rw [hu]
      exact .calm h hk
    | take hk =>
      simp only [next, hst, Option.some.injEq, Prod.mk.injEq] at hn
      obtain ⟨rfl, rfl⟩ := hn
      dsimp only
      rw [hu]
      exact .calm h hk
  | waiting h =>
    cases h with
    | nil => rw [next, hst] at hn; cases hn
    | dtor hb =>
      rename_i s os
      cases os with
      | nil =>
        simp only [next, hst, Option.some.injEq, Prod.mk.injEq] at hn
        obtain ⟨rfl, rfl⟩ := hn
        simp only [Conf.setStack, hu]
        exact .waiting hb
      | cons x os =>
        obtain ⟨a, o⟩ := x
        simp only [next, hst, Option.some.injEq, Prod.mk.injEq] at hn
        obtain ⟨rfl, rfl⟩ := hn
        simp only [Conf.enter, hu]
        exact atTop_enter a o (.dtor hb)
    | release hb =>
      rename_i s ps
      cases ps with
      | nil =>
        simp only [next, hst, Option.some.injEq, Prod.mk.injEq] at hn
        obtain ⟨rfl, rfl⟩ := hn
        simp only [Conf.setStack, hu]
        exact .waiting hb
      | cons p ps =>
        simp only [next, hst, Option.some.injEq, Prod.mk.injEq] at hn
        obtain ⟨rfl, rfl⟩ := hn
        simp only [Conf.lose, hu]
        split
        · exact .waiting (.dtor (.release hb))
        · exact .waiting (.release hb)
    | frame hb ho =>
      rename_i s a o k
      cases k with
      | ret r =>
        cases s with
        | nil =>
          simp only [next, hst, Option.some.injEq, Prod.mk.injEq] at hn
          obtain ⟨rfl, rfl⟩ := hn
          dsimp only
          rw [hu]
          exact .waiting (.release hb)
        | cons x s =>
          have hcases : c' = c.setStack t (.release (o.args ++ resultOf r) :: x :: s) := by
            cases r <;> simp only [next, hst, Option.some.injEq, Prod.mk.injEq, reduceCtorEq] at hn <;>
              (obtain ⟨rfl, rfl⟩ := hn; simp)
          subst hcases
          simp only [Conf.setStack, hu]
          exact .waiting (.release hb)
      | lock k =>
        simp only [next, hst] at hn
        split at hn
        · simp only [Option.some.injEq, Prod.mk.injEq] at hn
          obtain ⟨rfl, rfl⟩ := hn
          dsimp only
          rw [hu]
          exact .waiting (.frame hb ho)
        · cases hn
      | unlock k =>
        cases k with
        | ret r =>
          have hcases : c' = { c with holder := update c.holder a none, stack := update c.stack t (.frame a o (.ret r) :: s) } := by
            cases r <;> simp only [next, hst, Option.some.injEq, Prod.mk.injEq, reduceCtorEq] at hn <;>
              (obtain ⟨rfl, rfl⟩ := hn; simp)
          subst hcases
          dsimp only
          rw [hu]
          exact .waiting (.frame hb ho)
        | _ => simp only [next, hst, reduceCtorEq] at hn
      | act f k =>
        simp only [next, hst, Option.some.injEq, Prod.mk.injEq] at hn
        obtain ⟨rfl, rfl⟩ := hn
        dsimp only
        rw [hu]
        exact .waiting (.frame hb ho)
      | push i msg k =>
        simp only [next, hst, Option.some.injEq, Prod.mk.injEq] at hn
        obtain ⟨rfl, rfl⟩ := hn
        dsimp only
        rw [hu]
        exact .waiting (.frame hb ho)
      | take i k =>
        simp only [next, hst, Option.some.injEq, Prod.mk.injEq] at hn
        obtain ⟨rfl, rfl⟩ := hn
        dsimp only
        rw [hu]
        exact .waiting (.frame hb ho)
      | invoke os k =>
        simp only [next, hst, Option.some.injEq, Prod.mk.injEq] at hn
        obtain ⟨rfl, rfl⟩ := hn
        simp only [Conf.setStack, hu]
        exact .waiting (.dtor (.frame hb ho))
      | pop i k =>
        simp only [next, hst, Option.some.injEq, Prod.mk.injEq] at hn
        obtain ⟨rfl, rfl⟩ := hn
        split
        · dsimp only
          rw [hu]
          exact .waiting (.frame hb ho)
        · simp only [Conf.lose, hu]
          split
          · exact .waiting (.dtor (.frame hb ho))
          · exact .waiting (.frame hb ho)

theorem steps_atTop {name : Addr → Str} {ls : List (Label P)} {c : Conf P} (h : Steps dtor name ls c) (t : Nat) : AtTop (c.stack t) := by
  induction h with
  | init => exact .waiting .nil
  | make _ _ _ ih => exact ih
  | copy _ _ _ ih => exact ih
  | release hs hst hpos ih =>
    rename_i u p
    by_cases hu : t = u
    · subst hu; dsimp only; rw [update_same]; exact .waiting (.release .nil)
    · dsimp only; rw [update_ne _ _ hu]; exact ih
  | call hs hst hpos ih =>
    rename_i u a o
    by_cases hu : t = u
    · subst hu; simp only [Conf.enter, update_same]; exact atTop_enter a o .nil
    · simp only [Conf.enter]; rw [update_ne _ _ hu]; exact ih
  | go hs hn ih =>
    rename_i u l c'
    by_cases hu : t = u
    · subst hu; exact next_atTop ih hn
    · rw [next_stack hn t hu]; exact ih

omit [DecidableEq P] in
theorem Waiting.mem {s : List (Item P)} (h : Waiting s) {a : Addr} {o : Call P} {c : Code P} (hm : .frame a o c ∈ s) : Discarding o := by
  induction h with
  | nil => cases hm
  | dtor _ ih => exact ih (by simpa using hm)
  | release _ ih => exact ih (by simpa using hm)
  | frame _ ho ih =>
    rcases List.mem_cons.1 hm with he | hm
    · cases he; exact ho
    · exact ih hm

end SoDa.Mail.Guard
