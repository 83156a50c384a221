import Verif.Spec.TogetherFair
import Verif.Props.StandstillEnds
import Verif.Props.BarrierFair
/-!
# C141  With fair scheduling programs with mailboxes and barriers go on
-/
namespace SoDa.Together
open Monitor (Label Phase Body setPhase)
open Spec

variable {β P : Type} [DecidableEq β] {n : β → Nat} {thr : (b : β) → Fin (n b) → Nat} {name : Mail.Addr → Str}
variable {st : Nat → Conf β P n} {ls : Nat → Option (Lab β P n)}

omit [DecidableEq β] in
theorem firstSteps_succ (ls : Nat → Option (Lab β P n)) (i : Nat) : firstSteps ls (i + 1) = firstSteps ls i ++ (ls i).toList := by
  unfold firstSteps
  rw [List.range_succ, List.filterMap_append]
  cases h : ls i <;> simp [h]

omit [DecidableEq β] in
theorem firstSteps_prefix (ls : Nat → Option (Lab β P n)) {i j : Nat} (h : i ≤ j) : firstSteps ls i <+: firstSteps ls j := by
  induction h with
  | refl => exact List.prefix_refl _
  | step _ ih => rw [firstSteps_succ]; exact ih.trans (List.prefix_append _ _)

theorem endless_exec (h : Endless thr name st ls) (i : Nat) : Exec thr name (firstSteps ls i) (st i) := by
  induction i with
  | zero => rw [h.init]; exact .init
  | succ i ih =>
    rw [firstSteps_succ]
    cases hl : ls i with
    | none => rw [h.none i hl]; simpa using ih
    | some l => exact ih.snoc (h.some i l hl)

/-- A thread stays in its call until it proceeds. -/
theorem busy_stays {c c' : Conf β P n} {l : Lab β P n} (hs : Step thr c l c') {t : Nat} {x : Option ((b : β) × Fin (n b))} (hb : BusyAt thr c t x)
    (hno : ¬ (Proceeds l ∧ stepThread thr l = t)) : BusyAt thr c' t x ∧ c'.mail.phase t = c.mail.phase t := by
  cases hs with
  | @mail l m' hs hf =>
    by_cases htl : t = threadOf l
    · have hcall : ∃ o, l = .call t o := by
        subst htl
        cases l with
        | call t o => exact ⟨o, rfl⟩
        | _ => exact absurd ⟨trivial, rfl⟩ hno
      obtain ⟨o, rfl⟩ := hcall
      exfalso
      match x with
      | none =>
        cases hs with
        | call h => exact hb h
      | some ⟨b, u⟩ => exact hb.2 (hf t o rfl b u hb.1)
    · have e := (mail_busy hs).1 t htl
      refine ⟨?_, e⟩
      match x with
      | none => show m'.phase t ≠ _; rw [e]; exact hb
      | some ⟨b, u⟩ => exact hb
  | @bar b w m c1 e hs hf =>
    refine ⟨?_, rfl⟩
    match x with
    | none => exact hb
    | some ⟨b', u⟩ =>
      obtain ⟨h1, h2⟩ := hb
      by_cases hbb : b' = b
      · subst hbb
        refine ⟨h1, ?_⟩
        show (Function.update c.bars b' c1 b').pc u ≠ _
        rw [Function.update_self]
        by_cases hu : u = w
        · subst hu
          cases m with
          | go => exact absurd ⟨rfl, h1⟩ hno
          | call => exact absurd ((hf rfl).2 b' u rfl) h2
          | spurious =>
            simp only [Bar.step] at hs
            split at hs <;> cases hs
            simp [Bar.Conf.goto]
          | deadline =>
            simp only [Bar.step] at hs
            split at hs <;> cases hs
            simp [Bar.Conf.goto]
        · rw [Ne, (bar_busy hs).1 u hu]; exact h2
      · refine ⟨h1, ?_⟩
        show (Function.update c.bars b c1 b').pc u ≠ _
        rw [Function.update_of_ne hbb]
        exact h2

/-- The thread proceeds at time `k`. -/
def ProceedsAt (thr : (b : β) → Fin (n b) → Nat) (ls : Nat → Option (Lab β P n)) (t k : Nat) : Prop :=
  ∃ l, ls k = some l ∧ Proceeds l ∧ stepThread thr l = t

theorem stays_until (h : Endless thr name st ls) {t i j : Nat} {x : Option ((b : β) × Fin (n b))} (hb : BusyAt thr (st i) t x) (hij : i ≤ j)
    (hno : ∀ k, i ≤ k → k < j → ¬ ProceedsAt thr ls t k) : BusyAt thr (st j) t x ∧ (st j).mail.phase t = (st i).mail.phase t := by
  induction hij with
  | refl => exact ⟨hb, rfl⟩
  | @step j hij ih =>
    obtain ⟨h1, h2⟩ := ih fun k h1 h2 => hno k h1 (by omega)
    cases hl : ls j with
    | none => rw [h.none j hl]; exact ⟨h1, h2⟩
    | some l =>
      obtain ⟨h3, h4⟩ := busy_stays (h.some j l hl) h1 fun hp => hno j hij (by simp) ⟨l, hl, hp⟩
      exact ⟨h3, h4.trans h2⟩

theorem first_go (h : Endless thr name st ls) {t i j : Nat} {x : Option ((b : β) × Fin (n b))} (hb : BusyAt thr (st i) t x) (hij : i ≤ j)
    (hj : ProceedsAt thr ls t j) :
    ∃ k, i ≤ k ∧ BusyAt thr (st k) t x ∧ (st k).mail.phase t = (st i).mail.phase t ∧ ProceedsAt thr ls t k := by
  classical
  have hex : ∃ k, i ≤ k ∧ ProceedsAt thr ls t k := ⟨j, hij, hj⟩
  obtain ⟨h1, h2⟩ := Nat.find_spec hex
  have h3 := stays_until h hb h1 fun k g1 g2 g3 => Nat.find_min hex g2 ⟨g1, g3⟩
  exact ⟨_, h1, h3.1, h3.2, h2⟩

/-! ### Barriers -/

/-- What happens at the barrier `b`. -/
def atTime (b : β) (ls : Nat → Option (Lab β P n)) (i : Nat) : Option (Fin (n b) × Bar.Move × Bar.Ev (Fin (n b))) :=
  ((ls i).bind (atBar b)).map fun s => (s.who, s.mv, s.ev)

theorem happened_eq (b : β) (ls : Nat → Option (Lab β P n)) (i : Nat) : happened (atTime b ls) i = barEvents b (firstSteps ls i) := by
  unfold happened barEvents firstSteps
  rw [List.filterMap_filterMap, List.map_filterMap]
  congr 1
  funext j
  simp [atTime, Function.comp_def]

theorem bar_infinite (h : Endless thr name st ls) (b : β) : Infinite (n b) (fun i => (st i).bars b) (atTime b ls) where
  init := by rw [h.init]; rfl
  some i t m e ha := by
    unfold atTime at ha
    cases hl : ls i with
    | none => rw [hl] at ha; cases ha
    | some l =>
      rw [hl] at ha
      have hs := h.some i l hl
      generalize hc' : st (i + 1) = c' at hs ⊢
      cases hs with
      | mail hs _ => cases ha
      | @bar b' w m' c1 e' hs _ =>
        by_cases hb : b' = b
        · subst hb
          simp only [Option.bind_some, atBar, dif_pos, Option.map_some, Option.some.injEq, Prod.mk.injEq] at ha
          obtain ⟨rfl, rfl, rfl⟩ := ha
          simpa using hs
        · simp [atBar, hb] at ha
  none i ha := by
    unfold atTime at ha
    cases hl : ls i with
    | none => simp only [h.none i hl]
    | some l =>
      rw [hl] at ha
      have hs := h.some i l hl
      generalize hc' : st (i + 1) = c' at hs ⊢
      cases hs with
      | mail hs _ => rfl
      | @bar b' w m' c1 e' hs _ =>
        by_cases hb : b' = b
        · subst hb
          simp [atBar] at ha
        · simp [Function.update_of_ne (fun e => hb e.symm : b ≠ b')]

theorem bar_fair (h : Endless thr name st ls) (hf : FairThreads thr st ls) (b : β) : Fair (n b) (fun i => (st i).bars b) (atTime b ls) := by
  intro u hen i
  have hgo := hf (thr b u) fun i => by
    obtain ⟨j, hij, hj⟩ := hen i
    obtain ⟨y, hy⟩ := Option.isSome_iff_exists.1 hj
    exact ⟨j, hij, _, _, .bar (c' := y.1) (e := y.2) hy (by simp), rfl, rfl⟩
  obtain ⟨j, hij, hj⟩ := hen i
  obtain ⟨y, hy⟩ := Option.isSome_iff_exists.1 hj
  have hb : BusyAt thr (st j) (thr b u) (some ⟨b, u⟩) := by
    refine ⟨rfl, ?_⟩
    rcases (bar_busy hy).2 with ⟨h, -⟩ | ⟨-, h, -⟩ | ⟨-, h, -⟩
    · cases h
    · exact h
    · exact h
  obtain ⟨j', hj', hp⟩ := hgo j
  obtain ⟨k, hjk, hbk, -, l, hl, hpl, htl⟩ := first_go h hb hj' hp
  refine ⟨k, by omega, ?_⟩
  have hex := endless_exec h k
  have honly : ∀ y, BusyAt thr (st k) (thr b u) y → y = some ⟨b, u⟩ := by
    intro y hy
    rcases hex.calls (thr b u) with ⟨-, hno⟩ | ⟨-, x, hx, hu⟩
    · exact absurd hy (hno y)
    · exact (hu y hy).trans (hu _ hbk).symm
  have hs := h.some k l hl
  unfold atTime
  rw [hl]
  generalize st (k + 1) = c' at hs
  cases hs with
  | @mail l m' hs _ =>
    exfalso
    have : BusyAt thr (st k) (thr b u) none := by
      rcases (mail_busy hs).2 with ⟨t, o, rfl, -, -⟩ | ⟨t, o, r, rfl, h1, -⟩ | ⟨h1, -, -, -⟩
      · exact hpl.elim
      · have e : t = thr b u := htl
        rw [← e]; exact h1
      · have e : threadOf l = thr b u := htl
        rw [← e]; exact h1
    exact absurd (honly _ this) (by simp)
  | @bar b' w m c1 e hs _ =>
    obtain rfl : m = .go := hpl
    have e1 := honly (some ⟨b', w⟩) ⟨htl, by
      rcases (bar_busy hs).2 with ⟨h, -⟩ | ⟨-, h, -⟩ | ⟨-, h, -⟩
      · cases h
      · exact h
      · exact h⟩
    cases e1
    exact ⟨e, by simp [atBar]⟩

/-- If every thread of a barrier calls `wait` for the `k`-th time at some time, then this call returns to every thread, whatever else the program does. -/
theorem C141_wait (h : Endless thr name st ls) (hf : FairThreads thr st ls) (b : β) (hn : n b < 2 ^ 32)
    (hd : ∀ i, NoDeadline (barEvents b (firstSteps ls i))) (k : Nat) (hcall : ∀ u, ∃ i, k ≤ callsBy u (barEvents b (firstSteps ls i))) (u : Fin (n b)) :
    ∃ i, k ≤ returnsTo u (barEvents b (firstSteps ls i)) := by
  have := Bar.C119_returns hn (Fintype.card_fin _) (bar_infinite h b) (bar_fair h hf b) (by simpa only [happened_eq] using hd) k
    (by simpa only [happened_eq] using hcall) u
  simpa only [happened_eq] using this

/-! ### Mailboxes -/

/-- A thread that can proceed as long as it does not, does. -/
theorem will_go (h : Endless thr name st ls) (hf : FairThreads thr st ls) {t i : Nat} (hb : (st i).mail.phase t ≠ .idle)
    (hen : ∀ j, i ≤ j → (st j).mail.phase t = (st i).mail.phase t → ∃ k, j ≤ k ∧ ∃ l c', Step thr (st k) l c' ∧ Proceeds l ∧ stepThread thr l = t) :
    ∃ k l, i ≤ k ∧ (st k).mail.phase t = (st i).mail.phase t ∧ ls k = some (.mail l) ∧ Proceeds (Lab.mail l : Lab β P n) ∧ threadOf l = t := by
  have hbusy : BusyAt thr (st i) t none := hb
  have hex : ∃ j, i ≤ j ∧ ProceedsAt thr ls t j := by
    by_contra hno
    have hno' : ∀ j, i ≤ j → ¬ ProceedsAt thr ls t j := fun j h1 h2 => hno ⟨j, h1, h2⟩
    obtain ⟨j, hij, hj⟩ := hf t (fun j => by
      obtain ⟨k, hk, h1⟩ := hen (max i j) (by omega) (stays_until h hbusy (by omega) fun k g1 _ => hno' k g1).2
      exact ⟨k, by omega, h1⟩) i
    exact hno' j hij hj
  obtain ⟨j, hij, hj⟩ := hex
  obtain ⟨k, hik, hbk, hph, l, hl, hp, ht⟩ := first_go h hbusy hij hj
  have hs := h.some k l hl
  generalize st (k + 1) = c' at hs
  cases hs with
  | mail hs _ => exact ⟨k, _, hik, hph, hl, hp, ht⟩
  | @bar b u m c1 e hs _ =>
    exfalso
    obtain rfl : m = .go := hp
    have hu : BusyAt thr (st k) t (some ⟨b, u⟩) := ⟨ht, by
      rcases (bar_busy hs).2 with ⟨h, -⟩ | ⟨-, h, -⟩ | ⟨-, h, -⟩
      · cases h
      · exact h
      · exact h⟩
    rcases (endless_exec h k).calls t with ⟨-, hno⟩ | ⟨-, x, hx, hu'⟩
    · exact hno _ hu
    · exact absurd ((hu' _ hu).trans (hu' _ hbk).symm) (by simp)

theorem mail_step (h : Endless thr name st ls) {k : Nat} {l} (hl : ls k = some (.mail l)) : Monitors.Step Mail.body (st k).mail l (st (k + 1)).mail := by
  have hs := h.some k _ hl
  generalize st (k + 1) = c' at hs
  cases hs with
  | mail hs _ => exact hs

theorem will_leave (h : Endless thr name st ls) (hf : FairThreads thr st ls) (t : Nat) (a : Mail.Addr) (o : Mail.Op P) (body : Body (Mail.Box P) (Mail.Resp P)) :
    ∀ i, (st i).mail.phase t = .runs (a, o) body →
      ∃ k r, i ≤ k ∧ (st (k + 1)).mail.phase t = .leaving (a, o) r ∧ (st (k + 1)).mail.holder a = none := by
  induction body with
  | ret r =>
    intro i hi
    obtain ⟨k, l, hik, hph, hl, hp, ht⟩ := will_go h hf (by rw [hi]; simp) fun j hij hj =>
      ⟨j, Nat.le_refl _, _, _, .mail (.unlock (hj.trans hi)) (by simp), trivial, rfl⟩
    rw [hi] at hph
    refine ⟨k, r, hik, ?_⟩
    generalize hm : (st (k + 1)).mail = m'
    have hs := mail_step h hl
    rw [hm] at hs
    cases hs with
    | call _ => exact hp.elim
    | lock h1 _ => obtain rfl := ht; cases hph.symm.trans h1
    | act h1 => obtain rfl := ht; cases hph.symm.trans h1
    | unlock h1 => obtain rfl := ht; cases hph.symm.trans h1; exact ⟨by simp [setPhase, threadOf], by simp [Monitors.setAt]⟩
    | ret h1 => obtain rfl := ht; cases hph.symm.trans h1
  | act f k ih =>
    intro i hi
    obtain ⟨j, l, hij, hph, hl, hp, ht⟩ := will_go h hf (by rw [hi]; simp) fun j hij hj =>
      ⟨j, Nat.le_refl _, _, _, .mail (.act (hj.trans hi)) (by simp), trivial, rfl⟩
    rw [hi] at hph
    have : ∃ s, (st (j + 1)).mail.phase t = .runs (a, o) (k s) := by
      generalize hm : (st (j + 1)).mail = m'
      have hs := mail_step h hl
      rw [hm] at hs
      cases hs with
      | call _ => exact hp.elim
      | lock h1 _ => obtain rfl := ht; cases hph.symm.trans h1
      | act h1 => obtain rfl := ht; cases hph.symm.trans h1; exact ⟨_, if_pos rfl⟩
      | unlock h1 => obtain rfl := ht; cases hph.symm.trans h1
      | ret h1 => obtain rfl := ht; cases hph.symm.trans h1
    obtain ⟨s, hs⟩ := this
    obtain ⟨j', r, h1, h2⟩ := ih s (j + 1) hs
    exact ⟨j', r, by omega, h2⟩

theorem will_return_from (h : Endless thr name st ls) (hf : FairThreads thr st ls) (t : Nat) (a : Mail.Addr) (o : Mail.Op P) (r : Mail.Resp P) (i : Nat)
    (hi : (st i).mail.phase t = .leaving (a, o) r) : ∃ k, i ≤ k ∧ ls k = some (.mail (.ret t (a, o) r)) := by
  obtain ⟨k, l, hik, hph, hl, hp, ht⟩ := will_go h hf (by rw [hi]; simp) fun j hij hj =>
    ⟨j, Nat.le_refl _, _, _, .mail (.ret (hj.trans hi)) (by simp), trivial, rfl⟩
  rw [hi] at hph
  refine ⟨k, hik, ?_⟩
  generalize hm : (st (k + 1)).mail = m'
  have hs := mail_step h hl
  rw [hm] at hs
  cases hs with
  | call _ => exact hp.elim
  | lock h1 _ => obtain rfl := ht; cases hph.symm.trans h1
  | act h1 => obtain rfl := ht; cases hph.symm.trans h1
  | unlock h1 => obtain rfl := ht; cases hph.symm.trans h1
  | ret h1 => obtain rfl := ht; cases hph.symm.trans h1; exact hl

theorem will_run (h : Endless thr name st ls) (hf : FairThreads thr st ls) (t : Nat) (a : Mail.Addr) (o : Mail.Op P) (i : Nat)
    (hw : (st i).mail.phase t = .wants (a, o)) : ∃ k, i ≤ k ∧ (st k).mail.phase t = .runs (a, o) (Mail.body a o) := by
  obtain ⟨k, l, hik, hph, hl, hp, ht⟩ := will_go h hf (t := t) (i := i) (by rw [hw]; simp) fun j hij hj => by
    have hfree : ∃ k, j ≤ k ∧ (st k).mail.holder a = none := by
      cases hh : (st j).mail.holder a with
      | none => exact ⟨j, Nat.le_refl _, hh⟩
      | some t' =>
        obtain ⟨o', bd, hb⟩ := (Monitors.inv_steps (endless_exec h j).mail).holds t' a hh
        obtain ⟨k, r, h1, -, h2⟩ := will_leave h hf t' a o' bd j hb
        exact ⟨k + 1, by omega, h2⟩
    obtain ⟨k, hjk, hk⟩ := hfree
    by_cases hstill : (st k).mail.phase t = .wants (a, o)
    · exact ⟨k, hjk, _, _, .mail (.lock hstill hk) (by simp), trivial, rfl⟩
    · -- it has proceeded already
      have hb : BusyAt thr (st j) t none := by show _ ≠ _; rw [hj, hw]; simp
      have : ∃ k', j ≤ k' ∧ ProceedsAt thr ls t k' := by
        by_contra hno
        exact hstill ((stays_until h hb hjk fun k' g1 _ g2 => hno ⟨k', g1, g2⟩).2.trans (hj.trans hw))
      obtain ⟨k', hk', l, hl, hp, ht⟩ := this
      exact ⟨k', hk', l, _, h.some k' l hl, hp, ht⟩
  rw [hw] at hph
  refine ⟨k + 1, by omega, ?_⟩
  generalize hm : (st (k + 1)).mail = m'
  have hs := mail_step h hl
  rw [hm] at hs
  cases hs with
  | call _ => exact hp.elim
  | lock h1 _ => obtain rfl := ht; cases hph.symm.trans h1; exact if_pos rfl
  | act h1 => obtain rfl := ht; cases hph.symm.trans h1
  | unlock h1 => obtain rfl := ht; cases hph.symm.trans h1
  | ret h1 => obtain rfl := ht; cases hph.symm.trans h1

theorem runs_return (h : Endless thr name st ls) (hf : FairThreads thr st ls) (t : Nat) (o : Mail.Addr × Mail.Op P) (body) (i : Nat)
    (hi : (st i).mail.phase t = .runs o body) : ∃ j r, i ≤ j ∧ ls j = some (.mail (.ret t o r)) := by
  obtain ⟨k, r, h1, h2, -⟩ := will_leave h hf t o.1 o.2 _ i hi
  obtain ⟨j, h3, h4⟩ := will_return_from h hf t o.1 o.2 r (k + 1) h2
  exact ⟨j, r, by omega, h4⟩

theorem wants_return (h : Endless thr name st ls) (hf : FairThreads thr st ls) (t : Nat) (o : Mail.Addr × Mail.Op P) (i : Nat)
    (hi : (st i).mail.phase t = .wants o) : ∃ j r, i ≤ j ∧ ls j = some (.mail (.ret t o r)) := by
  obtain ⟨k, hk, hk'⟩ := will_run h hf t o.1 o.2 i hi
  obtain ⟨j, r, h1, h2⟩ := runs_return h hf t o _ k hk'
  exact ⟨j, r, by omega, h2⟩

/-- Every call on a mailbox returns, whatever the other threads do, also at barriers. -/
theorem C141_mail (h : Endless thr name st ls) (hf : FairThreads thr st ls) (t i : Nat) (o : Mail.Addr × Mail.Op P)
    (hi : ls i = some (.mail (.call t o))) : ∃ j r, i < j ∧ ls j = some (.mail (.ret t o r)) := by
  have hw : (st (i + 1)).mail.phase t = .wants o := by
    generalize hm : (st (i + 1)).mail = m'
    have hs := mail_step h hi
    rw [hm] at hs
    cases hs with
    | call _ => simp [setPhase]
  exact wants_return h hf t o (i + 1) hw

theorem mail_ends (h : Endless thr name st ls) (hf : FairThreads thr st ls) (t i : Nat) (hb : (st i).mail.phase t ≠ .idle) :
    ∃ j, i ≤ j ∧ ¬ InCall thr t (firstSteps ls j) := by
  have : ∃ j o r, i ≤ j ∧ ls j = some (.mail (.ret t o r)) := by
    cases hp : (st i).mail.phase t with
    | idle => exact absurd hp hb
    | wants o => obtain ⟨j, r, h1, h2⟩ := wants_return h hf t o i hp; exact ⟨j, o, r, h1, h2⟩
    | runs o body => obtain ⟨j, r, h1, h2⟩ := runs_return h hf t o body i hp; exact ⟨j, o, r, h1, h2⟩
    | leaving o r => obtain ⟨j, h1, h2⟩ := will_return_from h hf t o.1 o.2 r i hp; exact ⟨j, o, r, h1, h2⟩
  obtain ⟨j, o, r, h1, h2⟩ := this
  refine ⟨j + 1, by omega, ?_⟩
  unfold InCall
  have hfin : finishes thr t (Lab.mail (.ret t o r) : Lab β P n) = true := by simp [finishes]
  have hbeg : begins thr t (Lab.mail (.ret t o r) : Lab β P n) = false := rfl
  rw [firstSteps_succ, h2]
  simp only [Option.toList_some, List.countP_append, List.countP_singleton, hfin, hbeg]
  rcases (endless_exec h j).calls t with ⟨e, -⟩ | ⟨e, -⟩
  · simp; omega
  · simp; omega

/-! ### Programs -/

omit [DecidableEq β] in
/-- From some time on a thread makes no further calls of a finite program. -/
theorem calls_settle (prog : Nat → List (ToCall β P n)) (hp : CallsInTurn thr prog ls) (t : Nat) :
    ∃ i, ∀ j, i ≤ j → callsOf thr t (firstSteps ls j) = callsOf thr t (firstSteps ls i) := by
  have hpre : ∀ {i j}, i ≤ j → callsOf thr t (firstSteps ls i) <+: callsOf thr t (firstSteps ls j) := fun h => (firstSteps_prefix ls h).filterMap _
  by_contra hno
  have hgrow : ∀ m, ∃ i, m ≤ (callsOf thr t (firstSteps ls i)).length := by
    intro m
    induction m with
    | zero => exact ⟨0, Nat.zero_le _⟩
    | succ m ih =>
      obtain ⟨i, hi⟩ := ih
      have : ∃ j, i ≤ j ∧ callsOf thr t (firstSteps ls j) ≠ callsOf thr t (firstSteps ls i) := by
        by_contra hc
        exact hno ⟨i, fun j hj => by
          by_contra hne
          exact hc ⟨j, hj, hne⟩⟩
      obtain ⟨j, hj, hne⟩ := this
      refine ⟨j, ?_⟩
      have h1 := (hpre hj).length_le
      have h2 : (callsOf thr t (firstSteps ls i)).length ≠ (callsOf thr t (firstSteps ls j)).length := fun e => hne ((hpre hj).eq_of_length e).symm
      omega
  obtain ⟨i, hi⟩ := hgrow ((prog t).length + 1)
  have := (hp.1 t i).length_le
  omega

/-- A thread stays in its call until this ends. -/
theorem busy_keeps {c c' : Conf β P n} {l : Lab β P n} (hs : Step thr c l c') {t : Nat} {x : Option ((b : β) × Fin (n b))} (hb : BusyAt thr c t x)
    (hno : finishes thr t l = false) : BusyAt thr c' t x := by
  cases hs with
  | @mail l m' hs hf =>
    match x with
    | none =>
      by_cases htl : t = threadOf l
      · subst htl
        rcases (mail_busy hs).2 with ⟨t, o, rfl, -, h1⟩ | ⟨t, o, r, rfl, -, -⟩ | ⟨-, h1, -, -⟩
        · exact h1
        · simp [finishes, threadOf] at hno
        · exact h1
      · show m'.phase t ≠ _
        rw [(mail_busy hs).1 t htl]
        exact hb
    | some ⟨b, u⟩ => exact hb
  | @bar b w m c1 e hs hf =>
    match x with
    | none => exact hb
    | some ⟨b', u⟩ =>
      obtain ⟨h1, h2⟩ := hb
      refine ⟨h1, ?_⟩
      by_cases hbb : b' = b
      · subst hbb
        show (Function.update c.bars b' c1 b').pc u ≠ _
        rw [Function.update_self]
        by_cases hu : u = w
        · subst hu
          rcases (bar_busy hs).2 with ⟨-, -, -, g⟩ | ⟨-, -, -, rfl | ⟨o, rfl⟩⟩ | ⟨-, -, g, -⟩
          · exact g
          · simp [finishes, h1] at hno
          · simp [finishes, h1] at hno
          · exact g
        · rw [Ne, (bar_busy hs).1 u hu]; exact h2
      · show (Function.update c.bars b c1 b').pc u ≠ _
        rw [Function.update_of_ne hbb]
        exact h2

omit [DecidableEq β] in
theorem begins_calls (t : Nat) (L : List (Lab β P n)) : L.countP (begins thr t) = (callsOf thr t L).length := by
  unfold callsOf
  rw [List.length_filterMap_eq_countP]
  congr 1
  funext l
  cases l with
  | mail l =>
    cases l with
    | call t' o => by_cases h : t' = t <;> simp [callOf, begins, h]
    | _ => rfl
  | bar b s =>
    obtain ⟨w, m, e, x, y⟩ := s
    cases e with
    | call u => by_cases h : thr b u = t <;> simp [callOf, begins, h]
    | _ => rfl

/-- A thread that makes no further calls and is in a call at all times is in the same call. -/
theorem same_call (h : Endless thr name st ls) {t i : Nat} {x : Option ((b : β) × Fin (n b))} (hx : BusyAt thr (st i) t x)
    (hm : ∀ j, i ≤ j → callsOf thr t (firstSteps ls j) = callsOf thr t (firstSteps ls i)) (hc : ∀ j, i ≤ j → InCall thr t (firstSteps ls j)) (j : Nat) (hij : i ≤ j) :
    BusyAt thr (st j) t x := by
  induction hij with
  | refl => exact hx
  | @step j hij ih =>
    cases hl : ls j with
    | none => rw [h.none j hl]; exact ih
    | some l =>
      refine busy_keeps (h.some j l hl) ih ?_
      by_contra hfin
      have hfin : finishes thr t l = true := by simpa using hfin
      have h1 := hc (j + 1) (Nat.le_succ_of_le hij)
      have h3 : (firstSteps ls (j + 1)).countP (begins thr t) = (firstSteps ls j).countP (begins thr t) := by
        rw [begins_calls, begins_calls, hm (j + 1) (Nat.le_succ_of_le hij), hm j hij]
      unfold InCall at h1
      rw [h3, firstSteps_succ, hl] at h1
      simp only [Option.toList_some, List.countP_append, List.countP_singleton, hfin, if_true] at h1
      rcases (endless_exec h j).calls t with ⟨e, -⟩ | ⟨e, -⟩ <;> omega

/-- Programs with finitely many calls in which all threads come to their barriers in a common order: every thread makes all its calls, and all return. -/
theorem C141_program (h : Endless thr name st ls) (hf : FairThreads thr st ls) (hn : ∀ b, n b < 2 ^ 32)
    (hinj : ∀ b, Function.Injective (thr b)) (hd : ∀ b i, NoDeadline (barEvents b (firstSteps ls i))) (prog : Nat → List (ToCall β P n)) (order : List β)
    (ho : ∀ t, (prog t).filterMap ToCall.barrier = order.filter (uses thr t)) (hp : CallsInTurn thr prog ls) (t : Nat) :
    ∃ i, callsOf thr t (firstSteps ls i) = prog t ∧ ¬ InCall thr t (firstSteps ls i) := by
  choose m hm using calls_settle prog hp
  have hquiet : ∀ t j, m t ≤ j → ¬ InCall thr t (firstSteps ls j) → callsOf thr t (firstSteps ls j) = prog t := by
    intro t j hj hc
    by_contra hne
    obtain ⟨j', h1, h2⟩ := hp.2 t j hc hne
    rw [hm t j hj, hm t j' (by omega)] at h2
    omega
  have key : ∀ p t, waitsOf thr t (firstSteps ls (m t)) = (order.take p).filter (uses thr t) → (∀ j, m t ≤ j → InCall thr t (firstSteps ls j)) → False := by
    intro p
    induction p using Nat.strong_induction_on with
    | _ p ih =>
      intro t hw hc
      obtain ⟨x, hx⟩ := (inCall_iff (endless_exec h (m t)) t).1 (hc _ (Nat.le_refl _))
      match x with
      | none =>
        obtain ⟨j, h1, h2⟩ := mail_ends h hf t (m t) hx
        exact h2 (hc j h1)
      | some ⟨b, u⟩ =>
        obtain ⟨rfl, hx⟩ := hx
        have used : ∀ v, uses thr (thr b v) b = true := fun v => by simp only [uses, decide_eq_true_eq]; exact ⟨v, rfl⟩
        have hcb : ∀ v j, m (thr b v) ≤ j → callsBy v (barEvents b (firstSteps ls j)) = callsBy v (barEvents b (firstSteps ls (m (thr b v)))) := by
          intro v j hj
          rw [count_waits (hinj b), count_waits (hinj b), waits_calls, waits_calls, hm _ j hj]
        have hk : ∀ j, returnsTo u (barEvents b (firstSteps ls j)) < callsBy u (barEvents b (firstSteps ls (m (thr b u)))) := by
          intro j
          have hbz : BusyAt thr (st (max j (m (thr b u)))) (thr b u) (some ⟨b, u⟩) :=
            same_call h (show BusyAt thr (st (m (thr b u))) (thr b u) (some ⟨b, u⟩) from ⟨rfl, hx⟩) (hm _) hc _ (by omega)
          have hr := (endless_exec h (max j (m (thr b u)))).run b
          have h1 := (Bar.counts hr u).1
          rw [if_neg hbz.2, Bar.ends_eq_returns (Bar.calm_run hr (hd b _)).2, hcb u _ (by omega)] at h1
          have h2 : returnsTo u (barEvents b (firstSteps ls j)) ≤ returnsTo u (barEvents b (firstSteps ls (max j (m (thr b u))))) := by
            unfold returnsTo barEvents
            exact List.Sublist.countP_le (((firstSteps_prefix ls (by omega)).filterMap _).map _).sublist
          omega
        have hlate : ∃ u', ∀ i, callsBy u' (barEvents b (firstSteps ls i)) < callsBy u (barEvents b (firstSteps ls (m (thr b u)))) := by
          by_contra hno
          obtain ⟨i, hi⟩ := C141_wait h hf b (hn b) (hd b) (callsBy u (barEvents b (firstSteps ls (m (thr b u))))) (fun v => by
            by_contra hv
            exact hno ⟨v, fun i => by
              by_contra hlt
              exact hv ⟨i, by omega⟩⟩) u
          have := hk i
          omega
        obtain ⟨u', hu'⟩ := hlate
        obtain ⟨p', hp'⟩ := prefix_filter (uses thr (thr b u')) order (waitsOf thr (thr b u') (firstSteps ls (m (thr b u')))) (by
          rw [waits_calls, ← ho (thr b u')]
          exact (hp.1 _ _).filterMap _)
        have h2 := hu' (m (thr b u'))
        rw [count_waits (hinj b), count_waits (hinj b), hw, hp', List.count_filter (used u'), List.count_filter (used u)] at h2
        have hpp : p' < p := by
          by_contra hle
          have : (order.take p) = (order.take p').take p := by rw [List.take_take, Nat.min_eq_left (by omega)]
          have h3 := (List.take_sublist p (order.take p')).count_le b
          rw [← this] at h3
          omega
        refine ih p' hpp (thr b u') hp' fun j hj => ?_
        by_contra hc'
        have e := hquiet _ j hj hc'
        rw [hm _ j hj] at e
        rw [waits_calls, e, ho] at hp'
        have h4 : ((order.take p').filter (uses thr (thr b u'))).count b = (order.filter (uses thr (thr b u'))).count b := by rw [hp']
        rw [List.count_filter (used u'), List.count_filter (used u')] at h4
        have h5 := (List.take_sublist p order).count_le b
        omega
  by_contra hno
  have hall : ∀ j, m t ≤ j → InCall thr t (firstSteps ls j) := fun j hj => by
    by_contra hc
    exact hno ⟨j, hquiet t j hj hc, hc⟩
  obtain ⟨p, hp'⟩ := prefix_filter (uses thr t) order (waitsOf thr t (firstSteps ls (m t))) (by
    rw [waits_calls, ← ho t]
    exact (hp.1 t _).filterMap _)
  exact key p t hp' hall

/-! ### Executions that end -/

/-- An execution that ends is an infinite one in which nothing happens any more. -/
theorem endless_of {L : List (Lab β P n)} {c : Conf β P n} (h : Exec thr name L c) :
    ∃ st : Nat → Conf β P n, Endless thr name st (fun i => L[i]?) ∧ ∀ i, L.length ≤ i → st i = c := by
  induction h with
  | init => exact ⟨fun _ => Conf.init name, ⟨rfl, fun i l hl => by simp at hl, fun _ _ => rfl⟩, fun _ _ => rfl⟩
  | @snoc L c l c' h hs ih =>
    obtain ⟨st, he, hc⟩ := ih
    refine ⟨fun i => if i ≤ L.length then st i else c', ⟨by simpa using he.init, fun i x hx => ?_, fun i hx => ?_⟩, fun i hi => ?_⟩
    · by_cases hi : i < L.length
      · rw [List.getElem?_append_left hi] at hx
        simpa [Nat.le_of_lt hi, Nat.succ_le_of_lt hi] using he.some i x hx
      · have hi' : i = L.length := by
          have := (List.getElem?_eq_some_iff.1 hx).1
          simp at this
          omega
        subst hi'
        simp only [Nat.le_refl, List.getElem?_append_right, Nat.sub_self, List.getElem?_cons_zero, Option.some.injEq] at hx
        subst hx
        simpa [hc L.length (Nat.le_refl _)] using hs
    · have := List.getElem?_eq_none_iff.1 hx
      simp at this
      simp [Nat.not_le.2 (show L.length < i by omega), Nat.not_le.2 (show L.length < i + 1 by omega)]
    · simp at hi
      simp [Nat.not_le.2 (show L.length < i by omega)]

omit [DecidableEq β] in
theorem firstSteps_list (L : List (Lab β P n)) (i : Nat) : firstSteps (fun i => L[i]?) i = L.take i := by
  induction i with
  | zero => rfl
  | succ i ih => rw [firstSteps_succ, ih, List.take_add_one]

/-- The hypotheses of `C141_program` are met by the threads that wait at two barriers in the same order. -/
example : ∃ (st : Nat → ConfPair) (ls : Nat → Option LabPair), Endless thrPair (fun _ => "m".toList) st ls ∧ FairThreads thrPair st ls ∧
    (∀ b i, NoDeadline (barEvents b (firstSteps ls i))) ∧ (∀ t, (progTwice t).filterMap ToCall.barrier = [false, true].filter (uses thrPair t)) ∧
    CallsInTurn thrPair progTwice ls := by
  obtain ⟨L, c, he, hd, -, ho, -, hend, hdone⟩ := both_twice
  obtain ⟨st, hE, hst⟩ := endless_of he
  have hpre : ∀ i, L.take i <+: L := fun i => List.take_prefix i L
  refine ⟨st, fun i => L[i]?, hE, fun t hen => ?_, fun b i u hu => ?_, ho, fun t i => ?_, fun t i _ hne => ⟨max i L.length, by omega, ?_⟩⟩
  · obtain ⟨j, hj, l, c', hs, hp, -⟩ := hen L.length
    rw [hst j hj] at hs
    exact absurd hp (hend l c' hs).1
  · rw [firstSteps_list] at hu
    exact hd b u ((((hpre i).filterMap _).map _).subset hu)
  · rw [firstSteps_list, ← (hdone t).1]
    exact (hpre i).filterMap _
  · rw [firstSteps_list, firstSteps_list, List.take_of_length_le (show L.length ≤ max i L.length by omega), (hdone t).1]
    rw [firstSteps_list] at hne
    have hp : callsOf thrPair t (L.take i) <+: progTwice t := by rw [← (hdone t).1]; exact (hpre i).filterMap _
    exact lt_of_le_of_ne hp.length_le fun e => hne (hp.eq_of_length e)

end SoDa.Together
