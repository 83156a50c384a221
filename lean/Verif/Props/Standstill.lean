import Verif.Spec.Standstill
import Verif.Props.Together
import Verif.Props.Barrier
import Verif.Proof.LinearMany
import Mathlib.Logic.Hydra
import Mathlib.Data.Prod.Lex
/-!
# C140  When programs with mailboxes and barriers stand still
-/
namespace SoDa.Together
open Monitor (Label Phase Body setPhase)
open Spec

variable {β P : Type} [DecidableEq β] {n : β → Nat} {thr : (b : β) → Fin (n b) → Nat} {name : Mail.Addr → Str}

/-! ### Calls -/

/-- The places at which a thread can be in a call: the mailboxes (`none`), or as number `u` at the barrier `b`. -/
def BusyAt (thr : (b : β) → Fin (n b) → Nat) (c : Conf β P n) (t : Nat) : Option ((b : β) × Fin (n b)) → Prop
  | none => c.mail.phase t ≠ .idle
  | some ⟨b, u⟩ => thr b u = t ∧ (c.bars b).pc u ≠ .idle

theorem bar_busy {T : Type} [DecidableEq T] {k : Nat} {c c' : Bar.Conf T} {t : T} {m : Bar.Move} {e : Bar.Ev T} (hs : Bar.step k c t m = some (c', e)) :
    (∀ u, u ≠ t → (c'.pc u = .idle ↔ c.pc u = .idle)) ∧
    ((m = .call ∧ e = .call t ∧ c.pc t = .idle ∧ c'.pc t ≠ .idle) ∨
     (m ≠ .call ∧ c.pc t ≠ .idle ∧ c'.pc t = .idle ∧ (e = .ret t ∨ ∃ o, e = .raise t o)) ∨
     (m ≠ .call ∧ c.pc t ≠ .idle ∧ c'.pc t ≠ .idle ∧ (∀ u, e ≠ .call u) ∧ (∀ u, e ≠ .ret u) ∧ ∀ u o, e ≠ .raise u o)) := by
  cases m with
  | call =>
    simp only [Bar.step] at hs
    split at hs
    · rename_i hp
      cases hs
      exact ⟨fun u hu => by simp [Bar.Conf.goto, hu], .inl ⟨rfl, rfl, hp, by simp [Bar.Conf.goto]⟩⟩
    · cases hs
  | spurious =>
    simp only [Bar.step] at hs
    split at hs
    · rename_i hp
      cases hs
      exact ⟨fun u hu => by simp [Bar.Conf.goto, hu], .inr (.inr ⟨by simp, by simp [hp], by simp [Bar.Conf.goto], by simp, by simp, by simp⟩)⟩
    · cases hs
  | deadline =>
    simp only [Bar.step] at hs
    split at hs
    · rename_i hp
      cases hs
      exact ⟨fun u hu => by simp [Bar.Conf.goto, hu], .inr (.inr ⟨by simp, by simp [hp], by simp [Bar.Conf.goto], by simp, by simp, by simp⟩)⟩
    · cases hs
  | go =>
    have hw : ∀ u, (c.wakeAll.pc u = .idle ↔ c.pc u = .idle) := by
      intro u
      simp only [Bar.Conf.wakeAll]
      split <;> simp_all
    simp only [Bar.step, Bar.stepGo] at hs
    cases hp : c.pc t <;> rw [hp] at hs <;> simp only [] at hs
    case idle => cases hs
    case waitCv => cases hs
    case out r =>
      cases hs
      refine ⟨fun u hu => by simp [Bar.Conf.goto, hu], .inr (.inl ⟨by simp, by simp, by simp [Bar.Conf.goto], ?_⟩)⟩
      cases r <;> simp
    case notify =>
      cases hs
      exact ⟨fun u hu => by simp [Bar.Conf.goto, hu, hw], .inr (.inr ⟨by simp, by simp, by simp [Bar.Conf.goto], by simp, by simp, by simp⟩)⟩
    case notifyT =>
      cases hs
      exact ⟨fun u hu => by simp [Bar.Conf.goto, hu, hw], .inr (.inr ⟨by simp, by simp, by simp [Bar.Conf.goto], by simp, by simp, by simp⟩)⟩
    all_goals
      (repeat' split at hs) <;> cases hs <;>
        exact ⟨fun u hu => by simp [Bar.Conf.goto, hu], .inr (.inr ⟨by simp, by simp, by simp [Bar.Conf.goto], by simp, by simp, by simp⟩)⟩

/-- The events at a barrier are those of the stepping thread. -/
theorem Exec.run {L : List (Lab β P n)} {c : Conf β P n} (h : Exec thr name L c) (b : β) : Bar.Run (n b) (barEvents b L) (c.bars b) := by
  induction h with
  | init => exact .init
  | @snoc L c l c' h hs ih =>
    unfold barEvents at ih ⊢
    rw [List.filterMap_append, List.map_append]
    cases hs with
    | mail hs _ => simpa [atBar, List.filterMap_cons] using ih
    | @bar b' t m c1 e hs _ =>
      by_cases hbb : b' = b
      · subst hbb
        simpa [atBar] using Bar.Run.snoc ih hs
      · simpa [atBar, hbb, Function.update_of_ne (fun e => hbb e.symm : b ≠ b')] using ih

theorem mail_busy {c c' : Monitors.Conf Nat Mail.Addr (Mail.Box P) (Mail.Op P) (Mail.Resp P)} {l} (hs : Monitors.Step Mail.body c l c') :
    (∀ t, t ≠ threadOf l → c'.phase t = c.phase t) ∧
    ((∃ t o, l = .call t o ∧ c.phase t = .idle ∧ c'.phase t ≠ .idle) ∨
     (∃ t o r, l = .ret t o r ∧ c.phase t ≠ .idle ∧ c'.phase t = .idle) ∨
     (c.phase (threadOf l) ≠ .idle ∧ c'.phase (threadOf l) ≠ .idle ∧ (∀ t o, l ≠ .call t o) ∧ ∀ t o r, l ≠ .ret t o r)) := by
  cases hs with
  | call h => exact ⟨fun t ht => by simp [threadOf] at ht; simp [setPhase, ht], .inl ⟨_, _, rfl, h, by simp [setPhase]⟩⟩
  | lock h hf =>
    exact ⟨fun t ht => by simp [threadOf] at ht; simp [setPhase, ht], .inr (.inr ⟨by simp [threadOf, h], by simp [threadOf, setPhase], by simp, by simp⟩)⟩
  | act h =>
    exact ⟨fun t ht => by simp [threadOf] at ht; simp [setPhase, ht], .inr (.inr ⟨by simp [threadOf, h], by simp [threadOf, setPhase], by simp, by simp⟩)⟩
  | unlock h =>
    exact ⟨fun t ht => by simp [threadOf] at ht; simp [setPhase, ht], .inr (.inr ⟨by simp [threadOf, h], by simp [threadOf, setPhase], by simp, by simp⟩)⟩
  | ret h =>
    exact ⟨fun t ht => by simp [threadOf] at ht; simp [setPhase, ht], .inr (.inl ⟨_, _, _, rfl, by simp [h], by simp [setPhase]⟩)⟩

/-- A thread is in at most one call, and then the calls are one more than the ends. -/
theorem Exec.calls {L : List (Lab β P n)} {c : Conf β P n} (h : Exec thr name L c) (t : Nat) :
    (L.countP (begins thr t) = L.countP (finishes thr t) ∧ ∀ x, ¬ BusyAt thr c t x) ∨
    (L.countP (begins thr t) = L.countP (finishes thr t) + 1 ∧ ∃ x, BusyAt thr c t x ∧ ∀ y, BusyAt thr c t y → y = x) := by
  induction h with
  | init =>
    refine .inl ⟨rfl, fun x hx => ?_⟩
    match x with
    | none => exact hx rfl
    | some ⟨b, u⟩ => exact hx.2 rfl
  | @snoc L c l c' h hs ih =>
    simp only [List.countP_append, List.countP_singleton]
    cases hs with
    | @mail l m' hs hf =>
      obtain ⟨hne, hc⟩ := mail_busy hs
      have hbar : ∀ b u, BusyAt thr { c with mail := m' } t (some ⟨b, u⟩) ↔ BusyAt thr c t (some ⟨b, u⟩) := fun b u => Iff.rfl
      by_cases htl : t = threadOf l
      · rcases hc with ⟨t', o, rfl, h1, h2⟩ | ⟨t', o, r, rfl, h1, h2⟩ | ⟨h1, h2, h3, h4⟩
        · obtain rfl : t = t' := htl
          have hidle : ∀ x, ¬ BusyAt thr c t x := by
            intro x hx
            match x with
            | none => exact hx h1
            | some ⟨b, u⟩ => exact hx.2 (hf t o rfl b u hx.1)
          rcases ih with ⟨e, -⟩ | ⟨-, x, hx, -⟩
          · refine .inr ⟨by simp [begins, finishes, e], none, h2, fun y hy => ?_⟩
            match y with
            | none => rfl
            | some ⟨b, u⟩ => exact absurd ((hbar b u).1 hy) (hidle _)
          · exact absurd hx (hidle x)
        · obtain rfl : t = t' := htl
          rcases ih with ⟨-, e⟩ | ⟨e, x, hx, hu⟩
          · exact absurd h1 (e none)
          · have hxn : none = x := hu none h1
            subst hxn
            refine .inl ⟨by simp [begins, finishes, e], fun y hy => ?_⟩
            match y with
            | none => exact hy h2
            | some ⟨b, u⟩ => exact absurd (hu _ ((hbar b u).1 hy)) (by simp)
        · have e1 : begins thr t (Lab.mail l : Lab β P n) = false := by
            cases l <;> simp [begins] at h3 ⊢
          have e2 : finishes thr t (Lab.mail l : Lab β P n) = false := by
            cases l <;> simp [finishes] at h4 ⊢
          rw [← htl] at h1 h2
          have hb : ∀ x, BusyAt thr { c with mail := m' } t x ↔ BusyAt thr c t x := by
            intro x
            match x with
            | none => exact ⟨fun _ => h1, fun _ => h2⟩
            | some ⟨b, u⟩ => exact Iff.rfl
          simpa [e1, e2, hb] using ih
      · have e1 : begins thr t (Lab.mail l : Lab β P n) = false := by
          cases l <;> simp [begins, threadOf] at htl ⊢
          exact fun e => htl e.symm
        have e2 : finishes thr t (Lab.mail l : Lab β P n) = false := by
          cases l <;> simp [finishes, threadOf] at htl ⊢
          exact fun e => htl e.symm
        have hb : ∀ x, BusyAt thr { c with mail := m' } t x ↔ BusyAt thr c t x := by
          intro x
          match x with
          | none => simp [BusyAt, hne t htl]
          | some ⟨b, u⟩ => exact Iff.rfl
        simpa [e1, e2, hb] using ih
    | @bar b w m c1 e hs hf =>
      obtain ⟨hne, hc⟩ := bar_busy hs
      have hoff : ∀ y, y ≠ some ⟨b, w⟩ → (BusyAt thr { c with bars := Function.update c.bars b c1 } t y ↔ BusyAt thr c t y) := by
        intro y hy
        match y with
        | none => exact Iff.rfl
        | some ⟨b', u⟩ =>
          by_cases hb : b' = b
          · subst hb
            have hu : u ≠ w := by rintro rfl; exact hy rfl
            simp [BusyAt, hne u hu]
          · simp [BusyAt, Function.update_of_ne hb]
      have hon : BusyAt thr { c with bars := Function.update c.bars b c1 } t (some ⟨b, w⟩) ↔ thr b w = t ∧ c1.pc w ≠ .idle := by simp [BusyAt]
      by_cases htw : thr b w = t
      · rcases hc with ⟨rfl, rfl, h1, h2⟩ | ⟨hm, h1, h2, h3⟩ | ⟨hm, h1, h2, h3, h4, h5⟩
        · have hidle : ∀ x, ¬ BusyAt thr c t x := by
            intro x hx
            obtain ⟨g1, g2⟩ := hf rfl
            match x with
            | none => exact hx (htw ▸ g1)
            | some ⟨b, u⟩ => exact hx.2 (g2 b u (hx.1.trans htw.symm))
          rcases ih with ⟨e, -⟩ | ⟨-, x, hx, -⟩
          · refine .inr ⟨by simp [begins, finishes, e, htw], some ⟨b, w⟩, hon.2 ⟨htw, h2⟩, fun y hy => ?_⟩
            by_contra hyn
            exact hidle y ((hoff y hyn).1 hy)
          · exact absurd hx (hidle x)
        · rcases ih with ⟨-, e⟩ | ⟨e, x, hx, hu⟩
          · exact absurd ⟨htw, h1⟩ (e (some ⟨b, w⟩))
          · have hxn := hu (some ⟨b, w⟩) ⟨htw, h1⟩
            refine .inl ⟨?_, fun y hy => ?_⟩
            · rcases h3 with rfl | ⟨o, rfl⟩ <;> simp [begins, finishes, e, htw]
            · by_cases hyn : y = some ⟨b, w⟩
              · subst hyn; exact (hon.1 hy).2 h2
              · exact hyn ((hu y ((hoff y hyn).1 hy)).trans hxn.symm)
        · have hb : ∀ x, BusyAt thr { c with bars := Function.update c.bars b c1 } t x ↔ BusyAt thr c t x := by
            intro x
            by_cases hxn : x = some ⟨b, w⟩
            · subst hxn; rw [hon]; exact ⟨fun _ => ⟨htw, h1⟩, fun _ => ⟨htw, h2⟩⟩
            · exact hoff x hxn
          cases e <;> first | exact absurd rfl (h3 _) | exact absurd rfl (h4 _) | exact absurd rfl (h5 _ _) | simpa [begins, finishes, hb] using ih
      · have hb : ∀ x, BusyAt thr { c with bars := Function.update c.bars b c1 } t x ↔ BusyAt thr c t x := by
          intro x
          by_cases hxn : x = some ⟨b, w⟩
          · subst hxn; rw [hon]; exact ⟨fun h => absurd h.1 htw, fun h => absurd h.1 htw⟩
          · exact hoff x hxn
        rcases hc with ⟨rfl, rfl, h1, h2⟩ | ⟨hm, h1, h2, rfl | ⟨o, rfl⟩⟩ | ⟨hm, h1, h2, h3, h4, h5⟩
        · simpa [begins, finishes, hb, htw] using ih
        · simpa [begins, finishes, hb, htw] using ih
        · simpa [begins, finishes, hb, htw] using ih
        · cases e <;> first | exact absurd rfl (h3 _) | exact absurd rfl (h4 _) | exact absurd rfl (h5 _ _) | simpa [begins, finishes, hb] using ih

theorem inCall_iff {L : List (Lab β P n)} {c : Conf β P n} (h : Exec thr name L c) (t : Nat) : InCall thr t L ↔ ∃ x, BusyAt thr c t x := by
  unfold InCall
  rcases h.calls t with ⟨e, hx⟩ | ⟨e, x, hx, -⟩
  · constructor
    · omega
    · rintro ⟨x, h⟩; exact absurd h (hx x)
  · exact ⟨fun _ => ⟨x, hx⟩, fun _ => by omega⟩

/-! ### Standing still -/

/-- Nobody is in a call of a mailbox if nobody can proceed. -/
theorem still_mail {L : List (Lab β P n)} {c : Conf β P n} (h : Exec thr name L c) (hs : ∀ l c', Step thr c l c' → ¬ Proceeds l) (t : Nat) :
    c.mail.phase t = .idle := by
  have go : ∀ t p, c.mail.phase t = p → (match p with | .runs _ _ => True | .leaving _ _ => True | _ => False) → False := by
    intro t p hp hx
    cases p with
    | idle => exact hx
    | wants o => exact hx
    | runs o b =>
      obtain ⟨a, o⟩ := o
      cases b with
      | ret r => exact hs _ _ (.mail (.unlock hp) (by simp)) trivial
      | act f k => exact hs _ _ (.mail (.act hp) (by simp)) trivial
    | leaving o r =>
      obtain ⟨a, o⟩ := o
      exact hs _ _ (.mail (.ret hp) (by simp)) trivial
  cases hp : c.mail.phase t with
  | idle => rfl
  | runs o b => exact (go t _ hp trivial).elim
  | leaving o r => exact (go t _ hp trivial).elim
  | wants o =>
    obtain ⟨a, o⟩ := o
    cases hh : c.mail.holder a with
    | none => exact (hs _ _ (.mail (.lock hp hh) (by simp)) trivial).elim
    | some t' =>
      obtain ⟨o', b, hb⟩ := (Monitors.inv_steps h.mail).holds t' a hh
      exact (go t' _ hb trivial).elim

theorem still_bar {c : Conf β P n} (hs : ∀ l c', Step thr c l c' → ¬ Proceeds l) (b : β) (u : Fin (n b)) : Bar.step (n b) (c.bars b) u .go = none := by
  cases hq : Bar.step (n b) (c.bars b) u .go with
  | none => rfl
  | some x => exact (hs _ _ (.bar (c' := x.1) (e := x.2) hq (by simp)) rfl).elim

/-- If no thread can proceed, then nobody is in a call of a mailbox, and every thread that is in a call waits at a barrier, more often than some other
thread of this barrier has come to it. -/
theorem C140_standstill {L : List (Lab β P n)} {c : Conf β P n} (h : Exec thr name L c) (hn : ∀ b, n b < 2 ^ 32)
    (hd : ∀ b, NoDeadline (barEvents b L)) (hs : ∀ l c', Step thr c l c' → ¬ Proceeds l) (t : Nat) (ht : InCall thr t L) :
    ∃ b u u', thr b u = t ∧ returnsTo u (barEvents b L) < callsBy u (barEvents b L) ∧ callsBy u' (barEvents b L) < callsBy u (barEvents b L) := by
  obtain ⟨x, hx⟩ := (inCall_iff h t).1 ht
  match x with
  | none => exact absurd (still_mail h hs t) hx
  | some ⟨b, u⟩ =>
    have hr := h.run b
    have h1 := (Bar.counts hr u).1
    rw [if_neg hx.2, Bar.ends_eq_returns (Bar.calm_run hr (hd b)).2] at h1
    have : ∃ u', callsBy u' (barEvents b L) < callsBy u (barEvents b L) := by
      by_contra hno
      have := Bar.stuck_done (Nat.lt_of_le_of_lt (Nat.zero_le _) u.2) (by have := hn b; omega) (Fintype.card_fin _) hr (hd b) (still_bar hs b)
        (k := callsBy u (barEvents b L)) (fun v => by
          by_contra hv
          exact hno ⟨v, by omega⟩) u
      omega
    obtain ⟨u', hu'⟩ := this
    exact ⟨b, u, u', hx.1, by omega, hu'⟩

/-! ### A common order -/

theorem prefix_filter {α : Type} (f : α → Bool) (xs l : List α) (h : l <+: xs.filter f) : ∃ p, l = (xs.take p).filter f := by
  induction xs generalizing l with
  | nil => exact ⟨0, by simpa using h⟩
  | cons x xs ih =>
    by_cases hx : f x = true
    · rw [List.filter_cons_of_pos hx] at h
      cases l with
      | nil => exact ⟨0, rfl⟩
      | cons y l =>
        obtain ⟨rfl, h'⟩ := List.cons_prefix_cons.1 h
        obtain ⟨p, rfl⟩ := ih l h'
        exact ⟨p + 1, by rw [List.take_succ_cons, List.filter_cons_of_pos hx]⟩
    · rw [List.filter_cons_of_neg hx] at h
      obtain ⟨p, rfl⟩ := ih l h
      exact ⟨p + 1, by rw [List.take_succ_cons, List.filter_cons_of_neg hx]⟩

theorem count_waits {L : List (Lab β P n)} {b : β} (hinj : Function.Injective (thr b)) (u : Fin (n b)) :
    callsBy u (barEvents b L) = (waitsOf thr (thr b u) L).count b := by
  induction L with
  | nil => rfl
  | cons l L ih =>
    cases l with
    | mail l => simpa [callsBy, barEvents, waitsOf, atBar, List.filterMap_cons] using ih
    | bar b' s =>
      obtain ⟨w, m, e, x, y⟩ := s
      by_cases hb : b' = b
      · subst hb
        cases e with
        | call v =>
          by_cases hv : v = u
          · subst hv
            simpa [callsBy, barEvents, waitsOf, atBar] using ih
          · have : thr b' v ≠ thr b' u := fun e => hv (hinj e)
            simpa [callsBy, barEvents, waitsOf, atBar, hv, this] using ih
        | _ => simpa [callsBy, barEvents, waitsOf, atBar] using ih
      · cases e with
        | call v =>
          by_cases hv : thr b' v = thr b u
          · simpa [callsBy, barEvents, waitsOf, atBar, hb, hv, List.count_cons] using ih
          · simpa [callsBy, barEvents, waitsOf, atBar, hb, hv] using ih
        | _ => simpa [callsBy, barEvents, waitsOf, atBar, hb] using ih

/-- If all threads come to their barriers in a common order, then as long as a thread is in a call, some thread can proceed, or some thread that
is in no call has not come to all its barriers yet. -/
theorem C140_common_order {L : List (Lab β P n)} {c : Conf β P n} (h : Exec thr name L c) (hn : ∀ b, n b < 2 ^ 32)
    (hinj : ∀ b, Function.Injective (thr b)) (hd : ∀ b, NoDeadline (barEvents b L)) (order : List β)
    (ho : ∀ t, waitsOf thr t L <+: order.filter (uses thr t)) (t : Nat) (ht : InCall thr t L) :
    (∃ l c', Step thr c l c' ∧ Proceeds l) ∨ ∃ t', ¬ InCall thr t' L ∧ waitsOf thr t' L ≠ order.filter (uses thr t') := by
  by_contra hno
  rw [not_or] at hno
  have hs : ∀ l c', Step thr c l c' → ¬ Proceeds l := fun l c' h1 h2 => hno.1 ⟨l, c', h1, h2⟩
  have hend : ∀ t', waitsOf thr t' L ≠ order.filter (uses thr t') → InCall thr t' L := fun t' h1 => by
    by_contra h2
    exact hno.2 ⟨t', h2, h1⟩
  have key : ∀ p t, waitsOf thr t L = (order.take p).filter (uses thr t) → InCall thr t L → False := by
    intro p
    induction p using Nat.strong_induction_on with
    | _ p ih =>
      intro t hw hc
      obtain ⟨b, u, u', rfl, h1, h2⟩ := C140_standstill h hn hd hs t hc
      obtain ⟨p', hp'⟩ := prefix_filter _ _ _ (ho (thr b u'))
      have used : ∀ v, uses thr (thr b v) b = true := fun v => by simp only [uses, decide_eq_true_eq]; exact ⟨v, rfl⟩
      rw [count_waits (hinj b), count_waits (hinj b), hw, hp', List.count_filter (used u'), List.count_filter (used u)] at h2
      have hpp : p' < p := by
        by_contra hle
        have : (order.take p) = (order.take p').take p := by rw [List.take_take, Nat.min_eq_left (by omega)]
        have h3 := (List.take_sublist p (order.take p')).count_le b
        rw [← this] at h3
        omega
      refine ih p' hpp (thr b u') hp' (hend _ fun e => ?_)
      rw [hp'] at e
      have h4 : ((order.take p').filter (uses thr (thr b u'))).count b = (order.filter (uses thr (thr b u'))).count b := by rw [e]
      rw [List.count_filter (used u'), List.count_filter (used u')] at h4
      have h5 := (List.take_sublist p order).count_le b
      omega
  obtain ⟨p, hp⟩ := prefix_filter _ _ _ (ho t)
  exact key p t hp ht

/-! ### Coming to a standstill -/

/-- What a thread does next when it is in a call of a mailbox. -/
inductive Down {S O R : Type} : Phase S O R → Phase S O R → Prop where
  | lock {o b} : Down (.runs o b) (.wants o)
  | act {o f k} (s : S) : Down (.runs o (k s)) (.runs o (.act f k))
  | unlock {o r} : Down (.leaving o r) (.runs o (.ret r))
  | ret {o r} : Down .idle (.leaving o r)

theorem down_wf {S O R : Type} : WellFounded (Down (S := S) (O := O) (R := R)) := by
  have h0 : Acc (Down (S := S) (O := O) (R := R)) .idle := ⟨_, fun _ h => nomatch h⟩
  have h1 : ∀ o r, Acc (Down (S := S) (O := O) (R := R)) (.leaving o r) := fun o r => ⟨_, fun _ h => by cases h; exact h0⟩
  have h2 : ∀ o b, Acc (Down (S := S) (O := O) (R := R)) (.runs o b) := by
    intro o b
    induction b with
    | ret r => exact ⟨_, fun _ h => by cases h; exact h1 _ _⟩
    | act f k ih => exact ⟨_, fun _ h => by cases h; exact ih _⟩
  refine ⟨fun p => ?_⟩
  cases p with
  | idle => exact h0
  | leaving o r => exact h1 o r
  | runs o b => exact h2 o b
  | wants o => exact ⟨_, fun _ h => by cases h; exact h2 _ _⟩

/-- Only these threads are in calls of mailboxes, and calls of `wait` only at these barriers. -/
def Within (F : Finset Nat) (G : Finset β) (c : Conf β P n) : Prop :=
  (∀ t, c.mail.phase t ≠ .idle → t ∈ F) ∧ ∀ b u, (c.bars b).pc u ≠ .idle → b ∈ G

theorem Exec.within {L : List (Lab β P n)} {c : Conf β P n} (h : Exec thr name L c) : ∃ F G, Within F G c := by
  induction h with
  | init => exact ⟨∅, ∅, fun t h => absurd rfl h, fun b u h => absurd rfl h⟩
  | @snoc L c l c' h hs ih =>
    obtain ⟨F, G, h1, h2⟩ := ih
    cases hs with
    | @mail l m' hs _ =>
      refine ⟨insert (threadOf l) F, G, fun t ht => ?_, h2⟩
      by_cases e : t = threadOf l
      · simp [e]
      · exact Finset.mem_insert_of_mem (h1 t (by rw [← (mail_busy hs).1 t e]; exact ht))
    | @bar b t m c1 e hs _ =>
      refine ⟨F, insert b G, h1, fun b' u hu => ?_⟩
      by_cases hb : b' = b
      · simp [hb]
      · exact Finset.mem_insert_of_mem (h2 b' u (by simpa [Function.update_of_ne hb] using hu))

/-- The work left: at the barriers, and in the mailboxes. -/
def left (F : Finset Nat) (G : Finset β) (c : Conf β P n) : Nat × Multiset (Phase (Mail.Box P) (Mail.Addr × Mail.Op P) (Mail.Resp P)) :=
  (∑ b ∈ G, (c.bars b).work, F.val.map c.mail.phase)

theorem left_down {F : Finset Nat} {G : Finset β} {c c' : Conf β P n} {l : Lab β P n} (hw : Within F G c) (hs : Step thr c l c') (hp : Proceeds l) :
    Within F G c' ∧ Prod.Lex (· < ·) (Relation.CutExpand Down) (left F G c') (left F G c) := by
  obtain ⟨w1, w2⟩ := hw
  cases hs with
  | @mail l m' hs _ =>
    have hphase : ∃ t p, m'.phase = setPhase c.mail.phase t p ∧ Down p (c.mail.phase t) ∧ c.mail.phase t ≠ .idle := by
      cases hs with
      | call _ => exact hp.elim
      | lock h _ => exact ⟨_, _, rfl, by rw [h]; exact .lock, by simp [h]⟩
      | act h => exact ⟨_, _, rfl, by rw [h]; exact .act _, by simp [h]⟩
      | unlock h => exact ⟨_, _, rfl, by rw [h]; exact .unlock, by simp [h]⟩
      | ret h => exact ⟨_, _, rfl, by rw [h]; exact .ret, by simp [h]⟩
    obtain ⟨t, p, e, hdn, hni⟩ := hphase
    have ht := w1 t hni
    refine ⟨⟨fun t' ht' => ?_, w2⟩, ?_⟩
    · by_cases htt : t' = t
      · subst htt; exact ht
      · refine w1 t' ?_
        simpa [e, setPhase, htt] using ht'
    · refine Prod.Lex.right _ ⟨{p}, c.mail.phase t, by simpa using hdn, ?_⟩
      have hF : F.val = t ::ₘ F.val.erase t := (Multiset.cons_erase ht).symm
      have hrest : (F.val.erase t).map m'.phase = (F.val.erase t).map c.mail.phase := by
        refine Multiset.map_congr rfl fun x hx => ?_
        have hxt : x ≠ t := by
          rintro rfl
          exact (Multiset.Nodup.notMem_erase F.nodup) hx
        simp [e, setPhase, hxt]
      show F.val.map m'.phase + {c.mail.phase t} = F.val.map c.mail.phase + {p}
      rw [hF, Multiset.map_cons, Multiset.map_cons, hrest, show m'.phase t = p by simp [e, setPhase]]
      rw [← Multiset.singleton_add, ← Multiset.singleton_add]
      rw [add_comm, add_assoc {c.mail.phase t}]
      exact congrArg ({c.mail.phase t} + ·) (add_comm _ _)
  | @bar b t m c1 e hs _ =>
    obtain rfl : m = .go := hp
    have hb : b ∈ G := w2 b t (by
      rcases (bar_busy hs).2 with ⟨h, -⟩ | ⟨-, h, -⟩ | ⟨-, h, -⟩
      · cases h
      · exact h
      · exact h)
    refine ⟨⟨w1, fun b' u hu => ?_⟩, Prod.Lex.left _ _ ?_⟩
    · by_cases hbb : b' = b
      · subst hbb; exact hb
      · exact w2 b' u (by simpa [Function.update_of_ne hbb] using hu)
    · refine Finset.sum_lt_sum (fun b' _ => ?_) ⟨b, hb, ?_⟩
      · by_cases hbb : b' = b
        · subst hbb; simpa using Nat.le_of_lt (Bar.work_step hs)
        · simp [Function.update_of_ne hbb]
      · simpa using Bar.work_step hs

/-- Unless new calls are made (or threads are woken without reason, or by deadlines), the program comes to a standstill, however it is scheduled. -/
theorem C140_settles {L : List (Lab β P n)} {c : Conf β P n} (h : Exec thr name L c) (st : Nat → Conf β P n) (ls : Nat → Lab β P n) (h0 : st 0 = c)
    (hstep : ∀ i, Step thr (st i) (ls i) (st (i + 1))) : ∃ i, ¬ Proceeds (ls i) := by
  by_contra hno
  have hp : ∀ i, Proceeds (ls i) := fun i => by
    by_contra hi
    exact hno ⟨i, hi⟩
  obtain ⟨F, G, hw⟩ := h.within
  have hall : ∀ i, Within F G (st i) := by
    intro i
    induction i with
    | zero => rw [h0]; exact hw
    | succ i ih => exact (left_down ih (hstep i) (hp i)).1
  have wf : WellFounded (Prod.Lex (· < · : Nat → Nat → Prop)
      (Relation.CutExpand (Down (S := Mail.Box P) (O := Mail.Addr × Mail.Op P) (R := Mail.Resp P)))) := WellFounded.prod_lex Nat.lt_wfRel.wf down_wf.cutExpand
  have : ∀ m, ∀ i, left F G (st i) = m → False := fun m => by
    induction m using wf.induction with
    | _ m ih =>
      rintro i rfl
      exact ih _ (left_down (hall i) (hstep i) (hp i)).2 (i + 1) rfl
  exact this _ 0 rfl

/-! ### Two threads and two barriers -/

abbrev ConfPair := Conf Bool Nat fun _ => 2
abbrev LabPair := Lab Bool Nat fun _ => 2

def thrPair : (b : Bool) → Fin 2 → Nat := fun _ u => u.val

/-- Thread `u` makes a move at the barrier `b`. -/
def pairMove (c : ConfPair) (b : Bool) (u : Fin 2) (m : Bar.Move) : Option (LabPair × ConfPair) :=
  if m = .call ∧ ¬ (isIdle (c.mail.phase u.val) = true ∧ (c.bars false).pc u = .idle ∧ (c.bars true).pc u = .idle) then none
  else match Bar.step 2 (c.bars b) u m with
    | some (c', e) => some (.bar b ⟨u, m, e, (c.bars b).holder, c'.holder⟩, { c with bars := Function.update c.bars b c' })
    | none => none

def pairMoves : List (Bool × Fin 2 × Bar.Move) → List LabPair × ConfPair → Option (List LabPair × ConfPair)
  | [], s => some s
  | (b, u, m) :: rest, (L, c) => match pairMove c b u m with
    | some (l, c') => pairMoves rest (L ++ [l], c')
    | none => none

theorem pairMoves_exec (xs : List (Bool × Fin 2 × Bar.Move)) : ∀ {L L' : List LabPair} {c c' : ConfPair}, Exec thrPair name L c →
    pairMoves xs (L, c) = some (L', c') → Exec thrPair name L' c' := by
  induction xs with
  | nil => intro L L' c c' h he; cases he; exact h
  | cons x xs ih =>
    obtain ⟨b, u, m⟩ := x
    intro L L' c c' h he
    simp only [pairMoves] at he
    cases hq : pairMove c b u m with
    | none => rw [hq] at he; cases he
    | some y =>
      obtain ⟨l, c1⟩ := y
      rw [hq] at he
      refine ih (h.snoc ?_) he
      simp only [pairMove] at hq
      split at hq
      · cases hq
      · rename_i hc
        cases hs : Bar.step 2 (c.bars b) u m with
        | none => rw [hs] at hq; cases hq
        | some z =>
          obtain ⟨c2, e⟩ := z
          rw [hs] at hq
          cases hq
          refine .bar hs fun hm => ?_
          rw [not_and, not_not] at hc
          obtain ⟨g1, g2, g3⟩ := hc hm
          refine ⟨isIdle_iff.1 g1, fun b' u' hu => ?_⟩
          obtain rfl : u' = u := Fin.ext hu
          cases b'
          · exact g2
          · exact g3

theorem pairMoves_mail (xs : List (Bool × Fin 2 × Bar.Move)) : ∀ {L L' : List LabPair} {c c' : ConfPair}, pairMoves xs (L, c) = some (L', c') →
    c'.mail = c.mail := by
  induction xs with
  | nil => intro L L' c c' he; cases he; rfl
  | cons x xs ih =>
    obtain ⟨b, u, m⟩ := x
    intro L L' c c' he
    simp only [pairMoves] at he
    cases hq : pairMove c b u m with
    | none => rw [hq] at he; cases he
    | some y =>
      obtain ⟨l, c1⟩ := y
      rw [hq] at he
      rw [ih he]
      simp only [pairMove] at hq
      split at hq
      · cases hq
      · split at hq
        · cases hq; rfl
        · cases hq

omit [DecidableEq β] in
theorem waits_none {L : List (Lab β P n)} {t : Nat} (h : ∀ b u, thr b u ≠ t) : waitsOf thr t L = [] := by
  unfold waitsOf
  rw [List.filterMap_eq_nil_iff]
  intro l _
  cases l with
  | mail l => rfl
  | bar b s =>
    obtain ⟨w, m, e, x, y⟩ := s
    cases e with
    | call u => simp [h b u]
    | _ => rfl

/-- Thread 0 waits at the first barrier, thread 1 at the second. -/
def opposite : List (Bool × Fin 2 × Bar.Move) :=
  [(false, 0, .call)] ++ List.replicate 5 (false, 0, .go) ++ [(true, 1, .call)] ++ List.replicate 5 (true, 1, .go)

/-- New mailboxes and barriers. -/
def pairInit : List LabPair × ConfPair := ([], Conf.init fun _ => "m".toList)

def stillPair (c : ConfPair) : Bool := decide (∀ b u, (Bar.step 2 (c.bars b) u .go).isNone)

def calmPair (L : List LabPair) : Bool := decide (∀ b, ∀ u : Fin 2, Bar.Ev.deadline u ∉ barEvents b L)

/-- Without a common order: two threads that come to two barriers in opposite order wait for each other. -/
theorem C140_opposite : ∃ (L : List LabPair) (c : ConfPair), Exec thrPair (fun _ => "m".toList) L c ∧ (∀ b, NoDeadline (barEvents b L)) ∧
    waitsOf thrPair 0 L = [false] ∧ waitsOf thrPair 1 L = [true] ∧ InCall thrPair 0 L ∧ InCall thrPair 1 L ∧
    ∀ l c', Step thrPair c l c' → ¬ Proceeds l := by
  have chk : ((pairMoves opposite pairInit).map fun r => (stillPair r.2, calmPair r.1, waitsOf thrPair 0 r.1, waitsOf thrPair 1 r.1,
      [r.1.countP (begins thrPair 0), r.1.countP (finishes thrPair 0), r.1.countP (begins thrPair 1), r.1.countP (finishes thrPair 1)])) =
      some (true, true, [false], [true], [1, 0, 1, 0]) := by decide +kernel
  cases hq : pairMoves opposite pairInit with
  | none => rw [hq] at chk; cases chk
  | some r =>
    obtain ⟨L, c⟩ := r
    rw [hq] at chk
    simp only [Option.map_some, Option.some.injEq, Prod.mk.injEq, List.cons.injEq, and_true] at chk
    obtain ⟨h1, h2, h3, h4, h5, h6, h7, h8⟩ := chk
    refine ⟨L, c, pairMoves_exec opposite .init hq, fun b u => of_decide_eq_true (p := ∀ b, ∀ u : Fin 2, Bar.Ev.deadline u ∉ barEvents b L) h2 b u, h3, h4, by unfold InCall; omega, by unfold InCall; omega, ?_⟩
    intro l c' hs
    cases hs with
    | mail hs _ =>
      have hm := pairMoves_mail opposite hq
      have hid : ∀ t, c.mail.phase t = .idle := fun t => by rw [hm]; rfl
      cases hs with
      | call _ => exact id
      | lock h _ => rw [hid] at h; cases h
      | act h => rw [hid] at h; cases h
      | unlock h => rw [hid] at h; cases h
      | ret h => rw [hid] at h; cases h
    | @bar b u m c1 e hs _ =>
      rintro (rfl : m = .go)
      have := of_decide_eq_true h1 b u
      rw [hs] at this
      cases this

/-- With a common order (first `false`, then `true`): thread 0 sleeps at the first barrier, thread 1 has begun to call `wait` there; somebody can proceed. -/
example : ∃ (L : List LabPair) (c : ConfPair), Exec thrPair (fun _ => "m".toList) L c ∧ InCall thrPair 0 L ∧ ∃ l c', Step thrPair c l c' ∧ Proceeds l := by
  have chk : ((pairMoves ([(false, 0, .call)] ++ List.replicate 5 (false, 0, .go) ++ [(false, 1, .call)]) pairInit).map fun r =>
      (calmPair r.1, waitsOf thrPair 0 r.1, waitsOf thrPair 1 r.1,
      [r.1.countP (begins thrPair 0), r.1.countP (finishes thrPair 0), r.1.countP (begins thrPair 1), r.1.countP (finishes thrPair 1)])) =
      some (true, [false], [false], [1, 0, 1, 0]) := by decide +kernel
  cases hq : pairMoves ([(false, 0, .call)] ++ List.replicate 5 (false, 0, .go) ++ [(false, 1, .call)]) pairInit with
  | none => rw [hq] at chk; cases chk
  | some r =>
    obtain ⟨L, c⟩ := r
    rw [hq] at chk
    simp only [Option.map_some, Option.some.injEq, Prod.mk.injEq, List.cons.injEq, and_true] at chk
    obtain ⟨h2, h3, h4, h5, h6, h7, h8⟩ := chk
    have he := pairMoves_exec (name := fun _ => "m".toList) _ .init hq
    have h0 : InCall thrPair 0 L := by unfold InCall; omega
    refine ⟨L, c, he, h0, ?_⟩
    refine (C140_common_order he (by simp) (fun b u u' h => Fin.ext h) (fun b u => of_decide_eq_true (p := ∀ b, ∀ u : Fin 2, Bar.Ev.deadline u ∉ barEvents b L) h2 b u) [false, true] (fun t => ?_) 0 h0).resolve_right ?_
    · match t with
      | 0 => rw [h3]; exact ⟨[true], rfl⟩
      | 1 => rw [h4]; exact ⟨[true], rfl⟩
      | t + 2 => rw [waits_none fun b u h => by have := u.2; simp [thrPair] at h; omega]; exact List.nil_prefix
    · rintro ⟨t, h1, h2⟩
      match t with
      | 0 => exact h1 h0
      | 1 => exact h1 (by unfold InCall; omega)
      | t + 2 =>
        have hno : ∀ b u, thrPair b u ≠ t + 2 := fun b u h => by have := u.2; simp [thrPair] at h; omega
        refine h2 ?_
        rw [waits_none hno]
        symm
        rw [List.filter_eq_nil_iff]
        intro b _
        simpa [uses] using hno b

end SoDa.Together
