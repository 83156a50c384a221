import Verif.Proof.BarrierProgram
import Verif.Props.BarrierLate
import Mathlib.Data.Finset.Max
import Mathlib.Data.Fintype.BigOperators
import Mathlib.Data.List.Perm.Basic
import Mathlib.Data.List.Nodup
import Mathlib.Data.List.FinRange
import Mathlib.Tactic.Ring
/-!
Property C97: programs whose threads meet at a barrier, and examples/BarrierExample.cxx.
-/
set_option linter.unusedSectionVars false
namespace SoDa.BarProg
open Bar Spec

section general
variable {T A : Type} [DecidableEq T] [Fintype T] {script : T → List (Item T A)} {root : T} {n : Nat}
  {ls : List (Option (Ev T))} {s : St T A}

theorem noDeadline_of_append {a b : List (Ev T)} (h : NoDeadline (a ++ b)) : NoDeadline a :=
  fun t ht => h t (List.mem_append_left _ ht)

/-- A property of any two statements in the order in which they are executed: it is enough that it holds between those executed
and a new one. -/
theorem pairwise_log {R : T × Nat → T × Nat → Prop} (hstep : ∀ ls (s : St T A) dn t a r, Inv script root n ls s dn →
      NoDeadline (events ls) → s.born t = true → s.rest t = .act a :: r → ∀ x ∈ s.log, R x (t, (dn t).length))
    (h : Exec script root n ls s) (hd : NoDeadline (events ls)) : s.log.Pairwise R := by
  induction h with
  | init => exact List.Pairwise.nil
  | @snoc ls s l s' h hs ih =>
    have hd' : NoDeadline (events ls) := by rw [events_snoc] at hd; exact noDeadline_of_append hd
    have ih := ih hd'
    obtain ⟨dn, inv⟩ := inv_exec h
    cases hs with
    | @act t a r ha hb hr =>
      have hc := inv.cut t
      have : (script t).length - (s.rest t).length = (dn t).length := by rw [hc]; simp
      show (s.log ++ [_]).Pairwise R
      rw [this, List.pairwise_append]
      exact ⟨ih, List.pairwise_singleton _ _, fun x hx y hy => by
        rw [List.mem_singleton.1 hy]; exact hstep ls s dn t a r inv hd' hb hr x hx⟩
    | @bar t m b e ha hst hc =>
      cases e <;> exact ih
    | spawn => exact ih
    | join => exact ih

theorem waits_take_le (l : List (Item T A)) (i : Nat) : waits (l.take i) ≤ waits l := by
  conv_rhs => rw [← List.take_append_drop i l, waits_append]
  omega

theorem idle_of_act {dn} (inv : Inv script root n ls s dn) {t : T} {a r} (hr : s.rest t = .act a :: r) : s.bar.pc t = .idle := by
  by_contra hp
  obtain ⟨-, r', h'⟩ := inv.busy t hp
  rw [hr] at h'; cases h'

/-- The phases are executed one after the other: if every thread calls `wait` equally often (or not), no statement that a thread
executes after its `k`-th `wait` is executed before one that some thread has to execute before its `k`-th `wait`. -/
theorem C97_phases (hn : n < 2 ^ 32) (hcard : Fintype.card T = n) (h : Exec script root n ls s) (hd : NoDeadline (events ls)) :
    s.log.Pairwise fun x y => phase script x ≤ phase script y := by
  refine pairwise_log (fun ls s dn t a r inv hd hb hr x hx => ?_) h hd
  have hidle := idle_of_act inv hr
  have h1 : phase script (t, (dn t).length) = returnsTo t (events ls) := by
    rw [← inv.waits t, phase, inv.cut t]; simp
  have h2 : phase script x ≤ returnsTo x.1 (events ls) := by
    rw [← inv.waits x.1, phase, take_dn (inv.cut x.1) (Nat.le_of_lt ((inv.mem x).1 hx).1)]
    exact waits_take_le _ _
  have h3 := C48_rounds hn hcard inv.run hd x.1 t
  have h4 := (counts inv.run t).1
  rw [ends_eq_returns (calm_run inv.run hd).2, if_pos hidle] at h4
  omega

/-- The statements of one thread are executed in their order. -/
theorem C97_program_order (h : Exec script root n ls s) (hd : NoDeadline (events ls)) :
    s.log.Pairwise fun x y => x.1 = y.1 → x.2 < y.2 := by
  refine pairwise_log (fun ls s dn t a r inv hd hb hr x hx => ?_) h hd
  rintro hxt
  have hxt' : x.1 = t := hxt
  have := ((inv.mem x).1 hx).1
  rw [hxt'] at this
  exact this

/-- What a thread executes after it has joined another one comes after everything that one executes. -/
theorem C97_join (h : Exec script root n ls s) (hd : NoDeadline (events ls)) (u : T) :
    s.log.Pairwise fun x y => .join u ∈ (script x.1).take x.2 → y.1 ≠ u := by
  refine pairwise_log (fun ls s dn t a r inv hd hb hr x hx => ?_) h hd
  rintro hj
  show t ≠ u
  rintro rfl
  rw [take_dn (inv.cut x.1) (Nat.le_of_lt ((inv.mem x).1 hx).1)] at hj
  have := inv.joined x.1 t (List.mem_of_mem_take hj)
  rw [hr] at this; cases this

/-- What a thread executes before it creates another one comes before everything that one executes. -/
theorem C97_fork (hf : ForkJoin script root) (h : Exec script root n ls s) (hd : NoDeadline (events ls)) (u : T) :
    s.log.Pairwise fun x y => x.1 = u → y.1 = root → .spawn u ∉ (script root).drop y.2 := by
  refine pairwise_log (fun ls s dn t a r inv hd hb hr x hx => ?_) h hd
  rintro hxu hyt hmem
  have hyt' : t = root := hyt
  subst hyt'
  have hxu' : x.1 = u := hxu
  have hlt := ((inv.mem x).1 hx).1
  rw [hxu'] at hlt
  have hborn : s.born u = true := by
    cases hq : s.born u
    · rw [inv.unborn u hq] at hlt; simp at hlt
    · rfl
  have hsp := hf.spawns u
  have hdrop : (script t).drop (dn t).length = s.rest t := by rw [inv.cut t]; simp
  have hmem' : .spawn u ∈ s.rest t := by rw [← hdrop]; exact hmem
  rcases inv.spawned u hborn with rfl | ⟨v, hv⟩
  · rw [if_pos rfl, List.countP_eq_zero] at hsp
    have := hsp (.spawn u) (by rw [inv.cut u]; simp [hmem'])
    simp [creates] at this
  · have hvt : v = t := by
      by_contra hne
      rcases hf.plain v hne (.spawn u) (by rw [inv.cut v]; simp [hv]) with ⟨a, h'⟩ | h' <;> cases h'
    subst hvt
    rw [inv.cut v, List.countP_append] at hsp
    have h1 : 0 < (dn v).countP (creates u) :=
      List.countP_pos_iff.2 ⟨_, hv, by simp [creates]⟩
    have h2 : 0 < (s.rest v).countP (creates u) :=
      List.countP_pos_iff.2 ⟨_, hmem', by simp [creates]⟩
    split at hsp <;> omega

/-- When the program has ended, every statement has been executed exactly once. -/
theorem C97_all_executed (h : Exec script root n ls s) (hfin : s.Finished) :
    s.log.Nodup ∧ ∀ x, x ∈ s.log ↔ IsAct script x := by
  obtain ⟨dn, inv⟩ := inv_exec h
  refine ⟨inv.nodup, fun x => ?_⟩
  rw [inv.mem]
  refine ⟨fun h => h.2, fun h => ⟨?_, h⟩⟩
  have hc := inv.cut x.1
  rw [hfin x.1, List.append_nil] at hc
  rw [← hc]
  obtain ⟨a, ha⟩ := h
  exact (List.getElem?_eq_some_iff.1 ha).1

theorem C97_not_aborted (h : Exec script root n ls s) (hd : NoDeadline (events ls)) : s.aborted = false := by
  obtain ⟨dn, inv⟩ := inv_exec h
  cases hq : s.aborted
  · rfl
  · obtain ⟨t, e, h'⟩ := inv.aborted hq
    exact absurd h' ((calm_run inv.run hd).2 t e)

/-- The label of a step that is neither a spurious wake-up nor a deadline. -/
def Proper : Option (Ev T) → Prop
  | some (.spurious _) | some (.deadline _) => False
  | _ => True

theorem go_proper {c c' : Conf T} {t e} (hs : Bar.step n c t .go = some (c', e)) : Proper (some e) := by
  cases e with
  | spurious u =>
    exfalso
    simp only [Bar.step, stepGo] at hs
    split at hs <;> first | cases hs | (split at hs <;> cases hs)
  | deadline u =>
    exfalso
    simp only [Bar.step, stepGo] at hs
    split at hs <;> first | cases hs | (split at hs <;> cases hs)
  | _ => trivial

/-- No deadlock: as long as the program has not ended some thread can go on. -/
theorem C97_goes_on (hn : n < 2 ^ 32) (hcard : Fintype.card T = n) (hf : ForkJoin script root) (h : Exec script root n ls s)
    (hd : NoDeadline (events ls)) (hfin : ¬ s.Finished) : ∃ l s', Step script n s l s' ∧ Proper l := by
  obtain ⟨dn, inv⟩ := inv_exec h
  have ha := C97_not_aborted h hd
  by_contra hno
  have hno : ∀ l s', Step script n s l s' → Proper l → False := fun l s' h1 h2 => hno ⟨l, s', h1, h2⟩
  have hstuck : ∀ t, Bar.step n s.bar t .go = none := by
    intro t
    cases hq : Bar.step n s.bar t .go with
    | none => rfl
    | some x => exact (hno _ _ (Step.bar ha hq (by simp)) (go_proper hq)).elim
  -- a thread that exists and is about to wait is waiting
  have hwait : ∀ t r, s.born t = true → s.rest t = .wait :: r → s.bar.pc t ≠ .idle := by
    intro t r hb hr hp
    have hs : Bar.step n s.bar t .call = some (s.bar.goto t .start, .call t) := by simp [Bar.step, hp]
    exact hno _ _ (Step.bar ha hs (fun _ => ⟨hb, r, hr⟩)) trivial
  have hact : ∀ t a r, s.born t = true → s.rest t ≠ .act a :: r := fun t a r hb hr =>
    hno _ _ (Step.act ha hb hr) trivial
  have hsuffix : ∀ u, .spawn u ∈ s.rest root → s.born u = false := by
    intro u hu
    cases hq : s.born u
    · rfl
    · exfalso
      have hsp := hf.spawns u
      have h2 : 0 < (s.rest root).countP (creates u) :=
        List.countP_pos_iff.2 ⟨_, hu, by simp [creates]⟩
      rw [inv.cut root, List.countP_append] at hsp
      rcases inv.spawned u hq with rfl | ⟨v, hv⟩
      · rw [if_pos rfl] at hsp; omega
      · have hvt : v = root := by
          by_contra hne
          rcases hf.plain v hne (.spawn u) (by rw [inv.cut v]; simp [hv]) with ⟨a, h'⟩ | h' <;> cases h'
        subst hvt
        have h1 : 0 < (dn v).countP (creates u) :=
          List.countP_pos_iff.2 ⟨_, hv, by simp [creates]⟩
        split at hsp <;> omega
  -- all threads exist
  have hnospawn : ∀ u, .spawn u ∉ s.rest root := by
    intro u
    cases hr : s.rest root with
    | nil => simp
    | cons x r =>
      cases x with
      | act a => exact absurd hr (hact root a r inv.top)
      | spawn v =>
        exfalso
        exact hno _ _ (Step.spawn ha inv.top hr (hsuffix v (by rw [hr]; simp))) trivial
      | wait =>
        have := hf.first (dn root) .wait r (by rw [← hr]; exact inv.cut root) (.inl rfl) u
        simpa using this
      | join v =>
        have := hf.first (dn root) (.join v) r (by rw [← hr]; exact inv.cut root) (.inr ⟨v, rfl⟩) u
        simpa using this
  have hborn : ∀ u, s.born u = true := by
    intro u
    by_cases hu : u = root
    · rw [hu]; exact inv.top
    · have hsp := hf.spawns u
      rw [if_neg hu] at hsp
      have : 0 < (script root).countP (creates u) := by omega
      obtain ⟨i, h1, h2⟩ := List.countP_pos_iff.1 this
      cases i <;> simp [creates] at h2
      subst h2
      rw [inv.cut root, List.mem_append] at h1
      rcases h1 with h1 | h1
      · exact inv.born root _ h1
      · exact absurd h1 (hnospawn _)
  have hcalls : ∀ t, callsBy t (events ls) = returnsTo t (events ls) + if s.bar.pc t = .idle then 0 else 1 := by
    intro t
    have h4 := (counts inv.run t).1
    rwa [ends_eq_returns (calm_run inv.run hd).2] at h4
  -- a thread that does not wait has made all its calls
  have hdone : ∀ t, (∃ r, s.rest t = .wait :: r) ∨ callsBy t (events ls) = waits (script t) := by
    intro t
    have hc := hcalls t
    have hw : waits (script t) = returnsTo t (events ls) + waits (s.rest t) := by
      conv_lhs => rw [inv.cut t, waits_append, inv.waits t]
    cases hr : s.rest t with
    | nil =>
      right
      have hi : s.bar.pc t = .idle := by
        by_contra hp
        obtain ⟨-, r, h'⟩ := inv.busy t hp
        rw [hr] at h'; cases h'
      rw [hc, hw, hr, if_pos hi]; rfl
    | cons x r =>
      cases x with
      | wait => exact .inl ⟨r, rfl⟩
      | act a => exact absurd hr (hact t a r (hborn t))
      | spawn v =>
        exfalso
        by_cases ht : t = root
        · subst ht; exact hnospawn v (by rw [hr]; simp)
        · rcases hf.plain t ht (.spawn v) (by rw [inv.cut t, hr]; simp) with ⟨a, h'⟩ | h' <;> cases h'
      | join v =>
        right
        have ht : t = root := by
          by_contra ht
          rcases hf.plain t ht (.join v) (by rw [inv.cut t, hr]; simp) with ⟨a, h'⟩ | h' <;> cases h'
        subst ht
        have hl := hf.last (dn t) v r (by rw [← hr]; exact inv.cut t)
        have hi : s.bar.pc t = .idle := by
          by_contra hp
          obtain ⟨-, r', h'⟩ := inv.busy t hp
          rw [hr] at h'; cases h'
        have h0 : waits (s.rest t) = 0 := by
          rw [hr]
          unfold waits
          rw [List.countP_eq_zero]
          intro i hi'
          cases i <;> simp
          simp at hi'
          exact hl hi'
        rw [hc, hw, h0, if_pos hi]
  by_cases hex : ∃ t r, s.rest t = .wait :: r
  · obtain ⟨t, r, ht⟩ := hex
    have hfin : (Finset.univ.filter fun u : T => s.bar.pc u ≠ .idle).Nonempty :=
      ⟨t, by simpa using hwait t r (hborn t) ht⟩
    obtain ⟨u, hu, hmin⟩ := Finset.exists_min_image _ (fun u => callsBy u (events ls)) hfin
    simp only [Finset.mem_filter, Finset.mem_univ, true_and] at hu hmin
    have hcu := hcalls u
    rw [if_neg hu] at hcu
    have hle : ∀ v, callsBy u (events ls) ≤ callsBy v (events ls) := by
      intro v
      rcases hdone v with ⟨r', hv⟩ | hv
      · exact hmin v (hwait v r' (hborn v) hv)
      · obtain ⟨-, r', hr'⟩ := inv.busy u hu
        have hw : waits (script u) = returnsTo u (events ls) + waits (s.rest u) := by
          conv_lhs => rw [inv.cut u, waits_append, inv.waits u]
        have h1 : 1 ≤ waits (s.rest u) := by rw [hr']; simp [Spec.waits]
        rw [hv, hf.waits v u, hw, hcu]
        omega
    have h1 : 1 ≤ n := by rw [← hcard]; exact Fintype.card_pos_iff.2 ⟨u⟩
    have := stuck_done h1 (by omega) hcard inv.run hd hstuck hle u
    omega
  · -- nobody waits: only the first thread can be unfinished
    apply hfin
    have hother : ∀ t, t ≠ root → s.rest t = [] := by
      intro t ht
      cases hr : s.rest t with
      | nil => rfl
      | cons x r =>
        exfalso
        rcases hf.plain t ht x (by rw [inv.cut t, hr]; simp) with ⟨a, rfl⟩ | rfl
        · exact hact t a r (hborn t) hr
        · exact hex ⟨t, r, hr⟩
    intro t
    by_cases ht : t = root
    · subst ht
      cases hr : s.rest t with
      | nil => rfl
      | cons x r =>
        exfalso
        cases x with
        | act a => exact hact t a r (hborn t) hr
        | wait => exact hex ⟨t, r, hr⟩
        | spawn v => exact hnospawn v (by rw [hr]; simp)
        | join v =>
          have hv : v ≠ t := by rintro rfl; exact hf.self (by rw [inv.cut v, hr]; simp)
          exact hno _ _ (Step.join ha (hborn t) hr (hborn v) (hother v hv)) trivial
    · exact hother t ht

theorem rest_sum_next (s : St T A) (t : T) {x r} (h : s.rest t = x :: r) :
    ∑ u, ((s.next t).rest u).length + 1 = ∑ u, (s.rest u).length := by
  have h1 : ∀ u, (s.rest u).length = ((s.next t).rest u).length + if u = t then 1 else 0 := by
    intro u
    simp only [St.next]
    split
    · next hu => rw [hu, h]; simp
    · rfl
  rw [Finset.sum_congr rfl (fun u _ => h1 u), Finset.sum_add_distrib]
  simp

theorem quiet_bound (h : Exec script root n ls s) :
    ls.countP (fun l => l.isNone) + ∑ u, (s.rest u).length ≤ ∑ u, (script u).length := by
  induction h with
  | init => simp [St.start]
  | @snoc ls s l s' h hs ih =>
    rw [List.countP_append]
    cases hs with
    | @act t a r ha hb hr =>
      have := rest_sum_next s t hr
      simp only [List.countP_singleton, Option.isNone_none, if_true]
      show _ + ∑ u, ((s.next t).rest u).length ≤ _
      omega
    | @spawn t u r ha hb hr hu =>
      have := rest_sum_next s t hr
      simp only [List.countP_singleton, Option.isNone_none, if_true]
      show _ + ∑ u, ((s.next t).rest u).length ≤ _
      omega
    | @join t u r ha hb hr hu he =>
      have := rest_sum_next s t hr
      simp only [List.countP_singleton, Option.isNone_none, if_true]
      omega
    | @bar t m b e ha hst hc =>
      have h1 : ∑ u, (({ s with bar := b }.after e).rest u).length ≤ ∑ u, (s.rest u).length := by
        refine Finset.sum_le_sum fun u _ => ?_
        cases e <;> simp only [St.after, St.next] <;> try exact Nat.le_refl _
        split
        · next hu => subst hu; simp
        · exact Nat.le_refl _
      simp only [List.countP_singleton, Option.isNone_some, Bool.false_eq_true, if_false]
      omega

theorem length_split (ls : List (Option (Ev T))) : ls.length = (events ls).length + ls.countP fun l => l.isNone := by
  induction ls with
  | nil => rfl
  | cons l ls ih => cases l <;> simp_all [events] <;> omega

/-- Spurious wake-ups aside, every execution is finite: a bound on its steps. -/
theorem C97_bounded (h : Exec script root n ls s) (hd : NoDeadline (events ls)) :
    ls.length ≤ (4 * Fintype.card T + 10) * ∑ t, waits (script t) + 5 * spuriousCount (events ls) + ∑ t, (script t).length := by
  obtain ⟨dn, inv⟩ := inv_exec h
  have h1 := events_bound inv.run
  have h2 := quiet_bound h
  have h3 : allDeadlines (events ls) = 0 := by
    unfold allDeadlines
    rw [List.countP_eq_zero]
    intro e he
    cases e <;> simp
    exact hd _ he
  have h4 : allCalls (events ls) ≤ ∑ t, waits (script t) := by
    rw [allCalls_sum]
    refine Finset.sum_le_sum fun t _ => ?_
    have h5 := (counts inv.run t).1
    rw [ends_eq_returns (calm_run inv.run hd).2] at h5
    have hw : waits (script t) = returnsTo t (events ls) + waits (s.rest t) := by
      conv_lhs => rw [inv.cut t, waits_append, inv.waits t]
    by_cases hi : s.bar.pc t = .idle
    · rw [if_pos hi] at h5; omega
    · rw [if_neg hi] at h5
      obtain ⟨-, r, hr⟩ := inv.busy t hi
      have : 1 ≤ waits (s.rest t) := by rw [hr]; simp [Spec.waits]
      omega
  have h6 := length_split ls
  have h7 := Nat.mul_le_mul_left (4 * Fintype.card T + 10) h4
  rw [h3] at h1
  omega

/-- From every state the end can be reached. -/
theorem C97_can_end (hn : n < 2 ^ 32) (hcard : Fintype.card T = n) (hf : ForkJoin script root) (h : Exec script root n ls s)
    (hd : NoDeadline (events ls)) :
    ∃ ls' s', Onward script n s ls' s' ∧ Exec script root n (ls ++ ls') s' ∧ NoDeadline (events (ls ++ ls')) ∧ s'.Finished := by
  have key : ∀ (k : Nat) (ls' : List (Option (Ev T))) (s' : St T A), Onward script n s ls' s' → Exec script root n (ls ++ ls') s' →
      NoDeadline (events (ls ++ ls')) → spuriousCount (events (ls ++ ls')) = spuriousCount (events ls) →
      (4 * Fintype.card T + 10) * ∑ t, waits (script t) + 5 * spuriousCount (events ls) + ∑ t, (script t).length
        - (ls ++ ls').length = k →
      ∃ ls' s', Onward script n s ls' s' ∧ Exec script root n (ls ++ ls') s' ∧ NoDeadline (events (ls ++ ls')) ∧ s'.Finished := by
    intro k
    induction k using Nat.strong_induction_on with
    | _ k ih =>
      intro ls' s' ho h' hd' hsp hk
      by_cases hfin : s'.Finished
      · exact ⟨ls', s', ho, h', hd', hfin⟩
      · obtain ⟨l, s'', hst, hl⟩ := C97_goes_on hn hcard hf h' hd' hfin
        have h'' := h'.snoc hst
        rw [List.append_assoc] at h''
        have he : events (ls ++ (ls' ++ [l])) = events (ls ++ ls') ++ l.toList := by
          rw [← List.append_assoc, events_snoc]
        have hd'' : NoDeadline (events (ls ++ (ls' ++ [l]))) := by
          intro t
          have := hd' t
          rw [he]
          cases l with
          | none => simpa using this
          | some e => cases e <;> simp_all [Proper]
        have hsp' : spuriousCount (events (ls ++ (ls' ++ [l]))) = spuriousCount (events ls) := by
          rw [he, ← hsp]
          cases l with
          | none => simp
          | some e => cases e <;> simp_all [Proper, spuriousCount]
        have hb := C97_bounded h'' hd''
        rw [hsp'] at hb
        refine ih _ ?_ (ls' ++ [l]) s'' (ho.snoc hst) h'' hd'' hsp' rfl
        simp only [List.length_append, List.length_singleton] at hb hk ⊢
        omega
  exact key _ [] s .nil (by simpa using h) (by simpa using hd) (by simp) rfl

theorem events_calmed (ls : List (Option (Ev T))) : events (ls.map (Option.map Ev.calmed)) = (events ls).map Ev.calmed := by
  unfold events
  rw [List.filterMap_map, List.map_filterMap]
  congr 1

theorem calmed_exec (hn : n < 2 ^ 32) (hcard : Fintype.card T = n) (h : Exec script root n ls s) (hd : Complete (events ls)) :
    Exec script root n (ls.map (Option.map Ev.calmed)) { s with bar := s.bar.calmed } := by
  induction h with
  | init => exact .init
  | @snoc ls s l s' h hs ih =>
    have hd' : Complete (events ls) := by
      unfold events at hd
      rw [List.filterMap_append] at hd
      exact complete_left hd
    rw [List.map_append]
    refine .snoc (ih hd') ?_
    cases hs with
    | act ha hb h => exact Step.act (s := { s with bar := s.bar.calmed }) ha hb h
    | spawn ha hb h hu => exact Step.spawn (s := { s with bar := s.bar.calmed }) ha hb h hu
    | join ha hb h hu he => exact Step.join (s := { s with bar := s.bar.calmed }) ha hb h hu he
    | @bar t m b e ha hst hc =>
      have h1 : 1 ≤ n := by rw [← hcard]; exact Fintype.card_pos_iff.2 ⟨t⟩
      obtain ⟨dn, inv⟩ := inv_exec h
      obtain ⟨hrun, hth, hl, -⟩ := calmed_run h1 (by omega) hcard inv.run hd'
      have := (calmed_step hst (hth _) (found h1 (by omega) hcard hrun hl _)).1
      have he : ({ ({ s with bar := b } : St T A).after e with bar := (({ s with bar := b } : St T A).after e).bar.calmed } : St T A) =
          ({ ({ s with bar := s.bar.calmed } : St T A) with bar := b.calmed }).after e.calmed := by cases e <;> rfl
      rw [he]
      refine Step.bar (s := { s with bar := s.bar.calmed }) ha this ?_
      intro hm
      refine hc ?_
      cases m <;> first | rfl | cases hm

/-- With deadlines: the phases are executed one after the other, and no exception ends the program, if deadlines pass only when no
thread is missing at the barrier. -/
theorem C97_deadlines (hn : n < 2 ^ 32) (hcard : Fintype.card T = n) (h : Exec script root n ls s) (hd : Complete (events ls)) :
    (s.log.Pairwise fun x y => phase script x ≤ phase script y) ∧ s.aborted = false := by
  have h' := calmed_exec hn hcard h hd
  have hno : NoDeadline (events (ls.map (Option.map Ev.calmed))) := by rw [events_calmed]; exact calmed_noDeadline _
  have h2 := C97_not_aborted h' hno
  have h1 := C97_phases hn hcard h' hno
  exact ⟨h1, h2⟩

end general

/-! ### examples/BarrierExample.cxx -/

section example_
variable {N : Nat} {ls : List (Option (Ev (Option (Fin N))))} {s : St (Option (Fin N)) Mark}

theorem waits_spawns (N : Nat) (l : List (Fin N)) (f : Fin N → Item (Option (Fin N)) Mark) (h : ∀ i, f i ≠ .wait) :
    waits (l.map f) = 0 := by
  unfold waits
  rw [List.countP_eq_zero]
  intro x hx
  obtain ⟨i, -, rfl⟩ := List.mem_map.1 hx
  have := h i
  cases hq : f i <;> simp_all

theorem count_spawns (l : List (Fin N)) (u : Option (Fin N)) :
    (l.map fun i => (.spawn (some i) : Item (Option (Fin N)) Mark)).countP (creates u) = l.countP fun i => some i = u := by
  rw [List.countP_map]
  congr

/-- The program meets the conditions of the theorems. -/
theorem example_forkJoin (N : Nat) : ForkJoin (example_ N) none := by
  have hmain : ∀ t, waits (example_ N t) = 2 := by
    intro t
    cases t with
    | none =>
      simp only [example_, waits_append]
      rw [waits_spawns N _ _ (by simp), waits_spawns N _ _ (by simp)]
      rfl
    | some i => rfl
  -- a waiting or joining statement is not among the first
  have hsplit : ∀ l i r, example_ N none = l ++ i :: r → (i = .wait ∨ ∃ u, i = .join u) →
      ∃ l', l = (List.finRange N).map (fun i => .spawn (some i)) ++ l' ∧
        [.act .arriving, .wait, .wait] ++ (List.finRange N).map (fun i => .join (some i)) ++ [.act .cleared] = l' ++ i :: r := by
    intro l i r he hi
    simp only [example_] at he
    rw [List.append_assoc, List.append_assoc, List.append_eq_append_iff] at he
    rcases he with ⟨a, h1, h2⟩ | ⟨c, h1, h2⟩
    · exact ⟨a, h1, by simpa using h2⟩
    · cases c with
      | nil => exact ⟨[], by simpa using h1.symm, by simpa using h2.symm⟩
      | cons x c =>
        exfalso
        obtain ⟨rfl, -⟩ := List.cons.inj (by simpa using h2)
        have : i ∈ (List.finRange N).map (fun i => (.spawn (some i) : Item (Option (Fin N)) Mark)) := by rw [h1]; simp
        obtain ⟨j, -, hj⟩ := List.mem_map.1 this
        rcases hi with rfl | ⟨u, rfl⟩ <;> cases hj
  refine ⟨fun t u => by rw [hmain, hmain], ?_, ?_, ?_, ?_, ?_⟩
  · intro t ht i hi
    cases t with
    | none => exact absurd rfl ht
    | some j => simp [example_] at hi; rcases hi with rfl | rfl | rfl <;> simp
  · intro u
    simp only [example_, List.countP_append, count_spawns]
    have h1 : List.countP (creates u) ((List.finRange N).map fun i => (.join (some i) : Item (Option (Fin N)) Mark)) = 0 := by
      rw [List.countP_eq_zero]
      intro x hx
      obtain ⟨i, -, rfl⟩ := List.mem_map.1 hx
      simp [creates]
    rw [h1]
    cases u with
    | none => simp [creates]
    | some j =>
      have : ((List.finRange N).countP fun i => (some i : Option (Fin N)) = some j) = (List.finRange N).count j := by
        unfold List.count
        congr
        funext i
        simp [Bool.beq_eq_decide_eq]
      rw [this, List.count_eq_one_of_mem (List.nodup_finRange N) (List.mem_finRange j)]
      simp [creates]
  · intro l i r he hi u hu
    obtain ⟨l', -, h2⟩ := hsplit l i r he hi
    have : .spawn u ∈ l' ++ i :: r := by simp [hu]
    rw [← h2] at this
    simp at this
  · intro l u r he hw
    obtain ⟨l', -, h2⟩ := hsplit l _ r he (.inr ⟨u, rfl⟩)
    have h3 : .wait ∉ (List.finRange N).map (fun i => (.join (some i) : Item (Option (Fin N)) Mark)) ++ [.act .cleared] := by simp
    rcases l' with _ | ⟨a, _ | ⟨b, _ | ⟨c, l''⟩⟩⟩
    · simp at h2
    · simp at h2
    · simp at h2
    · have h4 : (List.finRange N).map (fun i => (.join (some i) : Item (Option (Fin N)) Mark)) ++ [.act .cleared] = l'' ++ .join u :: r := by
        simp only [List.cons_append, List.nil_append, List.cons.injEq] at h2
        exact h2.2.2.2
      rw [h4] at h3
      exact h3 (by simp [hw])
  · simp [example_]

theorem main_at (N i : Nat) (a : Mark) : (example_ N none)[i]? = some (.act a) ↔
    i = N ∧ a = .arriving ∨ i = 2 * N + 3 ∧ a = .cleared := by
  simp only [example_]
  by_cases h1 : i < N
  · rw [List.append_assoc, List.append_assoc, List.getElem?_append_left (by simpa using h1)]
    simp only [List.getElem?_map, List.getElem?_eq_getElem (show i < (List.finRange N).length by simpa using h1), Option.map_some]
    constructor
    · intro h; cases h
    · rintro (⟨h, -⟩ | ⟨h, -⟩) <;> omega
  rw [List.append_assoc, List.append_assoc, List.getElem?_append_right (by simpa using h1)]
  obtain ⟨j, rfl⟩ : ∃ j, i = N + j := ⟨i - N, by omega⟩
  simp only [List.length_map, List.length_finRange, Nat.add_sub_cancel_left]
  by_cases h2 : j < 3
  · rw [List.getElem?_append_left (by simpa using h2)]
    rcases j with _ | _ | _ | j
    · simp only [List.getElem?_cons_zero, Option.some.injEq, Item.act.injEq]
      constructor
      · rintro rfl; exact .inl ⟨rfl, rfl⟩
      · rintro (⟨-, rfl⟩ | ⟨h, -⟩)
        · rfl
        · omega
    · simp; omega
    · simp; omega
    · omega
  rw [List.getElem?_append_right (by simpa using h2)]
  obtain ⟨k, rfl⟩ : ∃ k, j = 3 + k := ⟨j - 3, by omega⟩
  simp only [List.length_cons, List.length_nil, Nat.zero_add, Nat.reduceAdd, Nat.add_sub_cancel_left]
  by_cases h3 : k < N
  · rw [List.getElem?_append_left (by simpa using h3)]
    simp only [List.getElem?_map, List.getElem?_eq_getElem (show k < (List.finRange N).length by simpa using h3), Option.map_some]
    constructor
    · intro h; cases h
    · rintro (⟨h, -⟩ | ⟨h, -⟩) <;> omega
  rw [List.getElem?_append_right (by simpa using h3)]
  simp only [List.length_map, List.length_finRange]
  rcases Nat.lt_or_ge N k with h4 | h4
  · rw [List.getElem?_eq_none (by simp; omega)]
    simp; omega
  · have : k = N := by omega
    subst this
    simp only [Nat.sub_self, List.getElem?_cons_zero, Option.some.injEq, Item.act.injEq]
    constructor
    · rintro rfl; exact .inr ⟨by omega, rfl⟩
    · rintro (⟨h, -⟩ | ⟨-, rfl⟩)
      · omega
      · rfl

theorem worker_at (N : Nat) (t : Fin N) (i : Nat) (a : Mark) : (example_ N (some t))[i]? = some (.act a) ↔
    (i = 0 ∨ i = 3) ∧ a = .digit t := by
  simp only [example_]
  rcases i with _ | _ | _ | _ | i <;> simp [eq_comm]

theorem phase_main (N : Nat) : phase (example_ N) (none, N) = 0 := by
  simp only [phase, example_]
  rw [List.append_assoc, List.append_assoc, List.take_append_of_le_length (by simp)]
  rw [show (List.map (fun i => (.spawn (some i) : Item (Option (Fin N)) Mark)) (List.finRange N)).take N =
    List.map (fun i => .spawn (some i)) (List.finRange N) by rw [List.take_of_length_le (by simp)]]
  exact waits_spawns N _ _ (by simp)

theorem phase_last (N : Nat) : phase (example_ N) (none, 2 * N + 3) = 2 := by
  simp only [phase, example_]
  rw [List.take_left' (by simp; omega)]
  simp only [waits_append]
  rw [waits_spawns N _ _ (by simp), waits_spawns N _ _ (by simp)]
  rfl

theorem filter_split {α : Type} (p : α → Bool) (l : List α) (h : l.Pairwise fun x y => p y = true → p x = true) :
    l = l.filter p ++ l.filter fun x => !p x := by
  induction l with
  | nil => rfl
  | cons a l ih =>
    rw [List.pairwise_cons] at h
    have ih := ih h.2
    cases ha : p a
    · have h1 : ∀ x ∈ l, p x = false := by
        intro x hx
        cases hq : p x
        · rfl
        · have := h.1 x hx hq; rw [ha] at this; cases this
      have h2 : l.filter p = [] := by rw [List.filter_eq_nil_iff]; intro x hx; simp [h1 x hx]
      rw [h2, List.nil_append] at ih
      simp only [List.filter_cons, ha, Bool.false_eq_true, if_false, Bool.not_false, if_true, h2, List.nil_append]
      rw [← ih]
    · simp only [List.filter_cons, ha, if_true, Bool.not_true, Bool.false_eq_true, if_false, List.cons_append]
      rw [← ih]

/-- The statements of the program's own, in some order. -/
def marks (N : Nat) : List (Option (Fin N) × Nat) :=
  ((none, N) :: (List.finRange N).map fun i => (some i, 0)) ++ (((List.finRange N).map fun i => (some i, 3)) ++ [(none, 2 * N + 3)])

theorem marks_mem (N : Nat) (x) : x ∈ marks N ↔ IsAct (example_ N) x := by
  obtain ⟨t, i⟩ := x
  cases t with
  | none =>
    simp only [IsAct, main_at]
    simp [marks]
    constructor
    · rintro (rfl | rfl)
      · exact ⟨_, .inl ⟨rfl, rfl⟩⟩
      · exact ⟨_, .inr ⟨rfl, rfl⟩⟩
    · rintro ⟨a, ⟨h, -⟩ | ⟨h, -⟩⟩
      · exact .inl h
      · exact .inr h
  | some t =>
    simp only [IsAct, worker_at]
    simp [marks, eq_comm]

theorem marks_nodup (N : Nat) : (marks N).Nodup := by
  unfold marks
  have h0 : ∀ k : Nat, ((List.finRange N).map fun i => ((some i, k) : Option (Fin N) × Nat)).Nodup := fun k =>
    (List.nodup_finRange N).map (fun a b h => by simpa using h)
  refine List.nodup_append.2 ⟨List.nodup_cons.2 ⟨by simp, h0 0⟩, List.nodup_append.2 ⟨h0 3, by simp, by simp⟩, ?_⟩
  intro a ha b hb
  rintro rfl
  simp at ha hb
  rcases ha with rfl | ⟨i, rfl⟩
  · rcases hb with ⟨i, h⟩ | h
    · simp at h
    · simp at h; omega
  · simp at hb

theorem example_output (hN : N + 1 < 2 ^ 32) (h : Exec (example_ N) none (N + 1) ls s) (hd : NoDeadline (events ls)) (hfin : s.Finished) :
    ∃ p q : List Str, p.Perm (" wait at the barrier\n".toList :: (List.range N).map fun i => (toString i).toList) ∧
      q.Perm ((List.range N).map fun i => (toString i).toList) ∧
      (s.log.map (written N)).flatten = p.flatten ++ q.flatten ++ " clear the barrier\n".toList := by
  obtain ⟨hnd, hmem⟩ := C97_all_executed h hfin
  have hperm : s.log.Perm (marks N) :=
    (List.perm_ext_iff_of_nodup hnd (marks_nodup N)).2 fun x => by rw [hmem, marks_mem]
  have hph := C97_phases hN (by simp) h hd
  let p0 : Option (Fin N) × Nat → Bool := fun x => phase (example_ N) x == 0
  let p1 : Option (Fin N) × Nat → Bool := fun x => x.1.isSome
  have e1 : s.log = s.log.filter p0 ++ s.log.filter fun x => !p0 x := filter_split p0 _ (hph.imp (by simp [p0]; omega))
  have e2 : s.log.filter (fun x => !p0 x) = (s.log.filter (fun x => !p0 x)).filter p1 ++ (s.log.filter (fun x => !p0 x)).filter fun x => !p1 x := by
    refine filter_split p1 _ ?_
    have hj : s.log.Pairwise fun x y => ∀ u, .join u ∈ (example_ N x.1).take x.2 → y.1 ≠ u := by
      rw [List.pairwise_iff_getElem]
      intro i j hi hj hij u
      exact List.pairwise_iff_getElem.1 (C97_join h hd u) i j hi hj hij
    refine List.Pairwise.imp_of_mem ?_ (hj.filter _)
    rintro ⟨t, i⟩ ⟨t', j⟩ hx hy hxy hp
    cases t with
    | some t => rfl
    | none =>
      exfalso
      cases t' with
      | none => simp [p1] at hp
      | some t' =>
        obtain ⟨hx1, hx2⟩ := List.mem_filter.1 hx
        obtain ⟨a, ha⟩ := (hmem _).1 hx1
        rcases (main_at N i a).1 ha with ⟨rfl, -⟩ | ⟨rfl, -⟩
        · simp [p0, phase_main] at hx2
        · refine hxy (some t') ?_ rfl
          simp only [example_]
          rw [List.take_left' (by simp; omega)]
          simp
  have f0 : ∀ x ∈ ((none, N) :: (List.finRange N).map fun i => ((some i, 0) : Option (Fin N) × Nat)), p0 x = true := by
    intro x hx
    rcases List.mem_cons.1 hx with rfl | hx
    · simp [p0, phase_main]
    · obtain ⟨i, -, rfl⟩ := List.mem_map.1 hx
      simp [p0, phase, Spec.waits]
  have f1 : ∀ x ∈ ((List.finRange N).map fun i => ((some i, 3) : Option (Fin N) × Nat)) ++ [(none, 2 * N + 3)], p0 x = false := by
    intro x hx
    rcases List.mem_append.1 hx with hx | hx
    · obtain ⟨i, -, rfl⟩ := List.mem_map.1 hx
      simp [p0, phase, Spec.waits, example_]
    · rw [List.mem_singleton.1 hx]; simp [p0, phase_last]
  have q1 : (s.log.filter p0).Perm ((none, N) :: (List.finRange N).map fun i => (some i, 0)) := by
    refine (hperm.filter p0).trans (List.Perm.of_eq ?_)
    unfold marks
    rw [List.filter_append, List.filter_eq_self.2 f0, List.filter_eq_nil_iff.2 (fun x hx => by simp [f1 x hx]), List.append_nil]
  have q2 : (s.log.filter fun x => !p0 x).Perm (((List.finRange N).map fun i => (some i, 3)) ++ [(none, 2 * N + 3)]) := by
    refine (hperm.filter _).trans (List.Perm.of_eq ?_)
    unfold marks
    rw [List.filter_append, List.filter_eq_nil_iff.2 (fun x hx => by simp [f0 x hx]), List.filter_eq_self.2 (fun x hx => by simp [f1 x hx]),
      List.nil_append]
  have q3 : ((s.log.filter fun x => !p0 x).filter p1).Perm ((List.finRange N).map fun i => (some i, 3)) := by
    refine (q2.filter p1).trans (List.Perm.of_eq ?_)
    rw [List.filter_append, List.filter_eq_self.2 (by simp [p1])]
    simp [p1]
  have q4 : (s.log.filter fun x => !p0 x).filter (fun x => !p1 x) = [(none, 2 * N + 3)] := by
    have := q2.filter (fun x => !p1 x)
    have h0 : ((List.finRange N).map fun i => ((some i, 3) : Option (Fin N) × Nat)).filter (fun x => !p1 x) = [] := by
      rw [List.filter_eq_nil_iff]; simp [p1]
    rw [List.filter_append, h0, List.nil_append] at this
    exact List.perm_singleton.1 this
  have w1 : ∀ i : Fin N, written N (some i, 0) = (toString i.val).toList := fun i => rfl
  have w2 : ∀ i : Fin N, written N (some i, 3) = (toString i.val).toList := fun i => rfl
  have w3 : written N (none, N) = " wait at the barrier\n".toList := by
    unfold written
    rw [(main_at N N .arriving).2 (.inl ⟨rfl, rfl⟩)]
    rfl
  have w4 : written N (none, 2 * N + 3) = " clear the barrier\n".toList := by
    unfold written
    rw [(main_at N (2 * N + 3) .cleared).2 (.inr ⟨rfl, rfl⟩)]
    rfl
  have hr : (List.finRange N).map (fun i => (toString i.val).toList) = (List.range N).map fun i => (toString i).toList := by
    rw [← List.map_coe_finRange_eq_range, List.map_map]
    rfl
  refine ⟨(s.log.filter p0).map (written N), ((s.log.filter fun x => !p0 x).filter p1).map (written N), ?_, ?_, ?_⟩
  · refine (q1.map _).trans (List.Perm.of_eq ?_)
    rw [List.map_cons, w3, List.map_map, ← hr]
    rfl
  · refine (q3.map _).trans (List.Perm.of_eq ?_)
    rw [List.map_map, ← hr]
    rfl
  · conv_lhs => rw [e1, e2, q4]
    simp [w4]

/-- What examples/BarrierExample.cxx writes with any number of workers: first, in some order, that it waits and the number of every
worker; then, in some order, the number of every worker again; at last that the barrier is clear.  The minute of line 17 may pass, but
only when all threads have come. -/
theorem C97_example (hN : N + 1 < 2 ^ 32) (h : Exec (example_ N) none (N + 1) ls s) (hd : Complete (events ls)) (hfin : s.Finished) :
    ∃ p q : List Str, p.Perm (" wait at the barrier\n".toList :: (List.range N).map fun i => (toString i).toList) ∧
      q.Perm ((List.range N).map fun i => (toString i).toList) ∧
      (s.log.map (written N)).flatten = p.flatten ++ q.flatten ++ " clear the barrier\n".toList := by
  have h' := calmed_exec hN (by simp) h hd
  have hno : NoDeadline (events (ls.map (Option.map Ev.calmed))) := by rw [events_calmed]; exact calmed_noDeadline _
  have h1 := example_output hN h' hno hfin
  exact h1

/-- It has no other way to end, and can always end. -/
theorem C97_example_ends (hN : N + 1 < 2 ^ 32) (h : Exec (example_ N) none (N + 1) ls s) (hd : NoDeadline (events ls)) :
    s.aborted = false ∧
    (∃ ls' s', Onward (example_ N) (N + 1) s ls' s' ∧ Exec (example_ N) none (N + 1) (ls ++ ls') s' ∧ NoDeadline (events (ls ++ ls')) ∧ s'.Finished) ∧
    ls.length ≤ 2 * (N + 1) * (4 * N + 14) + 5 * spuriousCount (events ls) + (6 * N + 4) := by
  refine ⟨C97_not_aborted h hd, C97_can_end hN (by simp) (example_forkJoin N) h hd, ?_⟩
  have h1 := C97_bounded h hd
  have h2 : ∑ t, waits (example_ N t) = 2 * (N + 1) := by
    rw [Finset.sum_congr rfl (fun t _ => (example_forkJoin N).waits t none)]
    have : waits (example_ N none) = 2 := by
      simp only [example_, waits_append]
      rw [waits_spawns N _ _ (by simp), waits_spawns N _ _ (by simp)]
      rfl
    rw [this]; simp; ring
  have h3 : ∑ t, (example_ N t).length = 6 * N + 4 := by
    rw [Fintype.sum_option]
    simp [example_]; ring
  rw [h2, h3] at h1
  have h4 : (4 * Fintype.card (Option (Fin N)) + 10) * (2 * (N + 1)) = 2 * (N + 1) * (4 * N + 14) := by
    simp; ring
  rw [h4] at h1
  exact h1

-- the program with five workers ends in some execution, and the theorems apply to it
example : ∃ ls s, Exec (example_ 5) none 6 ls s ∧ NoDeadline (events ls) ∧ s.Finished := by
  obtain ⟨ls, s, -, h1, h2, h3⟩ := (C97_example_ends (by decide) (Exec.init (script := example_ 5) (root := none) (n := 6)) (by simp [events, NoDeadline])).2.1
  exact ⟨ls, s, by simpa using h1, by simpa using h2, h3⟩

end example_
end SoDa.BarProg
