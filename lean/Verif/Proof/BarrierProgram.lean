import Verif.Spec.BarrierProgram
import Verif.Props.BarrierWake
import Verif.Proof.BarrierTest
/-!
Lemmas about programs with a barrier.
-/
set_option linter.unusedSectionVars false
namespace SoDa.BarProg
open Bar Spec

variable {T A : Type} [DecidableEq T] {script : T → List (Item T A)} {root : T} {n : Nat}

theorem events_snoc (ls : List (Option (Ev T))) (l) : events (ls ++ [l]) = events ls ++ l.toList := by
  unfold events
  rw [List.filterMap_append]
  cases l <;> rfl

theorem waits_append (a b : List (Item T A)) : waits (a ++ b) = waits a + waits b := by
  unfold waits; rw [List.countP_append]

theorem returns_snoc (t : T) (evs : List (Ev T)) (e) :
    returnsTo t (evs ++ [e]) = returnsTo t evs + if e = .ret t then 1 else 0 := by
  unfold returnsTo; rw [countP_snoc]; simp

/-- What is known of a state; `dn t` is what `t` has executed. -/
structure Inv (script : T → List (Item T A)) (root : T) (n : Nat) (ls : List (Option (Ev T))) (s : St T A)
    (dn : T → List (Item T A)) : Prop where
  run : Run n (events ls) s.bar
  cut : ∀ t, script t = dn t ++ s.rest t
  busy : ∀ t, s.bar.pc t ≠ .idle → s.born t = true ∧ ∃ r, s.rest t = .wait :: r
  waits : ∀ t, waits (dn t) = returnsTo t (events ls)
  mem : ∀ x, x ∈ s.log ↔ x.2 < (dn x.1).length ∧ IsAct script x
  nodup : s.log.Nodup
  top : s.born root = true
  spawned : ∀ u, s.born u = true → u = root ∨ ∃ t, .spawn u ∈ dn t
  born : ∀ t u, .spawn u ∈ dn t → s.born u = true
  unborn : ∀ t, s.born t = false → dn t = []
  joined : ∀ t u, .join u ∈ dn t → s.rest u = []
  aborted : s.aborted = true → ∃ t e, .raise t e ∈ events ls

/-- What has been executed after one more statement of `t`. -/
def push (dn : T → List (Item T A)) (t : T) (x : Item T A) : T → List (Item T A) := fun u => if u = t then dn t ++ [x] else dn u

theorem push_mem {dn : T → List (Item T A)} {t : T} {x r} {log : List (T × Nat)} (hcut : script t = dn t ++ x :: r)
    (h : ∀ y, y ∈ log ↔ y.2 < (dn y.1).length ∧ IsAct script y) (y : T × Nat) :
    y.2 < (push dn t x y.1).length ∧ IsAct script y ↔ y ∈ log ∨ y = (t, (dn t).length) ∧ ∃ a, x = .act a := by
  obtain ⟨u, i⟩ := y
  rw [h]
  by_cases hu : u = t
  · subst hu
    simp only [push, if_true, List.length_append, List.length_singleton, Prod.mk.injEq, true_and]
    have hx : (script u)[(dn u).length]? = some x := by rw [hcut]; simp
    constructor
    · rintro ⟨h1, h2⟩
      by_cases hi : i < (dn u).length
      · exact .inl ⟨hi, h2⟩
      · have : i = (dn u).length := by omega
        subst this
        obtain ⟨a, h2⟩ := h2
        simp only [] at h2
        rw [hx] at h2
        exact .inr ⟨rfl, a, by simpa using h2⟩
    · rintro (⟨h1, h2⟩ | ⟨rfl, a, rfl⟩)
      · exact ⟨by omega, h2⟩
      · exact ⟨by omega, a, hx⟩
  · simp [push, hu]

theorem inv_exec {ls} {s : St T A} (h : Exec script root n ls s) : ∃ dn, Inv script root n ls s dn := by
  induction h with
  | init =>
    refine ⟨fun _ => [], Run.init, fun t => rfl, fun t h => absurd rfl h, fun t => rfl, fun x => ?_, List.nodup_nil, ?_, fun u hu => ?_,
      fun t u h => by simp at h, fun t _ => rfl, fun t u h => by simp at h, fun h => by cases h⟩
    · simp [St.start]
    · simp [St.start]
    · exact .inl (by simpa [St.start] using hu)
  | @snoc ls s l s' h hs ih =>
    obtain ⟨dn, inv⟩ := ih
    -- a statement other than `wait`
    have key : ∀ t x r, s.rest t = x :: r → (x ≠ .wait) → s.born t = true → ∀ (born' : T → Bool) log',
        (∀ u, born' u = true ↔ s.born u = true ∨ x = .spawn u) →
        (∀ u, x = .join u → s.rest u = []) →
        (log' = s.log ++ (match x with | .act _ => [(t, (dn t).length)] | _ => [])) →
        Inv script root n (ls ++ [none]) { s.next t with born := born', log := log' } (push dn t x) := by
      intro t x r hr hx hb born' log' hborn hjoin hlog
      have hcut : script t = dn t ++ x :: r := by rw [← hr]; exact inv.cut t
      have hidle : s.bar.pc t = .idle := by
        by_contra hp
        obtain ⟨-, r', h'⟩ := inv.busy t hp
        rw [hr] at h'
        exact hx (by simpa using (List.cons.inj h').1)
      have hev : events (ls ++ [none]) = events ls := by rw [events_snoc]; simp
      have hspawn : ∀ v u, .spawn u ∈ push dn t x v → (.spawn u ∈ dn v ∨ x = .spawn u) := by
        intro v u h'
        simp only [push] at h'
        split at h'
        · next hv =>
          subst hv
          rcases List.mem_append.1 h' with h' | h'
          · exact .inl h'
          · exact .inr (List.mem_singleton.1 h').symm
        · exact .inl h'
      have hmono : ∀ v, ∀ y ∈ dn v, y ∈ push dn t x v := by
        intro v y hy
        simp only [push]
        split
        · next hv => subst hv; exact List.mem_append_left _ hy
        · exact hy
      refine ⟨by rw [hev]; exact inv.run, fun u => ?_, fun u hu => ?_, fun u => ?_, fun y => ?_, ?_, ?_, fun u hu => ?_, fun v u h' => ?_,
        fun u hu => ?_, fun v u h' => ?_, ?_⟩
      · simp only [push, St.next]
        split
        · next hu => subst hu; rw [hcut, hr]; simp
        · exact inv.cut u
      · have hne : u ≠ t := by rintro rfl; exact hu hidle
        obtain ⟨h1, r', h2⟩ := inv.busy u hu
        exact ⟨(hborn u).2 (.inl h1), r', by simpa [St.next, hne] using h2⟩
      · rw [hev, ← inv.waits u]
        simp only [push]
        split
        · next hu =>
          subst hu
          rw [waits_append]
          cases x <;> simp [Spec.waits] at hx ⊢
        · rfl
      · rw [push_mem hcut inv.mem y]
        show y ∈ log' ↔ _
        rw [hlog, List.mem_append]
        cases x <;> simp
      · show log'.Nodup
        rw [hlog, List.nodup_append]
        refine ⟨inv.nodup, by cases x <;> simp, ?_⟩
        intro a ha b hb'
        rintro rfl
        have h1 := ((inv.mem a).1 ha).1
        cases x <;> simp at hb'
        subst hb'
        simp at h1
      · exact (hborn root).2 (.inl inv.top)
      · rcases (hborn u).1 hu with h' | h'
        · rcases inv.spawned u h' with h1 | ⟨v, h1⟩
          · exact .inl h1
          · exact .inr ⟨v, hmono v _ h1⟩
        · exact .inr ⟨t, by simp [push, h']⟩
      · refine (hborn u).2 ?_
        rcases hspawn v u h' with h' | h'
        · exact .inl (inv.born v u h')
        · exact .inr h'
      · have h1 : s.born u = false := by
          cases hq : s.born u
          · rfl
          · have : born' u = true := (hborn u).2 (.inl hq)
            rw [show born' u = false from hu] at this; cases this
        have hne : u ≠ t := by rintro rfl; rw [hb] at h1; cases h1
        simp only [push, if_neg hne]
        exact inv.unborn u h1
      · have h1 : s.rest u = [] := by
          simp only [push] at h'
          split at h'
          · rcases List.mem_append.1 h' with h' | h'
            · exact inv.joined t u h'
            · exact hjoin u (List.mem_singleton.1 h').symm
          · exact inv.joined v u h'
        simp only [St.next]
        split
        · next hu => rw [← hu, h1]; rfl
        · exact h1
      · intro ha
        rw [hev]; exact inv.aborted ha
    cases hs with
    | @act t a r ha hb hr =>
      refine ⟨_, key t _ r hr (by simp) hb s.born _ (by simp) (by simp) ?_⟩
      have := inv.cut t
      simp [this]
    | @spawn t u r ha hb hr hu =>
      refine ⟨_, key t _ r hr (by simp) hb _ s.log (fun v => ?_) (by simp) (by simp)⟩
      by_cases hv : v = u
      · simp [hv]
      · simp [hv, Ne.symm hv]
    | @join t u r ha hb hr hu he =>
      refine ⟨_, key t _ r hr (by simp) hb s.born s.log (by simp) (fun v hv => ?_) (by simp)⟩
      cases hv; exact he
    | @bar t m b e ha hst hc =>
      have hev : events (ls ++ [some e]) = events ls ++ [e] := by rw [events_snoc]; simp
      have hrun : Run n (events ls ++ [e]) b := inv.run.snoc hst
      have hother : ∀ u, u ≠ t → (b.pc u ≠ .idle → s.bar.pc u ≠ .idle) := by
        intro u hu h1
        rcases step_other hst u hu with h2 | ⟨o, h2, -⟩
        · rw [← h2]; exact h1
        · rw [h2]; simp
      -- every event but a return
      have plain : (∀ u, e ≠ .ret u) → (∀ u, b.pc u ≠ .idle → s.born u = true ∧ ∃ r, s.rest u = .wait :: r) →
          ∀ ab, (ab = true → ∃ t x, .raise t x ∈ events ls ++ [e]) →
          Inv script root n (ls ++ [some e]) { s with bar := b, aborted := ab } dn := by
        intro hne hbusy ab hab
        refine ⟨by rw [hev]; exact hrun, inv.cut, hbusy, fun u => ?_, inv.mem, inv.nodup, inv.top, inv.spawned, inv.born, inv.unborn,
          inv.joined, by rw [hev]; exact hab⟩
        rw [hev, returns_snoc, if_neg (hne u), inv.waits u]; rfl
      have habort : ∀ ab, ab = s.aborted → ab = true → ∃ t x, .raise t x ∈ events ls ++ [e] := by
        rintro ab rfl h1
        rw [ha] at h1; cases h1
      have hbusy' : s.bar.pc t ≠ .idle → ∀ u, b.pc u ≠ .idle → s.born u = true ∧ ∃ r, s.rest u = .wait :: r := by
        intro h1 u hu
        by_cases hut : u = t
        · exact hut ▸ inv.busy t h1
        · exact inv.busy u (hother u hut hu)
      rcases step_self hst with ⟨rfl, h1, h2⟩ | ⟨o, rfl, h1, h2⟩ | ⟨rfl, h1, h2⟩ | ⟨r, hr, rfl, h1, h2⟩ | ⟨he, h1, h2, -⟩
      · have hm : m = .call := by
          cases m with
          | call => rfl
          | go => simp [Bar.step, stepGo, h1] at hst
          | spurious => simp [Bar.step, h1] at hst
          | deadline => simp [Bar.step, h1] at hst
        refine ⟨dn, plain (by simp) (fun u hu => ?_) s.aborted (habort _ rfl)⟩
        by_cases hut : u = t
        · exact hut ▸ hc hm
        · exact inv.busy u (hother u hut hu)
      · exact ⟨dn, plain (by simp) (hbusy' (by rw [h1]; simp)) s.aborted (habort _ rfl)⟩
      · -- return
        obtain ⟨hb, r, hr⟩ := inv.busy t (by rw [h1]; simp)
        have hcut : script t = dn t ++ .wait :: r := by rw [← hr]; exact inv.cut t
        have hmem : ∀ v y, y ∈ push dn t .wait v → y = .wait ∨ y ∈ dn v := by
          intro v y hy
          simp only [push] at hy
          split at hy
          · next hv =>
            subst hv
            rcases List.mem_append.1 hy with hy | hy
            · exact .inr hy
            · exact .inl (List.mem_singleton.1 hy)
          · exact .inr hy
        have hmono : ∀ v, ∀ y ∈ dn v, y ∈ push dn t .wait v := by
          intro v y hy
          simp only [push]
          split
          · next hv => subst hv; exact List.mem_append_left _ hy
          · exact hy
        refine ⟨push dn t .wait, by rw [hev]; exact hrun, fun u => ?_, fun u hu => ?_, fun u => ?_, fun y => ?_, inv.nodup, inv.top,
          fun u hu => ?_, fun v u h' => ?_, fun u hu => ?_, fun v u h' => ?_, ?_⟩
        · simp only [push, St.next, St.after]
          split
          · next hu => subst hu; rw [hcut, hr]; simp
          · exact inv.cut u
        · have hne : u ≠ t := by rintro rfl; exact hu h2
          obtain ⟨h3, r', h4⟩ := inv.busy u (hother u hne hu)
          exact ⟨h3, r', by simpa [St.next, St.after, hne] using h4⟩
        · rw [hev, returns_snoc, ← inv.waits u]
          simp only [push]
          by_cases hu : u = t
          · subst hu; simp [Spec.waits]
          · simp [hu, Ne.symm hu]
        · rw [push_mem hcut inv.mem y]
          show y ∈ s.log ↔ _
          simp
        · rcases inv.spawned u hu with h3 | ⟨v, h3⟩
          · exact .inl h3
          · exact .inr ⟨v, hmono v _ h3⟩
        · rcases hmem v _ h' with h' | h'
          · cases h'
          · exact inv.born v u h'
        · have hu' : s.born u = false := hu
          have hne : u ≠ t := by rintro rfl; rw [hb] at hu'; cases hu'
          simp only [push, if_neg hne]
          exact inv.unborn u hu'
        · rcases hmem v _ h' with h' | h'
          · cases h'
          · have h3 := inv.joined v u h'
            simp only [St.next, St.after]
            split
            · next hu => rw [← hu, h3]; rfl
            · exact h3
        · intro h3
          simp only [St.after, St.next] at h3
          rw [ha] at h3; cases h3
      · refine ⟨dn, plain (by simp) (hbusy' (by rw [h1]; simp)) true (fun _ => ⟨t, r, by simp⟩)⟩
      · refine ⟨dn, ?_⟩
        have h3 := plain (by rcases he with rfl | rfl | rfl <;> simp) (hbusy' h1) s.aborted (habort _ rfl)
        rcases he with rfl | rfl | rfl <;> exact h3

theorem take_dn {t : T} {dn : T → List (Item T A)} {s : St T A} (h : script t = dn t ++ s.rest t) {i : Nat}
    (hi : i ≤ (dn t).length) : (script t).take i = (dn t).take i := by
  rw [h, List.take_append_of_le_length hi]

end SoDa.BarProg
