import Verif.Props.BarrierProgram
import Verif.Props.Standstill
/-!
# C97  Every order of the output of examples/BarrierExample.cxx is possible
-/
set_option linter.unusedSectionVars false
namespace SoDa.BarProg
open Bar Spec

section general
variable {T A : Type} [DecidableEq T] {script : T → List (Item T A)} {root : T} {n : Nat} {ls : List (Option (Ev T))} {s : St T A}

theorem step_log {s s' : St T A} {l} (h : Step script n s l s') : s.log <+: s'.log := by
  cases h with
  | act _ _ _ => exact List.prefix_append _ _
  | @bar t m b e _ _ _ => cases e <;> exact List.prefix_refl _
  | spawn _ _ _ _ => exact List.prefix_refl _
  | join _ _ _ _ _ => exact List.prefix_refl _

theorem onward_log {s s' : St T A} {ls'} (h : Onward script n s ls' s') : s.log <+: s'.log := by
  induction h with
  | nil => exact List.prefix_refl _
  | snoc _ hs ih => exact ih.trans (step_log hs)

/-- Some threads create others. -/
theorem spawn_list (us : List T) : ∀ (ls : List (Option (Ev T))) (s : St T A) (r : List (Item T A)), Exec script root n ls s → s.aborted = false → s.born root = true →
    s.rest root = us.map .spawn ++ r → us.Nodup → (∀ u ∈ us, s.born u = false) →
    ∃ ls' s', Exec script root n (ls ++ ls') s' ∧ events (ls ++ ls') = events ls ∧ s'.log = s.log ∧ s'.aborted = false ∧ s'.bar = s.bar ∧
      (∀ u, s'.born u = (s.born u || decide (u ∈ us))) ∧ s'.rest root = r ∧ ∀ u, u ≠ root → s'.rest u = s.rest u := by
  induction us with
  | nil => intro ls s r h ha hb hr _ _; exact ⟨[], s, by simpa using h, by simp, rfl, ha, rfl, by simp, by simpa using hr, fun _ _ => rfl⟩
  | cons u us ih =>
    intro ls s r h ha hb hr hnd hnb
    have h1 := h.snoc (.spawn ha hb hr (hnb u (by simp)))
    obtain ⟨hu, hnd'⟩ := List.nodup_cons.1 hnd
    obtain ⟨ls', s', g1, g2, g3, g4, g5, g6, g7, g8⟩ := ih _ _ r h1 ha (by simp [hb]) (by simp [St.next, hr]) hnd' (fun v hv => by
      have : v ≠ u := by rintro rfl; exact hu hv
      simp [this, hnb v (by simp [hv])])
    refine ⟨none :: ls', s', by simpa using g1, by simpa [events] using g2, g3, g4, g5, fun v => ?_, g7, fun v hv => by rw [g8 v hv]; simp [St.next, hv]⟩
    rw [g6]
    by_cases hv : v = u <;> simp [hv]

/-- Some threads execute one statement each, in a given order. -/
theorem act_list (p : List T) : ∀ (ls : List (Option (Ev T))) (s : St T A), Exec script root n ls s → s.aborted = false → (∀ t ∈ p, s.born t = true) →
    (∀ t ∈ p, ∃ a r, s.rest t = .act a :: r) → p.Nodup →
    ∃ ls' s', Exec script root n (ls ++ ls') s' ∧ events (ls ++ ls') = events ls ∧ s'.log = s.log ++ p.map (fun t => (t, (script t).length - (s.rest t).length)) ∧
      s'.aborted = false ∧ s'.bar = s.bar ∧ s'.born = s.born ∧ ∀ u, s'.rest u = if u ∈ p then (s.rest u).tail else s.rest u := by
  induction p with
  | nil => intro ls s h ha _ _ _; exact ⟨[], s, by simpa using h, by simp, by simp, ha, rfl, rfl, by simp⟩
  | cons t p ih =>
    intro ls s h ha hb hr hnd
    obtain ⟨a, r, hr1⟩ := hr t (by simp)
    have h1 := h.snoc (.act ha (hb t (by simp)) hr1)
    obtain ⟨ht, hnd'⟩ := List.nodup_cons.1 hnd
    have hne : ∀ u ∈ p, u ≠ t := fun u hu => by rintro rfl; exact ht hu
    obtain ⟨ls', s', g1, g2, g3, g4, g5, g6, g7⟩ := ih _ _ h1 ha (fun u hu => hb u (by simp [hu])) (fun u hu => by
      obtain ⟨a, r, h⟩ := hr u (by simp [hu])
      exact ⟨a, r, by simp [St.next, hne u hu, h]⟩) hnd'
    refine ⟨none :: ls', s', by simpa using g1, by simpa [events] using g2, ?_, g4, g5, g6, fun u => ?_⟩
    · rw [g3]
      simp only [List.map_cons, List.append_assoc, List.singleton_append]
      congr 2
      refine List.map_congr_left fun u hu => ?_
      simp [St.next, hne u hu]
    · rw [g7]
      by_cases hu : u = t
      · subst hu; simp [St.next, ht]
      · simp [St.next, hu]

/-- A thread joins others that have ended. -/
theorem join_list (us : List T) : ∀ (ls : List (Option (Ev T))) (s : St T A) (r : List (Item T A)), Exec script root n ls s → s.aborted = false → s.born root = true →
    s.rest root = us.map .join ++ r → (∀ u ∈ us, u ≠ root ∧ s.born u = true ∧ s.rest u = []) →
    ∃ ls' s', Exec script root n (ls ++ ls') s' ∧ events (ls ++ ls') = events ls ∧ s'.log = s.log ∧ s'.aborted = false ∧
      s'.born = s.born ∧ s'.rest root = r ∧ ∀ u, u ≠ root → s'.rest u = s.rest u := by
  induction us with
  | nil => intro ls s r h ha hb hr _; exact ⟨[], s, by simpa using h, by simp, rfl, ha, rfl, by simpa using hr, fun _ _ => rfl⟩
  | cons u us ih =>
    intro ls s r h ha hb hr hu
    have h1 := h.snoc (.join ha hb hr (hu u (by simp)).2.1 (hu u (by simp)).2.2)
    obtain ⟨ls', s', g1, g2, g3, g4, g5, g6, g7⟩ := ih _ _ r h1 ha hb (by simp [St.next, hr]) (fun v hv => by
      obtain ⟨k1, k2, k3⟩ := hu v (by simp [hv])
      exact ⟨k1, k2, by simp [St.next, k1, k3]⟩)
    exact ⟨none :: ls', s', by simpa using g1, by simpa [events] using g2, g3, g4, g5, g6, fun v hv => by rw [g7 v hv]; simp [St.next, hv]⟩

/-- The state in which the threads have more to do. -/
def St.more (s : St T A) (suf : T → List (Item T A)) : St T A := { s with rest := fun t => s.rest t ++ suf t }

theorem next_more {s : St T A} {suf : T → List (Item T A)} {t : T} {x r} (h : s.rest t = x :: r) : (s.more suf).next t = (s.next t).more suf := by
  simp only [St.next, St.more, St.mk.injEq, true_and, and_true]
  funext u
  by_cases hu : u = t
  · subst hu; simp [h]
  · simp [hu]

/-- Executions of a program without `join` are executions of the program with further statements at the end. -/
theorem exec_more {suf : T → List (Item T A)} (h : Exec script root n ls s) (hj : ∀ t u, .join u ∉ script t) :
    Exec (fun t => script t ++ suf t) root n ls (s.more suf) := by
  induction h with
  | init => exact .init
  | @snoc ls s l s' h hs ih =>
    refine ih.snoc ?_
    obtain ⟨dn, inv⟩ := inv_exec h
    cases hs with
    | @act t a r ha hb hr =>
      have := Step.act (script := fun t => script t ++ suf t) (n := n) (s := s.more suf) (t := t) (a := a) (r := r ++ suf t) ha hb (by simp [St.more, hr])
      rw [next_more hr] at this
      have e : (script t ++ suf t).length - ((s.more suf).rest t).length = (script t).length - (s.rest t).length := by
        simp only [St.more, List.length_append]; omega
      rw [e] at this
      exact this
    | @bar t m b e ha hs hc =>
      have := Step.bar (script := fun t => script t ++ suf t) (n := n) (s := s.more suf) (t := t) (m := m) ha hs (fun hm => by
        obtain ⟨h1, r, h2⟩ := hc hm
        exact ⟨h1, r ++ suf t, by simp [St.more, h2]⟩)
      have key : ({ s.more suf with bar := b } : St T A).after e = ({ s with bar := b }.after e).more suf := by
        cases e with
        | ret u =>
          have hu : s.bar.pc u ≠ .idle := by
            rcases (Together.bar_busy hs).2 with ⟨-, h, -⟩ | ⟨-, h, -, h' | ⟨o, h'⟩⟩ | ⟨-, -, -, -, h, -⟩
            · cases h
            · cases h'; exact h
            · cases h'
            · exact absurd rfl (h u)
          obtain ⟨-, r, hr⟩ := inv.busy u hu
          exact next_more (s := { s with bar := b }) hr
        | _ => rfl
      rw [key] at this
      exact this
    | @spawn t u r ha hb hr hu =>
      have := Step.spawn (script := fun t => script t ++ suf t) (n := n) (s := s.more suf) (t := t) (u := u) (r := r ++ suf t) ha hb (by simp [St.more, hr]) hu
      rw [next_more hr] at this
      exact this
    | @join t u r ha hb hr hu he =>
      exact absurd (by rw [inv.cut t, hr]; simp) (hj t u)

end general

/-! ### The example -/

/-- The statements up to the second `wait`. -/
def firstPart (N : Nat) : Option (Fin N) → List (Item (Option (Fin N)) Mark)
  | none => (List.finRange N).map (fun i => .spawn (some i)) ++ [.act .arriving, .wait, .wait]
  | some i => [.act (.digit i), .wait, .wait]

/-- The statements after it. -/
def lastPart (N : Nat) : Option (Fin N) → List (Item (Option (Fin N)) Mark)
  | none => (List.finRange N).map (fun i => .join (some i)) ++ [.act .cleared]
  | some i => [.act (.digit i)]

theorem example_parts (N : Nat) : example_ N = fun t => firstPart N t ++ lastPart N t := by
  funext t
  cases t with
  | none => simp [example_, firstPart, lastPart]
  | some i => rfl

/-- What a thread writes first. -/
def firstMark {N : Nat} : Option (Fin N) → Mark
  | none => .arriving
  | some i => .digit i

theorem first_forkJoin (N : Nat) : ForkJoin (firstPart N) none := by
  have hmain : ∀ t, waits (firstPart N t) = 2 := by
    intro t
    cases t with
    | none =>
      simp only [firstPart, waits_append]
      rw [waits_spawns N _ _ (by simp)]
      rfl
    | some i => rfl
  have hnj : ∀ u, .join u ∉ firstPart N none := by simp [firstPart]
  refine ⟨fun t u => by rw [hmain, hmain], ?_, ?_, ?_, ?_, hnj _⟩
  · intro t ht i hi
    cases t with
    | none => exact absurd rfl ht
    | some j => simp [firstPart] at hi; rcases hi with rfl | rfl <;> simp
  · intro u
    have h := (example_forkJoin N).spawns u
    rw [example_parts] at h
    simp only [List.countP_append] at h
    have h1 : List.countP (creates u) (lastPart N none) = 0 := by
      rw [List.countP_eq_zero]
      intro x hx
      simp only [lastPart, List.mem_append, List.mem_map, List.mem_singleton] at hx
      rcases hx with ⟨i, -, rfl⟩ | rfl <;> simp [creates]
    rw [h1] at h
    simpa using h
  · intro l i r he hi u hu
    refine (example_forkJoin N).first l i (r ++ lastPart N none) ?_ hi u (by simp [hu])
    rw [example_parts]
    simp [he]
  · intro l u r he
    exact absurd (by rw [he]; simp) (hnj u)

theorem written_at {N : Nat} {t : Option (Fin N)} {d r : List (Item (Option (Fin N)) Mark)} {a : Mark} (h : example_ N t = d ++ .act a :: r) :
    written N (t, (example_ N t).length - (Item.act a :: r : List (Item (Option (Fin N)) Mark)).length) = a.text := by
  have e : (example_ N t).length - (Item.act a :: r : List (Item (Option (Fin N)) Mark)).length = d.length := by rw [h]; simp
  rw [e]; simp only [written, h]
  simp

/-- Every order in which the threads can come, and every order in which the workers write their numbers the second time, is possible. -/
theorem C97_every_order {N : Nat} (hN : N + 1 < 2 ^ 32) (p : List (Option (Fin N))) (hp : p.Perm (none :: (List.finRange N).map some)) (q : List (Fin N))
    (hq : q.Perm (List.finRange N)) :
    ∃ ls s, Exec (example_ N) none (N + 1) ls s ∧ NoDeadline (events ls) ∧ s.Finished ∧
      s.log.map (written N) = p.map (fun t => (firstMark t).text) ++ q.map (fun i : Fin N => (Mark.digit i.val).text) ++ [Mark.cleared.text] := by
  have hpmem : ∀ t, t ∈ p := fun t => by
    rw [hp.mem_iff]
    cases t <;> simp
  have hpnd : p.Nodup := by
    rw [hp.nodup_iff, List.nodup_cons]
    exact ⟨by simp, (List.nodup_finRange N).map (Option.some_injective _)⟩
  -- main creates the threads
  obtain ⟨ls1, s1, g1, g2, g3, g4, g5, g6, g7, g8⟩ := spawn_list (script := firstPart N) (root := none) (n := N + 1) ((List.finRange N).map some) []
    (St.start (firstPart N) none) [.act .arriving, .wait, .wait] .init rfl rfl (by simp [St.start, firstPart, Function.comp_def])
    ((List.nodup_finRange N).map (Option.some_injective _)) (by simp [St.start])
  have hborn : ∀ t, s1.born t = true := fun t => by rw [g6]; cases t <;> simp [St.start]
  have hrest : ∀ t, s1.rest t = [.act (firstMark t), .wait, .wait] := fun t => by
    cases t with
    | none => exact g7
    | some i => rw [g8 _ (by simp)]; rfl
  -- they write
  obtain ⟨ls2, s2, k1, k2, k3, k4, k5, k6, k7⟩ := act_list p _ s1 g1 g4 (fun t _ => hborn t) (fun t _ => ⟨_, _, hrest t⟩) hpnd
  have hev : events ([] ++ ls1 ++ ls2) = [] := by rw [k2, g2]; rfl
  have hrest2 : ∀ t, s2.rest t = [.wait, .wait] := fun t => by rw [k7, if_pos (hpmem t), hrest]; rfl
  -- they wait
  obtain ⟨ls3, s3, m1, m2, m3, m4⟩ := C97_can_end hN (by simp) (first_forkJoin N) k1 (by rw [hev]; simp [NoDeadline])
  have hlog : s3.log = s2.log := by
    obtain ⟨extra, he⟩ := onward_log m1
    cases extra with
    | nil => simpa using he.symm
    | cons x extra =>
      exfalso
      obtain ⟨hnd, hall⟩ := C97_all_executed m2 m4
      obtain ⟨a, ha⟩ := (hall x).1 (by rw [← he]; simp)
      obtain ⟨dn, inv⟩ := inv_exec k1
      have hx : x ∉ s2.log := by
        rw [← he] at hnd
        exact fun hm => (List.disjoint_of_nodup_append hnd) hm (by simp)
      rw [inv.mem, not_and] at hx
      have hge : (dn x.1).length ≤ x.2 := by
        by_contra hlt
        exact hx (by omega) ⟨a, ha⟩
      rw [inv.cut, hrest2, List.getElem?_append_right hge] at ha
      rcases hd : x.2 - (dn x.1).length with _ | _ | d <;> rw [hd] at ha <;> simp at ha
  -- they write again
  have hx := exec_more (suf := lastPart N) m2 (fun t u => by cases t <;> simp [firstPart])
  rw [← example_parts] at hx
  have hrest3 : ∀ t, (s3.more (lastPart N)).rest t = lastPart N t := fun t => by simp [St.more, m4 t]
  have hb3 : ∀ t, (s3.more (lastPart N)).born t = true := by
    intro t
    obtain ⟨dn, inv⟩ := inv_exec m2
    show s3.born t = true
    cases hq : s3.born t
    · have h1 := inv.unborn t hq
      have h2 := inv.cut t
      rw [h1, m4 t] at h2
      cases t <;> simp [firstPart] at h2
    · rfl
  have ha3 : (s3.more (lastPart N)).aborted = false := show s3.aborted = false from C97_not_aborted m2 m3
  obtain ⟨ls4, s4, o1, o2, o3, o4, o5, o6, o7⟩ := act_list (q.map some) _ _ hx ha3 (fun t _ => hb3 t) (fun t ht => by
    obtain ⟨i, -, rfl⟩ := List.mem_map.1 ht
    exact ⟨_, _, hrest3 (some i)⟩) ((hq.nodup_iff.2 (List.nodup_finRange N)).map (Option.some_injective _))
  -- main joins and writes
  obtain ⟨ls5, s5, r1, r2, r3, r4, r5, r6, r7⟩ := join_list ((List.finRange N).map some) _ s4 [.act .cleared] o1 o4 (by rw [o6]; exact hb3 none) (by
    rw [o7, if_neg (by simp), hrest3]
    simp [lastPart, Function.comp_def]) (fun u hu => by
    obtain ⟨i, -, rfl⟩ := List.mem_map.1 hu
    refine ⟨by simp, by rw [o6]; exact hb3 _, ?_⟩
    rw [o7, if_pos (by simp [hq.mem_iff]), hrest3]
    rfl)
  obtain ⟨ls6, s6, v1, v2, v3, v4, v5, v6, v7⟩ := act_list [none] _ s5 r1 r4 (by rw [r5, o6]; simp [hb3]) (by simp [r6]) (by simp)
  refine ⟨_, s6, v1, ?_, fun t => ?_, ?_⟩
  · rw [v2, r2, o2]; exact m3
  · rw [v7]
    cases t with
    | none => simp [r6]
    | some i =>
      rw [if_neg (by simp), r7 _ (by simp), o7, if_pos (by simp [hq.mem_iff]), hrest3]
      rfl
  · rw [v3, r3, o3]
    have hl : (s3.more (lastPart N)).log = s2.log := hlog
    rw [hl, k3, g3]
    simp only [St.start, List.nil_append, List.map_append, List.map_map, List.map_cons, List.map_nil]
    congr 1
    · congr 1
      · refine List.map_congr_left fun t _ => ?_
        have e : (firstPart N t).length - (s1.rest t).length =
            (example_ N t).length - (Item.act (firstMark t) :: ([.wait, .wait] ++ lastPart N t) : List (Item (Option (Fin N)) Mark)).length := by
          rw [hrest, example_parts]; simp only [List.length_append, List.length_cons, List.length_nil]; omega
        simp only [Function.comp_apply, e]
        cases t with
        | none => exact written_at (d := (List.finRange N).map fun i => .spawn (some i)) (by simp [example_, lastPart, firstMark])
        | some i => exact written_at (d := []) rfl
      · refine List.map_congr_left fun i _ => ?_
        simp only [Function.comp_apply, hrest3]
        exact written_at (d := [.act (.digit i), .wait, .wait]) rfl
    · rw [r6]
      congr 1
      exact written_at (d := (List.finRange N).map (fun i => .spawn (some i)) ++ [.act .arriving, .wait, .wait] ++ (List.finRange N).map fun i => .join (some i)) rfl

/-- With three workers, for example: 2, main, 0, 1, and then 1, 2, 0. -/
example : ∃ (ls : List (Option (Ev (Option (Fin 3))))) (s : St (Option (Fin 3)) Mark), Exec (example_ 3) none 4 ls s ∧ s.Finished ∧
    (s.log.map (written 3)).flatten = "2 wait at the barrier\n01120 clear the barrier\n".toList := by
  obtain ⟨ls, s, h1, -, h3, h4⟩ := C97_every_order (N := 3) (by decide) [some 2, none, some 0, some 1] (by decide) [1, 2, 0] (by decide)
  exact ⟨ls, s, h1, h3, by rw [h4]; decide⟩

end SoDa.BarProg
