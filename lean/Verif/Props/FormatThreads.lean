import Verif.Spec.FormatThreads
import Mathlib.Data.List.Induction
/-!
C118: threads that use `SoDa::Format` objects.
-/
namespace SoDa.FThr

variable {ι : Type} [DecidableEq ι] {A : Arith} {fuel : Nat}

/-! ### Statements use only the memory they are said to use -/

theorem textF_radix (r r' : Char) (v : Dbl) (fmt : Char) (w sig : Nat) (h : ShowsZero v fmt → r = r') :
    textF A fuel r v fmt w sig = textF A fuel r' v fmt w sig := by
  cases v with
  | nan => rfl
  | inf n => rfl
  | fin neg q =>
    by_cases hz : ShowsZero (.fin neg q) fmt
    · rw [h hz]
    · unfold textF
      by_cases h1 : fmt = 'e'
      · have h2 : q ≠ 0 := fun h2 => hz ⟨h1, neg, by rw [h2]⟩
        simp only [h2, if_false]
      · simp only [h1, if_false]

theorem eval_reads (m m' : Mem) (s : Stmt) (h : ∀ ℓ, Reads s ℓ → SameAt m m' ℓ) :
    s.eval A fuel m = s.eval A fuel m' := by
  cases s with
  | construct a s => rfl
  | setSep c => rfl
  | copy a b => have := h _ (.copy a b); simp only [SameAt] at this; simp only [Stmt.eval, this]
  | destroy a => have := h _ (.destroy a); simp only [SameAt] at this; simp only [Stmt.eval, this]
  | call a c => have := h _ (.call a c); simp only [SameAt] at this; simp only [Stmt.eval, this]
  | addF a v fmt w sig =>
    have := h _ (.addF a v fmt w sig)
    simp only [SameAt] at this
    simp only [Stmt.eval, this, Fmt.addF, textF_radix m.sep m'.sep v fmt w sig fun hz => h _ (.zero a v fmt w sig hz)]

/-- What is written is what the statement is said to write. -/
theorem eval_writes {m : Mem} {s : Stmt} {e : Eff} {o : List Out} (h : s.eval A fuel m = some (.ok (e, o))) :
    ∀ ℓ, ¬ Writes s ℓ → ∀ m', SameAt (e.apply m') m' ℓ := by
  intro ℓ hw m'
  have key : (∃ a f, e = .obj a f ∧ Writes s (.obj a)) ∨ (∃ c, e = .sep c ∧ Writes s .sep) ∨ e = .none := by
    cases s with
    | construct a s => simp only [Stmt.eval, Option.some.injEq, Res.ok.injEq, Prod.mk.injEq] at h
                       exact .inl ⟨a, _, h.1.symm, .construct a s⟩
    | setSep c => simp only [Stmt.eval, Option.some.injEq, Res.ok.injEq, Prod.mk.injEq] at h
                  exact .inr (.inl ⟨c, h.1.symm, .setSep c⟩)
    | copy a b =>
      simp only [Stmt.eval] at h
      cases hb : m.objs b with
      | none => rw [hb] at h; simp at h
      | some f => rw [hb] at h; simp only [Option.some.injEq, Res.ok.injEq, Prod.mk.injEq] at h
                  exact .inl ⟨a, _, h.1.symm, .copy a b⟩
    | destroy a =>
      simp only [Stmt.eval] at h
      cases hb : m.objs a with
      | none => rw [hb] at h; simp at h
      | some f => rw [hb] at h; simp only [Option.some.injEq, Res.ok.injEq, Prod.mk.injEq] at h
                  exact .inl ⟨a, _, h.1.symm, .destroy a⟩
    | addF a v fmt w sig =>
      simp only [Stmt.eval] at h
      cases hb : m.objs a with
      | none => rw [hb] at h; simp at h
      | some f =>
        rw [hb] at h
        simp only [Option.map_eq_some_iff] at h
        obtain ⟨r, _, hr⟩ := h
        cases r with
        | ok f' => simp only [Res.map, Res.bind, Res.ok.injEq, Prod.mk.injEq] at hr
                   exact .inl ⟨a, _, hr.1.symm, .addF a v fmt w sig⟩
        | throw e => exact e.elim
        | ub => simp [Res.map, Res.bind] at hr
    | call a c =>
      simp only [Stmt.eval] at h
      cases hb : m.objs a with
      | none => rw [hb] at h; simp at h
      | some f =>
        rw [hb] at h
        by_cases hc : ∃ check, c = .str check
        · obtain ⟨check, rfl⟩ := hc
          simp only [Option.some.injEq, Res.ok.injEq, Prod.mk.injEq] at h
          exact .inr (.inr h.1.symm)
        · have hc' : ∀ check, c ≠ .str check := fun check hcc => hc ⟨check, hcc⟩
          have h2 : (f.call c).map (fun f' => (Eff.obj a (some f'), ([] : List Out))) = .ok (e, o) := by
            cases c <;> first | exact absurd rfl (hc' _) | exact Option.some.inj h
          cases hr : f.call c with
          | ok f' => rw [hr] at h2; simp only [Res.map, Res.bind, Res.ok.injEq, Prod.mk.injEq] at h2
                     exact .inl ⟨a, _, h2.1.symm, .call a c hc'⟩
          | throw e => exact e.elim
          | ub => rw [hr] at h2; simp [Res.map, Res.bind] at h2
  rcases key with ⟨a, f, rfl, hk⟩ | ⟨c, rfl, hk⟩ | rfl
  · cases ℓ with
    | obj b =>
      have : b ≠ a := fun hba => hw (hba ▸ hk)
      simp [SameAt, Eff.apply, this]
    | sep => rfl
  · cases ℓ with
    | obj b => rfl
    | sep => exact absurd hk hw
  · cases ℓ <;> rfl

theorem SameAt.rfl' (m : Mem) (ℓ : Loc) : SameAt m m ℓ := by cases ℓ <;> rfl
theorem SameAt.symm {m m' : Mem} {ℓ : Loc} (h : SameAt m m' ℓ) : SameAt m' m ℓ := by cases ℓ <;> exact Eq.symm h
theorem SameAt.trans {m m' m'' : Mem} {ℓ : Loc} (h : SameAt m m' ℓ) (h' : SameAt m' m'' ℓ) : SameAt m m'' ℓ := by
  cases ℓ <;> exact Eq.trans h h'

theorem apply_same {m m' : Mem} {e : Eff} {ℓ : Loc} (h : SameAt m m' ℓ) : SameAt (e.apply m) (e.apply m') ℓ := by
  cases e <;> cases ℓ <;> simp_all [SameAt, Eff.apply]

/-! ### Executions -/

theorem Conf.set_thr (c : Conf ι) (t : ι) (x : Thr) (m : Mem) : (c.set t x m).thr t = x := by simp [Conf.set]
theorem Conf.set_thr_ne (c : Conf ι) {t u : ι} (x : Thr) (m : Mem) (h : u ≠ t) : (c.set t x m).thr u = c.thr u := by
  simp [Conf.set, h]

/-- The statement that waits for its second step, and the statements before it, as far as the steps tell. -/
structure Inv (P : ι → List Stmt) (tr : List (Lab ι)) (c : Conf ι) : Prop where
  pend : ∀ t s e, (c.thr t).pend = some (s, e) →
    Lab.first t s ∈ tr ∧ ∀ ℓ, ¬ Writes s ℓ → ∀ m', SameAt (e.apply m') m' ℓ
  dead : ∀ t, (c.thr t).dead = true → (c.thr t).rest ≠ []
  mem : ∀ t, ∀ s ∈ (c.thr t).rest, s ∈ P t
  labs : ∀ l ∈ tr, (∃ s, l = .first l.thread s ∧ s ∈ P l.thread) ∨ ∃ s, l = .second l.thread s ∧ s ∈ P l.thread
  done : ∀ t, ∀ s ∈ P t, s ∈ (c.thr t).rest ∨ Lab.first t s ∈ tr ∧ (Lab.second t s ∈ tr ∨ ∃ e, (c.thr t).pend = some (s, e))

theorem Exec.inv {P : ι → List Stmt} {m : Mem} {tr : List (Lab ι)} {c : Conf ι}
    (h : Exec A fuel (Conf.init P m) tr c) : Inv P tr c := by
  induction h with
  | nil => exact ⟨by simp [Conf.init], by simp [Conf.init], by simp [Conf.init], by simp, fun t s hs => .inl hs⟩
  | @snoc tr c c' l _ hs ih =>
    cases hs with
    | @first t s ss out e o ht he =>
      refine ⟨?_, ?_, ?_, ?_, ?_⟩
      · intro u s' e' hu
        by_cases h : u = t
        · subst h
          rw [Conf.set_thr] at hu
          simp only [Option.some.injEq, Prod.mk.injEq] at hu
          obtain ⟨rfl, rfl⟩ := hu
          exact ⟨by simp, eval_writes he⟩
        · rw [Conf.set_thr_ne _ _ _ h] at hu
          exact ⟨List.mem_append_left _ (ih.pend u s' e' hu).1, (ih.pend u s' e' hu).2⟩
      · intro u hu
        by_cases h : u = t
        · subst h; rw [Conf.set_thr] at hu; simp at hu
        · rw [Conf.set_thr_ne _ _ _ h] at hu ⊢; exact ih.dead u hu
      · intro u s' hs'
        by_cases h : u = t
        · subst h; rw [Conf.set_thr] at hs'; exact ih.mem u s' (by rw [ht]; exact List.mem_cons_of_mem _ hs')
        · rw [Conf.set_thr_ne _ _ _ h] at hs'; exact ih.mem u s' hs'
      · intro l hl
        rcases List.mem_append.1 hl with h | h
        · exact ih.labs l h
        · obtain rfl := List.mem_singleton.1 h
          exact .inl ⟨s, rfl, ih.mem t s (by rw [ht]; exact List.mem_cons_self)⟩
      · intro u s' hs'
        by_cases h : u = t
        · subst h
          rw [Conf.set_thr]
          rcases ih.done u s' hs' with h | ⟨h1, h2⟩
          · rw [ht] at h
            rcases List.mem_cons.1 h with rfl | h
            · exact .inr ⟨by simp, .inr ⟨e, rfl⟩⟩
            · exact .inl h
          · rw [ht] at h2
            rcases h2 with h2 | ⟨e', h2⟩
            · exact .inr ⟨List.mem_append_left _ h1, .inl (List.mem_append_left _ h2)⟩
            · simp at h2
        · rw [Conf.set_thr_ne _ _ _ h]
          rcases ih.done u s' hs' with h | ⟨h1, h2⟩
          · exact .inl h
          · exact .inr ⟨List.mem_append_left _ h1, h2.imp_left fun h2 => List.mem_append_left _ h2⟩
    | @undef t s ss out ht he =>
      refine ⟨?_, ?_, ?_, ?_, ?_⟩
      · intro u s' e' hu
        by_cases h : u = t
        · subst h; rw [Conf.set_thr] at hu; simp at hu
        · rw [Conf.set_thr_ne _ _ _ h] at hu
          exact ⟨List.mem_append_left _ (ih.pend u s' e' hu).1, (ih.pend u s' e' hu).2⟩
      · intro u hu
        by_cases h : u = t
        · subst h; rw [Conf.set_thr]; simp
        · rw [Conf.set_thr_ne _ _ _ h] at hu ⊢; exact ih.dead u hu
      · intro u s' hs'
        by_cases h : u = t
        · subst h; rw [Conf.set_thr] at hs'; exact ih.mem u s' (by rw [ht]; exact hs')
        · rw [Conf.set_thr_ne _ _ _ h] at hs'; exact ih.mem u s' hs'
      · intro l hl
        rcases List.mem_append.1 hl with h | h
        · exact ih.labs l h
        · obtain rfl := List.mem_singleton.1 h
          exact .inl ⟨s, rfl, ih.mem t s (by rw [ht]; exact List.mem_cons_self)⟩
      · intro u s' hs'
        by_cases h : u = t
        · subst h
          rw [Conf.set_thr]
          rcases ih.done u s' hs' with h | ⟨h1, h2⟩
          · rw [ht] at h; exact .inl h
          · rw [ht] at h2
            rcases h2 with h2 | ⟨e', h2⟩
            · exact .inr ⟨List.mem_append_left _ h1, .inl (List.mem_append_left _ h2)⟩
            · simp at h2
        · rw [Conf.set_thr_ne _ _ _ h]
          rcases ih.done u s' hs' with h | ⟨h1, h2⟩
          · exact .inl h
          · exact .inr ⟨List.mem_append_left _ h1, h2.imp_left fun h2 => List.mem_append_left _ h2⟩
    | @second t s ss out e ht =>
      have hp := ih.pend t s e (by rw [ht])
      refine ⟨?_, ?_, ?_, ?_, ?_⟩
      · intro u s' e' hu
        by_cases h : u = t
        · subst h; rw [Conf.set_thr] at hu; simp at hu
        · rw [Conf.set_thr_ne _ _ _ h] at hu
          exact ⟨List.mem_append_left _ (ih.pend u s' e' hu).1, (ih.pend u s' e' hu).2⟩
      · intro u hu
        by_cases h : u = t
        · subst h; rw [Conf.set_thr] at hu; simp at hu
        · rw [Conf.set_thr_ne _ _ _ h] at hu ⊢; exact ih.dead u hu
      · intro u s' hs'
        by_cases h : u = t
        · subst h; rw [Conf.set_thr] at hs'; exact ih.mem u s' (by rw [ht]; exact hs')
        · rw [Conf.set_thr_ne _ _ _ h] at hs'; exact ih.mem u s' hs'
      · intro l hl
        rcases List.mem_append.1 hl with h | h
        · exact ih.labs l h
        · obtain rfl := List.mem_singleton.1 h
          refine .inr ⟨s, rfl, ?_⟩
          rcases ih.labs _ hp.1 with ⟨s', h1, h2⟩ | ⟨s', h1, _⟩
          · injection h1 with _ h1; subst h1; exact h2
          · cases h1
      · intro u s' hs'
        by_cases h : u = t
        · subst h
          rw [Conf.set_thr]
          rcases ih.done u s' hs' with h | ⟨h1, h2⟩
          · rw [ht] at h; exact .inl h
          · rw [ht] at h2
            rcases h2 with h2 | ⟨e', h2⟩
            · exact .inr ⟨List.mem_append_left _ h1, .inl (List.mem_append_left _ h2)⟩
            · simp only [Option.some.injEq, Prod.mk.injEq] at h2
              obtain ⟨rfl, _⟩ := h2
              exact .inr ⟨List.mem_append_left _ h1, .inl (by simp)⟩
        · rw [Conf.set_thr_ne _ _ _ h]
          rcases ih.done u s' hs' with h | ⟨h1, h2⟩
          · exact .inl h
          · exact .inr ⟨List.mem_append_left _ h1, h2.imp_left fun h2 => List.mem_append_left _ h2⟩

/-! ### Races and conflicts -/

omit [DecidableEq ι] in
theorem Race.append {tr tr' : List (Lab ι)} (h : Race tr) : Race (tr ++ tr') := by
  obtain ⟨l, hl, l', hl', hne, ℓ, hw, hu⟩ := h
  exact ⟨l, List.mem_append_left _ hl, l', List.mem_append_left _ hl', hne, ℓ, hw, hu⟩

/-- Only programs with conflicting statements have executions with data races; -/
theorem C118_conflict {P : ι → List Stmt} {m : Mem} {tr : List (Lab ι)} {c : Conf ι}
    (h : Exec A fuel (Conf.init P m) tr c) (hr : Race tr) : Conflict P := by
  obtain ⟨l, hl, l', hl', hne, ℓ, hw, hu⟩ := hr
  have hi := h.inv
  have h2 : ∀ {l : Lab ι} {s : Stmt}, l ∈ tr → (l = .first l.thread s ∨ l = .second l.thread s) → s ∈ P l.thread := by
    intro l s hl hs
    rcases hi.labs l hl with ⟨s', h1, h2⟩ | ⟨s', h1, h2⟩ <;> rcases hs with hs | hs <;> rw [hs] at h1 <;>
      first | (injection h1 with _ h1; rw [h1]; exact h2) | cases h1
  cases hw with
  | mk t hw =>
    rcases hu with hu | hu
    · cases hu with
      | mk u hu => exact ⟨t, u, hne, _, h2 hl (.inr rfl), _, h2 hl' (.inl rfl), ℓ, hw, .inl hu⟩
    · cases hu with
      | mk u hu => exact ⟨t, u, hne, _, h2 hl (.inr rfl), _, h2 hl' (.inr rfl), ℓ, hw, .inr hu⟩

/-- and in such programs every execution in which all threads come to their end has one. -/
theorem C118_race {P : ι → List Stmt} {m : Mem} {tr : List (Lab ι)} {c : Conf ι}
    (h : Exec A fuel (Conf.init P m) tr c) (hf : Finished c) : Race tr ↔ Conflict P := by
  refine ⟨C118_conflict h, ?_⟩
  rintro ⟨t, u, hne, s, hs, s', hs', ℓ, hw, hu⟩
  have hi := h.inv
  have hd : ∀ t, ∀ s ∈ P t, Lab.first t s ∈ tr ∧ Lab.second t s ∈ tr := by
    intro t s hs
    rcases hi.done t s hs with h | ⟨h1, h2 | ⟨e, h2⟩⟩
    · rw [(hf t).1] at h; simp at h
    · exact ⟨h1, h2⟩
    · rw [(hf t).2] at h2; simp at h2
  refine ⟨_, (hd t s hs).2, ?_⟩
  rcases hu with hu | hu
  · exact ⟨_, (hd u s' hs').1, hne, ℓ, .mk t hw, .inl (.mk u hu)⟩
  · exact ⟨_, (hd u s' hs').2, hne, ℓ, .mk t hw, .inr (.mk u hu)⟩

/-! ### Without data race every thread works as if it were alone -/

/-- If an execution has no data race, then the steps of a thread in it are an execution of this thread alone, from the same memory: it has
done the same, got the same results, and all memory that was not written by others has the same content. -/
theorem C118_alone {P : ι → List Stmt} {m : Mem} {tr : List (Lab ι)} {c : Conf ι}
    (h : Exec A fuel (Conf.init P m) tr c) (hr : ¬ Race tr) (t : ι) :
    ∃ ct, Exec A fuel (Conf.init P m) (stepsOf t tr) ct ∧ ct.thr t = c.thr t ∧
      ∀ ℓ, (∀ l ∈ tr, l.thread ≠ t → ¬ l.Writes ℓ) → SameAt ct.mem c.mem ℓ := by
  induction h with
  | nil => exact ⟨_, .nil, rfl, fun ℓ _ => SameAt.rfl' _ ℓ⟩
  | @snoc tr c c' l hex hs ih =>
    obtain ⟨ct, h1, h2, h3⟩ := ih fun h => hr h.append
    have hi := hex.inv
    by_cases hl : l.thread = t
    · -- a step of `t`
      have hst : stepsOf t (tr ++ [l]) = stepsOf t tr ++ [l] := by simp [stepsOf, hl]
      rw [hst]
      have hev : ∀ s, l = .first t s → s.eval A fuel ct.mem = s.eval A fuel c.mem := by
        rintro s rfl
        apply eval_reads
        intro ℓ hℓ
        apply h3
        intro l' hl' hne hw
        exact hr ⟨l', List.mem_append_left _ hl', _, List.mem_append_right _ (List.mem_singleton.2 rfl), hne, ℓ, hw, .inl (.mk t hℓ)⟩
      cases hs with
      | @first u s ss out e o ht he =>
        obtain rfl : u = t := hl
        refine ⟨_, .snoc h1 (.first (h2.trans ht) ((hev s rfl).trans he)), ?_, ?_⟩
        · rw [Conf.set_thr, Conf.set_thr]
        · intro ℓ hℓ
          exact h3 ℓ fun l' hl' => hℓ l' (List.mem_append_left _ hl')
      | @undef u s ss out ht he =>
        obtain rfl : u = t := hl
        refine ⟨_, .snoc h1 (.undef (h2.trans ht) ((hev s rfl).trans he)), ?_, ?_⟩
        · rw [Conf.set_thr, Conf.set_thr]
        · intro ℓ hℓ
          exact h3 ℓ fun l' hl' => hℓ l' (List.mem_append_left _ hl')
      | @second u s ss out e ht =>
        obtain rfl : u = t := hl
        refine ⟨_, .snoc h1 (.second (h2.trans ht)), ?_, ?_⟩
        · rw [Conf.set_thr, Conf.set_thr]
        · intro ℓ hℓ
          exact apply_same (h3 ℓ fun l' hl' => hℓ l' (List.mem_append_left _ hl'))
    · -- a step of another thread
      have hst : stepsOf t (tr ++ [l]) = stepsOf t tr := by simp [stepsOf, hl]
      rw [hst]
      have hne : ∀ {u}, l.thread = u → t ≠ u := fun h h' => hl (h.trans h'.symm)
      refine ⟨ct, h1, ?_, ?_⟩
      · cases hs with
        | @first u => rw [Conf.set_thr_ne _ _ _ (hne (u := u) rfl)]; exact h2
        | @undef u => rw [Conf.set_thr_ne _ _ _ (hne (u := u) rfl)]; exact h2
        | @second u => rw [Conf.set_thr_ne _ _ _ (hne (u := u) rfl)]; exact h2
      · intro ℓ hℓ
        have h4 := h3 ℓ fun l' hl' => hℓ l' (List.mem_append_left _ hl')
        cases hs with
        | first ht he => exact h4
        | undef ht he => exact h4
        | @second u s ss out e ht =>
          refine h4.trans (SameAt.symm ?_)
          refine (hi.pend u s e (by rw [ht])).2 ℓ (fun hw => ?_) _
          exact hℓ _ (List.mem_append_right _ (List.mem_singleton.2 rfl)) hl (.mk u hw)

/-! ### Results do not depend on the schedule -/

/-- A thread has at most one next step. -/
theorem Step.unique {c c1 c2 : Conf ι} {l1 l2 : Lab ι} (h1 : Step A fuel c l1 c1) (h2 : Step A fuel c l2 c2)
    (h : l1.thread = l2.thread) : l1 = l2 ∧ c1 = c2 := by
  cases h1 with
  | first ht he => cases h2 with
    | first ht' he' =>
      cases h; rw [ht] at ht'; cases ht'; rw [he] at he'; cases he'; exact ⟨rfl, rfl⟩
    | undef ht' he' => cases h; rw [ht] at ht'; cases ht'; rw [he] at he'; cases he'
    | second ht' => cases h; rw [ht] at ht'; cases ht'
  | undef ht he => cases h2 with
    | first ht' he' => cases h; rw [ht] at ht'; cases ht'; rw [he] at he'; cases he'
    | undef ht' he' => cases h; rw [ht] at ht'; cases ht'; exact ⟨rfl, rfl⟩
    | second ht' => cases h; rw [ht] at ht'; cases ht'
  | second ht => cases h2 with
    | first ht' he' => cases h; rw [ht] at ht'; cases ht'
    | undef ht' he' => cases h; rw [ht] at ht'; cases ht'
    | second ht' => cases h; rw [ht] at ht'; cases ht'; exact ⟨rfl, rfl⟩

theorem Exec.prefix {c0 c : Conf ι} {tr tr' : List (Lab ι)} (h : Exec A fuel c0 (tr ++ tr') c) :
    ∃ c', Exec A fuel c0 tr c' ∧ (tr' = [] → c' = c) ∧ ∀ l rest, tr' = l :: rest → ∃ c'', Step A fuel c' l c'' := by
  induction tr' using List.reverseRecOn generalizing c with
  | nil => exact ⟨c, by simpa using h, fun _ => rfl, by simp⟩
  | append_singleton tr' l ih =>
    rw [← List.append_assoc] at h
    generalize hg : (tr ++ tr') ++ [l] = g at h
    cases h with
    | nil => simp at hg
    | @snoc g' c1 _ l' h hs =>
      obtain ⟨rfl, hl⟩ := List.append_inj' hg rfl
      cases hl
      obtain ⟨c', h1, h2, h3⟩ := ih h
      refine ⟨c', h1, by simp, ?_⟩
      intro l2 rest hr
      cases tr' with
      | nil =>
        simp only [List.nil_append, List.cons.injEq] at hr
        obtain ⟨rfl, _⟩ := hr
        exact ⟨_, h2 rfl ▸ hs⟩
      | cons x xs =>
        simp only [List.cons_append, List.cons.injEq] at hr
        exact h3 l2 xs (by rw [hr.1])

theorem Exec.alone_unique {t : ι} {c0 c1 c2 : Conf ι} {tr1 tr2 : List (Lab ι)} (h1 : Exec A fuel c0 tr1 c1)
    (h2 : Exec A fuel c0 tr2 c2) (ht1 : ∀ l ∈ tr1, l.thread = t) (ht2 : ∀ l ∈ tr2, l.thread = t)
    (hlen : tr1.length = tr2.length) : tr1 = tr2 ∧ c1 = c2 := by
  induction h1 generalizing tr2 c2 with
  | nil =>
    cases h2 with
    | nil => exact ⟨rfl, rfl⟩
    | snoc => simp at hlen
  | snoc h hs ih =>
    cases h2 with
    | nil => simp at hlen
    | snoc h' hs' =>
      obtain ⟨rfl, rfl⟩ := ih h' (fun l hl => ht1 l (List.mem_append_left _ hl)) (fun l hl => ht2 l (List.mem_append_left _ hl))
        (by simpa using hlen)
      obtain ⟨rfl, rfl⟩ := hs.unique hs' ((ht1 _ (by simp)).trans (ht2 _ (by simp)).symm)
      exact ⟨rfl, rfl⟩

theorem no_step {c c' : Conf ι} {l : Lab ι} (hs : Step A fuel c l c') :
    ¬ ((c.thr l.thread).rest = [] ∧ (c.thr l.thread).pend = none) := by
  rintro ⟨h1, h2⟩
  cases hs with
  | first ht he => simp only [Lab.thread] at h1; rw [ht] at h1; simp at h1
  | undef ht he => simp only [Lab.thread] at h1; rw [ht] at h1; simp at h1
  | second ht => simp only [Lab.thread] at h2; rw [ht] at h2; simp at h2

theorem Exec.alone_le {t : ι} {c0 c1 c2 : Conf ι} {tr1 tr2 : List (Lab ι)} (h1 : Exec A fuel c0 tr1 c1)
    (h2 : Exec A fuel c0 tr2 c2) (ht1 : ∀ l ∈ tr1, l.thread = t) (ht2 : ∀ l ∈ tr2, l.thread = t)
    (hf : (c1.thr t).rest = [] ∧ (c1.thr t).pend = none) : tr2.length ≤ tr1.length := by
  by_contra hlt
  rw [Nat.not_le] at hlt
  have hsplit : tr2 = tr2.take tr1.length ++ tr2.drop tr1.length := (List.take_append_drop _ _).symm
  rw [hsplit] at h2
  obtain ⟨c', h3, _, h4⟩ := h2.prefix
  obtain ⟨_, rfl⟩ := h1.alone_unique h3 ht1 (fun l hl => ht2 l (List.mem_of_mem_take hl)) (by simp; omega)
  cases hd : tr2.drop tr1.length with
  | nil => have := congrArg List.length hd; simp at this; omega
  | cons l rest =>
    obtain ⟨c'', hs⟩ := h4 l rest hd
    have : l.thread = t := ht2 l (List.mem_of_mem_drop (by rw [hd]; simp))
    exact no_step hs (this ▸ hf)

theorem Exec.unwritten {P : ι → List Stmt} {m : Mem} {tr : List (Lab ι)} {c : Conf ι}
    (h : Exec A fuel (Conf.init P m) tr c) {ℓ : Loc} (hw : ∀ t, ∀ s ∈ P t, ¬ Writes s ℓ) : SameAt c.mem m ℓ := by
  induction h with
  | nil => exact SameAt.rfl' _ _
  | @snoc tr c c' l hex hs ih =>
    have hi := hex.inv
    cases hs with
    | first ht he => exact ih
    | undef ht he => exact ih
    | @second t s ss out e ht =>
      have hp := hi.pend t s e (by rw [ht])
      refine SameAt.trans (hp.2 ℓ (hw t s ?_) _) ih
      rcases hi.labs _ hp.1 with ⟨s', h1, h2⟩ | ⟨s', h1, _⟩
      · injection h1 with _ h1; subst h1; exact h2
      · cases h1

/-- If one execution in which all threads come to their end has no data race, then no execution has one, and all executions in which all
threads come to their end give the same: all results of all threads and the whole memory. -/
theorem C118_same {P : ι → List Stmt} {m : Mem} {tr tr' : List (Lab ι)} {c c' : Conf ι}
    (h : Exec A fuel (Conf.init P m) tr c) (hf : Finished c) (hr : ¬ Race tr) (h' : Exec A fuel (Conf.init P m) tr' c') :
    ¬ Race tr' ∧ (Finished c' → (∀ t, (c'.thr t).out = (c.thr t).out) ∧ ∀ ℓ, SameAt c'.mem c.mem ℓ) := by
  have hc : ¬ Conflict P := fun hc => hr ((C118_race h hf).2 hc)
  have hr' : ¬ Race tr' := fun hr' => hc (C118_conflict h' hr')
  refine ⟨hr', fun hf' => ?_⟩
  have hone : ∀ t, ∃ ct : Conf ι, ct.thr t = c.thr t ∧ ct.thr t = c'.thr t ∧
      (∀ ℓ, (∀ l ∈ tr, l.thread ≠ t → ¬ l.Writes ℓ) → SameAt ct.mem c.mem ℓ) ∧
      (∀ ℓ, (∀ l ∈ tr', l.thread ≠ t → ¬ l.Writes ℓ) → SameAt ct.mem c'.mem ℓ) := by
    intro t
    obtain ⟨ct, h1, h2, h3⟩ := C118_alone h hr t
    obtain ⟨ct', h1', h2', h3'⟩ := C118_alone h' hr' t
    have hth : ∀ tr : List (Lab ι), ∀ l ∈ stepsOf t tr, l.thread = t := fun tr l hl => by simpa using (List.mem_filter.1 hl).2
    have ha := h1.alone_le h1' (hth _) (hth _) (h2 ▸ hf t)
    have hb := h1'.alone_le h1 (hth _) (hth _) (h2' ▸ hf' t)
    obtain ⟨_, rfl⟩ := h1.alone_unique h1' (hth _) (hth _) (Nat.le_antisymm hb ha)
    exact ⟨ct, h2, h2', h3, h3'⟩
  refine ⟨fun t => ?_, fun ℓ => ?_⟩
  · obtain ⟨ct, h1, h2, _⟩ := hone t
    rw [← h1, ← h2]
  · by_cases hw : ∃ t, ∃ s ∈ P t, Writes s ℓ
    · obtain ⟨t, s, hs, hw⟩ := hw
      obtain ⟨ct, _, _, h3, h4⟩ := hone t
      have hno : ∀ {tr : List (Lab ι)} {c : Conf ι}, Exec A fuel (Conf.init P m) tr c →
          ∀ l ∈ tr, l.thread ≠ t → ¬ l.Writes ℓ := by
        intro tr c h l hl hne hlw
        cases hlw with
        | @mk u s' _ hw' =>
          rcases h.inv.labs _ hl with ⟨s'', h1, _⟩ | ⟨s'', h1, h2⟩
          · cases h1
          · injection h1 with _ h1
            subst h1
            exact hc ⟨u, t, hne, s', h2, s, hs, ℓ, hw', .inr hw⟩
      exact (h4 ℓ (hno h')).symm.trans (h3 ℓ (hno h))
    · have hw' : ∀ t, ∀ s ∈ P t, ¬ Writes s ℓ := fun t s hs h => hw ⟨t, s, hs, h⟩
      exact (h'.unwritten hw').trans (h.unwritten hw').symm

/-! ### Threads with objects of their own -/

omit [DecidableEq ι] in
/-- If different threads use different objects, the separator is the only cause of data races: a thread sets it, and another sets it
or prints zero in engineering notation. -/
theorem C118_own {P : ι → List Stmt} (ho : OwnObjects P) :
    Conflict P ↔ ∃ t u, t ≠ u ∧ (∃ ch, Stmt.setSep ch ∈ P t) ∧
      ((∃ ch, Stmt.setSep ch ∈ P u) ∨ ∃ a v fmt w sig, Stmt.addF a v fmt w sig ∈ P u ∧ ShowsZero v fmt) := by
  constructor
  · rintro ⟨t, u, hne, s, hs, s', hs', ℓ, hw, hu⟩
    cases ℓ with
    | obj a => exact absurd hu (ho t u hne s hs s' hs' a (.inr hw))
    | sep =>
      refine ⟨t, u, hne, ?_, ?_⟩
      · cases hw with
        | setSep ch => exact ⟨ch, hs⟩
      · rcases hu with hu | hu
        · cases hu with
          | zero a v fmt w sig hz => exact .inr ⟨a, v, fmt, w, sig, hs', hz⟩
        · cases hu with
          | setSep ch => exact .inl ⟨ch, hs'⟩
  · rintro ⟨t, u, hne, ⟨ch, hs⟩, ⟨ch', hs'⟩ | ⟨a, v, fmt, w, sig, hs', hz⟩⟩
    · exact ⟨t, u, hne, _, hs, _, hs', .sep, .setSep ch, .inr (.setSep ch')⟩
    · exact ⟨t, u, hne, _, hs, _, hs', .sep, .setSep ch, .inl (.zero a v fmt w sig hz)⟩

omit [DecidableEq ι] in
/-- Threads that only call `str` may share objects. -/
theorem C118_readers {P : ι → List Stmt} (h : ∀ t, ∀ s ∈ P t, ∃ a check, s = .call a (.str check)) : ¬ Conflict P := by
  rintro ⟨t, u, hne, s, hs, s', hs', ℓ, hw, hu⟩
  obtain ⟨a, check, rfl⟩ := h t s hs
  cases hw with
  | call a c hc => exact hc check rfl

/-! ### Cases -/

/-- The memory at the start of the examples: one object, and the usual separator. -/
def exMem : Mem := ⟨fun a => if a = 0 then some (Fmt.mk' "%0".toList) else none, '.'⟩

/-- One thread sets the separator, the other prints zero. -/
def exSep : Bool → List Stmt
  | false => [.setSep ',']
  | true => [.addF 0 (.fin false 0) 'e' 0 3, .call 0 (.str false)]

/-- Each thread has an object. -/
def exOwn : Bool → List Stmt
  | false => [.setSep ',', .addF 0 (.fin false 0) 'e' 0 3, .call 0 (.str false)]
  | true => [.construct 1 "<%0>".toList, .call 1 (.addI 7 0 nul nul), .call 1 (.str true)]

/-- What a data race on the separator does: with the same program, the text is "0,00e0" in one execution and "0.00e0" in another, although
the threads share no object. -/
theorem C118_race_matters : OwnObjects exSep ∧ Conflict exSep ∧
    (∃ tr c, Exec exactArith 10 (Conf.init exSep exMem) tr c ∧ Finished c ∧ (c.thr true).out = [.ok "0,00e0".toList]) ∧
    (∃ tr c, Exec exactArith 10 (Conf.init exSep exMem) tr c ∧ Finished c ∧ (c.thr true).out = [.ok "0.00e0".toList]) := by
  refine ⟨?_, ?_, ?_, ?_⟩
  · intro t u hne s hs s' hs' a h h'
    cases t <;> cases u
    · exact hne rfl
    · simp only [exSep, List.mem_singleton] at hs
      subst hs
      rcases h with h | h <;> cases h
    · simp only [exSep, List.mem_singleton] at hs'
      subst hs'
      rcases h' with h' | h' <;> cases h'
    · exact hne rfl
  · exact ⟨false, true, by decide, _, List.mem_singleton.2 rfl, _, List.mem_cons_self, .sep, .setSep ',',
      .inl (.zero 0 _ _ _ _ ⟨rfl, false, rfl⟩)⟩
  · refine ⟨_, _, .snoc (.snoc (.snoc (.snoc (.snoc (.snoc .nil (.first (t := false) rfl rfl)) (.second (t := false) rfl))
      (.first (t := true) rfl rfl)) (.second (t := true) rfl)) (.first (t := true) rfl rfl)) (.second (t := true) rfl), ?_, ?_⟩
    · intro t; cases t <;> exact ⟨rfl, rfl⟩
    · decide +kernel
  · refine ⟨_, _, .snoc (.snoc (.snoc (.snoc (.snoc (.snoc .nil (.first (t := true) rfl rfl)) (.second (t := true) rfl))
      (.first (t := false) rfl rfl)) (.second (t := false) rfl)) (.first (t := true) rfl rfl)) (.second (t := true) rfl), ?_, ?_⟩
    · intro t; cases t <;> exact ⟨rfl, rfl⟩
    · decide +kernel

/-- Threads with an object each, one of which sets the separator for its own use: no data race, in whatever order; here is an execution with
steps of both between each other. -/
theorem C118_example : OwnObjects exOwn ∧ ¬ Conflict exOwn ∧
    ∃ tr c, Exec exactArith 10 (Conf.init exOwn exMem) tr c ∧ Finished c ∧
      (c.thr false).out = [.ok "0,00e0".toList] ∧ (c.thr true).out = [.ok "<7>".toList] := by
  have ho : OwnObjects exOwn := by
    intro t u hne s hs s' hs' a h h'
    have h0 : ∀ s ∈ exOwn false, ∀ a, Uses s (.obj a) → a = 0 := by
      intro s hs a h
      simp only [exOwn, List.mem_cons, List.not_mem_nil, or_false] at hs
      rcases hs with rfl | rfl | rfl <;> rcases h with h | h <;> cases h <;> rfl
    have h1 : ∀ s ∈ exOwn true, ∀ a, Uses s (.obj a) → a = 1 := by
      intro s hs a h
      simp only [exOwn, List.mem_cons, List.not_mem_nil, or_false] at hs
      rcases hs with rfl | rfl | rfl <;> rcases h with h | h <;> cases h <;> rfl
    cases t <;> cases u
    · exact hne rfl
    · have := h0 s hs a h; have := h1 s' hs' a h'; omega
    · have := h1 s hs a h; have := h0 s' hs' a h'; omega
    · exact hne rfl
  refine ⟨ho, ?_, ?_⟩
  · rw [C118_own ho]
    rintro ⟨t, u, hne, ⟨ch, h1⟩, h2⟩
    cases t <;> cases u
    · exact hne rfl
    · rcases h2 with ⟨ch', h2⟩ | ⟨a, v, fmt, w, sig, h2, _⟩ <;> simp [exOwn] at h2
    · simp [exOwn] at h1
    · exact hne rfl
  · refine ⟨_, _, .snoc (.snoc (.snoc (.snoc (.snoc (.snoc (.snoc (.snoc (.snoc (.snoc (.snoc (.snoc .nil (.first (t := true) rfl rfl))
      (.first (t := false) rfl rfl)) (.second (t := true) rfl)) (.second (t := false) rfl)) (.first (t := false) rfl rfl))
      (.first (t := true) rfl rfl)) (.second (t := false) rfl)) (.second (t := true) rfl)) (.first (t := true) rfl rfl))
      (.second (t := true) rfl)) (.first (t := false) rfl rfl)) (.second (t := false) rfl), ?_, ?_, ?_⟩
    · intro t; cases t <;> exact ⟨rfl, rfl⟩
    · decide +kernel
    · decide +kernel

end SoDa.FThr
