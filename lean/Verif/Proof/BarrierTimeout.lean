import Verif.Proof.BarrierRounds
/-!
Exceptions of the barrier, and the relation of calls and arrivals.
-/
set_option linter.unusedSectionVars false
namespace SoDa.Bar
open Spec

variable {T : Type} [DecidableEq T]

theorem Run.extend {n evs₁ evs₂} {c₁ c₂ : Conf T} (h : Run n evs₁ c₁) (hs : Steps n c₁ evs₂ c₂) :
    Run n (evs₁ ++ evs₂) c₂ := by
  induction hs with
  | nil => simpa using h
  | snoc _ hs ih => rw [← List.append_assoc]; exact Run.snoc ih hs

theorem steps_sched {n} {c₀ : Conf T} (sch : List (T × Move)) : ∀ (c : Conf T) (evs : List (Ev T))
    (c' : Conf T) (evs' : List (Ev T)), runSched n sch (c, evs) = some (c', evs') →
    Steps n c₀ evs c → Steps n c₀ evs' c' := by
  induction sch with
  | nil => intro c evs c' evs' h hs; cases h; exact hs
  | cons a rest ih =>
    intro c evs c' evs' h hs
    obtain ⟨t, m⟩ := a
    simp only [runSched] at h
    split at h
    · cases h
    · next c₁ e h1 => exact ih _ _ _ _ h (Steps.snoc hs h1)

/-- A schedule that can be executed is an execution. -/
theorem run_sched {n} {sch : List (T × Move)} {c : Conf T} {evs : List (Ev T)}
    (h : runSched n sch (Conf.init, []) = some (c, evs)) : Run n evs c := by
  have := Run.extend (n := n) Run.init (steps_sched sch _ _ _ _ h Steps.nil)
  simpa using this

theorem allCalls_snoc (evs : List (Ev T)) (e : Ev T) :
    allCalls (evs ++ [e]) = allCalls evs + match e with | .call _ => 1 | _ => 0 := by
  unfold allCalls
  rw [countP_snoc]
  cases e <;> rfl

/-- Calls and arrivals differ by the threads on their way to line 62. -/
theorem calls_arrivals {n evs} {c : Conf T} (h : Run n evs c) :
    ∃ pre : List T, pre.Nodup ∧ (∀ t, t ∈ pre ↔ c.pc t ≠ .idle ∧ (c.pc t).arrived = false)
      ∧ allCalls evs = arrivals evs + pre.length := by
  induction h with
  | init => exact ⟨[], by simp, by simp [Conf.init], by simp [allCalls, arrivals]⟩
  | @snoc evs c u m c' e h hs ih =>
    obtain ⟨pre, h1, h2, h3⟩ := ih
    have ho : ∀ t, t ≠ u → ((c'.pc t ≠ .idle ∧ (c'.pc t).arrived = false)
        ↔ (c.pc t ≠ .idle ∧ (c.pc t).arrived = false)) := by
      intro t htu
      rcases step_other hs t htu with h4 | ⟨old, h4, h5⟩
      · rw [h4]
      · rw [h4, h5]; simp [Pc.arrived]
    rw [allCalls_snoc, arrivals_snoc]
    have same : ((c'.pc u ≠ .idle ∧ (c'.pc u).arrived = false)
        ↔ (c.pc u ≠ .idle ∧ (c.pc u).arrived = false)) → ∀ t, t ∈ pre ↔
        c'.pc t ≠ .idle ∧ (c'.pc t).arrived = false := by
      intro hu t
      rw [h2 t]
      by_cases htu : t = u
      · rw [htu, hu]
      · rw [ho t htu]
    rcases step_self hs with ⟨he, hp, hp'⟩ | ⟨old, he, hp, hp'⟩ | ⟨he, hp, hp'⟩ | ⟨r, -, he, hp, hp'⟩
        | ⟨he, hp, hp', ha⟩
    · have hnu : u ∉ pre := by rw [h2, hp]; simp
      refine ⟨u :: pre, List.nodup_cons.2 ⟨hnu, h1⟩, ?_, ?_⟩
      · intro t
        by_cases htu : t = u
        · simp [htu, hp', Pc.arrived]
        · rw [ho t htu, ← h2 t]; simp [htu]
      · rw [he]; simp; omega
    · have hu : u ∈ pre := by rw [h2, hp]; simp [Pc.arrived]
      refine ⟨pre.erase u, h1.erase u, ?_, ?_⟩
      · intro t
        rw [h1.mem_erase_iff]
        by_cases htu : t = u
        · simp [htu, hp', Pc.arrived]
        · rw [ho t htu, ← h2 t]; simp [htu]
      · rw [he, List.length_erase_of_mem hu]
        have := List.length_pos_of_mem hu
        simp; omega
    · exact ⟨pre, h1, same (by rw [hp, hp']; simp [Pc.arrived]), by rw [he]; exact h3⟩
    · exact ⟨pre, h1, same (by rw [hp, hp']; simp [Pc.arrived]), by rw [he]; exact h3⟩
    · refine ⟨pre, h1, same (by rw [ha]; simp [hp, hp']), ?_⟩
      rcases he with he | he | he <;> rw [he] <;> exact h3

/-- The exceptions thrown to `t`. -/
def raisesTo (t : T) (evs : List (Ev T)) : Nat := evs.countP fun e => match e with
  | .raise u _ => u = t
  | _ => false

def deadlinesOf (t : T) (evs : List (Ev T)) : Nat := evs.countP fun e => e = .deadline t

/-- A thread leaves the path of normal return only when it reaches its deadline. -/
theorem raise_deadline {n evs} {c : Conf T} (h : Run n evs c) (t : T) :
    raisesTo t evs + (if (c.pc t).calm then 0 else 1) ≤ deadlinesOf t evs := by
  induction h with
  | init => simp [raisesTo, deadlinesOf, Conf.init, Pc.calm]
  | @snoc evs c u m c' e h hs ih =>
    unfold raisesTo deadlinesOf at ih ⊢
    rw [countP_snoc, countP_snoc]
    by_cases htu : t = u
    · subst htu
      by_cases hd : e = .deadline t
      · obtain ⟨old, h1, h2⟩ := step_deadline hs hd
        subst hd
        rw [h1] at ih; rw [h2]
        simp [Pc.calm] at ih ⊢
        exact ih
      · have hcalm : (c.pc t).calm = true → (c'.pc t).calm = true := by
          exact calm_self hs hd
        have hn0 : (if decide (e = Ev.deadline t) = true then 1 else 0) = 0 := by simp [hd]
        rw [hn0]
        rcases step_self hs with ⟨he, hp, hp'⟩ | ⟨old, he, hp, hp'⟩ | ⟨he, hp, hp'⟩
            | ⟨r, hr, he, hp, hp'⟩ | ⟨he, hp, hp', ha⟩
        · subst he; rw [hp] at ih; rw [hp']; simpa [Pc.calm] using ih
        · subst he; rw [hp] at ih; rw [hp']; simpa [Pc.calm] using ih
        · subst he; rw [hp] at ih; rw [hp']; simpa [Pc.calm] using ih
        · subst he; rw [hp] at ih; rw [hp']
          cases r <;> simp [Pc.calm] at ih ⊢ <;> first | exact absurd rfl hr | omega
        · have hr0 : ∀ x, e ≠ .raise t x := by
            intro x hx; subst hx; simp at he
          cases hq : (c.pc t).calm with
          | true =>
            rw [hq] at ih
            rw [hcalm hq]
            rcases he with he | he | he <;> subst he <;> simpa using ih
          | false =>
            rw [hq] at ih
            rcases he with he | he | he <;> subst he <;> simp at ih ⊢ <;> split <;> omega
    · have hut : u ≠ t := Ne.symm htu
      have hc : (c'.pc t).calm = (c.pc t).calm := by
        rcases step_other hs t htu with h1 | ⟨old, h1, h2⟩
        · rw [h1]
        · rw [h1, h2]; rfl
      rw [hc]
      rcases step_self hs with ⟨he, -⟩ | ⟨old, he, -⟩ | ⟨he, -⟩ | ⟨r, -, he, -⟩ | ⟨he, -⟩
      · subst he; simpa [hut] using ih
      · subst he; simpa [hut] using ih
      · subst he; simpa [hut] using ih
      · subst he; simpa [hut] using ih
      · rcases he with he | he | he <;> subst he <;> simpa [hut] using ih

/-- The thread is throwing `Timeout`. -/
def Pc.timing : Pc → Bool
  | .setCount | .notifyT | .leave .timeout | .out .timeout => true
  | _ => false

/-- The thread is throwing `Corrupt`. -/
def Pc.corrupting : Pc → Bool
  | .leave .corrupt | .out .corrupt => true
  | _ => false

/-- How a step changes `corrupted` and the threads on the way to an exception. -/
theorem step_corrupt {n} {c c' : Conf T} {t m e} (hs : step n c t m = some (c', e)) :
    ((c.pc t = .setCorrupt ∧ c'.corrupted = true ∧ c'.pc t = .setCount ∧ e = .tau t)
      ∨ (c.pc t = .out .timeout ∧ c'.pc t = .idle ∧ e = .raise t .timeout
          ∧ c'.corrupted = c.corrupted)
      ∨ ((c'.pc t).timing = (c.pc t).timing ∧ (∀ x, e ≠ .raise x .timeout)
          ∧ c'.corrupted = c.corrupted))
    ∧ (c'.pc t = .setCorrupt → c.corrupted = false)
    ∧ ((c'.pc t).corrupting = true → c.corrupted = true ∨ (c.pc t).corrupting = true)
    ∧ (∀ x, e = .raise x .corrupt → (c.pc t).corrupting = true) := by
  have hg : ∀ (c₁ : Conf T) p, (c₁.goto t p).pc t = p := by
    intro c₁ p; simp [Conf.goto]
  have hgc : ∀ (c₁ : Conf T) p, (c₁.goto t p).corrupted = c₁.corrupted := fun _ _ => rfl
  have hwc : c.wakeAll.corrupted = c.corrupted := rfl
  cases m with
  | call =>
    simp only [step] at hs
    split at hs
    · next hp => cases hs; simp [hp, hg, hgc, Pc.timing, Pc.corrupting]
    · cases hs
  | spurious =>
    simp only [step] at hs
    split at hs
    · next hp => cases hs; simp [hp, hg, hgc, Pc.timing, Pc.corrupting]
    · cases hs
  | deadline =>
    simp only [step] at hs
    split at hs
    · next hp => cases hs; simp [hp, hg, hgc, Pc.timing, Pc.corrupting]
    · cases hs
  | go =>
    simp only [step, stepGo] at hs
    cases hp : c.pc t <;> rw [hp] at hs <;> simp only [] at hs
    case idle => cases hs
    case waitCv => cases hs
    case wantLock =>
      split at hs
      · cases hs; simp [hg, hgc, Pc.timing, Pc.corrupting]
      · cases hs
    case woken o b =>
      split at hs
      · cases hs; cases b <;> simp [hg, hgc, Pc.timing, Pc.corrupting]
      · cases hs
    case pred =>
      split at hs
      · cases hs; simp [hg, hgc, Pc.timing, Pc.corrupting]
      · cases hs; simp [hg, hgc, Pc.timing, Pc.corrupting]
    case out r => cases r <;> cases hs <;> simp [hg, hgc, Pc.timing, Pc.corrupting]
    case leave r => cases r <;> cases hs <;> simp [hg, hgc, Pc.timing, Pc.corrupting]
    case test => cases hs; rw [hg]; split <;> simp [hgc, Pc.timing, Pc.corrupting]
    case predT => cases hs; rw [hg]; split <;> simp [hgc, Pc.timing, Pc.corrupting]
    case expired =>
      cases hs; rw [hg]
      cases hcc : c.corrupted <;> simp [hgc, hcc, Pc.timing, Pc.corrupting]
    all_goals
      cases hs
      simp [hg, hgc, hwc, Pc.timing, Pc.corrupting]

/-- How often `Timeout` was thrown. -/
def timeouts (evs : List (Ev T)) : Nat := evs.countP fun e => match e with
  | .raise _ .timeout => true
  | _ => false

theorem timeouts_snoc (evs : List (Ev T)) (e : Ev T) : timeouts (evs ++ [e]) =
    timeouts evs + match e with | .raise _ .timeout => 1 | _ => 0 := by
  unfold timeouts
  rw [countP_snoc]
  cases e with
  | raise u r => cases r <;> rfl
  | _ => rfl

structure CInv (evs : List (Ev T)) (c : Conf T) : Prop where
  excl : Excl c
  first : ∀ t, c.pc t = .setCorrupt → c.corrupted = false
  clean : c.corrupted = false → (∀ t, (c.pc t).timing = false) ∧ timeouts evs = 0
    ∧ (∀ t, (c.pc t).corrupting = false) ∧ ∀ t, Ev.raise t .corrupt ∉ evs
  dirty : c.corrupted = true → (timeouts evs = 1 ∧ ∀ t, (c.pc t).timing = false)
    ∨ (timeouts evs = 0 ∧ ∃ t, (c.pc t).timing = true ∧ ∀ u, (c.pc u).timing = true → u = t)

theorem timing_other {n} {c c' : Conf T} {t m e} (hs : step n c t m = some (c', e)) (u : T)
    (hu : u ≠ t) : (c'.pc u).timing = (c.pc u).timing ∧ (c'.pc u).corrupting = (c.pc u).corrupting
      ∧ (c'.pc u = .setCorrupt ↔ c.pc u = .setCorrupt) := by
  rcases step_other hs u hu with h1 | ⟨old, h1, h2⟩
  · rw [h1]; simp
  · rw [h1, h2]; simp [Pc.timing, Pc.corrupting]

theorem cinv_run {n evs} {c : Conf T} (h : Run n evs c) : CInv evs c := by
  induction h with
  | init =>
    exact ⟨fun t => by simp [Conf.init, Pc.holds], by simp [Conf.init],
      by simp [Conf.init, Pc.timing, Pc.corrupting, timeouts], by simp [Conf.init]⟩
  | @snoc evs c u m c' e h hs ih =>
    obtain ⟨hA, hB, hC, hD⟩ := step_corrupt hs
    refine ⟨excl_step ih.excl hs, ?_, ?_, ?_⟩
    · intro t ht
      by_cases htu : t = u
      · subst htu
        have h1 := hB ht
        rcases hA with ⟨-, -, h3, -⟩ | ⟨-, h3, -⟩ | ⟨-, -, h3⟩
        · rw [ht] at h3; cases h3
        · rw [ht] at h3; cases h3
        · rw [h3, h1]
      · have h1 := (timing_other hs t htu).2.2.1 ht
        have h2 := ih.first t h1
        rcases hA with ⟨h3, -⟩ | ⟨-, -, -, h3⟩ | ⟨-, -, h3⟩
        · exact absurd (ih.excl.eq (by rw [h3]; rfl) (by rw [h1]; rfl)) htu
        · rw [h3, h2]
        · rw [h3, h2]
    · intro hc'
      rcases hA with ⟨-, h3, -⟩ | ⟨h1, -, -, h3⟩ | ⟨h1, h2, h3⟩
      · rw [hc'] at h3; cases h3
      · rw [h3] at hc'
        have := (ih.clean hc').1 u
        rw [h1] at this; cases this
      · rw [h3] at hc'
        obtain ⟨a1, a2, a3, a4⟩ := ih.clean hc'
        refine ⟨?_, ?_, ?_, ?_⟩
        · intro t
          by_cases htu : t = u
          · rw [htu, h1]; exact a1 u
          · rw [(timing_other hs t htu).1]; exact a1 t
        · rw [timeouts_snoc, a2]
          cases e with
          | raise x r => cases r <;> first | rfl | exact absurd rfl (h2 x)
          | _ => rfl
        · intro t
          by_cases htu : t = u
          · subst htu
            cases hq : (c'.pc t).corrupting with
            | false => rfl
            | true =>
              rcases hC hq with h4 | h4
              · rw [hc'] at h4; cases h4
              · rw [a3 t] at h4; cases h4
          · rw [(timing_other hs t htu).2.1]; exact a3 t
        · intro t ht
          rcases List.mem_append.1 ht with ht | ht
          · exact a4 t ht
          · have := hD t (List.mem_singleton.1 ht).symm
            rw [a3 u] at this; cases this
    · intro hc'
      rcases hA with ⟨h1, h2, h3, h4⟩ | ⟨h1, h2, h4, h3⟩ | ⟨h1, h2, h3⟩
      · right
        obtain ⟨a1, a2, -, -⟩ := ih.clean (ih.first u h1)
        refine ⟨by rw [timeouts_snoc, a2, h4]; rfl, u, by rw [h3]; rfl, ?_⟩
        intro t ht
        by_contra htu
        rw [(timing_other hs t htu).1, a1 t] at ht
        cases ht
      · left
        rw [h3] at hc'
        rcases ih.dirty hc' with ⟨-, b2⟩ | ⟨b1, t, b2, b3⟩
        · have := b2 u; rw [h1] at this; cases this
        · have hut : u = t := b3 u (by rw [h1]; rfl)
          refine ⟨by rw [timeouts_snoc, b1, h4]; rfl, ?_⟩
          intro x
          by_cases hxu : x = u
          · rw [hxu, h2]; rfl
          · rw [(timing_other hs x hxu).1]
            cases hq : (c.pc x).timing with
            | false => rfl
            | true => exact absurd ((b3 x hq).trans hut.symm) hxu
      · have hto : timeouts (evs ++ [e]) = timeouts evs := by
          rw [timeouts_snoc]
          cases e with
          | raise x r => cases r <;> first | rfl | exact absurd rfl (h2 x)
          | _ => rfl
        have htm : ∀ t, (c'.pc t).timing = (c.pc t).timing := by
          intro t
          by_cases htu : t = u
          · rw [htu, h1]
          · exact (timing_other hs t htu).1
        rw [h3] at hc'
        rw [hto]
        simp only [htm]
        exact ih.dirty hc'

end SoDa.Bar
