import Verif.Spec.HappensBefore
/-!
Steps executed while the mutex is held are ordered by happens-before.
-/
namespace SoDa.Spec

variable {T : Type}

theorem HB.lt {act : Nat → Option (Act T)} {i j : Nat} (h : HB act i j) : i < j := by
  induction h with
  | thread h => exact h
  | mutex h => exact h
  | trans _ _ h1 h2 => omega

/-- `own i` is the owner of the mutex before step `i` of `N` steps. -/
structure Owned (act : Nat → Option (Act T)) (own : Nat → Option T) : Prop where
  acquire : ∀ i a, act i = some a → a.sync = .acquire → own i = none ∧ own (i + 1) = some a.thread
  release : ∀ i a, act i = some a → a.sync = .release → own i = some a.thread ∧ own (i + 1) = none
  other : ∀ i a, act i = some a → a.sync = .other → own (i + 1) = own i

/-- A change between two moments happens in one step. -/
theorem change {Q : Nat → Prop} {i j : Nat} (hij : i ≤ j) (hi : Q i) (hj : ¬ Q j) :
    ∃ p, i ≤ p ∧ p < j ∧ Q p ∧ ¬ Q (p + 1) := by
  induction j with
  | zero => obtain rfl : i = 0 := by omega
            exact absurd hi hj
  | succ j ih =>
    by_cases hq : Q j
    · exact ⟨j, by
        rcases Nat.lt_or_ge j i with h | h
        · obtain rfl : i = j + 1 := by omega
          exact absurd hi hj
        · exact h, by omega, hq, hj⟩
    · have : i ≤ j := by
        rcases Nat.lt_or_ge j i with h | h
        · obtain rfl : i = j + 1 := by omega
          exact absurd hi hj
        · exact h
      obtain ⟨p, h1, h2, h3⟩ := ih this hq
      exact ⟨p, h1, by omega, h3⟩

/-- Two steps, each of which is executed by the owner of the mutex or acquires it. -/
theorem Owned.ordered {act : Nat → Option (Act T)} {own : Nat → Option T} (h : Owned act own)
    {N : Nat} (hN : ∀ k < N, (act k).isSome) {i j : Nat} (hij : i < j) (hjN : j < N) {a b : Act T}
    (ha : act i = some a) (hb : act j = some b)
    (hi : a.sync = .acquire ∨ own i = some a.thread)
    (hj : b.sync = .acquire ∨ own j = some b.thread) : HB act i j := by
  by_cases hth : a.thread = b.thread
  · exact .thread hij ha hb hth
  -- the release of the first section
  obtain ⟨r, hir, hrj, x, hx, hxr, hxt⟩ : ∃ r, i ≤ r ∧ r < j ∧ ∃ x, act r = some x ∧
      x.sync = .release ∧ x.thread = a.thread := by
    by_cases hrel : a.sync = .release
    · exact ⟨i, Nat.le_refl _, hij, a, ha, hrel, rfl⟩
    have h1 : own (i + 1) = some a.thread := by
      cases hs : a.sync with
      | acquire => exact (h.acquire i a ha hs).2
      | release => exact absurd hs hrel
      | other =>
        rw [h.other i a ha hs]
        rcases hi with hi | hi
        · rw [hs] at hi; cases hi
        · exact hi
    have h2 : own j ≠ some a.thread := by
      rcases hj with hj | hj
      · rw [(h.acquire j b hb hj).1]; simp
      · rw [hj]; simp; exact fun e => hth e.symm
    obtain ⟨r, h3, h4, h5, h6⟩ := change (Q := fun k => own k = some a.thread) (by omega) h1 h2
    obtain ⟨x, hx⟩ := Option.isSome_iff_exists.1 (hN r (by omega))
    cases hs : x.sync with
    | acquire => rw [(h.acquire r x hx hs).1] at h5; cases h5
    | other => rw [h.other r x hx hs] at h6; exact absurd h5 h6
    | release =>
      have := (h.release r x hx hs).1
      rw [h5] at this
      exact ⟨r, by omega, h4, x, hx, hs, (Option.some.inj this).symm⟩
  -- the acquisition of the second section
  obtain ⟨q, hrq, hqj, y, hy, hyq, hyt⟩ : ∃ q, r < q ∧ q ≤ j ∧ ∃ y, act q = some y ∧
      y.sync = .acquire ∧ y.thread = b.thread := by
    by_cases hacq : b.sync = .acquire
    · exact ⟨j, hrj, Nat.le_refl _, b, hb, hacq, rfl⟩
    have h1 : ¬ own (r + 1) = some b.thread := by rw [(h.release r x hx hxr).2]; simp
    have h2 : own j = some b.thread := by
      rcases hj with hj | hj
      · exact absurd hj hacq
      · exact hj
    obtain ⟨q, h3, h4, h5, h6⟩ := change (Q := fun k => ¬ own k = some b.thread) (by omega) h1
      (not_not_intro h2)
    have h6 : own (q + 1) = some b.thread := Classical.not_not.1 h6
    obtain ⟨y, hy⟩ := Option.isSome_iff_exists.1 (hN q (by omega))
    cases hs : y.sync with
    | release => rw [(h.release q y hy hs).2] at h6; cases h6
    | other => rw [h.other q y hy hs] at h6; exact absurd h6 h5
    | acquire =>
      have := (h.acquire q y hy hs).2
      rw [h6] at this
      exact ⟨q, by omega, by omega, y, hy, hs, (Option.some.inj this).symm⟩
  have h1 : HB act r q := .mutex hrq hx hy hxr hyq
  have h2 : HB act i q := by
    rcases Nat.lt_or_ge i r with hlt | hge
    · exact .trans (.thread hlt ha hx hxt.symm) h1
    · obtain rfl : i = r := by omega
      exact h1
  rcases Nat.lt_or_ge q j with hlt | hge
  · exact .trans h2 (.thread hlt hy hb hyt)
  · obtain rfl : q = j := by omega
    exact h2

/-- A step does not happen before another one if some set contains the first, contains with each
step everything that directly follows from it, and does not contain the second. -/
theorem not_hb {act : Nat → Option (Act T)} (S : Nat → Prop)
    (h1 : ∀ i j a b, i < j → act i = some a → act j = some b → a.thread = b.thread → S i → S j)
    (h2 : ∀ i j a b, i < j → act i = some a → act j = some b → a.sync = .release →
      b.sync = .acquire → S i → S j) {i j : Nat} (hi : S i) (hj : ¬ S j) : ¬ HB act i j := by
  intro h
  have key : ∀ i j, HB act i j → S i → S j := by
    intro i j h
    induction h with
    | thread h ha hb ht => exact h1 _ _ _ _ h ha hb ht
    | mutex h ha hb hr hq => exact h2 _ _ _ _ h ha hb hr hq
    | trans _ _ i1 i2 => exact fun hs => i2 (i1 hs)
  exact hj (key i j h hi)

end SoDa.Spec
