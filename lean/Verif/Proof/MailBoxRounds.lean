import Verif.Model.MailBoxTest
import Mathlib.Algebra.BigOperators.Intervals
import Mathlib.Algebra.Order.BigOperators.Group.Finset
import Mathlib.Tactic.Ring
/-!
Counting lemmas for the mailbox test: messages of several senders, each of which sends in rounds of
`m` messages and starts a round only when all messages of the rounds before have been sent.
-/
namespace SoDa.MailTest

/-- The messages of one sender. -/
def byS (u : Nat) (L : List Msg) : List Msg := L.filter fun x => x.frm = u

theorem byS_append (u : Nat) (a b : List Msg) : byS u (a ++ b) = byS u a ++ byS u b := List.filter_append ..

theorem byS_self (u v : Nat) : byS u [⟨u, v⟩] = [⟨u, v⟩] := by simp [byS]

theorem byS_ne {u t : Nat} (h : t ≠ u) (v : Nat) : byS u [⟨t, v⟩] = [] := by simp [byS, h]

/-- Sums over a list of messages are sums over the senders. -/
theorem sum_split (A : Finset Nat) (w : Msg → Nat) (R : List Msg) (h : ∀ x ∈ R, x.frm ∈ A) :
    (R.map w).sum = ∑ u ∈ A, ((byS u R).map w).sum := by
  induction R with
  | nil => simp [byS]
  | cons x R ih =>
    have h1 : ∀ u, ((byS u (x :: R)).map w).sum = (if x.frm = u then w x else 0) + ((byS u R).map w).sum := by
      intro u
      by_cases e : x.frm = u <;> simp [byS, List.filter_cons, e]
    simp only [h1, Finset.sum_add_distrib, List.map_cons, List.sum_cons]
    rw [Finset.sum_ite_eq, if_pos (h x (by simp)), ih fun y hy => h y (by simp [hy])]

theorem length_split (A : Finset Nat) (R : List Msg) (h : ∀ x ∈ R, x.frm ∈ A) :
    R.length = ∑ u ∈ A, (byS u R).length := by
  have := sum_split A (fun _ => 1) R h
  simpa using this

/-- A sender has started round `k` only if everybody has finished the rounds before; at all times. -/
def Rounds (n m : Nat) (L : List Msg) : Prop :=
  ∀ L', L' <+: L → ∀ t u k, u < n → k * m < (byS t L').length → k * m ≤ (byS u L').length

theorem rounds_nil (n m : Nat) : Rounds n m [] := by
  intro L' h t u k _ hk
  have : L' = [] := by simpa using h
  subst this
  simp [byS] at hk

/-- The messages of the senders in `A`. -/
def ofA (A : Finset Nat) (L : List Msg) : List Msg := L.filter fun x => decide (x.frm ∈ A)

theorem ofA_byS {A : Finset Nat} {u : Nat} (h : u ∈ A) (L : List Msg) : byS u (ofA A L) = byS u L := by
  unfold byS ofA
  rw [List.filter_filter]
  refine List.filter_congr fun x _ => ?_
  by_cases e : x.frm = u
  · subst e; simp [h]
  · simp [e]

theorem ofA_mem {A : Finset Nat} {L : List Msg} : ∀ x ∈ ofA A L, x.frm ∈ A := by
  intro x hx
  simpa [ofA] using (List.mem_filter.1 hx).2

/-- If a thread that has received `k` rounds sends its next message, then all messages of these
rounds have been sent. -/
theorem all_sent {n m k : Nat} {A : Finset Nat} (hA : ∀ u ∈ A, u < n) {L : List Msg} (hr : Rounds n m L)
    (hlen : k * (m * A.card) ≤ (ofA A L).length) : ∀ u ∈ A, k * m ≤ (byS u L).length := by
  intro u hu
  by_contra hlt
  have h1 : ∀ v ∈ A, (byS v L).length ≤ k * m := by
    intro v _
    by_contra hv
    exact hlt (hr L (List.prefix_refl L) v u k (hA u hu) (by omega))
  have h2 : (ofA A L).length < ∑ _v ∈ A, k * m := by
    rw [length_split A _ ofA_mem]
    refine Finset.sum_lt_sum (fun v hv => ?_) ⟨u, hu, ?_⟩
    · rw [ofA_byS hv]; exact h1 v hv
    · rw [ofA_byS hu]; omega
  rw [Finset.sum_const, Nat.nsmul_eq_mul] at h2
  have : A.card * (k * m) = k * (m * A.card) := by ring
  omega

theorem rounds_snoc {n m k i t : Nat} {L : List Msg} (hr : Rounds n m L)
    (hc : (byS t L).length = k * m + i) (hi : i < m) (hk : ∀ u < n, k * m ≤ (byS u L).length) (v : Nat) :
    Rounds n m (L ++ [⟨t, v⟩]) := by
  intro L' hp a u j hu hj
  rcases List.prefix_concat_iff.1 hp with rfl | hp
  · -- the whole list
    rw [byS_append, List.length_append] at hj
    rw [byS_append, List.length_append]
    by_cases e : t = a
    · subst e
      rw [byS_self, List.length_singleton, hc] at hj
      have hjk : j ≤ k := by
        by_contra hjk
        have : (k + 1) * m ≤ j * m := Nat.mul_le_mul_right m (by omega)
        rw [Nat.add_mul] at this
        omega
      have := Nat.mul_le_mul_right m hjk
      have := hk u hu
      omega
    · rw [byS_ne e, List.length_nil] at hj
      have := hr L (List.prefix_refl L) a u j hu (by omega)
      omega
  · exact hr L' hp a u j hu hj

/-- The first `k` rounds received: `k * m` messages of everybody. -/
theorem full_rounds {n m k : Nat} {A : Finset Nat} (hA : ∀ u ∈ A, u < n) {L R : List Msg} (hr : Rounds n m L)
    (hp : R <+: ofA A L) (hlen : R.length = k * (m * A.card)) : ∀ u ∈ A, (byS u R).length = k * m := by
  obtain ⟨L', hL', rfl⟩ := List.prefix_filter_iff.1 hp
  have hr' : Rounds n m L' := fun L'' h => hr L'' (h.trans hL')
  have hge : ∀ u ∈ A, k * m ≤ (byS u (ofA A L')).length := by
    intro u hu
    rw [ofA_byS hu]
    exact all_sent hA hr' (le_of_eq hlen.symm) u hu
  have hs : ∑ _u ∈ A, k * m = ∑ u ∈ A, (byS u (ofA A L')).length := by
    rw [← length_split A (ofA A L') ofA_mem, Finset.sum_const, Nat.nsmul_eq_mul]
    change _ = (ofA A L').length at *
    rw [show (ofA A L').length = k * (m * A.card) from hlen]
    ring
  intro u hu
  exact ((Finset.sum_eq_sum_iff_of_le hge).1 hs u hu).symm

/-- The sum of `0..m-1`, `k` times. -/
theorem sum_mod (m k : Nat) : ((List.range (k * m)).map (· % m)).sum = k * (m * (m - 1) / 2) := by
  rcases Nat.eq_zero_or_pos m with rfl | hm
  · simp
  induction k with
  | zero => simp
  | succ k ih =>
    rw [Nat.add_mul, one_mul, List.range_add, List.map_append, List.sum_append, ih, Nat.add_mul, one_mul]
    congr 1
    rw [List.map_map]
    have : ((List.range m).map ((fun x => x % m) ∘ fun x => k * m + x)) = (List.range m).map id := by
      refine List.map_congr_left fun x hx => ?_
      have hx := List.mem_range.1 hx
      simp only [Function.comp, id]
      rw [Nat.add_comm, Nat.add_mul_mod_self_right, Nat.mod_eq_of_lt hx]
    rw [this, List.map_id]
    have h2 := Finset.sum_range_id m
    rw [← h2]
    clear * -
    induction m with
    | zero => rfl
    | succ m ih => rw [List.range_succ, List.sum_append, ih, Finset.sum_range_succ]; rfl

/-- A sender's messages. -/
def script (m u c : Nat) : List Msg := (List.range c).map fun j => ⟨u, j % m⟩

theorem script_length (m u c : Nat) : (script m u c).length = c := by simp [script]

theorem script_succ (m u c : Nat) : script m u (c + 1) = script m u c ++ [⟨u, c % m⟩] := by
  simp [script, List.range_succ]

theorem script_prefix {m u c : Nat} {R : List Msg} (h : R <+: script m u c) : R = script m u R.length := by
  rw [List.prefix_iff_eq_take.1 h]
  have hl := h.length_le
  rw [script_length] at hl
  simp only [script, ← List.map_take, List.take_range, List.length_map, List.length_range]

/-- The sum of the values of the first `k` rounds received. -/
theorem rounds_sum {n m k : Nat} {A : Finset Nat} (hA : ∀ u ∈ A, u < n) {L R : List Msg} (hr : Rounds n m L)
    (hs : ∀ u ∈ A, ∃ c, byS u L = script m u c)
    (hp : R <+: ofA A L) (hlen : R.length = k * (m * A.card)) :
    (R.map (·.v)).sum = A.card * (k * (m * (m - 1) / 2)) := by
  rw [sum_split A (·.v) R fun x hx => ofA_mem x (hp.subset hx)]
  have h1 : ∀ u ∈ A, ((byS u R).map (·.v)).sum = k * (m * (m - 1) / 2) := by
    intro u hu
    obtain ⟨c, hc⟩ := hs u hu
    have hpre : byS u R <+: script m u c := by
      rw [← hc, ← ofA_byS hu L]
      exact hp.filter _
    have := script_prefix hpre
    rw [full_rounds hA hr hp hlen u hu] at this
    rw [this, script, List.map_map]
    exact sum_mod m k
  rw [Finset.sum_congr rfl h1, Finset.sum_const, Nat.nsmul_eq_mul]

end SoDa.MailTest
