import Verif.Spec.Collect
import Mathlib.Data.Finset.Card
import Mathlib.Data.Finset.Basic
/-!
Counting the messages of a subscriber in calls made one after the other, and in linearisable histories.
-/
namespace SoDa.Mail
open Spec

variable {T P : Type} {this : Addr} {name : Str}

theorem alone_snoc {es : List (T × Op P × Resp P)} {e : T × Op P × Resp P} {m' : Imagined P} (h : OneAfterOther this name (es ++ [e]) m') :
    ∃ m, OneAfterOther this name es m ∧ CallDoes this name m e.2.1 m' e.2.2 := by
  generalize hg : es ++ [e] = l at h
  cases h with
  | nil => exact absurd hg (by simp)
  | snoc h hd =>
    obtain ⟨rfl, he⟩ := List.append_inj' hg rfl
    cases he
    exact ⟨_, h, hd⟩

theorem alone_prefix {a b : List (T × Op P × Resp P)} {m : Imagined P} (h : OneAfterOther this name (a ++ b) m) :
    ∃ m', OneAfterOther this name a m' := by
  induction b using List.reverseRecOn generalizing m with
  | nil => rw [List.append_nil] at h; exact ⟨m, h⟩
  | append_singleton b e ih =>
    rw [← List.append_assoc] at h
    obtain ⟨m1, h1, -⟩ := alone_snoc h
    exact ih h1

/-- A `get` of this subscription. -/
def isGet (s : Sub) : T × Op P × Resp P → Bool
  | (_, .get (some s'), _) => decide (s' = s)
  | _ => false

/-- A `put` that reaches this subscription. -/
def feeds (s : Sub) : T × Op P × Resp P → Bool
  | (_, .put _ subs, .done) => decide (subs ≠ some s)
  | _ => false

/-- Subscriptions have numbers that have been given. -/
theorem alone_given {es : List (T × Op P × Resp P)} {m : Imagined P} (h : OneAfterOther this name es m) :
    ∀ e ∈ es, ∀ s, e.2.2 = .sub s → s.box = this ∧ s.idx < m.given := by
  induction h with
  | nil => simp
  | @snoc es m t o r m' h hd ih =>
    have hle : m.given ≤ m'.given := by cases hd <;> simp [Imagined.with]
    intro e he s hs
    rcases List.mem_append.1 he with he | he
    · obtain ⟨h1, h2⟩ := ih e he s hs
      exact ⟨h1, by omega⟩
    · rw [List.mem_singleton.1 he] at hs
      simp only at hs
      subst hs
      cases hd with
      | subscribe => exact ⟨rfl, by show (m.given : Int) < ((m.given + 1 : Nat) : Int); omega⟩

/-- No null pointers are waiting if none have been put. -/
theorem alone_noNull {es : List (T × Op P × Resp P)} {m : Imagined P} (h : OneAfterOther this name es m) (hn : ∀ e ∈ es, PutsNoNull e.2.1) :
    ∀ i q, m.mail i = some q → none ∉ q := by
  induction h with
  | nil => intro i q hq; cases hq
  | @snoc es m t o r m' h hd ih =>
    have ih := ih fun e he => hn e (List.mem_append_left _ he)
    have ho : PutsNoNull o := hn (t, o, r) (by simp)
    intro i q hq
    cases hd with
    | subscribe =>
      simp only [Imagined.with] at hq
      split at hq
      · cases hq; simp
      · exact ih i q hq
    | get _ hm =>
      simp only [Imagined.with] at hq
      split at hq
      · cases hq
        have := ih _ _ hm
        simp only [List.mem_cons, not_or] at this
        exact this.2
      · exact ih i q hq
    | put =>
      simp only [Option.map_eq_some_iff] at hq
      obtain ⟨q', h1, rfl⟩ := hq
      simp only [List.mem_append, List.mem_singleton, not_or]
      exact ⟨ih i q' h1, fun e => ho e.symm⟩
    | putOthers =>
      simp only at hq
      split at hq
      · exact ih i q hq
      · simp only [Option.map_eq_some_iff] at hq
        obtain ⟨q', h1, rfl⟩ := hq
        simp only [List.mem_append, List.mem_singleton, not_or]
        exact ⟨ih i q' h1, fun e => ho e.symm⟩
    | clear =>
      simp only [Imagined.with] at hq
      split at hq
      · cases hq; simp
      · exact ih i q hq
    | unsubscribe =>
      simp only [Imagined.with] at hq
      split at hq
      · cases hq
      · exact ih i q hq
    | drop =>
      simp only [Imagined.with] at hq
      split at hq
      · cases hq
      · exact ih i q hq
    | _ => exact ih i q hq

/-- After the subscription at least as many messages wait as have been put and not been got. -/
theorem alone_count {a b : List (T × Op P × Resp P)} {m : Imagined P} {t : T} {o : Op P} {s : Sub}
    (h : OneAfterOther this name (a ++ (t, o, .sub s) :: b) m) (hb : ∀ e ∈ b, ¬ EndsMail s e.2.1) :
    ∃ q, m.mail s.idx = some q ∧ b.countP (feeds s) ≤ q.length + b.countP (isGet s) := by
  induction b using List.reverseRecOn generalizing m with
  | nil =>
    obtain ⟨m1, h1, h2⟩ := alone_snoc h
    cases h2 with
    | subscribe => exact ⟨[], by simp [Imagined.with], by simp⟩
  | append_singleton b e ih =>
    rw [← List.cons_append, ← List.append_assoc] at h
    obtain ⟨m1, h1, h2⟩ := alone_snoc h
    obtain ⟨hbox, hidx⟩ := alone_given h1 (t, o, .sub s) (by simp) s rfl
    obtain ⟨q, hq, hc⟩ := ih h1 fun e he => hb e (List.mem_append_left _ he)
    have he := hb e (by simp)
    have same : ∀ s' : Sub, s'.box = this → s'.idx = s.idx → s' = s := by
      rintro ⟨b1, i1⟩ h1 h2
      obtain ⟨b2, i2⟩ := s
      simp_all
    obtain ⟨t', o', r'⟩ := e
    simp only [List.countP_append, List.countP_singleton]
    simp only at h2 he
    cases h2 with
    | subscribe =>
      refine ⟨q, ?_, by simpa [feeds, isGet] using hc⟩
      simp only [Imagined.with]
      rw [if_neg (by omega)]; exact hq
    | @get s' p q' hs hm =>
      by_cases hi : s'.idx = s.idx
      · have := same s' hs hi
        subst this
        rw [hm] at hq; cases hq
        refine ⟨q', by simp [Imagined.with], ?_⟩
        simp [feeds, isGet] at hc ⊢
        omega
      · refine ⟨q, ?_, ?_⟩
        · simp only [Imagined.with]; rw [if_neg (Ne.symm hi)]; exact hq
        · have : s' ≠ s := fun e => hi (by rw [e])
          simp [feeds, isGet, this]; omega
    | @put p =>
      refine ⟨q ++ [p], by simp [hq], ?_⟩
      simp [feeds, isGet]; omega
    | @putOthers p s' hs =>
      by_cases hi : s'.idx = s.idx
      · have := same s' hs hi
        subst this
        refine ⟨q, by simp [hq], ?_⟩
        simp [feeds, isGet]; omega
      · refine ⟨q ++ [p], by simp [hq, Ne.symm hi], ?_⟩
        have : s' ≠ s := fun e => hi (by rw [e])
        simp [feeds, isGet, this]; omega
    | @clear s' q' hs hm =>
      have hi : s.idx ≠ s'.idx := fun hi => he (by rw [EndsMail, same s' hs hi.symm])
      refine ⟨q, ?_, by simpa [feeds, isGet] using hc⟩
      simp only [Imagined.with]; rw [if_neg hi]; exact hq
    | @unsubscribe i q' hm =>
      have hi : s.idx ≠ i := fun hi => he hi.symm
      refine ⟨q, ?_, by simpa [feeds, isGet] using hc⟩
      simp only [Imagined.with]; rw [if_neg hi]; exact hq
    | @drop s' q' hm =>
      have hi : s.idx ≠ s'.idx := fun hi => he hi.symm
      refine ⟨q, ?_, by simpa [feeds, isGet] using hc⟩
      simp only [Imagined.with]; rw [if_neg hi]; exact hq
    | refusedPut => exact ⟨q, hq, by simpa [feeds, isGet] using hc⟩
    | ready => exact ⟨q, hq, by simpa [feeds, isGet] using hc⟩
    | minReady => exact ⟨q, hq, by simpa [feeds, isGet] using hc⟩
    | notSubscribed => exact ⟨q, hq, by simpa [feeds, isGet] using hc⟩
    | subscribers => exact ⟨q, hq, by simpa [feeds, isGet] using hc⟩
    | refusedReady => exact ⟨q, hq, by simpa [feeds, isGet] using hc⟩
    | refusedClear => exact ⟨q, hq, by simpa [feeds, isGet] using hc⟩
    | getEmpty => exact ⟨q, hq, by simp [feeds]; omega⟩
    | refusedGet => exact ⟨q, hq, by simp [feeds]; omega⟩

/-! ### Positions -/

theorem card_le_countP {X E : Type} {C : Nat × X → E → Prop} {f : E → Bool} {L : List (Nat × X)} {es : List E} (F : List.Forall₂ C L es) :
    ∀ ps : Finset Nat, (∀ k ∈ ps, ∃ y ∈ L, y.1 = k) → (∀ y e, y ∈ L → C y e → y.1 ∈ ps → f e = true) → ps.card ≤ es.countP f := by
  induction F with
  | nil =>
    intro ps h _
    rw [Finset.card_eq_zero.2 (Finset.eq_empty_of_forall_notMem fun k hk => by obtain ⟨y, hy, -⟩ := h k hk; cases hy)]
    exact Nat.zero_le _
  | @cons y e L es hy _ ih =>
    intro ps h hf
    have := ih (ps.erase y.1) (fun k hk => by
      obtain ⟨h1, h2⟩ := Finset.mem_erase.1 hk
      obtain ⟨y', hy', rfl⟩ := h k h2
      rcases List.mem_cons.1 hy' with rfl | hy'
      · exact absurd rfl h1
      · exact ⟨y', hy', rfl⟩) fun y' e' hm hc hp => hf y' e' (List.mem_cons_of_mem _ hm) hc (Finset.mem_of_mem_erase hp)
    rw [List.countP_cons]
    by_cases hp : y.1 ∈ ps
    · rw [if_pos (hf y e List.mem_cons_self hy hp)]
      rw [Finset.card_erase_of_mem hp] at this
      omega
    · rw [Finset.erase_eq_of_notMem hp] at this
      omega

theorem countP_le_card {X E : Type} {C : Nat × X → E → Prop} {f : E → Bool} {L : List (Nat × X)} {es : List E} (F : List.Forall₂ C L es) :
    ∀ ps : Finset Nat, (L.map (·.1)).Nodup → (∀ y e, y ∈ L → C y e → f e = true → y.1 ∈ ps) → es.countP f ≤ ps.card := by
  induction F with
  | nil => intro ps _ _; exact Nat.zero_le _
  | @cons y e L es hy _ ih =>
    intro ps hn hf
    rw [List.map_cons, List.nodup_cons] at hn
    have := ih (ps.erase y.1) hn.2 fun y' e' hm hc hp => Finset.mem_erase.2
      ⟨fun he => hn.1 (he ▸ List.mem_map_of_mem hm), hf y' e' (List.mem_cons_of_mem _ hm) hc hp⟩
    rw [List.countP_cons]
    by_cases hp : f e = true
    · rw [if_pos hp]
      have hm := hf y e List.mem_cons_self hy hp
      rw [Finset.card_erase_of_mem hm] at this
      have := Finset.card_pos.2 ⟨_, hm⟩
      omega
    · rw [if_neg hp]
      exact Nat.le_trans this (Finset.card_le_card (Finset.erase_subset _ _))

theorem countP_take {E : Type} (H : List E) (f : E → Bool) (j : Nat) :
    (H.take j).countP f = ((Finset.range j).filter fun k => (H[k]?).any f = true).card := by
  induction j with
  | zero => simp
  | succ j ih =>
    rw [List.take_add_one, List.countP_append, ih, Finset.range_add_one, Finset.filter_insert]
    cases hj : H[j]? with
    | none => simp
    | some e =>
      by_cases hf : f e = true
      · simp [hf]
      · simp [hf]

theorem forall₂_split {A B : Type} {R : A → B → Prop} {a : A} : ∀ {l₁ l₂ : List A} {bs : List B}, List.Forall₂ R (l₁ ++ a :: l₂) bs →
    ∃ b₁ b b₂, bs = b₁ ++ b :: b₂ ∧ List.Forall₂ R l₁ b₁ ∧ R a b ∧ List.Forall₂ R l₂ b₂
  | [], l₂, bs, h => by
    cases h with
    | cons h1 h2 => exact ⟨[], _, _, rfl, .nil, h1, h2⟩
  | x :: l₁, l₂, bs, h => by
    cases h with
    | cons h1 h2 =>
      obtain ⟨b₁, b, b₂, rfl, q1, q2, q3⟩ := forall₂_split h2
      exact ⟨_ :: b₁, b, b₂, rfl, .cons h1 q1, q2, q3⟩

/-- A call of `get` that does not give a message: all that has been put before it has been asked for. -/
theorem seen_count {H : List (SeenEv T (Op P) (Resp P))} (hl : Linearisable (fun es => ∃ m, OneAfterOther this name es m) H)
    {s : Sub} {pc p i j : Nat} {t : T} (hsub : EndsAt H pc p (.sub s)) (hi : H[i]? = some (.call t (.get (some s))))
    {r : Resp P} (hj : EndsAt H i j r) (hr : ∀ x, r ≠ .msg (some x)) (hpi : p < i)
    (hend : ∀ k t' o, k < j → H[k]? = some (.call t' o) → ¬ EndsMail s o ∧ PutsNoNull o) (ps : Finset Nat)
    (hps : ∀ k ∈ ps, p < k ∧ ∃ t' x subs j', H[k]? = some (.call t' (.put x subs)) ∧ subs ≠ some s ∧ EndsAt H k j' .done ∧ j' < i) :
    ps.card < (H.take j).countP (callsGet s) := by
  obtain ⟨-, L, es, ⟨m, hposs⟩, hF, hnd, hin, hpw⟩ := hl
  obtain ⟨La, Lb, rfl⟩ := List.append_of_mem (hin i j _ hj)
  obtain ⟨ea, e, eb, rfl, Fa, Fe, Fb⟩ := forall₂_split hF
  rw [List.pairwise_append] at hpw
  obtain ⟨pwa, pwb, pwab⟩ := hpw
  -- what had ended before the `get` began stands before it
  have early : ∀ k j' r, EndsAt H k j' r → j' < i → (k, r) ∈ La := by
    intro k j' r hk hlt
    rcases List.mem_append.1 (hin k j' r hk) with h | h
    · exact h
    · rcases List.mem_cons.1 h with h | h
      · cases h
        obtain ⟨t', o', h1, h2, h3⟩ := hk
        obtain ⟨h4, -⟩ := h3
        omega
      · exact absurd hlt ((List.pairwise_cons.1 pwb).1 _ h j' r hk)
  -- what stands before it began before it ended
  have before : ∀ y ∈ La, y.1 < j := by
    intro y hy
    have h1 := pwab y hy (i, r) List.mem_cons_self j _ hj
    obtain ⟨t', o', h2, h3, -⟩ := hj
    rcases Nat.lt_or_ge y.1 j with h | h
    · exact h
    · exfalso
      have he : y.1 = j := by omega
      have : ∃ e ∈ ea, H[y.1]? = some (.call e.1 e.2.1) := by
        obtain ⟨l₁, l₂, rfl⟩ := List.append_of_mem hy
        obtain ⟨b₁, b, b₂, rfl, -, q2, -⟩ := forall₂_split Fa
        exact ⟨b, by simp, q2.1⟩
      obtain ⟨e', -, h4⟩ := this
      rw [he, h3] at h4
      cases h4
  obtain ⟨L1, L2, rfl⟩ := List.append_of_mem (early pc p _ hsub hpi)
  obtain ⟨a, es', b, rfl, F1, Fs, F2⟩ := forall₂_split Fa
  rw [List.pairwise_append] at pwa
  -- what began after the subscription stands after it
  have after : ∀ k j' r, EndsAt H k j' r → j' < i → p < k → (k, r) ∈ L2 := by
    intro k j' r hk hlt hpk
    rcases List.mem_append.1 (early k j' r hk hlt) with h | h
    · exact absurd hpk (pwa.2.2 _ h (pc, .sub s) List.mem_cons_self p _ hsub)
    · rcases List.mem_cons.1 h with h | h
      · cases h
        obtain ⟨_, _, h1, h2, h3⟩ := hsub
        have := h3.1
        omega
      · exact h
  have mem2 : ∀ e ∈ b, ∃ y ∈ L2, H[y.1]? = some (.call e.1 e.2.1) := by
    intro e he
    obtain ⟨b₁, b₂, rfl⟩ := List.append_of_mem he
    obtain ⟨l₁, y, l₂, rfl, -, q2, -⟩ := forall₂_split F2.flip
    exact ⟨y, by simp, q2.1⟩
  -- the state before the `get`
  obtain ⟨ts, os, rs⟩ := es'
  have hrs : rs = .sub s := Fs.2.symm
  subst hrs
  obtain ⟨m', hm'⟩ := alone_prefix (b := eb) (a := (a ++ (ts, os, .sub s) :: b) ++ [e]) (by simpa using hposs)
  obtain ⟨m1, h1, h2⟩ := alone_snoc hm'
  obtain ⟨q, hq, hc⟩ := alone_count h1 fun e he => by
    obtain ⟨y, hy, hy'⟩ := mem2 e he
    exact (hend _ _ _ (before y (by simp [hy])) hy').1
  have hnn : none ∉ q := by
    refine alone_noNull h1 (fun e he => ?_) _ _ hq
    obtain ⟨b₁, b₂, hb⟩ := List.append_of_mem he
    have Fa' := Fa
    rw [hb] at Fa'
    obtain ⟨l₁, y, l₂, hl, -, q2, -⟩ := forall₂_split Fa'.flip
    exact (hend _ _ _ (before y (by rw [hl]; simp)) q2.1).2
  have hq0 : q = [] := by
    rw [← Fe.2] at h2
    have ho : e.2.1 = .get (some s) := by
      have := Fe.1
      rw [hi, Option.some.injEq, SeenEv.call.injEq] at this
      exact this.2.symm
    rw [ho] at h2
    obtain ⟨hbox, -⟩ := alone_given h1 (ts, os, .sub s) (by simp) s rfl
    simp only at h2
    cases h2 with
    | getEmpty _ hm => rw [hq] at hm; cases hm; rfl
    | @get _ p _ _ hm =>
      rw [hq] at hm; cases hm
      cases p with
      | none => exact absurd List.mem_cons_self hnn
      | some x => exact absurd rfl (hr x)
    | refusedGet h =>
      cases h with
      | other h => exact absurd hbox h
      | ended _ hm => rw [hq] at hm; cases hm
  subst hq0
  -- the counts
  have c1 : ps.card ≤ b.countP (feeds s) := by
    refine card_le_countP F2 ps (fun k hk => ?_) fun y e hy hC hp => ?_
    · obtain ⟨h1, _, _, _, j', -, -, h2, h3⟩ := hps k hk
      exact ⟨_, after k j' _ h2 h3 h1, rfl⟩
    · obtain ⟨h1, t', x, subs, j', h2, h3, h4, h5⟩ := hps _ hp
      rw [h2] at hC
      obtain ⟨te, oe, re⟩ := e
      obtain ⟨hC1, hC2⟩ := hC
      cases hC1
      -- the same position, so the same result
      have hy2 := after _ j' _ h4 h5 h1
      have hnd2 : (L2.map (·.1)).Nodup := by
        simp only [List.map_append, List.map_cons] at hnd
        exact ((List.nodup_append.1 (List.nodup_append.1 hnd).1).2.1.of_cons)
      have : y = (y.1, .done) := (List.inj_on_of_nodup_map hnd2) hy hy2 rfl
      rw [this] at hC2
      simp only at hC2
      rw [← hC2]
      simp [feeds, h3]
  have c2 : b.countP (isGet s) ≤ ((((Finset.range j).filter fun k => (H[k]?).any (callsGet s) = true)).erase i).card := by
    refine countP_le_card F2 _ ?_ fun y e hy hC hp => ?_
    · simp only [List.map_append, List.map_cons] at hnd
      exact ((List.nodup_append.1 (List.nodup_append.1 hnd).1).2.1.of_cons)
    · refine Finset.mem_erase.2 ⟨fun he => ?_, Finset.mem_filter.2 ⟨Finset.mem_range.2 (before y (by simp [hy])), ?_⟩⟩
      · simp only [List.map_append, List.map_cons] at hnd
        have := (List.nodup_append.1 hnd).2.2 y.1 (by simp; exact .inr (.inr ⟨_, hy⟩)) i (by simp)
        exact this he
      · rw [hC.1]
        obtain ⟨te, oe, re⟩ := e
        cases oe with
        | get s' =>
          cases s' with
          | none => simp [isGet] at hp
          | some s' => simpa [isGet, callsGet] using hp
        | _ => simp [isGet] at hp
  have hmem : i ∈ (Finset.range j).filter fun k => (H[k]?).any (callsGet s) = true := by
    refine Finset.mem_filter.2 ⟨Finset.mem_range.2 ?_, by rw [hi]; simp [callsGet]⟩
    obtain ⟨_, _, -, -, h3⟩ := hj
    exact h3.1
  rw [Finset.card_erase_of_mem hmem] at c2
  have := Finset.card_pos.2 ⟨_, hmem⟩
  rw [countP_take]
  simp only [List.length_nil] at hc
  omega

end SoDa.Mail
