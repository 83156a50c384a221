import Verif.Spec.MailBoxLife
import Verif.Proof.MailBox
/-!
Reference counts of messages.
-/
namespace SoDa.Mail
open Spec
open Monitor (Body Conf Phase setPhase)

variable {P : Type} [DecidableEq P]

/-! ### Counting references -/

def flat (qs : List (Int × List (Option P))) : List (Option P) := qs.flatMap fun kq => kq.2

/-- The number of pointers to `p`. -/
def refs (m : Mem P) (p : P) : Nat := (flat m.box.queues).count (some p) + (m.vars.map (·.2)).count p

/-- The counts are right, except that the pointers `q` have yet to be destroyed. -/
structure Owing (q : List (Option P)) (m : Mem P) : Prop where
  cnt : ∀ p, m.count p = refs m p + q.count (some p)
  made : ∀ p, p ∈ m.made ↔ 0 < m.count p ∨ p ∈ m.gone.map (·.1)
  gone0 : ∀ p ∈ m.gone.map (·.1), m.count p = 0
  nodup : (m.gone.map (·.1)).Nodup
  sorted : Sorted intLess m.box.queues

abbrev Counted (m : Mem P) : Prop := Owing [] m

theorem dec_refs (l : Bool) (p : P) (m : Mem P) (x : P) : refs (m.dec l p) x = refs m x := rfl

theorem owing_decO {l : Bool} {x : Option P} {q : List (Option P)} {m : Mem P} (h : Owing (x :: q) m) : Owing q (m.decO l x) := by
  cases x with
  | none =>
    refine ⟨fun p => ?_, h.made, h.gone0, h.nodup, h.sorted⟩
    show m.count p = refs m p + _
    rw [h.cnt p]
    simp
  | some p =>
    have hp := h.cnt p
    simp only [List.count_cons_self] at hp
    refine ⟨fun x => ?_, fun x => ?_, fun x => ?_, ?_, h.sorted⟩
    · show (if x = p then m.count x - 1 else m.count x) = refs m x + _
      have hx := h.cnt x
      by_cases e : x = p
      · subst e; simp only [if_true]; rw [List.count_cons_self] at hx; omega
      · rw [if_neg e, hx, List.count_cons_of_ne (fun he => e (Option.some.inj he).symm)]
    · show x ∈ m.made ↔ 0 < (if x = p then m.count x - 1 else m.count x) ∨ _
      rw [h.made x]
      show _ ↔ _ ∨ x ∈ (if m.count p = 1 then m.gone ++ [(p, l)] else m.gone).map (·.1)
      by_cases e : x = p
      · subst e
        by_cases e1 : m.count x = 1
        · simp [e1]
        · simp only [if_true, if_neg e1]
          have : 0 < m.count x := by omega
          constructor
          · intro _; left; omega
          · intro _; left; exact this
      · rw [if_neg e]
        split <;> simp [e]
    · show x ∈ (if m.count p = 1 then m.gone ++ [(p, l)] else m.gone).map (·.1) → (if x = p then m.count x - 1 else m.count x) = 0
      intro hx
      by_cases e : x = p
      · subst e
        rw [if_pos rfl]
        by_cases e1 : m.count x = 1
        · omega
        · rw [if_neg e1] at hx
          rw [h.gone0 x hx]
      · rw [if_neg e]
        apply h.gone0
        split at hx
        · simpa [e] using hx
        · exact hx
    · show ((if m.count p = 1 then m.gone ++ [(p, l)] else m.gone).map (·.1)).Nodup
      split
      · rename_i e1
        rw [List.map_append, List.nodup_append]
        refine ⟨h.nodup, by simp, ?_⟩
        intro a ha b hb hab
        simp only [List.map_cons, List.map_nil, List.mem_singleton] at hb
        subst hb; subst hab
        have := h.gone0 a ha
        omega
      · exact h.nodup

theorem owing_decs {l : Bool} : ∀ (q : List (Option P)) {r : List (Option P)} {m : Mem P}, Owing (q ++ r) m → Owing r (m.decs l q) := by
  intro q
  induction q with
  | nil => exact fun h => h
  | cons x q ih => exact fun h => ih (owing_decO h)

theorem owing_incO {x : Option P} {q : List (Option P)} {m : Mem P} (h : Owing q m) (hx : ∀ p, x = some p → 0 < m.count p) :
    Owing (x :: q) (m.incO x) := by
  cases x with
  | none =>
    refine ⟨fun p => ?_, h.made, h.gone0, h.nodup, h.sorted⟩
    show m.count p = refs m p + _
    rw [h.cnt p]
    simp
  | some p =>
    have hp := hx p rfl
    refine ⟨fun x => ?_, fun x => ?_, fun x hxg => ?_, h.nodup, h.sorted⟩
    · show (if x = p then m.count x + 1 else m.count x) = refs m x + _
      have hx := h.cnt x
      by_cases e : x = p
      · subst e; rw [if_pos rfl, List.count_cons_self]; omega
      · rw [if_neg e, hx, List.count_cons_of_ne (fun he => e (Option.some.inj he).symm)]
    · show x ∈ m.made ↔ 0 < (if x = p then m.count x + 1 else m.count x) ∨ _
      rw [h.made x]
      by_cases e : x = p
      · subst e; simp [hp]
      · rw [if_neg e]; rfl
    · show (if x = p then m.count x + 1 else m.count x) = 0
      have h0 := h.gone0 x hxg
      by_cases e : x = p
      · subst e; omega
      · rw [if_neg e, h0]

theorem incO_count (x : Option P) (m : Mem P) (p : P) : m.count p ≤ (m.incO x).count p := by
  cases x with
  | none => exact Nat.le_refl _
  | some y =>
    show _ ≤ (if p = y then m.count p + 1 else m.count p)
    split <;> omega

theorem owing_incs : ∀ (q : List (Option P)) {r : List (Option P)} {m : Mem P}, Owing r m → (∀ p, some p ∈ q → 0 < m.count p) →
    ∃ q', q'.Perm (q ++ r) ∧ Owing q' (m.incs q) := by
  intro q
  induction q with
  | nil => exact fun h _ => ⟨_, .refl _, h⟩
  | cons x q ih =>
    intro r m h hx
    obtain ⟨q', h1, h2⟩ := ih (owing_incO (x := x) h fun p hp => hx p (by simp [hp]))
      (fun p hp => Nat.lt_of_lt_of_le (hx p (by simp [hp])) (incO_count _ _ _))
    exact ⟨q', h1.trans (by simp), h2⟩

theorem Owing.perm {q q' : List (Option P)} {m : Mem P} (h : Owing q m) (hp : q.Perm q') : Owing q' m :=
  ⟨fun p => by rw [h.cnt p, hp.count_eq], h.made, h.gone0, h.nodup, h.sorted⟩

/-- Pointers are moved. -/
theorem Owing.move {q q' : List (Option P)} {m m' : Mem P} (h : Owing q m) (h1 : m'.count = m.count) (h2 : m'.made = m.made)
    (h3 : m'.gone = m.gone) (h4 : Sorted intLess m'.box.queues)
    (h5 : ∀ p, refs m' p + q'.count (some p) = refs m p + q.count (some p)) : Owing q' m' :=
  ⟨fun p => by rw [h1, h5, h.cnt], fun p => by rw [h2, h1, h3]; exact h.made p, fun p => by rw [h1, h3]; exact h.gone0 p,
    by rw [h3]; exact h.nodup, h4⟩

/-! ### Queues -/

omit [DecidableEq P] in
theorem mapFind_below {k : Int} {m : List (Int × List (Option P))} (h : ∀ x ∈ m, k < x.1) : mapFind intLess k m = none := by
  induction m with
  | nil => rfl
  | cons a m ih =>
    have h1 : k < a.1 := h a (by simp)
    simp only [mapFind, intLess, h1, decide_true, Bool.not_true, Bool.false_and]
    exact ih fun x hx => h x (by simp [hx])

theorem flat_mapSet {k : Int} {q : List (Option P)} (x : Option P) : ∀ {m : List (Int × List (Option P))}, Sorted intLess m →
    (flat (mapSet intLess k q m)).count x + ((mapFind intLess k m).getD []).count x = (flat m).count x + q.count x := by
  intro m
  induction m with
  | nil => intro _; simp [mapSet, mapFind, flat]
  | cons a m ih =>
    obtain ⟨k', v⟩ := a
    intro hs
    have hs' := List.pairwise_cons.mp hs
    by_cases h1 : k < k'
    · have hf : mapFind intLess k ((k', v) :: m) = none := by
        apply mapFind_below
        intro y hy
        rcases List.mem_cons.mp hy with rfl | hy
        · exact h1
        · have := hs'.1 y hy
          simp only [intLess, decide_eq_true_eq] at this
          omega
      rw [hf]
      simp only [mapSet, intLess, h1, decide_true, if_true, flat, List.flatMap_cons, List.count_append, Option.getD_none, List.count_nil]
      omega
    · by_cases h2 : k' < k
      · have := ih hs'.2
        simp only [mapSet, mapFind, intLess, h1, h2, decide_true, decide_false, if_true, Bool.not_true, Bool.and_false,
          Bool.false_eq_true, if_false, flat, List.flatMap_cons, List.count_append] at this ⊢
        omega
      · simp only [mapSet, mapFind, intLess, h1, h2, decide_false, if_true, Bool.not_false, Bool.and_true,
          Bool.false_eq_true, if_false, flat, List.flatMap_cons, List.count_append, Option.getD_some]
        omega

theorem flat_mapErase {k : Int} (x : Option P) : ∀ (m : List (Int × List (Option P))),
    (flat (mapErase intLess k m)).count x + ((mapFind intLess k m).getD []).count x = (flat m).count x := by
  intro m
  induction m with
  | nil => simp [mapErase, mapFind, flat]
  | cons a m ih =>
    obtain ⟨k', v⟩ := a
    simp only [mapErase, mapFind]
    split
    · simp [flat]; omega
    · simp only [flat, List.flatMap_cons, List.count_append] at ih ⊢
      omega

/-- A message that waits somewhere has a pointer. -/
theorem count_pos_of_mem {m : List (Int × List (Option P))} {k : Int} {q : List (Option P)} {p : P} (h : mapFind intLess k m = some q)
    (hp : some p ∈ q) : 0 < (flat m).count (some p) := by
  have := flat_mapErase (k := k) (some p) m
  rw [h] at this
  have h2 : 0 < q.count (some p) := List.count_pos_iff.mpr hp
  simp only [Option.getD_some] at this
  omega

/-! ### What the steps leave alone -/

theorem decO_same (l : Bool) (x : Option P) (m : Mem P) :
    (m.decO l x).box = m.box ∧ (m.decO l x).vars = m.vars ∧ (m.decO l x).made = m.made := by
  cases x <;> exact ⟨rfl, rfl, rfl⟩

theorem decs_same (l : Bool) (q : List (Option P)) : ∀ m : Mem P,
    (m.decs l q).box = m.box ∧ (m.decs l q).vars = m.vars ∧ (m.decs l q).made = m.made := by
  induction q with
  | nil => exact fun _ => ⟨rfl, rfl, rfl⟩
  | cons x q ih =>
    intro m
    obtain ⟨h1, h2, h3⟩ := ih (m.decO l x)
    obtain ⟨g1, g2, g3⟩ := decO_same l x m
    exact ⟨h1.trans g1, h2.trans g2, h3.trans g3⟩

theorem incO_same (x : Option P) (m : Mem P) :
    (m.incO x).box = m.box ∧ (m.incO x).vars = m.vars ∧ (m.incO x).made = m.made ∧ (m.incO x).gone = m.gone := by
  cases x <;> exact ⟨rfl, rfl, rfl, rfl⟩

theorem incs_same (q : List (Option P)) : ∀ m : Mem P,
    (m.incs q).box = m.box ∧ (m.incs q).vars = m.vars ∧ (m.incs q).made = m.made ∧ (m.incs q).gone = m.gone := by
  induction q with
  | nil => exact fun _ => ⟨rfl, rfl, rfl, rfl⟩
  | cons x q ih =>
    intro m
    obtain ⟨h1, h2, h3, h4⟩ := ih (m.incO x)
    obtain ⟨g1, g2, g3, g4⟩ := incO_same x m
    exact ⟨h1.trans g1, h2.trans g2, h3.trans g3, h4.trans g4⟩

theorem decs_gone (l : Bool) (q : List (Option P)) : ∀ m : Mem P, (∀ p, some p ∈ q → q.count (some p) < m.count p) →
    (m.decs l q).gone = m.gone := by
  induction q with
  | nil => exact fun _ _ => rfl
  | cons x q ih =>
    intro m h
    have h1 : (m.decO l x).gone = m.gone := by
      cases x with
      | none => rfl
      | some p =>
        have := h p (by simp)
        rw [List.count_cons_self] at this
        show (if m.count p = 1 then _ else _) = _
        by_cases e : m.count p = 1
        · have h2 : (q.count (some p)) = 0 := by omega
          omega
        · rw [if_neg e]
    have h2 := ih (m.decO l x) (by
      intro p hp
      have := h p (by simp [hp])
      cases x with
      | none => rw [List.count_cons_of_ne (by simp)] at this; exact this
      | some y =>
        show _ < (if p = y then m.count p - 1 else m.count p)
        by_cases e : p = y
        · subst e
          rw [if_pos rfl]
          rw [List.count_cons_self] at this
          omega
        · rw [if_neg e]
          rwa [List.count_cons_of_ne (fun he => e (Option.some.inj he).symm)] at this)
    exact h2.trans h1

/-! ### The steps of the calls -/

theorem count_pos_found {m : Mem P} (h : Counted m) {k : Int} {q : List (Option P)} {p : P}
    (hf : mapFind intLess k m.box.queues = some q) (hp : some p ∈ q) : 0 < m.count p := by
  rw [h.cnt p]
  have := count_pos_of_mem hf hp
  unfold refs
  omega

omit [DecidableEq P] in
theorem setQueue_sorted {b : Box P} (h : Sorted intLess b.queues) (k : Int) (q : List (Option P)) :
    Sorted intLess (b.setQueue k q).queues := (mapSet_sorted intLess_order k q _ h).1

theorem counted_pushAt {m : Mem P} (h : Counted m) {k : Int} {msg : Option P} (hm : ∀ p, msg = some p → 0 < m.count p) :
    Counted (m.pushAt k msg) := by
  unfold Mem.pushAt
  cases hf : mapFind intLess k m.box.queues with
  | none => exact h
  | some q =>
    refine (owing_incO h hm).move rfl rfl rfl (setQueue_sorted h.sorted k _) fun p => ?_
    obtain ⟨h1, h2, _, _⟩ := incO_same msg m
    have := flat_mapSet (k := k) (q := q ++ [msg]) (some p) h.sorted
    rw [hf] at this
    simp only [Option.getD_some, List.count_append] at this
    unfold refs
    simp only [h1, h2, Box.setQueue, List.count_nil]
    omega

theorem counted_popAt {m : Mem P} (h : Counted m) {k : Int} : Counted (m.popAt k) := by
  unfold Mem.popAt
  split
  · rename_i x q hf
    apply owing_decO
    refine h.move rfl rfl rfl (setQueue_sorted h.sorted k _) fun p => ?_
    have := flat_mapSet (k := k) (q := q) (some p) h.sorted
    rw [hf] at this
    simp only [Option.getD_some, List.count_cons] at this
    unfold refs
    simp only [Box.setQueue, List.count_cons, List.count_nil]
    omega
  · exact h

theorem popAt_gone {m : Mem P} {k : Int} : (m.popAt k).gone = m.gone ∨
    ∃ p q, mapFind intLess k m.box.queues = some (some p :: q) ∧ (m.popAt k).gone = m.gone ++ [(p, true)] := by
  unfold Mem.popAt
  split
  · rename_i x q hf
    cases x with
    | none => exact .inl rfl
    | some p =>
      by_cases e : m.count p = 1
      · refine .inr ⟨p, q, hf, ?_⟩
        show (if m.count p = 1 then _ else _) = _
        rw [if_pos e]
      · refine .inl ?_
        show (if m.count p = 1 then _ else _) = _
        rw [if_neg e]
  · exact .inl rfl

theorem counted_takeAt {m : Mem P} (h : Counted m) {t : Nat} {k : Int} : Counted (m.takeAt t k) := by
  unfold Mem.takeAt
  split
  · rename_i x q hf
    apply owing_decO
    refine (owing_incO (x := x) h fun p hp => count_pos_found h hf (by simp [hp])).move rfl rfl rfl
      (setQueue_sorted h.sorted k _) fun p => ?_
    obtain ⟨h1, h2, _, _⟩ := incO_same x m
    have := flat_mapSet (k := k) (q := q) (some p) h.sorted
    rw [hf] at this
    simp only [Option.getD_some, List.count_cons] at this
    unfold refs
    simp only [Box.setQueue, List.count_cons, List.count_nil, h1, h2]
    cases x with
    | none => simp at this ⊢; omega
    | some y =>
      simp only [Option.toList_some, List.map_cons, List.map_nil, List.cons_append, List.nil_append, List.count_cons, beq_iff_eq,
        Option.some.injEq] at this ⊢
      omega
  · exact h

theorem takeAt_gone {m : Mem P} (h : Counted m) {t : Nat} {k : Int} : (m.takeAt t k).gone = m.gone := by
  unfold Mem.takeAt
  split
  · rename_i x q hf
    cases x with
    | none => rfl
    | some p =>
      have := count_pos_found h hf (p := p) (by simp)
      show (if (if p = p then m.count p + 1 else m.count p) = 1 then _ else _) = _
      rw [if_pos rfl, if_neg (by omega)]
      rfl
  · rfl

theorem takeAt_vars {m : Mem P} {t : Nat} {k : Int} : ∀ v ∈ m.vars, v ∈ (m.takeAt t k).vars := by
  unfold Mem.takeAt
  split
  · rw [(decO_same _ _ _).2.1]
    intro v hv
    exact List.mem_append_right _ hv
  · exact fun _ h => h

theorem takeAt_params {m : Mem P} {t : Nat} {k : Int} (u : Nat) (p : P) (h : (Owner.param u, p) ∈ (m.takeAt t k).vars) :
    (Owner.param u, p) ∈ m.vars := by
  unfold Mem.takeAt at h
  split at h
  · rw [(decO_same _ _ _).2.1] at h
    rcases List.mem_append.mp h with h | h
    · simp at h
    · exact h
  · exact h

theorem counted_replaceAt {m : Mem P} (h : Counted m) {k : Int} : Counted (m.replaceAt k) := by
  unfold Mem.replaceAt
  apply owing_decs _ (r := [])
  refine h.move rfl rfl rfl (setQueue_sorted h.sorted k _) fun p => ?_
  have := flat_mapSet (k := k) (q := []) (some p) h.sorted
  unfold refs
  simp only [Box.setQueue, List.count_nil, List.append_nil] at this ⊢
  omega

theorem replaceAt_gone {m : Mem P} {k : Int} (hf : mapFind intLess k m.box.queues = none) : (m.replaceAt k).gone = m.gone := by
  unfold Mem.replaceAt; rw [hf]; rfl

theorem counted_eraseAt {m : Mem P} (h : Counted m) {k : Int} : Counted (m.eraseAt k) := by
  unfold Mem.eraseAt
  apply owing_decs _ (r := [])
  refine h.move rfl rfl rfl (mapErase_sorted k h.sorted) fun p => ?_
  have := flat_mapErase (k := k) (some p) m.box.queues
  unfold refs
  simp only [List.count_nil, List.append_nil] at this ⊢
  omega

theorem eraseAt_gone {m : Mem P} {k : Int} (hf : mapFind intLess k m.box.queues = some []) : (m.eraseAt k).gone = m.gone := by
  unfold Mem.eraseAt; rw [hf]; rfl

omit [DecidableEq P] in
theorem found_getD {m : Mem P} {k : Int} {p : P} (hp : some p ∈ (mapFind intLess k m.box.queues).getD []) :
    ∃ q, mapFind intLess k m.box.queues = some q ∧ some p ∈ q := by
  cases hf : mapFind intLess k m.box.queues with
  | none => rw [hf] at hp; simp at hp
  | some q => rw [hf] at hp; exact ⟨q, rfl, hp⟩

theorem counted_copyAt {m : Mem P} (h : Counted m) {k : Int} : Counted (m.copyAt k) := by
  obtain ⟨q', h1, h2⟩ := owing_incs ((mapFind intLess k m.box.queues).getD []) h fun p hp => by
    obtain ⟨q, hf, hq⟩ := found_getD hp
    exact count_pos_found h hf hq
  exact owing_decs _ (h2.perm h1)

theorem copyAt_gone {m : Mem P} (h : Counted m) {k : Int} : (m.copyAt k).gone = m.gone := by
  obtain ⟨q', h1, h2⟩ := owing_incs ((mapFind intLess k m.box.queues).getD []) h fun p hp => by
    obtain ⟨q, hf, hq⟩ := found_getD hp
    exact count_pos_found h hf hq
  obtain ⟨s1, s2, _, s4⟩ := incs_same ((mapFind intLess k m.box.queues).getD []) m
  refine Eq.trans ?_ s4
  apply decs_gone
  intro p hp
  obtain ⟨q, hf, hq⟩ := found_getD hp
  have h3 := (h2.perm h1).cnt p
  rw [h3]
  have h4 := count_pos_of_mem hf hq
  have h5 : refs (m.incs ((mapFind intLess k m.box.queues).getD [])) p = refs m p := by
    unfold refs; rw [s1, s2]
  rw [h5, List.append_nil]
  unfold refs
  omega

/-! ### The calls -/

/-- What is known during a call of `o` by `t`. -/
structure During (t : Nat) (o : Op P) (m : Mem P) : Prop where
  counted : Counted m
  args : ∀ p ∈ o.args, (Owner.param t, p) ∈ m.vars

/-- No pointer is taken from the program, and no parameter appears. -/
structure Keep (m m' : Mem P) : Prop where
  all : ∀ v ∈ m.vars, v ∈ m'.vars
  params : ∀ u p, (Owner.param u, p) ∈ m'.vars → (Owner.param u, p) ∈ m.vars

omit [DecidableEq P] in
theorem keep_eq {m m' : Mem P} (h : m'.vars = m.vars) : Keep m m' := ⟨fun _ hv => h ▸ hv, fun _ _ hv => h ▸ hv⟩

/-- What a step of a call of `o` may destroy. -/
def Chg (o : Op P) (m m' : Mem P) : Prop := Keep m m' ∧ (
  m'.gone = m.gone ∨ ∃ i p q, Discards i o ∧ mapFind intLess i m.box.queues = some (some p :: q) ∧ m'.gone = m.gone ++ [(p, true)])

/-- Each step of the rest of a call keeps `During` and changes no more than `Chg` says; `Pre` is what is known about the mailbox. -/
def Good (t : Nat) (o : Op P) : Body (Mem P) (Resp P) → (Box P → Prop) → Prop
  | .ret r, Pre => r.Normal → ∀ b, Pre b → b.Wf
  | .act f k, Pre => ∀ m, During t o m → Pre m.box → During t o (f m) ∧ Chg o m (f m) ∧ ∃ Pre', Pre' (f m).box ∧ Good t o (k m) Pre'

theorem good_look {t : Nat} {o : Op P} {k : Box P → Body (Mem P) (Resp P)} {Pre : Box P → Prop}
    (h : ∀ b, Pre b → Good t o (k b) (fun b' => b' = b)) : Good t o (lookL k) Pre :=
  fun m hd hp => ⟨hd, ⟨keep_eq rfl, .inl rfl⟩, (fun b' => b' = m.box), rfl, h m.box hp⟩

theorem good_ret {t : Nat} {o : Op P} {r : Resp P} {b : Box P} (h : b.Wf) : Good t o (.ret r) (fun b' => b' = b) :=
  fun _ b' hb => by subst hb; exact h

theorem good_onRes {t : Nat} {o : Op P} {α : Type} {r : Res Err α} {k : α → Body (Mem P) (Resp P)} {b : Box P} (hb : b.Wf)
    (h : ∀ a, r = .ok a → Good t o (k a) (fun b' => b' = b)) : Good t o (onResL r k) (fun b' => b' = b) := by
  cases r with
  | ok a => exact h a rfl
  | throw e => exact good_ret hb
  | ub => exact good_ret hb

omit [DecidableEq P] in
theorem wf_setQueue {b : Box P} (h : b.Wf) {k : Int} {q q' : List (Option P)} (hf : mapFind intLess k b.queues = some q) :
    (b.setQueue k q').Wf := by
  refine ⟨setQueue_sorted h.sorted k q', fun i hi => ?_, h.counter⟩
  rw [waiting_setQueue] at hi
  by_cases e : i = k
  · subst e
    exact h.keys i (by unfold waiting; rw [hf]; simp)
  · rw [if_neg e] at hi
    exact h.keys i hi

theorem pushAt_vars (k : Int) (msg : Option P) (m : Mem P) : (m.pushAt k msg).vars = m.vars ∧ (m.pushAt k msg).gone = m.gone := by
  unfold Mem.pushAt
  split
  · exact ⟨rfl, rfl⟩
  · exact ⟨(incO_same msg m).2.1, (incO_same msg m).2.2.2⟩

theorem wf_pushAt {m : Mem P} (h : m.box.Wf) (k : Int) (msg : Option P) : (m.pushAt k msg).box.Wf := by
  unfold Mem.pushAt
  split
  · exact h
  · rename_i q hf; exact wf_setQueue h hf

theorem good_pushLoop {t : Nat} {msg : Option P} {subs : Option Sub} (omit_key : Int) : ∀ ks : List Int,
    Good t (.put msg subs) (pushLoopL msg omit_key ks) Box.Wf := by
  intro ks
  induction ks with
  | nil => exact fun _ _ h => h
  | cons k ks ih =>
    unfold pushLoopL
    split
    · intro m hd hp
      refine ⟨⟨counted_pushAt hd.counted ?_, ?_⟩, ⟨keep_eq (pushAt_vars k msg m).1, .inl (pushAt_vars k msg m).2⟩, Box.Wf, wf_pushAt hp k msg, ih⟩
      · rintro p rfl
        have := hd.args p (by simp [Op.args])
        rw [hd.counted.cnt p]
        have h2 : 0 < (m.vars.map (·.2)).count p := List.count_pos_iff.mpr (List.mem_map.mpr ⟨_, this, rfl⟩)
        unfold refs
        omega
      · rw [(pushAt_vars k msg m).1]; exact hd.args
    · exact ih

theorem popAt_box (k : Int) (m : Mem P) {x : Option P} {q : List (Option P)} (hf : mapFind intLess k m.box.queues = some (x :: q)) :
    (m.popAt k).box = m.box.setQueue k q := by
  unfold Mem.popAt; rw [hf]; exact (decO_same _ _ _).1

theorem popAt_vars (k : Int) (m : Mem P) : (m.popAt k).vars = m.vars := by
  unfold Mem.popAt
  split
  · exact (decO_same _ _ _).2.1
  · rfl

theorem good_popLoop {t : Nat} {o : Op P} {i : Int} (hi : Discards i o) {fin : Body (Mem P) (Resp P)}
    (hfin : Good t o fin (fun b => b.Wf ∧ mapFind intLess i b.queues = some [])) : ∀ n : Nat,
    Good t o (popLoopL i fin n) (fun b => b.Wf ∧ ∃ q, mapFind intLess i b.queues = some q ∧ q.length = n) := by
  have aux : ∀ (b : Body (Mem P) (Resp P)) (Pre Pre' : Box P → Prop), (∀ b, Pre' b → Pre b) → Good t o b Pre → Good t o b Pre' := by
    intro b
    cases b with
    | ret r => exact fun Pre Pre' h hg hr b hb => hg hr b (h b hb)
    | act f k => exact fun Pre Pre' h hg m hd hm => hg m hd (h _ hm)
  intro n
  induction n with
  | zero =>
    refine aux _ _ _ ?_ hfin
    rintro b ⟨h1, q, h2, h3⟩
    exact ⟨h1, by rw [h2, List.length_eq_zero_iff.mp h3]⟩
  | succ n ih =>
    rintro m hd ⟨hw, q, hf, hl⟩
    cases q with
    | nil => simp at hl
    | cons x q =>
      refine ⟨⟨counted_popAt hd.counted, by rw [popAt_vars]; exact hd.args⟩, ⟨keep_eq (popAt_vars _ _), ?_⟩, _, ?_, ih⟩
      · rcases popAt_gone (m := m) (k := i) with h | ⟨p, q', h1, h2⟩
        · exact .inl h
        · exact .inr ⟨i, p, q', hi, h1, h2⟩
      · rw [popAt_box i m hf]
        refine ⟨wf_setQueue hw hf, q, ?_, by simpa using hl⟩
        have := waiting_setQueue m.box i i q
        rw [if_pos rfl] at this
        exact this

theorem good_minLoop {t : Nat} : ∀ (ks : List Int) (ret : Nat), Good (P := P) t .minReadyCount (minLoopL ret ks) Box.Wf := by
  intro ks
  induction ks with
  | nil => exact fun _ _ _ h => h
  | cons k ks ih =>
    intro ret m hd hp
    have hs : (m.copyAt k).box = m.box ∧ (m.copyAt k).vars = m.vars := by
      unfold Mem.copyAt
      exact ⟨(decs_same _ _ _).1.trans (incs_same _ _).1, (decs_same _ _ _).2.1.trans (incs_same _ _).2.1⟩
    refine ⟨⟨counted_copyAt hd.counted, by rw [hs.2]; exact hd.args⟩, ⟨keep_eq hs.2, .inl (copyAt_gone hd.counted)⟩, Box.Wf, by rw [hs.1]; exact hp, ?_⟩
    show Good t _ (match mapFind intLess k m.box.queues with | none => _ | some q => _) _
    cases mapFind intLess k m.box.queues with
    | none => exact ih _
    | some q => exact ih _

theorem good_mono {t : Nat} {o : Op P} {b : Body (Mem P) (Resp P)} {Pre Pre' : Box P → Prop} (h : ∀ b, Pre' b → Pre b)
    (hg : Good t o b Pre) : Good t o b Pre' := by
  cases b with
  | ret r => exact fun hr b hb => hg hr b (h b hb)
  | act f k => exact fun m hd hm => hg m hd (h _ hm)

theorem good_unsub {t : Nat} {o : Op P} {i : Int} (hi : Discards i o) (failed : Err → Resp P) :
    Good t o (unsubBodyL i failed) Box.Wf := by
  refine good_look fun b hb => ?_
  cases hq : b.getQueueI i with
  | ok q =>
    refine good_mono ?_ (good_popLoop hi (fin := .act (Mem.eraseAt i) fun _ => .ret .done) ?_ q.length)
    · rintro b' rfl
      exact ⟨hb, q, getQueueI_ok.mp hq, rfl⟩
    · rintro m hd ⟨hw, hf⟩
      have hv : (m.eraseAt i).vars = m.vars := (decs_same _ _ _).2.1
      have hbx : (m.eraseAt i).box = { m.box with queues := mapErase intLess i m.box.queues } := (decs_same _ _ _).1
      refine ⟨⟨counted_eraseAt hd.counted, by rw [hv]; exact hd.args⟩, ⟨keep_eq hv, .inl (eraseAt_gone hf)⟩, Box.Wf, ?_, fun _ _ h => h⟩
      rw [hbx]
      refine ⟨mapErase_sorted i hw.sorted, fun j hj => ?_, hw.counter⟩
      rw [waiting_erase hw] at hj
      split at hj
      · exact absurd rfl hj
      · exact hw.keys j hj
  | throw e => exact good_ret hb
  | ub => exact good_ret hb

theorem good_body (this : Addr) (t : Nat) (o : Op P) : Good t o (bodyL this t o) Box.Wf := by
  cases o with
  | subscribe =>
    unfold bodyL
    refine good_look fun b hb => ?_
    rintro m hd rfl
    have hv : (m.replaceAt m.box.counter).vars = m.vars := (decs_same _ _ _).2.1
    have hbx : (m.replaceAt m.box.counter).box = m.box.setQueue m.box.counter [] := (decs_same _ _ _).1
    have hnone : mapFind intLess m.box.counter m.box.queues = none := by
      cases hf : mapFind intLess m.box.counter m.box.queues with
      | none => rfl
      | some q => exact absurd (hb.keys m.box.counter (by unfold waiting; rw [hf]; simp)).2 (by omega)
    refine ⟨⟨counted_replaceAt hd.counted, by rw [hv]; exact hd.args⟩, ⟨keep_eq hv, .inl (replaceAt_gone hnone)⟩, (fun b' => b' = m.box.setQueue m.box.counter []),
      hbx, ?_⟩
    split
    · intro h; exact absurd h (by simp [Resp.Normal])
    · rename_i hc
      intro m' hd' hb'
      refine ⟨⟨hd'.counted.move rfl rfl rfl hd'.counted.sorted fun p => rfl, hd'.args⟩, ⟨keep_eq rfl, .inl rfl⟩, Box.Wf, ?_, fun _ _ h => h⟩
      have hcnt : m'.box.counter = m.box.counter := by rw [hb']; rfl
      have hq : m'.box.queues = (m.box.setQueue m.box.counter []).queues := by rw [hb']
      have h1 := hb.counter
      refine ⟨hd'.counted.sorted, fun i hi => ?_, by show 0 ≤ m'.box.counter + 1 ∧ m'.box.counter + 1 ≤ 2147483647; omega⟩
      show 0 ≤ i ∧ i < m'.box.counter + 1
      have hi' : waiting (m.box.setQueue m.box.counter []) i ≠ none := by
        unfold waiting at hi ⊢
        rw [← hq]; exact hi
      rw [waiting_setQueue] at hi'
      by_cases e : i = m.box.counter
      · omega
      · rw [if_neg e] at hi'
        have := hb.keys i hi'
        omega
  | get subs =>
    unfold bodyL
    refine good_look fun b hb => good_onRes hb ?_
    rintro ⟨idx, q⟩ hq
    cases q with
    | nil => exact good_ret hb
    | cons x q =>
      rintro m hd rfl
      have hf : mapFind intLess idx m.box.queues = some (x :: q) := by
        obtain ⟨_, h⟩ := getQueue_ok.mp hq
        exact h
      refine ⟨⟨counted_takeAt hd.counted, by simp [Op.args]⟩, ⟨⟨takeAt_vars, takeAt_params⟩, .inl (takeAt_gone hd.counted)⟩, Box.Wf, ?_, fun _ _ h => h⟩
      unfold Mem.takeAt
      rw [hf]
      rw [(decO_same _ _ _).1]
      exact wf_setQueue hb hf
  | put msg subs =>
    unfold bodyL
    refine good_look fun b hb => good_onRes hb ?_
    intro k _
    refine good_look fun b' hb' => ?_
    subst hb'
    exact good_mono (fun b' h => by subst h; exact hb) (good_pushLoop k _)
  | readyCount subs =>
    unfold bodyL
    exact good_look fun b hb => good_onRes hb fun _ _ => good_ret hb
  | minReadyCount =>
    unfold bodyL
    exact good_look fun b hb => good_mono (fun b' h => by subst h; exact hb) (good_minLoop _ _)
  | clear subs =>
    unfold bodyL
    refine good_look fun b hb => good_onRes hb ?_
    rintro ⟨idx, q⟩ hq
    obtain ⟨rfl, h⟩ := getQueue_ok.mp hq
    refine good_mono ?_ (good_popLoop (o := .clear (some ⟨this, idx⟩)) rfl (fin := .ret .done) (fun _ _ h => h.1) q.length)
    rintro b' rfl
    exact ⟨hb, q, h, rfl⟩
  | unsubscribe subid => exact good_unsub (o := .unsubscribe subid) rfl _
  | subscriberCount =>
    unfold bodyL
    exact good_look fun b hb => good_ret hb
  | drop s => exact good_unsub (o := .drop s) rfl _

/-! ### The steps of the program -/

theorem counted_make {m : Mem P} (h : Counted m) {t : Nat} {p : P} (hp : p ∉ m.made) :
    Counted { m.inc p with made := p :: m.made, vars := (.var t, p) :: m.vars } := by
  have hn : ¬ (0 < m.count p ∨ p ∈ m.gone.map (·.1)) := fun e => hp ((h.made p).mpr e)
  have h0 : m.count p = 0 := by
    have := fun e => hn (.inl e)
    omega
  refine ⟨fun x => ?_, fun x => ?_, fun x hx => ?_, h.nodup, h.sorted⟩
  · show (if x = p then m.count x + 1 else m.count x) = _
    have := h.cnt x
    unfold refs at this ⊢
    simp only [List.map_cons, List.count_cons, beq_iff_eq, List.count_nil] at this ⊢
    show _ = (flat m.box.queues).count (some x) + _ + _
    by_cases e : x = p
    · subst e; rw [if_pos rfl, if_pos rfl]; omega
    · rw [if_neg e, if_neg (fun h => e h.symm)]; omega
  · show x ∈ p :: m.made ↔ 0 < (if x = p then m.count x + 1 else m.count x) ∨ _
    by_cases e : x = p
    · subst e; simp
    · rw [if_neg e, List.mem_cons, h.made x]
      simp only [e, false_or]
      rfl
  · show (if x = p then m.count x + 1 else m.count x) = 0
    by_cases e : x = p
    · subst e; exact absurd (.inr hx) hn
    · rw [if_neg e]; exact h.gone0 x hx

theorem var_count_pos {m : Mem P} (h : Counted m) {o : Owner} {p : P} (hp : (o, p) ∈ m.vars) : 0 < m.count p := by
  rw [h.cnt p]
  have h2 : 0 < (m.vars.map (·.2)).count p := List.count_pos_iff.mpr (List.mem_map.mpr ⟨_, hp, rfl⟩)
  unfold refs
  omega

theorem counted_copy {m : Mem P} (h : Counted m) {o : Owner} {p : P} (hp : 0 < m.count p) :
    Counted { m.inc p with vars := (o, p) :: m.vars } := by
  refine (owing_incO (x := some p) h fun x hx => by cases hx; exact hp).move rfl rfl rfl h.sorted fun x => ?_
  unfold refs
  simp only [List.map_cons, List.count_cons, List.count_nil, beq_iff_eq, Option.some.injEq]
  show (flat m.box.queues).count (some x) + _ + _ = (flat m.box.queues).count (some x) + (m.vars.map (·.2)).count x + _
  omega

theorem counted_release {m : Mem P} (h : Counted m) {o : Owner} {p : P} (hp : (o, p) ∈ m.vars) (l : Bool) :
    Counted (Mem.dec l p { m with vars := m.vars.erase (o, p) }) := by
  apply owing_decO (x := some p)
  refine h.move rfl rfl rfl h.sorted fun x => ?_
  have h1 := ((List.perm_cons_erase hp).map (·.2)).count_eq x
  unfold refs
  rw [h1]
  simp only [List.map_cons, List.count_cons, List.count_nil, beq_iff_eq, Option.some.injEq]
  omega

theorem count_some (l : List P) (x : P) : (l.map some).count (some x) = l.count x := by
  induction l with
  | nil => rfl
  | cons a l ih => simp [List.count_cons, ih]

theorem counted_enter {m : Mem P} (h : Counted m) {t : Nat} {ps : List P} (hp : ∀ p ∈ ps, 0 < m.count p) : Counted (m.enter t ps) := by
  obtain ⟨q', h1, h2⟩ := owing_incs (ps.map some) h fun p hp' => by
    simp only [List.mem_map, Option.some.injEq, exists_eq_right] at hp'
    exact hp p hp'
  unfold Mem.enter
  obtain ⟨s1, s2, _, _⟩ := incs_same (ps.map some) m
  refine (h2.perm h1).move rfl rfl rfl (by rw [s1]; exact h.sorted) fun x => ?_
  unfold refs
  rw [s2]
  simp only [List.map_append, List.map_map, List.count_append, List.append_nil, List.count_nil]
  have h3 : (ps.map ((fun x => x.2) ∘ fun p => (Owner.param t, p))).count x = ps.count x := by
    rw [show ((fun x : Owner × P => x.2) ∘ fun p => (Owner.param t, p)) = id from rfl, List.map_id]
  have h4 : (ps.map some).count (some x) = ps.count x :=
    count_some ps x
  rw [h3, h4]
  omega

theorem counted_move {m : Mem P} (h : Counted m) {t : Nat} {p : P} (hp : (Owner.var t, p) ∈ m.vars) :
    Counted { m with vars := (Owner.param t, p) :: m.vars.erase (Owner.var t, p) } := by
  refine h.move rfl rfl rfl h.sorted fun x => ?_
  unfold refs
  have h1 := ((List.perm_cons_erase hp).map fun v => v.2).count_eq x
  simp only [List.map_cons] at h1
  show (flat m.box.queues).count (some x) + (p :: _).count x + _ = _
  rw [h1]

theorem leave_same (t : Nat) (m : Mem P) : (m.leave t).box = m.box := (decs_same _ _ _).1

theorem counted_leave {m : Mem P} (h : Counted m) {t : Nat} : Counted (m.leave t) := by
  unfold Mem.leave
  apply owing_decs _ (r := [])
  refine h.move rfl rfl rfl h.sorted fun x => ?_
  unfold refs
  simp only [List.append_nil, List.count_nil, List.map_map]
  have h1 : ((m.vars.filter fun v => v.1 ≠ Owner.param t).map ((fun x => x.2) ∘ fun v => if v.1 = Owner.loc t then (Owner.var t, v.2) else v)) =
      (m.vars.filter fun v => v.1 ≠ Owner.param t).map (·.2) := by
    apply List.map_congr_left
    intro v _
    simp only [Function.comp]
    split <;> rfl
  have h2 : ((m.vars.filter fun v => v.1 = Owner.param t).map fun v => some v.2).count (some x) =
      ((m.vars.filter fun v => v.1 = Owner.param t).map (·.2)).count x := by
    rw [show (fun v : Owner × P => some v.2) = some ∘ (·.2) from rfl, ← List.map_map]
    exact count_some _ x
  have h3 : ((m.vars.filter fun v => v.1 = Owner.param t).map (·.2)).count x +
      ((m.vars.filter fun v => v.1 ≠ Owner.param t).map (·.2)).count x = (m.vars.map (·.2)).count x := by
    have h4 := (List.filter_append_perm (fun v : Owner × P => decide (v.1 = Owner.param t)) m.vars).map (·.2)
    rw [← h4.count_eq, List.map_append, List.count_append]
    simp only [decide_not]
  rw [h1, h2]
  omega

/-! ### Executions -/

structure LInv (c : LConf P) : Prop where
  counted : Counted c.shared
  free : c.holder = none → c.shared.box.Wf
  params : ∀ t o, (c.phase t = .wants o ∨ ∃ b, c.phase t = .runs o b) → ∀ p ∈ o.2.args, (Owner.param t, p) ∈ c.shared.vars
  own : ∀ t o b, c.phase t = .runs o b → c.holder = some t ∧ ∃ Pre : Box P → Prop, Pre c.shared.box ∧ Good t o.2 b Pre

theorem linv_init (name : Str) :
    LInv (Conf.init { box := Box.new name, count := fun _ => 0, vars := [], made := [], gone := [] } : LConf P) :=
  ⟨⟨fun _ => by simp [Conf.init, refs, flat, Box.new], fun _ => by simp [Conf.init], fun _ => by simp [Conf.init], by simp [Conf.init],
    by simp [Conf.init, Box.new]⟩, fun _ => wf_new name, fun t o h => by rcases h with h | ⟨b, h⟩ <;> simp [Conf.init] at h,
    fun t o b h => by simp [Conf.init] at h⟩

/-- The pointers in the parameters and the mailbox are left alone. -/
theorem linv_program {c : LConf P} (h : LInv c) {m : Mem P} (hc : Counted m) (hb : m.box = c.shared.box)
    (hv : ∀ t p, (Owner.param t, p) ∈ c.shared.vars → (Owner.param t, p) ∈ m.vars) : LInv { c with shared := m } :=
  ⟨hc, fun hf => by show m.box.Wf; rw [hb]; exact h.free hf, fun t o ho p hp => hv t p (h.params t o ho p hp),
    fun t o b ho => by
      obtain ⟨h1, Pre, h2, h3⟩ := h.own t o b ho
      exact ⟨h1, Pre, by show Pre m.box; rw [hb]; exact h2, h3⟩⟩

theorem setPhase_eq {S O R : Type} {f : Nat → Phase S O R} {t u : Nat} {x y : Phase S O R} (h : setPhase f t x u = y) :
    (u = t ∧ x = y) ∨ (u ≠ t ∧ f u = y) := by
  unfold setPhase at h
  by_cases e : u = t
  · rw [if_pos e] at h; exact .inl ⟨e, h⟩
  · rw [if_neg e] at h; exact .inr ⟨e, h⟩

theorem linv_step {this : Addr} {c c' : LConf P} {l : LLabel P} (h : LInv c) (hs : LStep this c l c') : LInv c' := by
  cases hs with
  | make hi hp => exact linv_program h (counted_make h.counted hp) rfl fun t p hv => List.mem_cons_of_mem _ hv
  | copy hi hp => exact linv_program h (counted_copy h.counted (var_count_pos h.counted hp)) rfl fun t p hv => List.mem_cons_of_mem _ hv
  | release hi hp =>
    refine linv_program h (counted_release h.counted hp false) rfl fun u p hv => ?_
    exact (List.mem_erase_of_ne (by simp)).mpr hv
  | @call t o hi hp =>
    have h1 := linv_program h (m := c.shared.enter t o.args) (counted_enter h.counted fun p hp' => var_count_pos h.counted (hp p hp'))
      (incs_same _ _).1 (fun u p hv => List.mem_append_right _ hv)
    refine ⟨h1.counted, h1.free, fun u o' ho p hp' => ?_, fun u o' b ho => ?_⟩
    · rcases ho with ho | ⟨b, ho⟩
      · rcases setPhase_eq ho with ⟨rfl, he⟩ | ⟨_, ho⟩
        · cases he
          exact List.mem_append_left _ (List.mem_map.mpr ⟨p, hp', rfl⟩)
        · exact h1.params u o' (.inl ho) p hp'
      · rcases setPhase_eq ho with ⟨rfl, he⟩ | ⟨_, ho⟩
        · cases he
        · exact h1.params u o' (.inr ⟨b, ho⟩) p hp'
    · rcases setPhase_eq ho with ⟨rfl, he⟩ | ⟨_, ho⟩
      · cases he
      · exact h1.own u o' b ho
  | @move t o p hi ha hv =>
    have h1 := linv_program h (m := { c.shared with vars := (Owner.param t, p) :: c.shared.vars.erase (Owner.var t, p) })
      (counted_move h.counted hv) rfl
      (fun u p hv => List.mem_cons_of_mem _ ((List.mem_erase_of_ne (by simp)).mpr hv))
    refine ⟨h1.counted, h1.free, fun u o' ho x hp' => ?_, fun u o' b ho => ?_⟩
    · rcases ho with ho | ⟨b, ho⟩
      · rcases setPhase_eq ho with ⟨rfl, he⟩ | ⟨_, ho⟩
        · cases he
          rw [ha, List.mem_singleton] at hp'
          subst hp'
          exact List.mem_cons_self
        · exact h1.params u o' (.inl ho) x hp'
      · rcases setPhase_eq ho with ⟨rfl, he⟩ | ⟨_, ho⟩
        · cases he
        · exact h1.params u o' (.inr ⟨b, ho⟩) x hp'
    · rcases setPhase_eq ho with ⟨rfl, he⟩ | ⟨_, ho⟩
      · cases he
      · exact h1.own u o' b ho
  | lock hs hw =>
    rename_i t o
    cases hs with
    | lock hw' hf =>
      rw [hw] at hw'
      cases hw'
      refine ⟨h.counted, fun hn => by simp at hn, fun u o' ho p hp' => ?_, fun u o' b ho => ?_⟩
      · rcases ho with ho | ⟨b, ho⟩
        · rcases setPhase_eq ho with ⟨rfl, he⟩ | ⟨_, ho⟩
          · cases he
          · exact h.params u o' (.inl ho) p hp'
        · rcases setPhase_eq ho with ⟨rfl, he⟩ | ⟨_, ho⟩
          · cases he
            exact h.params u (u, o) (.inl hw) p hp'
          · exact h.params u o' (.inr ⟨b, ho⟩) p hp'
      · rcases setPhase_eq ho with ⟨rfl, he⟩ | ⟨hne, ho⟩
        · cases he
          exact ⟨rfl, Box.Wf, h.free hf, good_body this u o⟩
        · have := (h.own u o' b ho).1
          rw [hf] at this; cases this
  | act hs =>
    rename_i t
    cases hs with
    | act hw =>
      rename_i o f k
      obtain ⟨hh, Pre, hpre, hg⟩ := h.own t o _ hw
      have hd : During t o.2 c.shared := ⟨h.counted, h.params t o (.inr ⟨_, hw⟩)⟩
      obtain ⟨hd', ⟨⟨hv, _⟩, _⟩, Pre', hpre', hg'⟩ := hg c.shared hd hpre
      refine ⟨hd'.counted, fun hn => ?_, fun u o' ho p hp' => ?_, fun u o' b ho => ?_⟩
      · have hn' : c.holder = none := hn
        rw [hh] at hn'; cases hn'
      · rcases ho with ho | ⟨b, ho⟩
        · rcases setPhase_eq ho with ⟨rfl, he⟩ | ⟨_, ho⟩
          · cases he
          · exact hv _ (h.params u o' (.inl ho) p hp')
        · rcases setPhase_eq ho with ⟨rfl, he⟩ | ⟨_, ho⟩
          · cases he
            exact hv _ (h.params u o (.inr ⟨_, hw⟩) p hp')
          · exact hv _ (h.params u o' (.inr ⟨b, ho⟩) p hp')
      · rcases setPhase_eq ho with ⟨rfl, he⟩ | ⟨hne, ho⟩
        · cases he
          exact ⟨hh, Pre', hpre', hg'⟩
        · have := (h.own u o' b ho).1
          rw [hh] at this
          exact absurd (Option.some.inj this).symm hne
  | unlock hs hn =>
    rename_i t o r
    cases hs with
    | unlock hw =>
      obtain ⟨hh, Pre, hpre, hg⟩ := h.own t o _ hw
      refine ⟨h.counted, fun _ => hg hn _ hpre, fun u o' ho p hp' => ?_, fun u o' b ho => ?_⟩
      · rcases ho with ho | ⟨b, ho⟩
        · rcases setPhase_eq ho with ⟨rfl, he⟩ | ⟨_, ho⟩
          · cases he
          · exact h.params u o' (.inl ho) p hp'
        · rcases setPhase_eq ho with ⟨rfl, he⟩ | ⟨_, ho⟩
          · cases he
          · exact h.params u o' (.inr ⟨b, ho⟩) p hp'
      · rcases setPhase_eq ho with ⟨rfl, he⟩ | ⟨hne, ho⟩
        · cases he
        · have := (h.own u o' b ho).1
          rw [hh] at this
          exact absurd (Option.some.inj this).symm hne
  | @ret t o r hw =>
    refine ⟨counted_leave h.counted, fun hn => by show (c.shared.leave t).box.Wf; rw [leave_same]; exact h.free hn,
      fun u o' ho p hp' => ?_, fun u o' b ho => ?_⟩
    · have hv : u ≠ t → (Owner.param u, p) ∈ c.shared.vars → (Owner.param u, p) ∈ (c.shared.leave t).vars := by
        intro hne hm
        unfold Mem.leave
        rw [(decs_same _ _ _).2.1]
        refine List.mem_map.mpr ⟨(Owner.param u, p), List.mem_filter.mpr ⟨hm, ?_⟩, ?_⟩
        · simp only [ne_eq, Owner.param.injEq, decide_not, Bool.not_eq_true', decide_eq_false_iff_not]; exact hne
        · simp
      rcases ho with ho | ⟨b, ho⟩
      · rcases setPhase_eq (f := c.phase) (t := t) (x := .idle) ho with ⟨rfl, he⟩ | ⟨hne, ho⟩
        · cases he
        · exact hv hne (h.params u o' (.inl ho) p hp')
      · rcases setPhase_eq (f := c.phase) (t := t) (x := .idle) ho with ⟨rfl, he⟩ | ⟨hne, ho⟩
        · cases he
        · exact hv hne (h.params u o' (.inr ⟨b, ho⟩) p hp')
    · rcases setPhase_eq (f := c.phase) (t := t) (x := .idle) ho with ⟨rfl, he⟩ | ⟨hne, ho⟩
      · cases he
      · obtain ⟨h1, Pre, h2, h3⟩ := h.own u o' b ho
        exact ⟨h1, Pre, by show Pre (c.shared.leave t).box; rw [leave_same]; exact h2, h3⟩

theorem linv {this : Addr} {name : Str} {ls : List (LLabel P)} {c : LConf P} (h : LSteps this name ls c) : LInv c := by
  induction h with
  | init => exact linv_init name
  | snoc _ hs ih => exact linv_step ih hs

theorem referenced_iff (m : Mem P) (p : P) : Referenced m p ↔ 0 < refs m p := by
  unfold Referenced refs flat
  rw [Nat.add_pos_iff_pos_or_pos, List.count_pos_iff, List.count_pos_iff]
  simp only [List.mem_flatMap, List.mem_map, Prod.exists, exists_eq_right]

/-! ### Parameters belong to calls -/

/-- The thread is inside a call of `o`. -/
def Inside (x : Phase (Mem P) (Nat × Op P) (Resp P)) (o : Nat × Op P) : Prop :=
  x = .wants o ∨ (∃ b, x = .runs o b) ∨ ∃ r, x = .leaving o r

structure CInv (ls : List (LLabel P)) (c : LConf P) : Prop where
  params : ∀ t p, (Owner.param t, p) ∈ c.shared.vars → ∃ o, Inside (c.phase t) o ∧ p ∈ o.2.args
  called : ∀ t o, Inside (c.phase t) o → LLabel.mon (.call t o) ∈ ls

omit [DecidableEq P] in
theorem inside_unique {x : Phase (Mem P) (Nat × Op P) (Resp P)} {o o' : Nat × Op P} (h : Inside x o) (h' : Inside x o') : o = o' := by
  rcases h with rfl | ⟨b, rfl⟩ | ⟨r, rfl⟩ <;> rcases h' with h' | ⟨b, h'⟩ | ⟨r, h'⟩ <;> cases h' <;> rfl

omit [DecidableEq P] in
theorem cinv_set {ls : List (LLabel P)} {l : LLabel P} {c c' : LConf P} (h : CInv ls c) {t : Nat} {x : Phase (Mem P) (Nat × Op P) (Resp P)}
    (hp : c'.phase = setPhase c.phase t x)
    (hx : ∀ o, Inside x o → LLabel.mon (.call t o) ∈ ls ++ [l])
    (h1 : ∀ p, (Owner.param t, p) ∈ c'.shared.vars → ∃ o, Inside x o ∧ p ∈ o.2.args)
    (h2 : ∀ u p, u ≠ t → (Owner.param u, p) ∈ c'.shared.vars → (Owner.param u, p) ∈ c.shared.vars) : CInv (ls ++ [l]) c' := by
  refine ⟨fun u p hv => ?_, fun u o hi => ?_⟩
  · rw [hp]
    unfold setPhase
    by_cases e : u = t
    · subst e; rw [if_pos rfl]; exact h1 p hv
    · rw [if_neg e]; exact h.params u p (h2 u p e hv)
  · rw [hp] at hi
    unfold setPhase at hi
    by_cases e : u = t
    · subst e; rw [if_pos rfl] at hi; exact hx o hi
    · rw [if_neg e] at hi; exact List.mem_append_left _ (h.called u o hi)

theorem cinv_step {this : Addr} {ls : List (LLabel P)} {c c' : LConf P} {l : LLabel P} (hl : LInv c) (h : CInv ls c) (hs : LStep this c l c') :
    CInv (ls ++ [l]) c' := by
  have hprog : ∀ m : Mem P, (∀ t p, (Owner.param t, p) ∈ m.vars → (Owner.param t, p) ∈ c.shared.vars) →
      CInv (ls ++ [l]) { c with shared := m } := fun m hm =>
    ⟨fun t p hv => h.params t p (hm t p hv), fun t o hi => List.mem_append_left _ (h.called t o hi)⟩
  cases hs with
  | make hi hp => exact hprog _ fun t p hv => by simpa using hv
  | copy hi hp => exact hprog _ fun t p hv => by simpa using hv
  | release hi hp => exact hprog _ fun t p hv => List.mem_of_mem_erase hv
  | @call t o hi hp =>
    have hidle : ∀ p, (Owner.param t, p) ∉ c.shared.vars := fun p hv => by
      obtain ⟨o, ho, _⟩ := h.params t p hv
      rw [hi] at ho
      rcases ho with ho | ⟨b, ho⟩ | ⟨r, ho⟩ <;> cases ho
    refine cinv_set h rfl ?_ ?_ ?_
    · rintro o' (ho | ⟨b, ho⟩ | ⟨r, ho⟩) <;> cases ho
      simp
    · intro p hv
      refine ⟨_, .inl rfl, ?_⟩
      rcases List.mem_append.mp hv with hv | hv
      · simpa using hv
      · exact absurd ((incs_same (o.args.map some) c.shared).2.1 ▸ hv) (hidle p)
    · intro u p hu hv
      rcases List.mem_append.mp hv with hv | hv
      · simp only [List.mem_map, Prod.mk.injEq, Owner.param.injEq] at hv
        obtain ⟨_, _, hv, _⟩ := hv
        exact absurd hv.symm hu
      · exact hv
  | @move t o p hi ha hv =>
    have hidle : ∀ p, (Owner.param t, p) ∉ c.shared.vars := fun p hv => by
      obtain ⟨o, ho, _⟩ := h.params t p hv
      rw [hi] at ho
      rcases ho with ho | ⟨b, ho⟩ | ⟨r, ho⟩ <;> cases ho
    refine cinv_set h rfl ?_ ?_ ?_
    · rintro o' (ho | ⟨b, ho⟩ | ⟨r, ho⟩) <;> cases ho
      simp
    · intro x hx
      refine ⟨_, .inl rfl, ?_⟩
      rcases List.mem_cons.mp hx with hx | hx
      · cases hx; rw [ha]; exact List.mem_singleton_self p
      · exact absurd (List.mem_of_mem_erase hx) (hidle x)
    · intro u x hu hx
      rcases List.mem_cons.mp hx with hx | hx
      · cases hx; exact absurd rfl hu
      · exact List.mem_of_mem_erase hx
  | lock hs hw =>
    rename_i t o
    cases hs with
    | lock hw' hf =>
      rw [hw] at hw'
      cases hw'
      refine cinv_set h rfl ?_ ?_ fun _ _ _ hv => hv
      · rintro o' (ho | ⟨b, ho⟩ | ⟨r, ho⟩) <;> cases ho
        exact List.mem_append_left _ (h.called t _ (.inl hw))
      · intro p hv
        obtain ⟨o', ho, ha⟩ := h.params t p hv
        cases inside_unique (.inl hw) ho
        exact ⟨_, .inr (.inl ⟨_, rfl⟩), ha⟩
  | act hs =>
    rename_i t
    cases hs with
    | act hw =>
      rename_i o f k
      obtain ⟨hh, Pre, hpre, hg⟩ := hl.own t o _ hw
      obtain ⟨_, ⟨⟨_, hk⟩, _⟩, _⟩ := hg c.shared ⟨hl.counted, hl.params t o (.inr ⟨_, hw⟩)⟩ hpre
      refine cinv_set h rfl ?_ ?_ fun u p _ hv => hk u p hv
      · rintro o' (ho | ⟨b, ho⟩ | ⟨r, ho⟩) <;> cases ho
        exact List.mem_append_left _ (h.called t _ (.inr (.inl ⟨_, hw⟩)))
      · intro p hv
        obtain ⟨o', ho, ha⟩ := h.params t p (hk t p hv)
        cases inside_unique (.inr (.inl ⟨_, hw⟩)) ho
        exact ⟨_, .inr (.inl ⟨_, rfl⟩), ha⟩
  | unlock hs hn =>
    rename_i t o r
    cases hs with
    | unlock hw =>
      refine cinv_set h rfl ?_ ?_ fun _ _ _ hv => hv
      · rintro o' (ho | ⟨b, ho⟩ | ⟨r, ho⟩) <;> cases ho
        exact List.mem_append_left _ (h.called t _ (.inr (.inl ⟨_, hw⟩)))
      · intro p hv
        obtain ⟨o', ho, ha⟩ := h.params t p hv
        cases inside_unique (.inr (.inl ⟨_, hw⟩)) ho
        exact ⟨_, .inr (.inr ⟨_, rfl⟩), ha⟩
  | @ret t o r hw =>
    have hv' : ∀ u p, (Owner.param u, p) ∈ (c.shared.leave t).vars → u ≠ t ∧ (Owner.param u, p) ∈ c.shared.vars := by
      intro u p hv
      unfold Mem.leave at hv
      rw [(decs_same _ _ _).2.1] at hv
      obtain ⟨v, hv, he⟩ := List.mem_map.mp hv
      obtain ⟨hv, hne⟩ := List.mem_filter.mp hv
      split at he
      · cases he
      · subst he
        refine ⟨?_, hv⟩
        rintro rfl
        simp at hne
    refine cinv_set h rfl ?_ ?_ fun u p _ hv => (hv' u p hv).2
    · rintro o' (ho | ⟨b, ho⟩ | ⟨r, ho⟩) <;> cases ho
    · intro p hv
      exact absurd rfl (hv' t p hv).1

theorem cinv {this : Addr} {name : Str} {ls : List (LLabel P)} {c : LConf P} (h : LSteps this name ls c) : CInv ls c := by
  induction h with
  | init => exact ⟨fun t p hv => by simp [Conf.init] at hv, fun t o hi => by rcases hi with hi | ⟨b, hi⟩ | ⟨r, hi⟩ <;> cases hi⟩
  | snoc h hs ih => exact cinv_step (linv h) ih hs

/-! ### Destructions -/

theorem decO_gone_sub (l : Bool) (x : Option P) (m : Mem P) (y : P × Bool) (h : y ∈ (m.decO l x).gone) :
    y ∈ m.gone ∨ (x = some y.1 ∧ y.2 = l) := by
  cases x with
  | none => exact .inl h
  | some p =>
    have h' : y ∈ (if m.count p = 1 then m.gone ++ [(p, l)] else m.gone) := h
    split at h'
    · rcases List.mem_append.mp h' with h' | h'
      · exact .inl h'
      · rw [List.mem_singleton] at h'; subst h'; exact .inr ⟨rfl, rfl⟩
    · exact .inl h'

theorem decs_gone_sub (l : Bool) (q : List (Option P)) : ∀ (m : Mem P) (y : P × Bool), y ∈ (m.decs l q).gone →
    y ∈ m.gone ∨ (some y.1 ∈ q ∧ y.2 = l) := by
  induction q with
  | nil => exact fun m y h => .inl h
  | cons x q ih =>
    intro m y h
    rcases ih _ y h with h | ⟨h1, h2⟩
    · rcases decO_gone_sub l x m y h with h | ⟨h1, h2⟩
      · exact .inl h
      · exact .inr ⟨h1 ▸ List.mem_cons_self, h2⟩
    · exact .inr ⟨List.mem_cons_of_mem _ h1, h2⟩

theorem counted_close {m : Mem P} (h : Counted m) : Counted m.close := by
  unfold Mem.close
  apply owing_decs _ (r := [])
  refine h.move rfl rfl rfl (by simp) fun x => ?_
  unfold refs flat
  simp
  omega

theorem called_self {this : Addr} {name : Str} {ls : List (LLabel P)} {c : LConf P} (h : LSteps this name ls c) {t : Nat} {o : Nat × Op P}
    (hm : LLabel.mon (.call t o) ∈ ls) : o.1 = t := by
  induction h with
  | init => cases hm
  | snoc h hs ih =>
    rcases List.mem_append.mp hm with hm | hm
    · exact ih hm
    · rw [List.mem_singleton] at hm
      subst hm
      cases hs <;> rfl

theorem decO_gone_mono (l : Bool) (x : Option P) (m : Mem P) (y : P × Bool) (h : y ∈ m.gone) : y ∈ (m.decO l x).gone := by
  cases x with
  | none => exact h
  | some p =>
    show y ∈ (if m.count p = 1 then m.gone ++ [(p, l)] else m.gone)
    split
    · exact List.mem_append_left _ h
    · exact h

theorem decs_gone_mono (l : Bool) (q : List (Option P)) : ∀ (m : Mem P) (y : P × Bool), y ∈ m.gone → y ∈ (m.decs l q).gone := by
  induction q with
  | nil => exact fun m y h => h
  | cons x q ih => exact fun m y h => ih _ y (decO_gone_mono l x m y h)

theorem gone_mono {this : Addr} {c c' : LConf P} {l : LLabel P} (hi : LInv c) (hs : LStep this c l c') (y : P × Bool)
    (h : y ∈ c.shared.gone) : y ∈ c'.shared.gone := by
  cases hs with
  | make => exact h
  | copy => exact h
  | @release t p => exact decO_gone_mono false (some p) _ y h
  | @call t o =>
    show y ∈ (c.shared.enter t o.args).gone
    rw [show (c.shared.enter t o.args).gone = c.shared.gone from (incs_same _ _).2.2.2]
    exact h
  | move => exact h
  | lock hs hw => cases hs; exact h
  | act hs =>
    rename_i t
    cases hs with
    | act hw =>
      rename_i o f k
      obtain ⟨hh, Pre, hpre, hg⟩ := hi.own t o _ hw
      obtain ⟨_, ⟨_, hx⟩, _⟩ := hg c.shared ⟨hi.counted, hi.params t o (.inr ⟨_, hw⟩)⟩ hpre
      show y ∈ (f c.shared).gone
      rcases hx with hx | ⟨i, p', q, hdis, hq, hx⟩
      · rw [hx]; exact h
      · rw [hx]; exact List.mem_append_left _ h
  | unlock hs hn => cases hs; exact h
  | ret hw => exact decs_gone_mono false _ _ y h

theorem unlock_normal {this : Addr} {name : Str} {ls : List (LLabel P)} {c : LConf P} (h : LSteps this name ls c) {t : Nat}
    {o : Nat × Op P} {r : Resp P} (hm : LLabel.mon (.unlock t o r) ∈ ls) : r.Normal := by
  induction h with
  | init => cases hm
  | snoc h hs ih =>
    rcases List.mem_append.mp hm with hm | hm
    · exact ih hm
    · rw [List.mem_singleton] at hm
      subst hm
      cases hs with
      | unlock hs hn => exact hn

/-! ### Calls without interruption -/

/-- Nobody is inside a call. -/
structure Quiet (c : LConf P) : Prop where
  holder : c.holder = none
  phase : ∀ t, c.phase t = .idle

theorem run_body {this : Addr} {name : Str} {t : Nat} {o : Nat × Op P} : ∀ (b : Body (Mem P) (Resp P)) (ls : List (LLabel P)) (c : LConf P),
    LSteps this name ls c → c.phase t = .runs o b → c.holder = some t → (∀ u, u ≠ t → c.phase u = .idle) →
    ∃ ls' c', LSteps this name ls' c' ∧ c'.phase t = .runs o (.ret (b.run c.shared).2) ∧ c'.holder = some t ∧
      (∀ u, u ≠ t → c'.phase u = .idle) ∧ c'.shared = (b.run c.shared).1 ∧ ∀ x ∈ ls', x ∈ ls ∨ x = .mon (.act t) := by
  intro b
  induction b with
  | ret r => exact fun ls c h hp hh hu => ⟨ls, c, h, hp, hh, hu, rfl, fun _ h => .inl h⟩
  | act f k ih =>
    intro ls c h hp hh hu
    obtain ⟨ls', c', h1, h2, h3, h4, h5, h6⟩ := ih c.shared _ _ (h.snoc (.act (.act hp))) (by simp [setPhase]) hh
      (fun u hne => by simp [setPhase, hne, hu u hne])
    refine ⟨ls', c', h1, h2, h3, h4, h5, fun x hx => ?_⟩
    rcases h6 x hx with hx | hx
    · rcases List.mem_append.mp hx with hx | hx
      · exact .inl hx
      · exact .inr (List.mem_singleton.mp hx)
    · exact .inr hx

theorem whole_call {this : Addr} {name : Str} {ls : List (LLabel P)} {c : LConf P} (h : LSteps this name ls c) (hq : Quiet c) (t : Nat)
    (o : Op P) (hv : ∀ p ∈ o.args, (Owner.var t, p) ∈ c.shared.vars)
    (hn : ((bodyL this t o).run (c.shared.enter t o.args)).2.Normal) :
    ∃ ls' c', LSteps this name ls' c' ∧ Quiet c' ∧ c'.shared = Mem.leave t ((bodyL this t o).run (c.shared.enter t o.args)).1 ∧
      ∀ u o', .mon (.call u o') ∈ ls' → .mon (.call u o') ∈ ls ∨ o' = (t, o) := by
  have h1 := h.snoc (.call (hq.phase t) hv)
  have h2 := h1.snoc (.lock (t := t) (o := o) (.lock (o := (t, o)) (by simp [setPhase]) hq.holder) (by simp [setPhase]))
  obtain ⟨ls', c', h3, hp, hh, hu, hs, hl⟩ := run_body (t := t) (o := (t, o)) (bodyL this t o) _ _ h2 (by simp [setPhase]) rfl
    (fun u hne => by simp [setPhase, hne, hq.phase u])
  have h4 := h3.snoc (.unlock (.unlock hp) hn)
  have h5 := h4.snoc (.ret (t := t) (o := (t, o)) (r := ((bodyL this t o).run (c.shared.enter t o.args)).2) (by simp [setPhase]))
  refine ⟨_, _, h5, ⟨rfl, fun u => ?_⟩, ?_, fun u o' hm => ?_⟩
  · by_cases e : u = t
    · simp [setPhase, e]
    · simp [setPhase, e, hu u e]
  · exact congrArg (Mem.leave t) hs
  · rw [List.append_assoc, List.mem_append] at hm
    rcases hm with hm | hm
    · rcases hl _ hm with hm | hm
      · rw [List.append_assoc, List.mem_append] at hm
        rcases hm with hm | hm
        · exact .inl hm
        · simp at hm; exact .inr hm.2
      · cases hm
    · simp at hm

end SoDa.Mail
