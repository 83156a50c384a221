import Verif.Proof.MailBoxLife
/-!
The mailbox of a program with messages as objects behaves as the mailbox of `Model/MailBox.lean`.
-/
namespace SoDa.Mail
open Spec
open Monitor (Body Conf Phase setPhase)

variable {P : Type} [DecidableEq P]

/-- The bodies do the same with the mailbox. -/
def BSim : Body (Mem P) (Resp P) → Body (Box P) (Resp P) → (Box P → Prop) → Prop
  | .ret r, .ret r', _ => r = r'
  | .act f k, .act g k', Pre => ∀ m : Mem P, Sorted intLess m.box.queues → Pre m.box →
      (f m).box = g m.box ∧ ∃ Pre' : Box P → Prop, Pre' (f m).box ∧ BSim (k m) (k' m.box) Pre'
  | _, _, _ => False

omit [DecidableEq P] in
theorem bsim_look {k : Box P → Body (Mem P) (Resp P)} {k' : Box P → Body (Box P) (Resp P)} {Pre : Box P → Prop}
    (h : ∀ b, BSim (k b) (k' b) (fun b' => b' = b)) : BSim (lookL k) (look k') Pre :=
  fun m _ _ => ⟨rfl, (fun b' => b' = m.box), rfl, h m.box⟩

omit [DecidableEq P] in
theorem bsim_onRes {α : Type} {r : Res Err α} {k : α → Body (Mem P) (Resp P)} {k' : α → Body (Box P) (Resp P)} {Pre : Box P → Prop}
    (h : ∀ a, r = .ok a → BSim (k a) (k' a) Pre) : BSim (onResL r k) (onRes r k') Pre := by
  cases r with
  | ok a => exact h a rfl
  | throw e => exact rfl
  | ub => exact rfl

omit [DecidableEq P] in
/-- A queue of the map is replaced. -/
theorem map_queue {qs : List (Int × List (Option P))} (hs : Sorted intLess qs) (k : Int) (g : List (Option P) → List (Option P)) :
    (qs.map fun kq => if kq.1 = k then (kq.1, g kq.2) else kq) =
      match mapFind intLess k qs with
      | none => qs
      | some q => mapSet intLess k (g q) qs := by
  cases hf : mapFind intLess k qs with
  | none =>
    refine (List.map_congr_left fun kq hk => ?_).trans (List.map_id _)
    rw [if_neg]
    · rfl
    · rintro rfl
      rw [(mapFind_mem intLess_order kq.1 kq.2 _ hs).2 hk] at hf
      cases hf
  | some q =>
    show _ = mapSet intLess k (g q) qs
    rw [mapSet_present intLess_order hs hf]
    refine List.map_congr_left fun kq hk => ?_
    by_cases h : kq.1 = k
    · subst h
      rw [(mapFind_mem intLess_order kq.1 kq.2 _ hs).2 hk] at hf
      cases hf
      simp
    · simp [h]

theorem box_pushAt {m : Mem P} (hs : Sorted intLess m.box.queues) (k : Int) (msg : Option P) :
    (m.pushAt k msg).box = { m.box with queues := m.box.queues.map fun kq => if kq.1 = k then (kq.1, kq.2 ++ [msg]) else kq } := by
  rw [map_queue hs k (fun q => q ++ [msg])]
  unfold Mem.pushAt
  cases mapFind intLess k m.box.queues <;> rfl

omit [DecidableEq P] in
theorem map_tail_nil {qs : List (Int × List (Option P))} (hs : Sorted intLess qs) {k : Int} (hf : mapFind intLess k qs = some []) :
    mapSet intLess k [] qs = qs := by
  rw [mapSet_present intLess_order hs hf]
  refine (List.map_congr_left fun kq hk => ?_).trans (List.map_id _)
  by_cases h : kq.1 = k
  · subst h
    rw [(mapFind_mem intLess_order kq.1 kq.2 _ hs).2 hk] at hf
    rw [if_pos rfl, ← Option.some.inj hf]; rfl
  · simp [h]

theorem box_popAt {m : Mem P} (hs : Sorted intLess m.box.queues) (k : Int) :
    (m.popAt k).box = { m.box with queues := m.box.queues.map fun kq => if kq.1 = k then (kq.1, kq.2.tail) else kq } := by
  rw [map_queue hs k List.tail]
  unfold Mem.popAt
  cases hf : mapFind intLess k m.box.queues with
  | none => rfl
  | some q =>
    cases q with
    | nil => show m.box = { m.box with queues := mapSet intLess k [] m.box.queues }; rw [map_tail_nil hs hf]
    | cons x q => exact (decO_same _ _ _).1

theorem box_takeAt {m : Mem P} (hs : Sorted intLess m.box.queues) (t : Nat) (k : Int) :
    (m.takeAt t k).box = { m.box with queues := m.box.queues.map fun kq => if kq.1 = k then (kq.1, kq.2.tail) else kq } := by
  rw [map_queue hs k List.tail]
  unfold Mem.takeAt
  cases hf : mapFind intLess k m.box.queues with
  | none => rfl
  | some q =>
    cases q with
    | nil => show m.box = { m.box with queues := mapSet intLess k [] m.box.queues }; rw [map_tail_nil hs hf]
    | cons x q => exact (decO_same _ _ _).1

omit [DecidableEq P] in
theorem bsim_mono {b : Body (Mem P) (Resp P)} {b' : Body (Box P) (Resp P)} {Pre Pre' : Box P → Prop} (h : ∀ x, Pre' x → Pre x)
    (hs : BSim b b' Pre) : BSim b b' Pre' := by
  cases b <;> cases b'
  · exact hs
  · exact hs
  · exact hs
  · exact fun m hm hp => hs m hm (h _ hp)

theorem bsim_pushLoop (msg : Option P) (omit_key : Int) : ∀ (ks : List Int) (Pre : Box P → Prop),
    BSim (pushLoopL msg omit_key ks) (pushLoop msg omit_key ks) Pre := by
  intro ks
  induction ks with
  | nil => exact fun _ => rfl
  | cons k ks ih =>
    intro Pre
    unfold pushLoopL pushLoop
    by_cases h : k ≠ omit_key
    · rw [if_pos h, if_pos h]
      exact fun m hs _ => ⟨box_pushAt hs k msg, fun _ => True, trivial, ih _⟩
    · rw [if_neg h, if_neg h]
      exact ih Pre

theorem bsim_popLoop (i : Int) {fin : Body (Mem P) (Resp P)} {fin' : Body (Box P) (Resp P)} (hf : ∀ Pre, BSim fin fin' Pre) :
    ∀ (n : Nat) (Pre : Box P → Prop), BSim (popLoopL i fin n) (popLoop i fin' n) Pre := by
  intro n
  induction n with
  | zero => exact hf
  | succ n ih => exact fun Pre m hs _ => ⟨box_popAt hs i, fun _ => True, trivial, ih _⟩

theorem bsim_minLoop : ∀ (ks : List Int) (ret : Nat) (Pre : Box P → Prop), BSim (minLoopL ret ks) (minLoop ret ks) Pre := by
  intro ks
  induction ks with
  | nil => exact fun _ _ => rfl
  | cons k ks ih =>
    intro ret Pre m hs _
    refine ⟨(decs_same _ _ _).1.trans (incs_same _ _).1, fun _ => True, trivial, ?_⟩
    show BSim (match mapFind intLess k m.box.queues with | none => _ | some q => _) (match mapFind intLess k m.box.queues with | none => _ | some q => _) _
    cases mapFind intLess k m.box.queues with
    | none => exact ih _ _
    | some q => exact ih _ _

theorem bsim_unsub (i : Int) (failed : Err → Resp P) (Pre : Box P → Prop) : BSim (unsubBodyL i failed) (unsubBody i failed) Pre := by
  refine bsim_look fun b => ?_
  cases b.getQueueI i with
  | ok q =>
    refine bsim_popLoop (fin := .act (Mem.eraseAt i) fun _ => .ret .done)
      (fin' := .act (fun b => { b with queues := mapErase intLess i b.queues }) fun _ => .ret .done) i ?_ q.length _
    exact fun _ m _ _ => ⟨(decs_same _ _ _).1, fun _ => True, trivial, rfl⟩
  | throw e => exact rfl
  | ub => exact rfl

theorem bsim_body (this : Addr) (t : Nat) (o : Op P) (Pre : Box P → Prop) : BSim (bodyL this t o) (body this o) Pre := by
  cases o with
  | subscribe =>
    unfold bodyL body
    refine bsim_look fun b => ?_
    rintro m hs rfl
    refine ⟨(decs_same _ _ _).1, fun _ => True, trivial, ?_⟩
    by_cases h : m.box.counter = 2147483647
    · rw [if_pos h, if_pos h]; exact rfl
    · rw [if_neg h, if_neg h]
      exact fun m' _ _ => ⟨rfl, fun _ => True, trivial, rfl⟩
  | get subs =>
    unfold bodyL body
    refine bsim_look fun b => bsim_onRes fun a ha => ?_
    obtain ⟨idx, q⟩ := a
    cases q with
    | nil => exact rfl
    | cons x q => exact fun m hs _ => ⟨box_takeAt hs t idx, fun _ => True, trivial, rfl⟩
  | put msg subs =>
    unfold bodyL body
    exact bsim_look fun b => bsim_onRes fun a ha => bsim_look fun b => bsim_pushLoop msg a _ _
  | readyCount subs =>
    unfold bodyL body
    exact bsim_look fun b => bsim_onRes fun a ha => rfl
  | minReadyCount =>
    unfold bodyL body
    exact bsim_look fun b => bsim_minLoop _ _ _
  | clear subs =>
    unfold bodyL body
    refine bsim_look fun b => bsim_onRes fun a ha => ?_
    exact bsim_popLoop (fin := .ret .done) (fin' := .ret .done) a.1 (fun _ => rfl) a.2.length _
  | unsubscribe k => exact bsim_unsub k _ Pre
  | subscriberCount =>
    unfold bodyL body
    exact bsim_look fun b => rfl
  | drop s => exact bsim_unsub s.idx _ Pre

/-! ### Executions -/

/-- The threads are at the same place. -/
def PSim (b : Box P) : Phase (Mem P) (Nat × Op P) (Resp P) → Phase (Box P) (Op P) (Resp P) → Prop
  | .idle, .idle => True
  | .wants o, .wants o' => o.2 = o'
  | .runs o x, .runs o' x' => o.2 = o' ∧ ∃ Pre : Box P → Prop, Pre b ∧ BSim x x' Pre
  | .leaving o r, .leaving o' r' => o.2 = o' ∧ r = r'
  | _, _ => False

structure Sim (c : LConf P) (c1 : Conf Nat (Box P) (Op P) (Resp P)) : Prop where
  shared : c1.shared = c.shared.box
  holder : c1.holder = c.holder
  phase : ∀ t, PSim c.shared.box (c.phase t) (c1.phase t)

omit [DecidableEq P] in
theorem psim_other {b b' : Box P} {x : Phase (Mem P) (Nat × Op P) (Resp P)} {y : Phase (Box P) (Op P) (Resp P)} (h : PSim b x y)
    (hx : ∀ o d, x ≠ .runs o d) : PSim b' x y := by
  cases x with
  | runs o d => exact absurd rfl (hx o d)
  | idle => cases y <;> exact h
  | wants o => cases y <;> exact h
  | leaving o r => cases y <;> exact h

omit [DecidableEq P] in
theorem psim_set {b : Box P} {f : Nat → Phase (Mem P) (Nat × Op P) (Resp P)} {g : Nat → Phase (Box P) (Op P) (Resp P)} {t : Nat}
    {x : Phase (Mem P) (Nat × Op P) (Resp P)} {y : Phase (Box P) (Op P) (Resp P)} (hxy : PSim b x y)
    (h : ∀ u, u ≠ t → PSim b (f u) (g u)) (u : Nat) : PSim b (setPhase f t x u) (setPhase g t y u) := by
  unfold setPhase
  by_cases e : u = t
  · rw [if_pos e, if_pos e]; exact hxy
  · rw [if_neg e, if_neg e]; exact h u e

theorem sim_step {this : Addr} {c c' : LConf P} {l : LLabel P} {c1 : Conf Nat (Box P) (Op P) (Resp P)} (hi : LInv c) (h : Sim c c1)
    (hs : LStep this c l c') : match l.call? with
      | none => Sim c' c1
      | some l' => ∃ c1', Monitor.Step (body this) c1 l' c1' ∧ Sim c' c1' := by
  have hprog : ∀ m : Mem P, m.box = c.shared.box → Sim { c with shared := m } c1 := fun m hm =>
    ⟨h.shared.trans hm.symm, h.holder, fun t => by show PSim m.box _ _; rw [hm]; exact h.phase t⟩
  cases hs with
  | make => exact hprog _ rfl
  | copy => exact hprog _ rfl
  | release => exact hprog _ rfl
  | @call t o hidle hp =>
    have hp := h.phase t
    rw [hidle] at hp
    cases h1 : c1.phase t with
    | idle =>
      have h2 := hprog (c.shared.enter t o.args) (incs_same _ _).1
      exact ⟨_, .call h1, h2.shared, h2.holder, psim_set rfl fun u _ => h2.phase u⟩
    | _ => rw [h1] at hp; exact hp.elim
  | @move t o p hidle ha hv =>
    have hp := h.phase t
    rw [hidle] at hp
    cases h1 : c1.phase t with
    | idle =>
      have h2 := hprog { c.shared with vars := (Owner.param t, p) :: c.shared.vars.erase (Owner.var t, p) } rfl
      exact ⟨_, .call h1, h2.shared, h2.holder, psim_set rfl fun u _ => h2.phase u⟩
    | _ => rw [h1] at hp; exact hp.elim
  | lock hs hw =>
    rename_i t o
    cases hs with
    | lock hw' hf =>
      rw [hw] at hw'
      cases hw'
      have hp := h.phase t
      rw [hw] at hp
      cases h1 : c1.phase t with
      | wants o' =>
        rw [h1] at hp
        cases hp
        exact ⟨_, .lock h1 (h.holder.trans hf), h.shared, rfl,
          psim_set ⟨rfl, fun _ => True, trivial, bsim_body this t o _⟩ fun u _ => h.phase u⟩
      | _ => rw [h1] at hp; exact hp.elim
  | act hs =>
    rename_i t
    cases hs with
    | act hw =>
      rename_i o f k
      have hp := h.phase t
      rw [hw] at hp
      cases h1 : c1.phase t with
      | runs o' d =>
        rw [h1] at hp
        obtain ⟨rfl, Pre, hpre, hb⟩ := hp
        cases d with
        | ret r => exact hb.elim
        | act g k' =>
          obtain ⟨he, Pre', hpre', hb'⟩ := hb c.shared hi.counted.sorted hpre
          refine ⟨_, .act h1, ?_, h.holder, psim_set ⟨rfl, Pre', hpre', ?_⟩ fun u hu => ?_⟩
          · show g c1.shared = (f c.shared).box
            rw [he, h.shared]
          · rw [h.shared]; exact hb'
          · refine psim_other (h.phase u) fun o d hd => hu ?_
            have h3 := (hi.own u o d hd).1
            rw [(hi.own t _ _ hw).1] at h3
            exact (Option.some.inj h3).symm
      | _ => rw [h1] at hp; exact hp.elim
  | unlock hs hn =>
    rename_i t o r
    cases hs with
    | unlock hw =>
      have hp := h.phase t
      rw [hw] at hp
      cases h1 : c1.phase t with
      | runs o' d =>
        rw [h1] at hp
        obtain ⟨rfl, Pre, hpre, hb⟩ := hp
        cases d with
        | ret r' =>
          cases hb
          exact ⟨_, .unlock h1, h.shared, rfl, psim_set ⟨rfl, rfl⟩ fun u _ => h.phase u⟩
        | act g k' => exact hb.elim
      | _ => rw [h1] at hp; exact hp.elim
  | @ret t o r hw =>
    have hp := h.phase t
    rw [hw] at hp
    cases h1 : c1.phase t with
    | leaving o' r' =>
      rw [h1] at hp
      obtain ⟨rfl, rfl⟩ := hp
      have h2 := hprog (c.shared.leave t) (leave_same _ _)
      exact ⟨_, .ret h1, h2.shared, h2.holder, psim_set trivial fun u _ => h2.phase u⟩
    | _ => rw [h1] at hp; exact hp.elim

theorem sim {this : Addr} {name : Str} {ls : List (LLabel P)} {c : LConf P} (h : LSteps this name ls c) :
    ∃ c1, Monitor.Steps (body this) (Conf.init (Box.new name)) (ls.filterMap LLabel.call?) c1 ∧ Sim c c1 := by
  induction h with
  | init => exact ⟨_, .nil, rfl, rfl, fun _ => trivial⟩
  | @snoc ls c l c' hs hl ih =>
    obtain ⟨c1, h1, h2⟩ := ih
    have h3 := sim_step (linv hs) h2 hl
    rw [List.filterMap_append]
    cases hc : l.call? with
    | none =>
      rw [hc] at h3
      refine ⟨c1, ?_, h3⟩
      simp only [List.filterMap_cons, hc, List.filterMap_nil, List.append_nil]
      exact h1
    | some l' =>
      rw [hc] at h3
      obtain ⟨c1', h4, h5⟩ := h3
      refine ⟨c1', ?_, h5⟩
      simp only [List.filterMap_cons, hc, List.filterMap_nil]
      exact h1.snoc h4

end SoDa.Mail
