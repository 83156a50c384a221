import Verif.Proof.MonitorFair
import Verif.Props.MailBox
/-!
C120: with a fair scheduler every call of a method of a mailbox returns, and every message is received by those who keep asking.
-/
namespace SoDa.Mail
open Spec Monitor

variable {P : Type} {this : Addr} {name : Str}
variable {σ : Nat → Conf Nat (Box P) (Op P) (Resp P)} {act : Nat → Option (Label Nat (Op P) (Resp P))}

/-- C120: all calls that a thread has made up to any time return, in order, however many threads use the mailbox, and whatever they do. -/
theorem C120_returns (h : Forever (body this) (Box.new name) σ act) (hf : FairWork (body this) σ act) (t i : Nat) :
    ∃ j, i ≤ j ∧ callsOf t (upTo act i) <+: (returnsOf t (upTo act j)).map (·.1) :=
  calls_return h hf i t

theorem since_append (p : Event P → Bool) (a b : List (Event P)) (hb : ∀ e ∈ b, p e = false) : since p (a ++ b) = since p a ++ b := by
  unfold since
  rw [List.reverse_append, List.takeWhile_append_of_pos]
  · simp
  · intro e he
    rw [hb e (List.mem_reverse.1 he)]
    rfl

theorem run_last {b0 b : Box P} {tr : List (Event P)} {e : Event P} (h : Run this b0 (tr ++ [e]) b) :
    ∃ b', Run this b0 tr b' ∧ exec this b' e.op = (b, e.resp) := by
  generalize htr : tr ++ [e] = tr' at h
  cases h with
  | nil => simp at htr
  | snoc h he hn =>
    obtain ⟨h1, h2⟩ := List.append_inj' htr rfl
    cases h2
    subst h1
    exact ⟨_, h, he⟩

/-- Subscriptions are handed out once. -/
theorem subscribed_once {tr tr' : List (Event P)} {b : Box P} (h : Run this (Box.new name) (tr ++ tr') b) {s : Int}
    (hs : ∃ e ∈ tr, Subscribes s e = true) : ∀ e ∈ tr', Subscribes s e = false := by
  intro e he
  refine Bool.eq_false_iff.2 fun hc => ?_
  have hnd := (C45_ids this name _ b h).2
  unfold idsGiven at hnd
  rw [List.filterMap_append] at hnd
  have hmem : ∀ l : List (Event P), (∃ e ∈ l, Subscribes s e = true) → s ∈ l.filterMap (fun e => match e.resp with
      | .sub s => some s.idx
      | _ => none) := by
    rintro l ⟨e, he, hse⟩
    obtain ⟨s', h1, h2⟩ := subscribes_iff.1 hse
    refine List.mem_filterMap.2 ⟨e, he, ?_⟩
    rw [h1, ← h2]
  exact (List.disjoint_of_nodup_append hnd) (hmem tr hs) (hmem tr' ⟨e, he, hc⟩)

/-- C120: if somebody asks for the messages of a subscription again and again, and the subscription is not ended and not cleared, then
every message sent to it (since it was made) is received, all in the order in which they were sent. -/
theorem C120_delivered (h : Forever (body this) (Box.new name) σ act) (hf : FairWork (body this) σ act)
    (hN : ∀ i, ∀ e ∈ completed (upTo act i), e.2.2.Normal) (hnn : ∀ i, NoNull (historyOf (upTo act i))) (s : Int)
    (hkeep : ∀ i, ∀ e ∈ historyOf (upTo act i), Ends s e = false ∧ Clears s e = false)
    (hget : ∀ i, ∃ j, i ≤ j ∧ ∃ t, act j = some (.call t (.get (some ⟨this, s⟩)))) (i : Nat)
    (hl : Live s (historyOf (upTo act i))) :
    ∃ j, i ≤ j ∧ sentTo s (historyOf (upTo act i)) <+: received s (historyOf (upTo act j)) := by
  have hconc : ∀ j, Concurrent this name (upTo act j) (σ j) := fun j => ⟨forever_steps h j, hN j⟩
  have hext : ∀ j k, i ≤ j → j ≤ k → ∃ ext, sinceFresh s (historyOf (upTo act k)) = sinceFresh s (historyOf (upTo act j)) ++ ext ∧
      historyOf (upTo act k) = historyOf (upTo act j) ++ ext := by
    intro j k hij hjk
    obtain ⟨l, hl'⟩ := upTo_prefix act hjk
    obtain ⟨l0, hl0⟩ := upTo_prefix act hij
    have he : historyOf (upTo act k) = historyOf (upTo act j) ++ historyOf l := by
      rw [historyOf, hl', completed_append]; simp [historyOf, history]
    have he0 : historyOf (upTo act j) = historyOf (upTo act i) ++ historyOf l0 := by
      rw [historyOf, hl0, completed_append]; simp [historyOf, history]
    refine ⟨historyOf l, ?_, he⟩
    rw [he]
    apply since_append
    intro e hel
    obtain ⟨b, hr, -⟩ := sequential (hconc k)
    rw [he] at hr
    have h1 : Subscribes s e = false := subscribed_once hr (by
      obtain ⟨e0, h1, h2⟩ := hl.1
      exact ⟨e0, by rw [he0]; exact List.mem_append_left _ h1, h2⟩) e hel
    have h2 := (hkeep k e (by rw [he]; exact List.mem_append_right _ hel)).2
    rw [h1, h2]; rfl
  have hlive : ∀ j, i ≤ j → Live s (historyOf (upTo act j)) := by
    intro j hij
    obtain ⟨ext, -, he⟩ := hext i j (Nat.le_refl _) hij
    obtain ⟨e0, h1, h2⟩ := hl.1
    exact ⟨⟨e0, by rw [he]; exact List.mem_append_left _ h1, h2⟩, fun e he' => (hkeep j e he').1⟩
  have hsent : ∀ j, i ≤ j → sentTo s (historyOf (upTo act i)) <+: sentTo s (historyOf (upTo act j)) := by
    intro j hij
    obtain ⟨ext, he, -⟩ := hext i j (Nat.le_refl _) hij
    unfold sentTo
    rw [he, List.filterMap_append]
    exact List.prefix_append _ _
  suffices hm : ∀ m, m ≤ (sentTo s (historyOf (upTo act i))).length → ∃ j, i ≤ j ∧ m ≤ (received s (historyOf (upTo act j))).length by
    obtain ⟨j, hij, hj⟩ := hm _ (Nat.le_refl _)
    exact ⟨j, hij, List.prefix_of_prefix_length_le (hsent j hij) (C40_prefix this name _ _ (hconc j) s (hlive j hij)) hj⟩
  intro m
  induction m with
  | zero => intro _; exact ⟨i, Nat.le_refl _, Nat.zero_le _⟩
  | succ m ih =>
    intro hm
    obtain ⟨j, hij, hj⟩ := ih (by omega)
    obtain ⟨k, hjk, t, hk⟩ := hget j
    have hs := h.some k _ hk
    have hp : (σ (k + 1)).phase t = .wants (.get (some ⟨this, s⟩)) := by
      generalize σ (k + 1) = c' at hs
      cases hs with
      | call hq => exact setPhase_self _ _ _
    obtain ⟨l, r, hkl, hl', -⟩ := will_complete h hf (k + 1) t _ hp
    obtain ⟨ext, he, -⟩ := hext j l hij (by omega)
    have hmono : (received s (historyOf (upTo act j))).length ≤ (received s (historyOf (upTo act l))).length := by
      unfold received
      rw [he, List.filterMap_append, List.length_append]
      omega
    have hil : i ≤ l := by omega
    by_cases hgot : m + 1 ≤ (received s (historyOf (upTo act l))).length
    · exact ⟨l, hil, hgot⟩
    · have hlast : historyOf (upTo act (l + 1)) = historyOf (upTo act l) ++ [⟨t, .get (some ⟨this, s⟩), r⟩] := by
        rw [historyOf, upTo_succ, hl', completed_append]
        simp [completed, history, historyOf]
      obtain ⟨b, hr, -⟩ := sequential (hconc (l + 1))
      rw [hlast] at hr
      obtain ⟨b', hr', hx⟩ := run_last hr
      have hg := C40_get this name _ b' hr' (hnn l) s (hlive l hil)
      rw [hx] at hg
      have hlen := (hsent l hil).length_le
      obtain ⟨p, hp⟩ : ∃ p, (outstanding s (historyOf (upTo act l))).head? = some p := by
        cases ho : outstanding s (historyOf (upTo act l)) with
        | nil =>
          have := congrArg List.length ho
          rw [outstanding, List.length_drop, List.length_nil] at this
          omega
        | cons p _ => exact ⟨p, rfl⟩
      rw [hp] at hg
      dsimp only at hg
      subst hg
      refine ⟨l + 1, by omega, ?_⟩
      rw [hlast]
      unfold received sinceFresh
      rw [since_append _ _ _ (by simp [Subscribes, Clears]), List.filterMap_append, List.length_append]
      have : [(⟨t, .get (some ⟨this, s⟩), .msg (some p)⟩ : Event P)].filterMap (gives s) = [p] := by simp [gives]
      rw [this]
      unfold received sinceFresh at hmono hj
      simp only [List.length_singleton]
      omega

/-! ### A fair execution

A thread subscribes, sends 7 and gets it; then it asks for messages forever. -/

def fairTrace : List (Event Nat) :=
  [⟨1, .subscribe, .sub ⟨5, 0⟩⟩, ⟨1, .put (some 7) none, .done⟩, ⟨1, .get (some ⟨5, 0⟩), .msg (some 7)⟩]

def fairBox : Box Nat := ⟨"m".toList, [(0, [])], 1⟩

theorem fair_run : Run 5 (Box.new "m".toList) fairTrace fairBox :=
  .snoc (tr := [_, _]) (.snoc (tr := [_]) (.snoc (tr := []) .nil rfl trivial) rfl trivial) rfl trivial

theorem C120_example : ∃ (σ : Nat → Conf Nat (Box Nat) (Op Nat) (Resp Nat)) (act : Nat → Option (Label Nat (Op Nat) (Resp Nat))),
    Forever (body 5) (Box.new "m".toList) σ act ∧ FairWork (body 5) σ act ∧
      (∀ i, ∀ e ∈ completed (upTo act i), e.2.2.Normal) ∧ (∀ i, NoNull (historyOf (upTo act i))) ∧
      (∀ i, ∀ e ∈ historyOf (upTo act i), Ends 0 e = false ∧ Clears 0 e = false) ∧
      (∀ i, ∃ j, i ≤ j ∧ ∃ t, act j = some (.call t (.get (some ⟨5, 0⟩)))) ∧
      ∃ i, Live 0 (historyOf (upTo act i)) ∧ sentTo 0 (historyOf (upTo act i)) = [7] := by
  obtain ⟨h1, -⟩ := run_serial (wf_new _) fair_run
  obtain ⟨ls, c, g1, g2, g3, g4, g5⟩ := serial_steps h1
  have hc : c = Conf.init fairBox := by
    obtain ⟨a, b, f⟩ := c
    simp only at g3 g4 g5
    subst g3 g4
    rw [Conf.init, Conf.mk.injEq]
    exact ⟨rfl, rfl, funext g5⟩
  subst hc
  obtain ⟨cyc, c, k1, k2, k3, k4, k5⟩ := serial_steps (T := Nat) (body := body 5) (s0 := fairBox) (s := fairBox)
    (es := [] ++ [(1, .get (some ⟨5, 0⟩), .msg none)]) (.snoc .nil rfl)
  have hc : c = Conf.init fairBox := by
    obtain ⟨a, b, f⟩ := c
    simp only at k3 k4 k5
    subst k3 k4
    rw [Conf.init, Conf.mk.injEq]
    exact ⟨rfl, rfl, funext k5⟩
  subst hc
  obtain ⟨σ, act, hF, hfair, ha1, ha2⟩ := lasso g1 k1 (by rintro rfl; cases k2)
  have hpos : 0 < cyc.length := List.length_pos_iff.2 (by rintro rfl; cases k2)
  -- every step is one of those of the two finite executions
  have hact : ∀ j l, act j = some l → l ∈ ls ∨ l ∈ cyc := by
    intro j l hl
    by_cases hj : j < ls.length
    · rw [ha1 j hj] at hl
      exact .inl (List.mem_of_getElem? hl)
    · have := ha2 ((j - ls.length) / cyc.length) ((j - ls.length) % cyc.length) (Nat.mod_lt _ hpos)
      have he : ls.length + (j - ls.length) / cyc.length * cyc.length + (j - ls.length) % cyc.length = j := by
        have := Nat.div_add_mod (j - ls.length) cyc.length
        rw [Nat.mul_comm] at this
        omega
      rw [he, hl] at this
      exact .inr (List.mem_of_getElem? this.symm)
  have hcomp : ∀ i, ∀ e ∈ completed (upTo act i), e ∈ fairTrace.map (fun e => (e.thread, e.op, e.resp)) ++
      [(1, .get (some ⟨5, 0⟩), .msg none)] := by
    intro i e he
    obtain ⟨l, hl, hle⟩ := List.mem_filterMap.1 he
    obtain ⟨j, -, hj⟩ := List.mem_filterMap.1 hl
    rcases hact j l hj with h | h
    · exact List.mem_append_left _ (by rw [← g2]; exact List.mem_filterMap.2 ⟨l, h, hle⟩)
    · exact List.mem_append_right _ (by rw [List.nil_append] at k2; rw [← k2]; exact List.mem_filterMap.2 ⟨l, h, hle⟩)
  have hhist : ∀ i, ∀ e ∈ historyOf (upTo act i), e ∈ fairTrace ++ [⟨1, .get (some ⟨5, 0⟩), .msg none⟩] := by
    intro i e he
    obtain ⟨x, hx, rfl⟩ := List.mem_map.1 he
    have := hcomp i x hx
    simp only [fairTrace, List.map_cons, List.map_nil, List.cons_append, List.nil_append, List.mem_cons, List.not_mem_nil,
      or_false] at this ⊢
    rcases this with rfl | rfl | rfl | rfl <;> simp
  have hup : upTo act ls.length = ls := by
    have : ∀ n, n ≤ ls.length → upTo act n = ls.take n := by
      intro n
      induction n with
      | zero => intro _; rfl
      | succ n ih =>
        intro hn
        rw [upTo_succ, ih (by omega), ha1 n (by omega), List.take_add_one]
    rw [this _ (Nat.le_refl _), List.take_length]
  refine ⟨σ, act, hF, hfair, ?_, ?_, ?_, ?_, ls.length, ?_⟩
  · intro i e he
    have := hcomp i e he
    simp only [fairTrace, List.map_cons, List.map_nil, List.cons_append, List.nil_append, List.mem_cons, List.not_mem_nil,
      or_false] at this
    rcases this with rfl | rfl | rfl | rfl <;> trivial
  · intro i e he subs
    have := hhist i e he
    simp only [fairTrace, List.cons_append, List.nil_append, List.mem_cons, List.not_mem_nil, or_false] at this
    rcases this with rfl | rfl | rfl | rfl <;> simp
  · intro i e he
    have : ∀ e ∈ fairTrace ++ [⟨1, .get (some ⟨5, 0⟩), .msg none⟩], Ends 0 e = false ∧ Clears 0 e = false := by decide
    exact this e (hhist i e he)
  · intro i
    have hcall := (thread_order k1 1).2
    simp only [completedOf, k2, Conf.init, pendingCall, List.append_nil, List.nil_append, List.filterMap_cons, List.filterMap_nil,
      if_true, List.map_cons, List.map_nil] at hcall
    have hmem : (Op.get (some ⟨5, 0⟩) : Op Nat) ∈ callsOf 1 cyc := by rw [hcall]; simp
    obtain ⟨l, hl, hle⟩ := List.mem_filterMap.1 hmem
    obtain ⟨k, hk⟩ := List.mem_iff_getElem?.1 hl
    have hlt : k < cyc.length := (List.getElem?_eq_some_iff.1 hk).1
    refine ⟨ls.length + i * cyc.length + k, ?_, 1, ?_⟩
    · have : i * 1 ≤ i * cyc.length := Nat.mul_le_mul_left _ hpos
      omega
    · rw [ha2 i k hlt, hk]
      cases l <;> simp at hle
      obtain ⟨rfl, rfl⟩ := hle
      rfl
  · have : historyOf (upTo act ls.length) = fairTrace := by
      rw [hup, historyOf, g2]; rfl
    rw [this]
    exact ⟨⟨by decide, by decide⟩, by decide⟩

end SoDa.Mail
