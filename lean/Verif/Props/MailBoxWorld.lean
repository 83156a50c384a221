import Verif.Spec.MailBoxWorld
import Verif.Props.MailBox
/-!
C105: programs with several mailboxes.
-/
namespace SoDa.Mail
open Spec

variable {P : Type}

/-- Histories of a program: one operation after the other, starting without mailboxes. -/
inductive WRun : List (WEvent P) → World P → Prop where
  | nil : WRun [] (fun _ => none)
  | snoc {tr w t o r w'} (h : WRun tr w) (he : w.exec o = (w', r)) (hn : r.Normal) :
      WRun (tr ++ [⟨t, o, r⟩]) w'

theorem nameAt_snoc (a : Addr) (tr : List (WEvent P)) (e : WEvent P) :
    nameAt a (tr ++ [e]) = match e.op with
      | .create a' name => if a' = a then some name else nameAt a tr
      | .destroy a' => if a' = a then none else nameAt a tr
      | _ => nameAt a tr := by
  simp only [nameAt, List.foldl_append, List.foldl_cons, List.foldl_nil]
  cases e.op <;> rfl

theorem eventsAt_snoc (a : Addr) (tr : List (WEvent P)) (e : WEvent P) :
    eventsAt a (tr ++ [e]) = match e.op with
      | .create a' _ => if a' = a then [] else eventsAt a tr
      | .call a' o => if a' = a then eventsAt a tr ++ [⟨e.thread, o, e.resp⟩] else eventsAt a tr
      | .drop s => if s.box = a then eventsAt a tr ++ [⟨e.thread, .drop s, e.resp⟩] else eventsAt a tr
      | .destroy _ => eventsAt a tr := by
  simp only [eventsAt, List.foldl_append, List.foldl_cons, List.foldl_nil]
  cases e.op <;> rfl

theorem set_self (w : World P) (a : Addr) (b : Option (Box P)) : w.set a b a = b := by simp [World.set]

theorem set_other (w : World P) {a a' : Addr} (b : Option (Box P)) (h : a' ≠ a) : w.set a b a' = w a' := by
  simp [World.set, h]

/-- A call that throws leaves the mailbox as it is. -/
theorem exec_threw {this : Addr} {b b' : Box P} {o : Op P} {e : Err}
    (h : exec this b o = (b', .threw e)) : b' = b := by
  have key : ∀ {α : Type} (r : Res Err α) (f : α → Box P × Resp P), (∀ x, (f x).2 ≠ .threw e) →
      ofRes b r f = (b', .threw e) → b' = b := by
    intro α r f hf hr
    cases r with
    | ok x => exact absurd (congrArg Prod.snd hr) (hf x)
    | throw e' => cases hr; rfl
    | ub => cases hr
  cases o with
  | subscribe => exact key _ _ (by simp) h
  | get subs => exact key _ _ (by simp) h
  | put msg subs => exact key _ _ (by simp) h
  | readyCount subs => exact key _ _ (by simp) h
  | minReadyCount => cases h
  | clear subs => exact key _ _ (by simp) h
  | unsubscribe k => exact key _ _ (by simp) h
  | subscriberCount => cases h
  | drop s =>
    simp only [exec] at h
    split at h <;> cases h

/-- What a call on an existing mailbox amounts to. -/
theorem wexec_call {w w' : World P} {a : Addr} {o : Op P} {r : Resp P} (h : w.exec (.call a o) = (w', r))
    (hn : r.Normal) : ∃ b b', w a = some b ∧ exec a b o = (b', r) ∧ ∀ x, w' x = w.set a (some b') x := by
  cases hb : w a with
  | none => simp only [World.exec, hb] at h; cases h; exact hn.elim
  | some b =>
    refine ⟨b, (exec a b o).1, rfl, ?_⟩
    have hsame : ∀ x, w x = w.set a (some b) x := by
      intro x
      by_cases hx : x = a
      · subst hx; rw [set_self, hb]
      · rw [set_other _ _ hx]
    simp only [World.exec, hb] at h
    rcases he : exec a b o with ⟨b', r'⟩
    rw [he] at h
    have other : (w.set a (some b'), r') = (w', r) →
        (b', r') = (b', r) ∧ ∀ x, w' x = w.set a (some b') x := by
      intro h'; cases h'; exact ⟨rfl, fun _ => rfl⟩
    cases r' with
    | threw e =>
      cases e with
      | mismatch m t =>
        have hbb := exec_threw he
        subst hbb
        simp only at h
        split at h
        · cases h; exact ⟨rfl, hsame⟩
        · cases h; exact hn.elim
      | missing n op i => exact other h
    | sub s => exact other h
    | msg m => exact other h
    | count n => exact other h
    | done => exact other h
    | terminate => exact other h
    | ub => exact other h

/-- In every program each mailbox is what the operations on it since its construction have made of
it: it exists from its construction to its destruction, and its state is that of a single mailbox
with this history. -/
theorem C105_separate (tr : List (WEvent P)) (w : World P) (h : WRun tr w) (a : Addr) :
    (w a = none ∧ nameAt a tr = none) ∨
    ∃ b name, w a = some b ∧ nameAt a tr = some name ∧ Run a (Box.new name) (eventsAt a tr) b := by
  induction h with
  | nil => left; exact ⟨rfl, rfl⟩
  | @snoc tr w t o r w' _ he hn ih =>
    rw [nameAt_snoc, eventsAt_snoc]
    cases o with
    | create a' name =>
      simp only [World.exec] at he
      split at he
      · cases he; exact hn.elim
      next h0 =>
      cases he
      simp only
      by_cases ha : a' = a
      · subst ha
        rw [if_pos rfl, if_pos rfl]
        right; exact ⟨_, name, set_self _ _ _, rfl, .nil⟩
      · rw [if_neg ha, if_neg ha, set_other _ _ (Ne.symm ha)]; exact ih
    | destroy a' =>
      simp only [World.exec] at he
      split at he
      next h0 =>
        cases he
        simp only
        by_cases ha : a' = a
        · subst ha
          rw [if_pos rfl]
          left; exact ⟨set_self _ _ _, rfl⟩
        · rw [if_neg ha, set_other _ _ (Ne.symm ha)]; exact ih
      · cases he; exact hn.elim
    | call a' o =>
      obtain ⟨b, b', h1, h2, h3⟩ := wexec_call he hn
      simp only
      rw [h3]
      by_cases ha : a' = a
      · subst ha
        rw [if_pos rfl, set_self]
        rcases ih with ⟨e, _⟩ | ⟨b0, name, e1, e2, e3⟩
        · rw [h1] at e; cases e
        · rw [h1] at e1
          cases e1
          right; exact ⟨b', name, rfl, e2, .snoc e3 h2 hn⟩
      · rw [if_neg ha, set_other _ _ (Ne.symm ha)]; exact ih
    | drop s =>
      simp only [World.exec] at he
      split at he
      · cases he; exact hn.elim
      next b hb =>
      rcases hx : exec s.box b (.drop s) with ⟨b', r'⟩
      rw [hx] at he
      simp only at he
      cases he
      simp only
      by_cases ha : s.box = a
      · subst ha
        rw [if_pos rfl, set_self]
        rcases ih with ⟨e, _⟩ | ⟨b0, name, e1, e2, e3⟩
        · rw [hb] at e; cases e
        · rw [hb] at e1
          cases e1
          right; exact ⟨b', name, rfl, e2, .snoc e3 hx hn⟩
      · rw [if_neg ha, set_other _ _ (Ne.symm ha)]; exact ih

/-- Whatever the program did before, a subscription that goes away while no mailbox exists at its
address is undefined behaviour, and so is a call. -/
theorem C47_after_destruction (tr : List (WEvent P)) (w : World P) (h : WRun tr w) (a : Addr) (s : Sub)
    (o : Op P) (hs : s.box = a) (hd : nameAt a tr = none) :
    (w.exec (.drop s)).2 = .ub ∧ (w.exec (.call a o)).2 = .ub := by
  subst hs
  rcases C105_separate tr w h s.box with ⟨h1, _⟩ | ⟨_, _, _, h2, _⟩
  · constructor
    · simp only [World.exec, h1]
    · simp only [World.exec, h1]
  · rw [hd] at h2; cases h2

/-- The claim: whoever presents a subscription to a mailbox that did not hand it out is refused. -/
def C105_claim (P : Type) : Prop :=
  ∀ (tr : List (WEvent P)) (w : World P), WRun tr w → ∀ (a : Addr) (s : Sub) (o : Op P) (w' : World P) (r : Resp P),
    (∃ e ∈ tr, e.resp = .sub s) → (∀ e ∈ eventsAt a tr, e.resp ≠ .sub s) → Presents s o →
    w.exec (.call a o) = (w', r) → r.Normal → r = .threw (.mismatch a s.box) ∧ w' = w

theorem presents_elsewhere {w w' : World P} {a : Addr} {s : Sub} {o : Op P} {r : Resp P} (hne : a ≠ s.box)
    (ho : Presents s o) (he : w.exec (.call a o) = (w', r)) (hn : r.Normal) :
    r = .threw (.mismatch a s.box) ∧ w' = w := by
  have hg : getIndex a (some s) = .throw (.mismatch a s.box) := by simp [getIndex, hne]
  cases hb : w a with
  | none => simp only [World.exec, hb] at he; cases he; exact hn.elim
  | some b =>
    have : Mail.exec a b o = (b, .threw (.mismatch a s.box)) := by
      cases o <;> simp only [Presents] at ho <;> subst ho
      · simp [Mail.exec, Box.get, Box.getQueue, hg, ofRes]
      · simp [Mail.exec, Box.put, hg, ofRes]
      · simp [Mail.exec, Box.readyCount, Box.getQueue, hg, ofRes]
      · simp [Mail.exec, Box.clear, Box.getQueue, hg, ofRes]
    simp only [World.exec, hb, this] at he
    split at he
    · cases he; exact ⟨rfl, rfl⟩
    · cases he; exact hn.elim

/-- A subscription carries the address of the mailbox that handed it out. -/
theorem handed_out {tr : List (WEvent P)} {w : World P} (h : WRun tr w) :
    ∀ e ∈ tr, ∀ s, e.resp = .sub s → ∃ o, e.op = .call s.box o := by
  induction h with
  | nil => simp
  | @snoc tr w t o r w' _ he hn ih =>
    intro e hmem s hs
    rcases List.mem_append.1 hmem with hm | hm
    · exact ih e hm s hs
    · rw [List.mem_singleton.1 hm] at hs ⊢
      simp only at hs
      subst hs
      cases o with
      | create a' name => simp only [World.exec] at he; split at he <;> cases he
      | destroy a' => simp only [World.exec] at he; split at he <;> cases he
      | drop s' =>
        simp only [World.exec] at he
        split at he
        · cases he
        next b hb =>
        have h2 : (exec s'.box b (.drop s')).2 = .sub s := congrArg Prod.snd he
        simp only [exec] at h2
        split at h2 <;> cases h2
      | call a o =>
        obtain ⟨b, b', h1, h2, h3⟩ := wexec_call he hn
        refine ⟨o, ?_⟩
        have key : ∀ {α : Type} (x : Res Err α) (f : α → Box P × Resp P), (∀ x, (f x).2 ≠ .sub s) →
            ofRes b x f = (b', .sub s) → False := by
          intro α x f hf hr
          cases x with
          | ok x => exact hf x (congrArg Prod.snd hr)
          | throw e' => cases hr
          | ub => cases hr
        cases o with
        | subscribe =>
          simp only [exec, Box.subscribe] at h2
          split at h2
          · cases h2
          · cases h2; rfl
        | get subs => exact (key _ _ (by simp) h2).elim
        | put msg subs => exact (key _ _ (by simp) h2).elim
        | readyCount subs => exact (key _ _ (by simp) h2).elim
        | minReadyCount => cases h2
        | clear subs => exact (key _ _ (by simp) h2).elim
        | unsubscribe k => exact (key _ _ (by simp) h2).elim
        | subscriberCount => cases h2
        | drop s' => simp only [exec] at h2; split at h2 <;> cases h2

/-- If no address is used twice, a subscription that the address handed out was handed out since the
construction of its mailbox. -/
theorem kept_since {tr : List (WEvent P)} {w : World P} (h : WRun tr w) (hf : FreshAddresses tr) :
    ∀ e ∈ tr, ∀ a o, e.op = .call a o → ∃ e' ∈ eventsAt a tr, e'.resp = e.resp := by
  induction h with
  | nil => simp
  | @snoc tr w t o r w' hw he hn ih =>
    have hf' : FreshAddresses tr := by
      intro tr1 e tr2 a name h1 h2
      exact hf tr1 e (tr2 ++ [⟨t, o, r⟩]) a name (by rw [h1]; simp) h2
    intro e hmem a o' heo
    rw [eventsAt_snoc]
    rcases List.mem_append.1 hmem with hm | hm
    · obtain ⟨e', h1, h2⟩ := ih hf' e hm a o' heo
      cases o with
      | create a' name =>
        simp only
        rw [if_neg]
        · exact ⟨e', h1, h2⟩
        · rintro rfl
          -- something was called at this address, so a mailbox was constructed there before
          have hcr : ∀ {tr : List (WEvent P)} {w : World P}, WRun tr w → ∀ a, (w a).isSome ∨ (∃ e ∈ tr, ∃ o, e.op = .call a o) →
              ∃ e ∈ tr, ∃ n, e.op = .create a n := by
            intro tr w hw
            induction hw with
            | nil => rintro a (h | ⟨e, he, _⟩); cases h; cases he
            | @snoc tr w t o r w' hw he hn ih =>
              intro a ha
              by_cases hc : ∃ n, o = .create a n
              · obtain ⟨n, rfl⟩ := hc
                exact ⟨_, List.mem_append_right _ (List.mem_singleton.2 rfl), n, rfl⟩
              · have hpre : (w a).isSome ∨ ∃ e ∈ tr, ∃ o, e.op = .call a o := by
                  have hsome : (w' a).isSome → (w a).isSome := by
                    intro hs
                    cases o with
                    | create a' name =>
                      simp only [World.exec] at he
                      split at he
                      · cases he; exact hn.elim
                      · cases he
                        have : a ≠ a' := by rintro rfl; exact hc ⟨name, rfl⟩
                        rw [set_other _ _ this] at hs; exact hs
                    | destroy a' =>
                      simp only [World.exec] at he
                      split at he
                      · cases he
                        by_cases haa : a = a'
                        · subst haa; rw [set_self] at hs; cases hs
                        · rw [set_other _ _ haa] at hs; exact hs
                      · cases he; exact hn.elim
                    | call a' o =>
                      obtain ⟨b, b', h1, h2, h3⟩ := wexec_call he hn
                      by_cases haa : a = a'
                      · subst haa; rw [h1]; rfl
                      · rw [h3, set_other _ _ haa] at hs; exact hs
                    | drop s =>
                      simp only [World.exec] at he
                      split at he
                      · cases he; exact hn.elim
                      next b hb =>
                      cases he
                      by_cases haa : a = s.box
                      · subst haa; rw [hb]; rfl
                      · rw [set_other _ _ haa] at hs; exact hs
                  rcases ha with ha | ⟨e, hme, o', hoe⟩
                  · exact .inl (hsome ha)
                  · rcases List.mem_append.1 hme with hm | hm
                    · exact .inr ⟨e, hm, o', hoe⟩
                    · rw [List.mem_singleton.1 hm] at hoe
                      simp only at hoe
                      subst hoe
                      obtain ⟨b, b', h1, h2, h3⟩ := wexec_call he hn
                      left; rw [h1]; rfl
                obtain ⟨e, h1, n, h2⟩ := ih a hpre
                exact ⟨e, List.mem_append_left _ h1, n, h2⟩
          obtain ⟨e0, h3, n, h4⟩ := hcr hw a' (.inr ⟨e, hm, o', heo⟩)
          exact hf tr _ [] a' name rfl rfl e0 h3 n h4
      | destroy a' => exact ⟨e', h1, h2⟩
      | call a' o =>
        simp only
        split
        · exact ⟨e', List.mem_append_left _ h1, h2⟩
        · exact ⟨e', h1, h2⟩
      | drop s =>
        simp only
        split
        · exact ⟨e', List.mem_append_left _ h1, h2⟩
        · exact ⟨e', h1, h2⟩
    · rw [List.mem_singleton.1 hm] at heo ⊢
      simp only at heo
      subst heo
      simp only [if_true]
      exact ⟨_, List.mem_append_right _ (List.mem_singleton.2 rfl), rfl⟩

/-- What holds: the claim for programs in which no mailbox is constructed where another one was
before.  Missing: the others. -/
theorem C105_fresh_partial (tr : List (WEvent P)) (w : World P) (h : WRun tr w) (hf : FreshAddresses tr)
    (a : Addr) (s : Sub) (o : Op P) (w' : World P) (r : Resp P) (hs : ∃ e ∈ tr, e.resp = .sub s)
    (hno : ∀ e ∈ eventsAt a tr, e.resp ≠ .sub s) (ho : Presents s o)
    (he : w.exec (.call a o) = (w', r)) (hn : r.Normal) :
    r = .threw (.mismatch a s.box) ∧ w' = w := by
  refine presents_elsewhere ?_ ho he hn
  rintro rfl
  obtain ⟨e, hm, hr⟩ := hs
  obtain ⟨o', ho'⟩ := handed_out h e hm s hr
  obtain ⟨e', h1, h2⟩ := kept_since h hf e hm _ _ ho'
  exact hno e' h1 (h2.trans hr)

/-- Exactly when a subscription that another mailbox handed out is refused: if that mailbox is, or
was, at another address. -/
theorem C105_exact (tr : List (WEvent P)) (w : World P) (_ : WRun tr w) (a : Addr) (s : Sub) (o : Op P)
    (w' : World P) (r : Resp P) (ho : Presents s o) (he : w.exec (.call a o) = (w', r)) (hn : r.Normal) :
    r = .threw (.mismatch a s.box) ↔ s.box ≠ a := by
  constructor
  · rintro rfl rfl
    obtain ⟨b, b', h1, h2, h3⟩ := wexec_call he hn
    have hg : getIndex s.box (some s) = .ok s.idx := by simp [getIndex]
    have hq : ∀ m t, b.getQueueI s.idx ≠ .throw (.mismatch m t) := by
      intro m t
      simp only [Box.getQueueI]
      split <;> simp
    cases o <;> simp only [Presents] at ho <;> subst ho
    · simp only [exec, Box.get, Box.getQueue, hg, Res.bind] at h2
      cases hqq : b.getQueueI s.idx with
      | ok q => rw [hqq] at h2; cases q <;> cases h2
      | throw e => rw [hqq] at h2; cases h2; exact hq _ _ hqq
      | ub => rw [hqq] at h2; cases h2
    · simp only [exec, Box.put, hg] at h2; cases h2
    · simp only [exec, Box.readyCount, Box.getQueue, hg, Res.bind] at h2
      cases hqq : b.getQueueI s.idx with
      | ok q => rw [hqq] at h2; cases h2
      | throw e => rw [hqq] at h2; cases h2; exact hq _ _ hqq
      | ub => rw [hqq] at h2; cases h2
    · simp only [exec, Box.clear, Box.getQueue, hg, Res.bind] at h2
      cases hqq : b.getQueueI s.idx with
      | ok q => rw [hqq] at h2; cases h2
      | throw e => rw [hqq] at h2; cases h2; exact hq _ _ hqq
      | ub => rw [hqq] at h2; cases h2
  · intro hne
    exact (presents_elsewhere (Ne.symm hne) ho he hn).1

/-- A mailbox is destroyed and another one constructed at its address; both hand out the
subscription with the id 0, and a message is sent. -/
def reuseTrace : List (WEvent Nat) :=
  [⟨0, .create 5 "old".toList, .done⟩, ⟨1, .call 5 .subscribe, .sub ⟨5, 0⟩⟩, ⟨0, .destroy 5, .done⟩,
    ⟨0, .create 5 "new".toList, .done⟩]

theorem reuse_run : ∃ w : World Nat, WRun reuseTrace w ∧ ∀ x, w x = if x = 5 then some (Box.new "new".toList) else none := by
  have r1 := WRun.snoc (t := 0) (o := .create 5 "old".toList) (WRun.nil (P := Nat)) rfl trivial
  have r2 := WRun.snoc (t := 1) (o := .call 5 .subscribe) r1 rfl trivial
  have r3 := WRun.snoc (t := 0) (o := .destroy 5) r2 rfl trivial
  have r4 := WRun.snoc (t := 0) (o := .create 5 "new".toList) r3 rfl trivial
  refine ⟨_, r4, ?_⟩
  intro x
  by_cases hx : x = 5
  · subst hx; rfl
  · rw [if_neg hx]
    simp [World.set, hx]

/-- The subscription of the old mailbox is accepted by the new one, if that is at the same address:
sending with it succeeds. -/
theorem C105_refuted : ¬ C105_claim Nat := by
  intro h
  obtain ⟨w, hw, hx⟩ := reuse_run
  have h5 : w 5 = some (Box.new "new".toList) := by rw [hx]; rfl
  have he : w.exec (.call 5 (.put (some 7) (some ⟨5, 0⟩))) = (w.set 5 (some (Box.new "new".toList)), .done) := by
    simp only [World.exec, h5]; rfl
  have := (h _ _ hw 5 ⟨5, 0⟩ (.put (some 7) (some ⟨5, 0⟩)) _ _ ⟨_, List.mem_cons_of_mem _ List.mem_cons_self, rfl⟩
    (by simp [reuseTrace, eventsAt]) rfl he trivial).1
  cases this

/-- The other theorems apply to this history, too; and dropping the stale subscription ends the
subscription that the new mailbox hands out with the same id. -/
example : ∃ w : World Nat, WRun (reuseTrace ++ [⟨2, .call 5 .subscribe, .sub ⟨5, 0⟩⟩, ⟨1, .drop ⟨5, 0⟩, .done⟩]) w ∧
    ∃ b, w 5 = some b ∧ (exec 5 b (.get (some ⟨5, 0⟩))).2 = .threw (.missing "new".toList "get()".toList 0) := by
  obtain ⟨w, hw, hx⟩ := reuse_run
  have h5 : w 5 = some (Box.new "new".toList) := by rw [hx]; rfl
  have e1 : w.exec (.call 5 .subscribe) = (w.set 5 (some ⟨"new".toList, [(0, [])], 1⟩), .sub ⟨5, 0⟩) := by
    simp only [World.exec, h5]; rfl
  have r1 := WRun.snoc (t := 2) hw e1 trivial
  have e2 : (w.set 5 (some ⟨"new".toList, [(0, [])], 1⟩)).exec (.drop ⟨5, 0⟩) =
      ((w.set 5 (some ⟨"new".toList, [(0, [])], 1⟩)).set 5 (some ⟨"new".toList, [], 1⟩), .done) := by
    simp only [World.exec, set_self]; rfl
  have r2 := WRun.snoc (t := 1) r1 e2 trivial
  exact ⟨_, by simpa using r2, _, set_self _ _ _, rfl⟩

end SoDa.Mail
