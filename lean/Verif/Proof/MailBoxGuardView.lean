import Verif.Proof.MailBoxGuard
import Mathlib.Tactic.Convert
/-!
Every mailbox of a program sees an execution of `Verif.Model.Monitor` with the critical sections of `Verif.Model.MailBox`.
-/
namespace SoDa.Mail.Guard
open Spec
open Monitor (Body Phase setPhase)

variable {P : Type}

/-- The accesses of the rest of a method. -/
def erase : Code P → Body (Box P) (Resp P)
  | .ret r => .ret r
  | .lock k => erase k
  | .unlock k => erase k
  | .act f k => .act f fun b => erase (k b)
  | .push i msg k => .act (pushFn i msg) fun _ => erase k
  | .pop i k => .act (popFn i) fun _ => erase k
  | .take i k => .act (popFn i) fun _ => erase k
  | .invoke _ k => erase k

theorem erase_thenUnlock (c : Code P) : erase c.thenUnlock = erase c := by
  induction c with
  | ret r => rfl
  | lock k ih => exact ih
  | unlock k ih => exact ih
  | act f k ih => simp only [Code.thenUnlock, erase]; congr; funext b; exact ih b
  | push i msg k ih => simp only [Code.thenUnlock, erase, ih]
  | pop i k ih => simp only [Code.thenUnlock, erase, ih]
  | take i k ih => simp only [Code.thenUnlock, erase, ih]
  | invoke os k ih => exact ih

theorem erase_onRes {α : Type} (r : Res Err α) (k : α → Code P) : erase (onRes r k) = Mail.onRes r fun x => erase (k x) := by
  cases r <;> rfl

theorem erase_look (k : Box P → Code P) : erase (look k) = Mail.look fun b => erase (k b) := rfl

theorem erase_pushLoop (msg : Option P) (o : Int) (ks : List Int) : erase (pushLoop msg o ks) = Mail.pushLoop msg o ks := by
  induction ks with
  | nil => rfl
  | cons k ks ih =>
    rw [pushLoop, Mail.pushLoop]
    split
    · simp only [erase, ih]; rfl
    · exact ih

theorem erase_popLoop (i : Int) (fin : Code P) (n : Nat) : erase (popLoop i fin n) = Mail.popLoop i (erase fin) n := by
  induction n with
  | zero => rfl
  | succ n ih => rw [popLoop, Mail.popLoop]; simp only [erase, ih]; rfl

theorem erase_minLoop (n : Nat) (ks : List Int) : erase (minLoop (P := P) n ks) = Mail.minLoop n ks := by
  induction ks generalizing n with
  | nil => rfl
  | cons k ks ih =>
    rw [minLoop, Mail.minLoop, erase_look]
    congr
    funext b
    cases mapFind intLess k b.queues with
    | none => exact ih n
    | some q => exact ih _

theorem erase_unsubscribe (i : Int) (failed : Err → Resp P) : erase (unsubscribe i failed) = unsubBody i failed := by
  rw [unsubscribe, lockGuard, erase, erase_thenUnlock, erase_look, unsubBody]
  congr
  funext b
  cases b.getQueueI i with
  | ok q => exact erase_popLoop _ _ _
  | throw e => rfl
  | ub => rfl

/-- The accesses of a method are those of its critical section. -/
theorem erase_method (a : Addr) (o : Op P) : erase (method a (.op o)) = body a o := by
  cases o with
  | subscribe =>
    rw [method, lockGuard, erase, erase_thenUnlock, erase_look, body]
    congr
    funext b
    simp only [erase]
    congr
    funext b'
    split <;> rfl
  | get subs =>
    rw [method, lockGuard, erase, erase_thenUnlock, erase_look, body]
    congr
    funext b
    rw [erase_onRes]
    congr
    funext x
    obtain ⟨i, q⟩ := x
    cases q <;> rfl
  | put msg subs =>
    rw [method, lockGuard, erase, erase_thenUnlock, erase_look, body]
    congr
    funext b
    rw [erase_onRes]
    congr
    funext x
    rw [erase_look]
    congr
    funext b'
    exact erase_pushLoop _ _ _
  | readyCount subs =>
    rw [method, lockGuard, erase, erase_thenUnlock, erase_look, body]
    congr
    funext b
    rw [erase_onRes]
    rfl
  | minReadyCount =>
    rw [method, lockGuard, erase, erase_thenUnlock, erase_look, body]
    congr
    funext b
    exact erase_minLoop _ _
  | clear subs =>
    rw [method, lockGuard, erase, erase_thenUnlock, erase_look, body]
    congr
    funext b
    rw [erase_onRes]
    congr
    funext x
    obtain ⟨i, q⟩ := x
    exact erase_popLoop _ _ _
  | unsubscribe i => exact erase_unsubscribe _ _
  | subscriberCount =>
    rw [method, lockGuard, erase, erase_thenUnlock, erase_look, body]
    rfl
  | drop s => exact erase_unsubscribe _ _

/-- What a mailbox sees of a call. -/
def framePhase : Call P → Code P → Phase (Box P) (Op P) (Resp P)
  | .subscribeFails, _ => .idle
  | .op o, .lock _ => .wants o
  | .op o, .ret r => .leaving o r
  | .op o, c => .runs o (erase c)

/-- What the mailbox at `a` sees of a thread. -/
def phaseOf (a : Addr) : List (Item P) → Phase (Box P) (Op P) (Resp P)
  | [] => .idle
  | .frame a' o c :: s => if a' = a then framePhase o c else phaseOf a s
  | .dtor _ :: s => phaseOf a s
  | .release _ :: s => phaseOf a s

theorem phaseOf_other {a a' : Addr} (h : ¬ a' = a) (o : Call P) (c : Code P) (s : List (Item P)) :
    phaseOf a (.frame a' o c :: s) = phaseOf a s := if_neg h

theorem phaseOf_own (a : Addr) (o : Call P) (c : Code P) (s : List (Item P)) : phaseOf a (.frame a o c :: s) = framePhase o c := if_pos rfl

/-- What the mailbox at `a` sees of the program. -/
def view (a : Addr) (c : Conf P) : Monitor.Conf Nat (Box P) (Op P) (Resp P) :=
  { shared := c.boxes a, holder := c.holder a, phase := fun t => phaseOf a (c.stack t) }

variable {rank : Addr → Nat} {dtor : P → List (Addr × Call P)}

theorem phaseOf_below {a : Addr} {s : List (Item P)} {hs : List Addr} (h : Below rank dtor s hs) (ha : a ∉ hs) : phaseOf a s = .idle := by
  induction h with
  | nil => rfl
  | frame hb hr hi hm ho ih =>
    rw [phaseOf_other (fun e => ha (by rw [e]; exact List.mem_cons_self))]
    exact ih fun hx => ha (List.mem_cons_of_mem _ hx)
  | dtor hb hr ih => exact ih ha
  | release hb hr ih => exact ih ha

theorem not_held {a : Addr} {hs : List Addr} (hr : ∀ h ∈ hs, rank h < rank a) : a ∉ hs := fun hx => Nat.lt_irrefl _ (hr a hx)

theorem phaseOf_inside {a : Addr} {o : Op P} {c : Code P} {fit : P → Prop} (hi : Inside fit c) (s : List (Item P)) :
    phaseOf a (.frame a (.op o) c :: s) = .runs o (erase c) := by
  cases hi <;> exact phaseOf_own _ _ _ _

/-- The phases after thread `t` has changed its. -/
theorem view_set {a : Addr} {c : Conf P} {t : Nat} {s : List (Item P)} :
    (fun u => phaseOf a (update c.stack t s u)) = setPhase (fun u => phaseOf a (c.stack u)) t (phaseOf a s) := by
  funext u
  simp only [update, setPhase]
  split <;> rfl

theorem view_keep {a : Addr} {c : Conf P} {t : Nat} {s : List (Item P)} (h : phaseOf a s = phaseOf a (c.stack t)) :
    (fun u => phaseOf a (update c.stack t s u)) = fun u => phaseOf a (c.stack u) := by
  funext u
  simp only [update]
  split
  · rename_i e; rw [h, e]
  · rfl

variable [DecidableEq P]

/-- Every step is, for the mailbox at `a`, a step of a monitor or nothing. -/
theorem next_view {c c' : Conf P} {l : Label P} {t : Nat} {held : Nat → List Addr} (h : Inv rank dtor c held)
    (hn : next dtor c t = some (l, c')) (hmem : ∀ a, l ≠ .call t a .subscribeFails) (a : Addr) :
    (seen a l = none ∧ view a c' = view a c) ∨ ∃ m, seen a l = some m ∧ Monitor.Step (body a) (view a c) m (view a c') := by
  have ht := h.top t
  have hhold := h.holds t
  generalize hst : c.stack t = st at ht
  generalize hh : held t = hs at ht hhold
  have quiet : ∀ (s : List (Item P)) (c' : Conf P), c'.boxes a = c.boxes a → c'.holder a = c.holder a → c'.stack = update c.stack t s →
      phaseOf a s = phaseOf a st → view a c' = view a c := by
    intro s c' h1 h2 h3 h4
    simp only [view, h1, h2, h3]
    rw [view_keep (by rw [h4, hst])]
  cases ht with
  | below hb =>
    cases hb with
    | nil => rw [next, hst] at hn; cases hn
    | dtor hb hr =>
      rename_i s os
      cases os with
      | nil =>
        simp only [next, hst, Option.some.injEq, Prod.mk.injEq] at hn
        obtain ⟨rfl, rfl⟩ := hn
        exact .inl ⟨rfl, quiet s _ rfl rfl rfl rfl⟩
      | cons x os =>
        obtain ⟨a', o⟩ := x
        simp only [next, hst, Option.some.injEq, Prod.mk.injEq] at hn
        obtain ⟨rfl, rfl⟩ := hn
        cases o with
        | subscribeFails => exact absurd rfl (hmem a')
        | op o =>
          by_cases ha : a' = a
          · subst ha
            refine .inr ⟨_, if_pos rfl, ?_⟩
            have hidle : phaseOf a' (c.stack t) = .idle := by
              rw [hst]
              exact phaseOf_below (.dtor hb hr) (not_held fun y hy => hr y hy (a', .op o) List.mem_cons_self)
            have := Monitor.Step.call (body := body a') (c := view a' c) (t := t) (o := o) hidle
            have e : view a' (c.enter t a' (.op o) (.dtor os :: s)) =
                { view a' c with phase := setPhase (view a' c).phase t (.wants o) } := by
              simp only [view, Conf.enter]
              rw [view_set]
              obtain ⟨k, hk, -⟩ := method_inside (fit := fun _ => True) a' (.op o) (by simp) (by simp)
              rw [hk]
              rw [phaseOf_own]; rfl
            rw [e]
            exact this
          · refine .inl ⟨if_neg ha, quiet _ _ rfl rfl rfl ?_⟩
            exact phaseOf_other ha _ _ _
    | release hb hr =>
      rename_i s ps
      cases ps with
      | nil =>
        simp only [next, hst, Option.some.injEq, Prod.mk.injEq] at hn
        obtain ⟨rfl, rfl⟩ := hn
        exact .inl ⟨rfl, quiet s _ rfl rfl rfl rfl⟩
      | cons p ps =>
        simp only [next, hst, Option.some.injEq, Prod.mk.injEq] at hn
        obtain ⟨rfl, rfl⟩ := hn
        refine .inl ⟨rfl, quiet _ _ rfl rfl rfl ?_⟩
        split <;> rfl
    | frame hb hr hi hm ho =>
      rename_i s hs a' o k
      cases o with
      | subscribeFails => exact absurd rfl ho
      | op o =>
        have hi0 := hi
        cases hi with
        | unlock hq =>
          rename_i r
          have hcases : l = .unlock t a' (.op o) r ∧
              c' = { c with holder := update c.holder a' none, stack := update c.stack t (.frame a' (.op o) (.ret r) :: s) } := by
            cases r <;> simp only [next, hst, Option.some.injEq, Prod.mk.injEq, reduceCtorEq] at hn <;>
              (obtain ⟨rfl, rfl⟩ := hn; simp)
          obtain ⟨rfl, rfl⟩ := hcases
          by_cases ha : a' = a
          · subst ha
            refine .inr ⟨_, if_pos rfl, ?_⟩
            have := Monitor.Step.unlock (body := body a') (c := view a' c) (t := t) (o := o) (r := r)
              (by show phaseOf a' (c.stack t) = _; rw [hst]; rw [phaseOf_own]; rfl)
            convert this using 1
            simp only [view, update_same]
            rw [view_set]
            rw [phaseOf_own]; rfl
          · refine .inl ⟨if_neg ha, quiet _ _ rfl (update_ne _ _ (Ne.symm ha)) rfl ?_⟩
            rw [phaseOf_other ha, phaseOf_other ha]
        | act hf hk =>
          rename_i f k
          simp only [next, hst, Option.some.injEq, Prod.mk.injEq] at hn
          obtain ⟨rfl, rfl⟩ := hn
          by_cases ha : a' = a
          · subst ha
            refine .inr ⟨_, if_pos rfl, ?_⟩
            have := Monitor.Step.act (body := body a') (c := view a' c) (t := t) (o := o) (f := f) (k := fun b => erase (k b))
              (by show phaseOf a' (c.stack t) = _; rw [hst, phaseOf_inside hi0]; rfl)
            convert this using 1
            simp only [view, update_same]
            rw [view_set, phaseOf_inside (hk _ (h.fits a'))]
          · refine .inl ⟨if_neg ha, quiet _ _ (update_ne _ _ (Ne.symm ha)) rfl rfl ?_⟩
            rw [phaseOf_other ha, phaseOf_other ha]
        | push hp hk =>
          rename_i i msg k
          simp only [next, hst, Option.some.injEq, Prod.mk.injEq] at hn
          obtain ⟨rfl, rfl⟩ := hn
          by_cases ha : a' = a
          · subst ha
            refine .inr ⟨_, if_pos rfl, ?_⟩
            have := Monitor.Step.act (body := body a') (c := view a' c) (t := t) (o := o) (f := pushFn i msg) (k := fun _ => erase k)
              (by show phaseOf a' (c.stack t) = _; rw [hst, phaseOf_inside hi0]; rfl)
            convert this using 1
            simp only [view, update_same]
            rw [view_set, phaseOf_inside hk]
          · refine .inl ⟨if_neg ha, quiet _ _ (update_ne _ _ (Ne.symm ha)) rfl rfl ?_⟩
            rw [phaseOf_other ha, phaseOf_other ha]
        | take hk =>
          rename_i i k
          simp only [next, hst, Option.some.injEq, Prod.mk.injEq] at hn
          obtain ⟨rfl, rfl⟩ := hn
          by_cases ha : a' = a
          · subst ha
            refine .inr ⟨_, if_pos rfl, ?_⟩
            have := Monitor.Step.act (body := body a') (c := view a' c) (t := t) (o := o) (f := popFn i) (k := fun _ => erase k)
              (by show phaseOf a' (c.stack t) = _; rw [hst, phaseOf_inside hi0]; rfl)
            convert this using 1
            simp only [view, update_same]
            rw [view_set, phaseOf_inside hk]
          · refine .inl ⟨if_neg ha, quiet _ _ (update_ne _ _ (Ne.symm ha)) rfl rfl ?_⟩
            rw [phaseOf_other ha, phaseOf_other ha]
        | pop hk =>
          rename_i i k
          simp only [next, hst, Option.some.injEq, Prod.mk.injEq] at hn
          obtain ⟨rfl, hc'⟩ := hn
          obtain ⟨st', e1, e2, e3, e4⟩ : ∃ st', c'.boxes = update c.boxes a' (popFn i (c.boxes a')) ∧ c'.holder = c.holder ∧
              c'.stack = update c.stack t st' ∧ ∀ x, phaseOf x st' = phaseOf x (.frame a' (.op o) k :: s) := by
            rw [← hc']
            split
            · exact ⟨_, rfl, rfl, rfl, fun _ => rfl⟩
            · refine ⟨_, rfl, rfl, rfl, fun x => ?_⟩
              split <;> rfl
          by_cases ha : a' = a
          · subst ha
            refine .inr ⟨_, if_pos rfl, ?_⟩
            have := Monitor.Step.act (body := body a') (c := view a' c) (t := t) (o := o) (f := popFn i) (k := fun _ => erase k)
              (by show phaseOf a' (c.stack t) = _; rw [hst, phaseOf_inside hi0]; rfl)
            convert this using 1
            simp only [view, e1, e2, e3, update_same]
            rw [view_set, e4, phaseOf_inside hk]
          · refine .inl ⟨if_neg ha, quiet st' _ (by rw [e1, update_ne _ _ (Ne.symm ha)]) (by rw [e2]) e3 ?_⟩
            rw [e4, phaseOf_other ha, phaseOf_other ha]
  | wants hb hr hm ho =>
    rename_i s a' o
    obtain ⟨k, hk, hi⟩ := method_inside (fit := Fits rank dtor a') a' o ho hm
    have hst' := hst
    rw [hk] at hst
    simp only [next, hst] at hn
    split at hn
    · rename_i hfree
      simp only [Option.some.injEq, Prod.mk.injEq] at hn
      obtain ⟨rfl, rfl⟩ := hn
      cases o with
      | subscribeFails => exact absurd rfl ho
      | op o =>
        by_cases ha : a' = a
        · subst ha
          refine .inr ⟨_, if_pos rfl, ?_⟩
          have := Monitor.Step.lock (body := body a') (c := view a' c) (t := t) (o := o)
            (by show phaseOf a' (c.stack t) = _; rw [hst]; rw [phaseOf_own]; rfl) hfree
          convert this using 1
          simp only [view, update_same]
          rw [view_set, phaseOf_inside hi, ← erase_method, hk]
          rfl
        · refine .inl ⟨if_neg ha, quiet _ _ rfl (update_ne _ _ (Ne.symm ha)) rfl ?_⟩
          rw [phaseOf_other ha, phaseOf_other ha]
    · cases hn
  | leaving hb hr hm ho hq =>
    rename_i s a' o r
    cases o with
    | subscribeFails => exact absurd rfl ho
    | op o =>
      obtain ⟨rfl, ps, e1, e2, e3⟩ : l = .ret t a' (.op o) r ∧ ∃ ps, c'.boxes = c.boxes ∧ c'.holder = c.holder ∧
          c'.stack = update c.stack t (.release ps :: s) := by
        cases s with
        | nil =>
          simp only [next, hst, Option.some.injEq, Prod.mk.injEq] at hn
          obtain ⟨rfl, rfl⟩ := hn
          exact ⟨rfl, _, rfl, rfl, rfl⟩
        | cons x s =>
          cases r <;> simp only [next, hst, Option.some.injEq, Prod.mk.injEq, reduceCtorEq] at hn <;>
            (obtain ⟨rfl, rfl⟩ := hn; exact ⟨rfl, _, rfl, rfl, rfl⟩)
      by_cases ha : a' = a
      · subst ha
        refine .inr ⟨_, if_pos rfl, ?_⟩
        have := Monitor.Step.ret (body := body a') (c := view a' c) (t := t) (o := o) (r := r)
          (by show phaseOf a' (c.stack t) = _; rw [hst]; rw [phaseOf_own]; rfl)
        convert this using 1
        simp only [view, e1, e2, e3]
        rw [view_set, phaseOf, phaseOf_below hb (not_held hr)]
      · refine .inl ⟨if_neg ha, quiet _ _ (by rw [e1]) (by rw [e2]) e3 ?_⟩
        rw [phaseOf_other ha, phaseOf]

/-- What the mailbox at `a` sees is an execution of its methods. -/
theorem steps_view {name : Addr → Str} {ls : List (Label P)} {c : Conf P} (h : Steps dtor name ls c) (ho : Upwards rank dtor ls) (a : Addr) :
    Monitor.Steps (body a) (Monitor.Conf.init (Box.new (name a))) (ls.filterMap (seen a)) (view a c) := by
  induction h with
  | init => exact .nil
  | make hs hst hp ih => rw [List.filterMap_append]; show Monitor.Steps _ _ (_ ++ []) _; rw [List.append_nil]; exact ih ho.front
  | copy hs hst hp ih => rw [List.filterMap_append]; show Monitor.Steps _ _ (_ ++ []) _; rw [List.append_nil]; exact ih ho.front
  | release hs hst hp ih =>
    rw [List.filterMap_append]
    have e : ∀ (c : Conf P) (t : Nat) (p : P) m, c.stack t = [] → view a { c with mine := m, stack := update c.stack t [.release [p]] } = view a c := by
      intro c t p m h0
      simp only [view]
      rw [view_keep (by rw [h0]; rfl)]
    rw [e _ _ _ _ hst]
    show Monitor.Steps _ _ (_ ++ []) _
    rw [List.append_nil]
    exact ih ho.front
  | call hs hst hp ih =>
    rename_i c t a' o
    rw [List.filterMap_append]
    cases o with
    | subscribeFails => exact absurd (by simp) (ho.memory t a')
    | op o =>
      obtain ⟨k, hk, -⟩ := method_inside (fit := fun _ => True) a' (.op o) (by simp) (by simp)
      by_cases ha : a' = a
      · subst ha
        simp only [seen, List.filterMap_cons, List.filterMap_nil, if_pos]
        refine .snoc (ih ho.front) ?_
        have := Monitor.Step.call (body := body a') (c := view a' c) (t := t) (o := o)
          (by show phaseOf a' (c.stack t) = _; rw [hst]; rfl)
        convert this using 1
        simp only [view, Conf.enter]
        rw [view_set, hk]
        rw [phaseOf_own]; rfl
      · simp only [seen, List.filterMap_cons, List.filterMap_nil, if_neg ha, List.append_nil]
        have e : view a (c.enter t a' (.op o) []) = view a c := by
          simp only [view, Conf.enter]
          rw [view_keep]
          rw [hst, phaseOf_other ha]
        rw [e]
        exact ih ho.front
  | go hs hn ih =>
    rename_i c t l c'
    rw [List.filterMap_append]
    obtain ⟨held, hinv⟩ := steps_inv hs ho.front
    rcases next_view hinv hn (fun a e => ho.memory _ a (List.mem_append_right _ (by rw [e]; exact List.mem_singleton.2 rfl))) a with
      ⟨h1, h2⟩ | ⟨m, h1, h2⟩
    · simp only [List.filterMap_cons, h1, List.filterMap_nil, List.append_nil]
      rw [h2]
      exact ih ho.front
    · simp only [List.filterMap_cons, h1, List.filterMap_nil]
      exact .snoc (ih ho.front) h2

end SoDa.Mail.Guard
