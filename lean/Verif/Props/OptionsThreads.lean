import Verif.Proof.OptionsThreads
/-!
C126: `Options` objects in several threads.
-/
namespace SoDa.Opts
open Spec

variable {V ι : Type}

/-! ## C126  threads with objects and variables of their own -/

/-- What thread `t` does, what it is answered, and the messages of its calls are possible without the other
threads.  Its objects and variables are then the same: positional arguments, help, presence, the next call. -/
theorem C126_alone [DecidableEq ι] (sc : Nat → V) (vec : Nat → List V) (as : List (OptAct V)) (w0 : World V)
    (h0 : (World.start sc vec).acts as = .ok w0) (own ownVar : Nat → ι) (hs : Separate own ownVar w0)
    (tr : List (OptEvent ι V)) (w : World V) (h : Performs w0 tr w) (ho : OwnObjects own ownVar tr) (t : ι) :
    ∃ w1, Performs w0 (tr.filter fun e => decide (e.thread = t)) w1 ∧
      (∀ i, own i = t → (w1.objs i = none ∧ w.objs i = none) ∨ ∃ m1 m, w1.objs i = some m1 ∧ w.objs i = some m ∧
        Alike (w1.view m1) (w.view m) ∧ SamePresence (w1.view m1) (w.view m)) ∧
      ∀ a, ownVar a = t → w1.sc a = w.sc a ∧ w1.vec a = w.vec a := by
  obtain ⟨ρ, w1, h1, h2⟩ := performs_sim (Bounded.acts as w0 h0) hs h ho t
  refine ⟨w1, h1, fun i hi => ?_, fun a ha => ⟨h2.core.sc a ha, h2.core.vec a ha⟩⟩
  rcases h2.obj i hi with h3 | ⟨m1, m, h3, h4, h5⟩
  · exact .inl h3
  · have := h5.agree h2.core
    exact .inr ⟨m1, m, h3, h4, this.alike, this.isPresent fun _ => trivial, this.isPresentAb fun _ => trivial⟩

/-- A course of events is possible exactly if the part of every thread is possible without the other threads:
threads neither hinder each other nor make anything undefined. -/
theorem C126_possible [DecidableEq ι] (sc : Nat → V) (vec : Nat → List V) (as : List (OptAct V)) (w0 : World V)
    (h0 : (World.start sc vec).acts as = .ok w0) (own ownVar : Nat → ι) (hs : Separate own ownVar w0)
    (tr : List (OptEvent ι V)) (ho : OwnObjects own ownVar tr) :
    (∃ w, Performs w0 tr w) ↔ ∀ t, ∃ w1, Performs w0 (tr.filter fun e => decide (e.thread = t)) w1 := by
  have hb := Bounded.acts as w0 h0
  refine ⟨fun ⟨w, h⟩ t => ?_, ?_⟩
  · obtain ⟨ρ, w1, h1, -⟩ := performs_sim hb hs h ho t
    exact ⟨w1, h1⟩
  · induction tr using List.reverseRecOn with
    | nil => exact fun _ => ⟨w0, .nil⟩
    | append_singleton tr e ih =>
      intro hall
      have ho' := ownObjects_of_snoc ho
      have hpre : ∀ t, ∃ w1, Performs w0 (tr.filter fun e => decide (e.thread = t)) w1 := by
        intro t
        obtain ⟨w1, h1⟩ := hall t
        rw [List.filter_append] at h1
        by_cases ht : e.thread = t
        · rw [List.filter_cons_of_pos (by simpa using ht), List.filter_nil] at h1
          generalize hl : List.filter (fun e => decide (e.thread = t)) tr ++ [e] = l at h1
          cases h1 with
          | nil => simp at hl
          | snoc h2 =>
            obtain ⟨rfl, -⟩ := List.append_inj' hl rfl
            exact ⟨_, h2⟩
        · rw [List.filter_cons_of_neg (by simpa using ht), List.filter_nil, List.append_nil] at h1
          exact ⟨w1, h1⟩
      obtain ⟨w, h⟩ := ih ho' hpre
      obtain ⟨ρ, w1, h1, h2⟩ := performs_sim hb hs h ho' e.thread
      obtain ⟨w1', h3⟩ := hall e.thread
      rw [List.filter_append, List.filter_cons_of_pos (by simp), List.filter_nil] at h3
      generalize hl : List.filter (fun e' => decide (e'.thread = e.thread)) tr ++ [e] = l at h3
      cases h3 with
      | nil => simp at hl
      | @snoc tr' wa e' wb h4 ha hm =>
        obtain ⟨rfl, he⟩ := List.append_inj' hl rfl
        cases he
        have := performs_unique h1 h4
        subst this
        rcases h2.own (performs_good hb hs h ho').1 (ho e (by simp)).1 with
          ⟨h5, -⟩ | ⟨wa, wb, b, ms, ρ', e1, e2, c1, c2, -⟩
        · rw [ha] at h5; cases h5
        · rw [ha] at e1
          cases e1
          rw [hm] at c1
          have := List.append_cancel_left c1
          exact ⟨wb, .snoc h e2 (by rw [c2, this])⟩

/-- The same programs of the threads in another order: every thread is answered the same, and its variables and
what its objects report are the same. -/
theorem C126_any_order [DecidableEq ι] (sc : Nat → V) (vec : Nat → List V) (as : List (OptAct V)) (w0 : World V)
    (h0 : (World.start sc vec).acts as = .ok w0) (own ownVar : Nat → ι) (hs : Separate own ownVar w0)
    (tr tr' : List (OptEvent ι V)) (w w' : World V) (h : Performs w0 tr w) (h' : Performs w0 tr' w')
    (ho : OwnObjects own ownVar tr) (ho' : OwnObjects own ownVar tr')
    (hp : ∀ t, (tr.filter fun e => decide (e.thread = t)).map (·.act) =
      (tr'.filter fun e => decide (e.thread = t)).map (·.act)) :
    (∀ t, tr.filter (fun e => decide (e.thread = t)) = tr'.filter fun e => decide (e.thread = t)) ∧
      (∀ i, (w.objs i = none ∧ w'.objs i = none) ∨ ∃ m m', w.objs i = some m ∧ w'.objs i = some m' ∧
        (w.view m).getPosArgs = (w'.view m').getPosArgs ∧ (w.view m).printHelp = (w'.view m').printHelp ∧
        SamePresence (w.view m) (w'.view m')) ∧
      w.sc = w'.sc ∧ w.vec = w'.vec := by
  have det : ∀ (t : ι) {a b : List (OptEvent ι V)} {wa wb}, Performs w0 a wa → Performs w0 b wb →
      (∀ e ∈ a, e.thread = t) → (∀ e ∈ b, e.thread = t) → a.map (·.act) = b.map (·.act) → a = b := by
    intro t a b wa wb ha
    induction ha generalizing b wb with
    | nil =>
      intro _ _ _ hm
      exact (List.map_eq_nil_iff.1 hm.symm).symm
    | @snoc a w1 e w2 h1 h2 h3 ih =>
      intro hb hta htb hm
      cases hb with
      | nil => simp at hm
      | @snoc b w1' e' w2' g1 g2 g3 =>
        rw [List.map_append, List.map_append] at hm
        obtain ⟨hm1, hm2⟩ := List.append_inj' hm rfl
        have hab := ih g1 (fun e he => hta e (List.mem_append_left _ he))
          (fun e he => htb e (List.mem_append_left _ he)) hm1
        subst hab
        have := performs_unique h1 g1
        subst this
        have hact : e.act = e'.act := by simpa using hm2
        rw [hact, g2] at h2
        have hr := congrArg Prod.snd (Res.ok.inj h2)
        have hw := congrArg Prod.fst (Res.ok.inj h2)
        simp only at hr hw
        subst hw
        have hms : e'.msgs = e.msgs := List.append_cancel_left (g3.symm.trans h3)
        have hth : e.thread = e'.thread := (hta e (by simp)).trans (htb e' (by simp)).symm
        obtain ⟨th, ac, re, ms⟩ := e
        obtain ⟨th', ac', re', ms'⟩ := e'
        simp only at hact hr hms hth
        subst hact hr hms hth
        rfl
  have hmem : ∀ (l : List (OptEvent ι V)) (t : ι), ∀ e ∈ l.filter (fun e => decide (e.thread = t)), e.thread = t := by
    intro l t e he
    simpa using (List.mem_filter.1 he).2
  have main : ∀ t, tr.filter (fun e => decide (e.thread = t)) = tr'.filter (fun e => decide (e.thread = t)) := by
    intro t
    obtain ⟨w1, h1, -⟩ := C126_alone sc vec as w0 h0 own ownVar hs tr w h ho t
    obtain ⟨w2, h2, -⟩ := C126_alone sc vec as w0 h0 own ownVar hs tr' w' h' ho' t
    exact det t h1 h2 (hmem tr t) (hmem tr' t) (hp t)
  have both : ∀ t, ∃ w1 : World V, ((∀ i, own i = t → (w1.objs i = none ∧ w.objs i = none) ∨ ∃ m1 m, w1.objs i = some m1 ∧
        w.objs i = some m ∧ Alike (w1.view m1) (w.view m) ∧ SamePresence (w1.view m1) (w.view m)) ∧
        ∀ a, ownVar a = t → w1.sc a = w.sc a ∧ w1.vec a = w.vec a) ∧
      (∀ i, own i = t → (w1.objs i = none ∧ w'.objs i = none) ∨ ∃ m1 m, w1.objs i = some m1 ∧
        w'.objs i = some m ∧ Alike (w1.view m1) (w'.view m) ∧ SamePresence (w1.view m1) (w'.view m)) ∧
        ∀ a, ownVar a = t → w1.sc a = w'.sc a ∧ w1.vec a = w'.vec a := by
    intro t
    obtain ⟨w1, h1, k1⟩ := C126_alone sc vec as w0 h0 own ownVar hs tr w h ho t
    obtain ⟨w2, h2, k2⟩ := C126_alone sc vec as w0 h0 own ownVar hs tr' w' h' ho' t
    rw [main t] at h1
    have := performs_unique h1 h2
    subst this
    exact ⟨w1, k1, k2⟩
  refine ⟨main, fun i => ?_, funext fun a => ?_, funext fun a => ?_⟩
  · obtain ⟨w1, ⟨k1, -⟩, k2, -⟩ := both (own i)
    rcases k1 i rfl with ⟨e1, e2⟩ | ⟨m1, m, e1, e2, e3, e4⟩ <;>
      rcases k2 i rfl with ⟨f1, f2⟩ | ⟨m1', m', f1, f2, f3, f4⟩
    · exact .inl ⟨e2, f2⟩
    · rw [e1] at f1; cases f1
    · rw [e1] at f1; cases f1
    · rw [e1] at f1
      cases f1
      exact .inr ⟨m, m', e2, f2, e3.posArgs.symm.trans f3.posArgs, e3.help.symm.trans f3.help,
        fun n => (e4.1 n).symm.trans (f4.1 n), fun c => (e4.2 c).symm.trans (f4.2 c)⟩
  · obtain ⟨w1, ⟨-, k1⟩, -, k2⟩ := both (ownVar a)
    exact (k1 a rfl).1.symm.trans (k2 a rfl).1
  · obtain ⟨w1, ⟨-, k1⟩, -, k2⟩ := both (ownVar a)
    exact (k1 a rfl).2.symm.trans (k2 a rfl).2

/-- At all times the threads stay apart: no option object is in tables of objects of different threads, and the
targets of the options are variables of the same thread. -/
theorem C126_apart (sc : Nat → V) (vec : Nat → List V) (as : List (OptAct V)) (w0 : World V)
    (h0 : (World.start sc vec).acts as = .ok w0) (own ownVar : Nat → ι) (hs : Separate own ownVar w0)
    (tr : List (OptEvent ι V)) (w : World V) (h : Performs w0 tr w) (ho : OwnObjects own ownVar tr) :
    Separate own ownVar w :=
  (performs_good (Bounded.acts as w0 h0) hs h ho).2

/-- What a call writes to: its object, the flags of the options in the tables of the object, the targets of these
options, the variable that it registers, and option objects that it creates. -/
theorem C126_writes (w w' : World V) (i : Nat) (c : OptCall V) (b : Bool) (h : w.call i c = .ok (w', b)) :
    (∀ j, j ≠ i → w'.objs j = w.objs j) ∧
    (∀ p, p < w.decls.length → w'.decls[p]? = w.decls[p]? ∧ (w'.pres p ≠ w.pres p → HasOption w i p)) ∧
    ∀ a, (w'.sc a ≠ w.sc a ∨ w'.vec a ≠ w.vec a) →
      Registers a c ∨ ∃ p d, HasOption w i p ∧ w.decls[p]? = some d ∧ d.target = a := by
  rcases answer_cases (a := .call i c) h with ⟨_, _, m, o', hc, hi, hr, rfl⟩ | ⟨x, v, hpl, -⟩
  · cases hc
    have he := Effect.run c hr
    obtain ⟨l, hl, -⟩ := he.decls
    have hl' : o'.decls = w.decls ++ l := hl
    refine ⟨fun j hj => update_ne _ _ hj, fun p hp => ⟨?_, fun hne => ?_⟩, fun a ha => ?_⟩
    · show o'.decls[p]? = _
      rw [hl', List.getElem?_append_left hp]
    · by_contra hno
      exact hne (he.pres p hp fun hr' => hno ⟨m, hi, hr'.listed⟩)
    · by_contra hno
      rw [not_or] at hno
      have ht : ∀ p d, Refers (w.view m) p → (w.view m).decls[p]? = some d → d.target ≠ a :=
        fun p d hp hd e => hno.2 ⟨p, d, ⟨m, hi, hp.listed⟩, hd, e⟩
      rcases ha with ha | ha
      · exact ha (he.sc a hno.1 ht)
      · exact ha (he.vec a hno.1 ht)
  · cases hpl

/-- The same object with the same options in another world. -/
theorem agree_elsewhere {w w2 : World V} {i : Nat} {m : Members} (hm : w.objs i = some m) {pr : Nat → Prop} {A : Nat → Prop}
    (hb : ∀ p, HasOption w i p → p < w.decls.length) (hd : ∀ p, HasOption w i p → w2.decls[p]? = w.decls[p]?)
    (hp : ∀ p, HasOption w i p → pr p → w.pres p = w2.pres p)
    (hle : ∀ p, HasOption w i p → w.pres p = true → w2.pres p = true)
    (hA : ∀ a, A a → w.sc a = w2.sc a ∧ w.vec a = w2.vec a) :
    Agree pr A (fun p q => p = q ∧ HasOption w i p) (w.view m) (w2.view m) where
  long := List.forall₂_same.2 fun x hx => ⟨rfl, rfl, m, hm, .inl ⟨x.1, hx⟩⟩
  ab := List.forall₂_same.2 fun x hx => ⟨rfl, rfl, m, hm, .inr ⟨x.1, hx⟩⟩
  info := rfl
  pos := rfl
  isKvp := rfl
  waiting := rfl
  decl := by
    rintro p q ⟨rfl, hp⟩
    have := hb p hp
    exact ⟨w.decls[p], by simp [World.view], by simp [World.view, hd p hp]⟩
  inj := by rintro p q p' q' ⟨rfl, -⟩ ⟨rfl, -⟩; exact Iff.rfl
  pres := by rintro p q ⟨rfl, h'⟩ h; exact hp p h' h
  presLe := by rintro p q ⟨rfl, h⟩; exact hle p h
  sc a h := (hA a h).1
  vec a h := (hA a h).2

/-- What a call looks at to decide what to return and what to say: its object and the options in the tables of the
object.  In another world in which these are the same, with other flags, variables, options and objects, the call
returns the same and writes the same messages. -/
theorem C126_looks (w w2 : World V) (i : Nat) (hb : ∀ p, HasOption w i p → p < w.decls.length)
    (ho : w2.objs i = w.objs i) (hd : ∀ p, HasOption w i p → w2.decls[p]? = w.decls[p]?) (c : OptCall V) :
    (w.call i c = .ub ∧ w2.call i c = .ub) ∨ ∃ w' w2' b ms, w.call i c = .ok (w', b) ∧ w2.call i c = .ok (w2', b) ∧
      w'.cerr = w.cerr ++ ms ∧ w2'.cerr = w2.cerr ++ ms := by
  cases hm : w.objs i with
  | none => left; simp [World.call, hm, ho]
  | some m =>
    have hz : ∀ p, HasOption { w with pres := fun _ => false } i p ↔ HasOption w i p := fun _ => Iff.rfl
    have h1 : Agree (fun _ => False) (fun _ => False) _ ({ w with pres := fun _ => false }.view m) (w.view m) :=
      agree_elsewhere (w := { w with pres := fun _ => false }) hm hb (fun _ _ => rfl) (fun _ _ h => h.elim)
        (fun _ _ h => by cases h) fun _ h => h.elim
    have h2 : Agree (fun _ => False) (fun _ => False) _ ({ w with pres := fun _ => false }.view m) (w2.view m) :=
      agree_elsewhere (w := { w with pres := fun _ => false }) hm hb hd (fun _ _ h => h.elim)
        (fun _ _ h => by cases h) fun _ h => h.elim
    rcases h1.run c with ⟨e1, e2⟩ | ⟨o1, o2, b, ρ', e1, e2, -, -, ds, d1, d2⟩ <;>
      rcases h2.run c with ⟨f1, f2⟩ | ⟨o1', o2', b', ρ'', f1, f2, -, -, ds', d1', d2'⟩
    · left; simp [World.call, hm, ho, e2, f2, Res.bind]
    · rw [e1] at f1; cases f1
    · rw [e1] at f1; cases f1
    · rw [e1] at f1
      cases f1
      rw [d1] at d1'
      have := List.append_cancel_left d1'
      subst this
      exact .inr ⟨w.put i o2, w2.put i o2', b, ds, by simp [World.call, hm, e2, Res.bind],
        by simp [World.call, ho, hm, f2, Res.bind], d2, d2'⟩

/-- If the flags of its options are the same too, then the object reports the same afterwards, and every variable
that was the same before is the same afterwards. -/
theorem C126_result (w w2 : World V) (i : Nat) (hb : ∀ p, HasOption w i p → p < w.decls.length)
    (ho : w2.objs i = w.objs i) (hd : ∀ p, HasOption w i p → w2.decls[p]? = w.decls[p]?)
    (hp : ∀ p, HasOption w i p → w.pres p = w2.pres p) (c : OptCall V) (w' w2' : World V) (b b2 : Bool)
    (h : w.call i c = .ok (w', b)) (h2 : w2.call i c = .ok (w2', b2)) :
    (∃ m m2, w'.objs i = some m ∧ w2'.objs i = some m2 ∧ Alike (w'.view m) (w2'.view m2) ∧
      SamePresence (w'.view m) (w2'.view m2)) ∧
    ∀ a, w.sc a = w2.sc a → w.vec a = w2.vec a → w'.sc a = w2'.sc a ∧ w'.vec a = w2'.vec a := by
  rcases answer_cases (a := .call i c) h with ⟨_, _, m, o', hc, hi, hr, rfl⟩ | ⟨x, v, hpl, -⟩
  · cases hc
    have hag : Agree (fun _ => True) (fun a => w.sc a = w2.sc a ∧ w.vec a = w2.vec a) _ (w.view m) (w2.view m) :=
      agree_elsewhere hi hb hd (fun p h _ => hp p h) (fun p h1 h2 => (hp p h1).symm.trans h2) fun _ h => h
    simp only [World.call, ho, hi] at h2
    rcases hag.run c with ⟨e1, -⟩ | ⟨o1, o2, b', ρ', e1, e2, hag', -, -⟩
    · rw [hr] at e1; cases e1
    · rw [hr] at e1
      cases e1
      rw [e2] at h2
      simp only [Res.bind] at h2
      cases h2
      refine ⟨⟨membersOf o', membersOf o2, update_same _ _ _, update_same _ _ _, ?_⟩, fun a h1 h2 => ?_⟩
      · exact ⟨hag'.alike, hag'.isPresent fun _ => trivial, hag'.isPresentAb fun _ => trivial⟩
      · exact ⟨hag'.sc a ⟨h1, h2⟩, hag'.vec a ⟨h1, h2⟩⟩
  · cases hpl

/-- Copies are not objects of their own: object 0 of one thread and its copy, object 1 of another thread.  A call on
object 0 changes what object 1 reports. -/
theorem C126_copies : ∃ (w0 : World Val) (tr : List (OptEvent Bool Val)) (w : World Val),
    (World.start (fun _ => Val.int 0) (fun _ => [])).acts (copySample.take 3) = .ok w0 ∧
    Performs w0 tr w ∧ OwnObjects (fun i => i == 1) (fun _ => false) tr ∧ (∀ e ∈ tr, e.thread = false) ∧
    ∃ m0 m, w0.objs 1 = some m0 ∧ w.objs 1 = some m ∧ (w0.view m0).isPresent "all".toList = false ∧
      (w.view m).isPresent "all".toList = true := by
  refine ⟨_, [⟨false, .call 0 (.parse ["--all".toList]), true, []⟩], _, rfl,
    .snoc (tr := []) .nil rfl rfl, ?_, by simp, _, _, rfl, rfl, by decide, by decide⟩
  intro e he
  rw [List.mem_singleton.1 he]
  refine ⟨by simp [objectsOf], ?_⟩
  intro i c a hc hr
  cases hc
  exact hr.elim

/-! The hypotheses hold of a program with two threads. -/

/-- Thread `false`: `Options a; a.addP(&v5, "all", 'a'); a.parse({"--all"});`
Thread `true`: `Options b; b.addP(&v7, "all", 'a'); b.parse({"x", "-y"});` -/
def threadSample : List (OptEvent Bool Val) :=
  [⟨true, .new 1 false, true, []⟩,
    ⟨false, .new 0 false, true, []⟩,
    ⟨false, .call 0 (.addP (.bool false) (.bool true) 5 "all".toList 'a' []), true, []⟩,
    ⟨true, .call 1 (.addP (.bool false) (.bool true) 7 "all".toList 'a' []), true, []⟩,
    ⟨false, .call 0 (.parse ["--all".toList]), true, []⟩,
    ⟨true, .call 1 (.parse ["x".toList]), true, []⟩]

example : ∃ w m m', Performs (World.start (fun _ => Val.int 0) (fun _ => [])) threadSample w ∧
    OwnObjects (fun i => i == 1) (fun a => a == 7) threadSample ∧
    Separate (fun i => i == 1) (fun a => a == 7) (World.start (fun _ => Val.int 0) (fun _ => [])) ∧
    w.objs 0 = some m ∧ w.objs 1 = some m' ∧ (w.view m).isPresent "all".toList = true ∧
    (w.view m').isPresent "all".toList = false ∧ (w.view m').getPosArgs = ["x".toList] ∧
    w.sc 5 = .bool true ∧ w.sc 7 = .bool false := by
  refine ⟨_, _, _, .snoc (tr := threadSample.take 5) (.snoc (tr := threadSample.take 4) (.snoc (tr := threadSample.take 3)
    (.snoc (tr := threadSample.take 2) (.snoc (tr := threadSample.take 1) (.snoc (tr := []) .nil rfl rfl) rfl rfl) rfl rfl)
    rfl rfl) rfl rfl) rfl rfl, ?_, ?_, rfl, rfl, by decide, by decide, by decide, rfl, rfl⟩
  · intro e he
    simp only [threadSample, List.mem_cons, List.not_mem_nil, or_false] at he
    rcases he with rfl | rfl | rfl | rfl | rfl | rfl <;> refine ⟨by simp [objectsOf], ?_⟩ <;> intro i c a hc hr <;>
      simp only [reduceCtorEq, OptAct.call.injEq] at hc
    · obtain ⟨rfl, rfl⟩ := hc; cases hr; rfl
    · obtain ⟨rfl, rfl⟩ := hc; cases hr; rfl
    · obtain ⟨rfl, rfl⟩ := hc; exact hr.elim
    · obtain ⟨rfl, rfl⟩ := hc; exact hr.elim
  · exact ⟨fun i j p _ ⟨m, hm, _⟩ => (by cases hm), fun i p d ⟨m, hm, _⟩ => (by cases hm)⟩

end SoDa.Opts
