import Verif.Spec.OptionsThreads
import Verif.Proof.OptionsCopy
import Verif.Props.OptionsCopy
/-!
Several threads with `Options` objects of their own: the world of all threads and the world of one
thread by itself (`Sim`).
-/
namespace SoDa.Opts
open Spec

variable {V ι : Type}

/-! ### Tables -/

theorem mapFind_mem {K : Type} {less : K → K → Bool} {k : K} {p : Nat} :
    ∀ {m : List (K × Nat)}, mapFind less k m = some p → ∃ k', (k', p) ∈ m
  | [], h => by cases h
  | (k', v) :: m, h => by
    simp only [mapFind] at h
    split at h
    · cases h; exact ⟨k', List.mem_cons_self⟩
    · obtain ⟨k'', h⟩ := mapFind_mem h
      exact ⟨k'', List.mem_cons_of_mem _ h⟩

theorem mem_mapSet {K : Type} {less : K → K → Bool} {k : K} {p : Nat} {x : K × Nat} :
    ∀ {m : List (K × Nat)}, x ∈ mapSet less k p m → x ∈ m ∨ x.2 = p
  | [], h => by
    simp only [mapSet, List.mem_singleton] at h
    exact .inr (h ▸ rfl)
  | (k', v) :: m, h => by
    simp only [mapSet] at h
    split at h
    · rcases List.mem_cons.1 h with h | h
      · exact .inr (h ▸ rfl)
      · exact .inl h
    · split at h
      · rcases List.mem_cons.1 h with h | h
        · exact .inl (h ▸ List.mem_cons_self)
        · exact (mem_mapSet h).imp (List.mem_cons_of_mem _) id
      · rcases List.mem_cons.1 h with h | h
        · exact .inr (h ▸ rfl)
        · exact .inl (List.mem_cons_of_mem _ h)

/-- Option object `p` is in a table. -/
def Listed (m : Members) (p : Nat) : Prop := (∃ n, (n, p) ∈ m.longMap) ∨ ∃ c, (c, p) ∈ m.abMap

theorem Refers.listed {w : World V} {m : Members} {p : Nat} (h : Refers (w.view m) p) : Listed m p := by
  rcases h with ⟨n, h⟩ | ⟨c, h⟩
  · exact .inl (mapFind_mem h)
  · exact .inr (mapFind_mem h)

/-- The members of an object. -/
def membersOf (o : Options V) : Members := ⟨o.longMap, o.abMap, o.info, o.pos, o.isKvp, o.waiting⟩

theorem listed_registerOpt {o : Options V} {f : Nat → V} {d : Decl V} {p : Nat}
    (h : Listed (membersOf ({ o with sc := f }.registerOpt d)) p) : Listed (membersOf o) p ∨ p = o.decls.length := by
  rcases h with ⟨n, h⟩ | ⟨c, h⟩
  · rcases mem_mapSet h with h | h
    · exact .inl (.inl ⟨n, h⟩)
    · exact .inr h
  · rcases mem_mapSet h with h | h
    · exact .inl (.inr ⟨c, h⟩)
    · exact .inr h

/-- A call adds at most the option object that it creates. -/
theorem listed_run {c : OptCall V} {o o' : Options V} {b : Bool} (h : c.run o = .ok (o', b)) {p : Nat}
    (hp : Listed (membersOf o') p) :
    Listed (membersOf o) p ∨ (o.decls.length ≤ p ∧ p < o'.decls.length) := by
  have key : ∀ (f : Nat → V) (d : Decl V), o' = { o with sc := f }.registerOpt d →
      Listed (membersOf o) p ∨ (o.decls.length ≤ p ∧ p < o'.decls.length) := by
    rintro f d rfl
    rcases listed_registerOpt hp with h | rfl
    · exact .inl h
    · exact .inr ⟨Nat.le_refl _, by simp [Options.registerOpt]⟩
  have none : NoRegistration c → Listed (membersOf o) p ∨ (o.decls.length ≤ p ∧ p < o'.decls.length) := by
    intro hn
    obtain ⟨h1, h2⟩ := run_maps hn h
    left
    unfold Listed membersOf at hp ⊢
    rw [h1, h2] at hp
    exact hp
  cases c with
  | addDef T val long ab dv doc test err => cases h; exact key _ _ rfl
  | add T val long ab doc test err => cases h; exact key _ _ rfl
  | addP ff tt val long ab doc => cases h; exact key _ _ rfl
  | addV T val long ab doc test err => cases h; exact key o.sc _ rfl
  | _ => exact none fun _ h => h

/-! ### Actions that are not calls -/

/-- The action changes one object; it is then this. -/
inductive Plain (w : World V) : OptAct V → Nat → Option Members → Prop where
  | new {i k} : w.objs i = none → Plain w (.new i k) i (some ⟨[], [], [], [], k, false⟩)
  | copy {i j m} : w.objs i = some m → w.objs j = none → Plain w (.copy i j) j (some m)
  | assign {i j m m'} : w.objs i = some m → w.objs j = some m' → Plain w (.assign i j) i (some m')
  | destroy {i m} : w.objs i = some m → Plain w (.destroy i) i none

theorem Plain.answer {w : World V} {a : OptAct V} {x : Nat} {v : Option Members} (h : Plain w a x v) :
    answer w a = .ok ({ w with objs := update w.objs x v }, true) := by
  cases h with
  | new h => simp [Spec.answer, World.act, h, Res.bind]
  | copy h h' => simp [Spec.answer, World.act, h, h', Res.bind]
  | assign h h' => simp [Spec.answer, World.act, h, h', Res.bind]
  | destroy h => simp [Spec.answer, World.act, h, Res.bind]

theorem answer_cases {w w' : World V} {a : OptAct V} {b : Bool} (h : answer w a = .ok (w', b)) :
    (∃ i c m o', a = .call i c ∧ w.objs i = some m ∧ c.run (w.view m) = .ok (o', b) ∧ w' = w.put i o') ∨
      ∃ x v, Plain w a x v ∧ w' = { w with objs := update w.objs x v } ∧ b = true := by
  cases a with
  | new i k =>
    right
    cases hi : w.objs i with
    | some m => simp [answer, World.act, hi, Res.bind] at h
    | none =>
      simp only [answer, World.act, hi, Res.bind] at h
      cases h
      exact ⟨_, _, .new hi, rfl, rfl⟩
  | copy i j =>
    right
    cases hi : w.objs i with
    | none => simp [answer, World.act, hi, Res.bind] at h
    | some m =>
      cases hj : w.objs j with
      | some m' => simp [answer, World.act, hi, hj, Res.bind] at h
      | none =>
        simp only [answer, World.act, hi, hj, Res.bind] at h
        cases h
        exact ⟨_, _, .copy hi hj, rfl, rfl⟩
  | assign i j =>
    right
    cases hi : w.objs i with
    | none => simp [answer, World.act, hi, Res.bind] at h
    | some m =>
      cases hj : w.objs j with
      | none => simp [answer, World.act, hi, hj, Res.bind] at h
      | some m' =>
        simp only [answer, World.act, hi, hj, Res.bind] at h
        cases h
        exact ⟨_, _, .assign hi hj, rfl, rfl⟩
  | destroy i =>
    right
    cases hi : w.objs i with
    | none => simp [answer, World.act, hi, Res.bind] at h
    | some m =>
      simp only [answer, World.act, hi, Res.bind] at h
      cases h
      exact ⟨_, _, .destroy hi, rfl, rfl⟩
  | call i c =>
    left
    cases hi : w.objs i with
    | none => simp [answer, World.call, hi] at h
    | some m =>
      simp only [answer, World.call, hi] at h
      cases hr : c.run (w.view m) with
      | ub => rw [hr] at h; cases h
      | throw e => exact nomatch e
      | ok r =>
        obtain ⟨o', b'⟩ := r
        rw [hr] at h
        simp only [Res.bind] at h
        cases h
        exact ⟨i, c, m, o', rfl, hi, hr, rfl⟩

theorem answer_act {w w' : World V} {a : OptAct V} (h : w.act a = .ok w') : ∃ b, answer w a = .ok (w', b) := by
  cases a with
  | call i c =>
    simp only [World.act] at h
    cases hr : w.call i c with
    | ub => rw [hr] at h; cases h
    | throw e => exact nomatch e
    | ok r =>
      rw [hr] at h
      simp only [Res.bind] at h
      cases h
      exact ⟨r.2, hr⟩
  | _ => exact ⟨true, by simp only [answer, h, Res.bind]⟩

/-! ### Worlds in general -/

/-- The tables mention option objects that exist. -/
def Bounded (w : World V) : Prop := ∀ i m, w.objs i = some m → ∀ p, Listed m p → p < w.decls.length

theorem not_listed_new (k : Bool) (p : Nat) : ¬ Listed ⟨[], [], [], [], k, false⟩ p := by
  rintro (⟨n, h⟩ | ⟨c, h⟩) <;> cases h

theorem Plain.listed {w : World V} {a : OptAct V} {x : Nat} {v : Option Members} (h : Plain w a x v) {m : Members}
    (hv : v = some m) {p : Nat} (hp : Listed m p) : ∃ y ∈ objectsOf a, w.objs y = some m := by
  cases h with
  | new h => cases hv; exact absurd hp (not_listed_new _ _)
  | @copy i j m' h h' => cases hv; exact ⟨i, by simp [objectsOf], h⟩
  | @assign i j m m' h h' => cases hv; exact ⟨j, by simp [objectsOf], h'⟩
  | destroy h => cases hv

theorem Plain.mem {w : World V} {a : OptAct V} {x : Nat} {v : Option Members} (h : Plain w a x v) : x ∈ objectsOf a := by
  cases h <;> simp [objectsOf]

theorem Bounded.answer {w w' : World V} {a : OptAct V} {b : Bool} (hb : Bounded w) (h : answer w a = .ok (w', b)) :
    Bounded w' := by
  rcases answer_cases h with ⟨i, c, m0, o', rfl, hi, hr, rfl⟩ | ⟨x, v, hpl, rfl, -⟩
  · obtain ⟨l, hl, -⟩ := (Effect.run c hr).decls
    have hle : w.decls.length ≤ o'.decls.length := by
      rw [hl]; simp [World.view]
    intro j m hm p hp
    show p < o'.decls.length
    by_cases hj : j = i
    · subst hj
      rw [show (w.put j o').objs j = some (membersOf o') from update_same _ _ _] at hm
      cases hm
      rcases listed_run hr hp with h1 | h1
      · exact Nat.lt_of_lt_of_le (hb j m0 hi p h1) hle
      · exact h1.2
    · rw [show (w.put i o').objs j = w.objs j from update_ne _ _ hj] at hm
      exact Nat.lt_of_lt_of_le (hb j m hm p hp) hle
  · intro j m hm p hp
    by_cases hj : j = x
    · subst hj
      simp only [update_same] at hm
      obtain ⟨y, -, hy⟩ := hpl.listed hm hp
      exact hb y m hy p hp
    · simp only [update_ne _ _ hj] at hm
      exact hb j m hm p hp

theorem Bounded.acts {sc : Nat → V} {vec : Nat → List V} (as : List (OptAct V)) :
    ∀ w, (World.start sc vec).acts as = .ok w → Bounded w := by
  induction as using List.reverseRecOn with
  | nil => intro w h; cases h; intro i m hm; cases hm
  | append_singleton as a ih =>
    intro w h
    obtain ⟨w1, h1, h2⟩ := acts_snoc _ _ _ _ h
    obtain ⟨b, h3⟩ := answer_act h2
    exact (ih w1 h1).answer h3

/-- An action of a thread on its own objects leaves the threads separate. -/
theorem separate_answer {own ownVar : Nat → ι} {w w' : World V} {a : OptAct V} {b : Bool} {t : ι} (hb : Bounded w)
    (hs : Separate own ownVar w) (h : answer w a = .ok (w', b)) (ho : ∀ i ∈ objectsOf a, own i = t)
    (hv : ∀ i c x, a = .call i c → Registers x c → ownVar x = t) : Separate own ownVar w' := by
  rcases answer_cases h with ⟨i, c, m0, o', rfl, hi, hr, rfl⟩ | ⟨x, v, hpl, rfl, -⟩
  · have hit : own i = t := ho i (by simp [objectsOf])
    have he := Effect.run c hr
    obtain ⟨l, hl, hlT⟩ := he.decls
    have hl' : o'.decls = w.decls ++ l := hl
    have old : ∀ j p, HasOption (w.put i o') j p → HasOption w j p ∨ (j = i ∧ w.decls.length ≤ p) := by
      rintro j p ⟨m, hm, hp⟩
      by_cases hj : j = i
      · subst hj
        rw [show (w.put j o').objs j = some (membersOf o') from update_same _ _ _] at hm
        cases hm
        rcases listed_run hr hp with h1 | h1
        · exact .inl ⟨m0, hi, h1⟩
        · exact .inr ⟨rfl, h1.1⟩
      · rw [show (w.put i o').objs j = w.objs j from update_ne _ _ hj] at hm
        exact .inl ⟨m, hm, hp⟩
    have lt : ∀ j p, HasOption w j p → p < w.decls.length := fun j p ⟨m, hm, hp⟩ => hb j m hm p hp
    constructor
    · intro j j' p hne h1 h2
      rcases old j p h1 with f1 | ⟨rfl, f1⟩ <;> rcases old j' p h2 with f2 | ⟨rfl, f2⟩
      · exact hs.1 j j' p hne f1 f2
      · have := lt _ _ f1; omega
      · have := lt _ _ f2; omega
      · exact hne rfl
    · intro j p d h1 hd
      have hd' : o'.decls[p]? = some d := hd
      rcases old j p h1 with f1 | ⟨rfl, f1⟩
      · rw [hl', List.getElem?_append_left (lt _ _ f1)] at hd'
        exact hs.2 j p d f1 hd'
      · rw [hl', List.getElem?_append_right f1] at hd'
        rw [hit]
        exact hv j c _ rfl (hlT d (List.mem_of_getElem? hd'))
  · have old : ∀ j p, HasOption { w with objs := update w.objs x v } j p → ∃ j', own j' = own j ∧ HasOption w j' p := by
      rintro j p ⟨m, hm, hp⟩
      by_cases hj : j = x
      · subst hj
        simp only [update_same] at hm
        obtain ⟨y, hy, hy'⟩ := hpl.listed hm hp
        exact ⟨y, (ho y hy).trans (ho j hpl.mem).symm, m, hy', hp⟩
      · simp only [update_ne _ _ hj] at hm
        exact ⟨j, rfl, m, hm, hp⟩
    constructor
    · intro j j' p hne h1 h2
      obtain ⟨k, e1, h1⟩ := old j p h1
      obtain ⟨k', e2, h2⟩ := old j' p h2
      exact hs.1 k k' p (by rw [e1, e2]; exact hne) h1 h2
    · intro j p d h1 hd
      obtain ⟨k, e1, h1⟩ := old j p h1
      rw [← e1]
      exact hs.2 k p d h1 hd

/-! ### One thread by itself -/

/-- An object without options. -/
def noMembers : Members := ⟨[], [], [], [], false, false⟩

/-- The objects differ at most in the numbering of the option objects. -/
structure SameMembers (ρ : Nat → Nat → Prop) (m1 m2 : Members) : Prop where
  long : SameTable ρ m1.longMap m2.longMap
  ab : SameTable ρ m1.abMap m2.abMap
  info : m1.info = m2.info
  pos : m1.pos = m2.pos
  isKvp : m1.isKvp = m2.isKvp
  waiting : m1.waiting = m2.waiting

theorem SameMembers.mono {ρ ρ' : Nat → Nat → Prop} (hρ : ∀ p q, ρ p q → ρ' p q) {m1 m2 : Members}
    (h : SameMembers ρ m1 m2) : SameMembers ρ' m1 m2 :=
  { h with long := h.long.mono hρ, ab := h.ab.mono hρ }

theorem Agree.sameMembers {pr : Nat → Prop} {A : Nat → Prop} {ρ : Nat → Nat → Prop} {o1 o2 : Options V}
    (h : Agree pr A ρ o1 o2) : SameMembers ρ (membersOf o1) (membersOf o2) :=
  ⟨h.long, h.ab, h.info, h.pos, h.isKvp, h.waiting⟩

theorem SameMembers.agree {pr : Nat → Prop} {A : Nat → Prop} {ρ : Nat → Nat → Prop} {w1 w2 : World V} {m1 m2 : Members}
    (h : SameMembers ρ m1 m2) {m0 : Members} (hc : Agree pr A ρ (w1.view m0) (w2.view m0)) :
    Agree pr A ρ (w1.view m1) (w2.view m2) :=
  { hc with long := h.long, ab := h.ab, info := h.info, pos := h.pos, isKvp := h.isKvp, waiting := h.waiting }

/-- `w1` is what thread `t` sees of `w2`. -/
structure Sim (own ownVar : Nat → ι) (t : ι) (ρ : Nat → Nat → Prop) (w1 w2 : World V) : Prop where
  core : Agree (fun _ => True) (fun a => ownVar a = t) ρ (w1.view noMembers) (w2.view noMembers)
  obj : ∀ i, own i = t → (w1.objs i = none ∧ w2.objs i = none) ∨
    ∃ m1 m2, w1.objs i = some m1 ∧ w2.objs i = some m2 ∧ SameMembers ρ m1 m2
  foreign : ∀ p q, ρ p q → ∀ i, own i ≠ t → ¬ HasOption w2 i q

theorem Sim.none_iff {own ownVar : Nat → ι} {t : ι} {ρ : Nat → Nat → Prop} {w1 w2 : World V}
    (h : Sim own ownVar t ρ w1 w2) {i : Nat} (hi : own i = t) (hn : w1.objs i = none) : w2.objs i = none := by
  rcases h.obj i hi with ⟨-, h⟩ | ⟨m1, m2, h1, -⟩
  · exact h
  · rw [hn] at h1; cases h1

theorem Sim.some_of {own ownVar : Nat → ι} {t : ι} {ρ : Nat → Nat → Prop} {w1 w2 : World V}
    (h : Sim own ownVar t ρ w1 w2) {i : Nat} (hi : own i = t) {m1 : Members} (hm : w1.objs i = some m1) :
    ∃ m2, w2.objs i = some m2 ∧ SameMembers ρ m1 m2 := by
  rcases h.obj i hi with ⟨h1, -⟩ | ⟨m1', m2, h1, h2, h3⟩
  · rw [hm] at h1; cases h1
  · rw [hm] at h1; cases h1; exact ⟨m2, h2, h3⟩

theorem Sim.none_iff' {own ownVar : Nat → ι} {t : ι} {ρ : Nat → Nat → Prop} {w1 w2 : World V}
    (h : Sim own ownVar t ρ w1 w2) {i : Nat} (hi : own i = t) (hn : w2.objs i = none) : w1.objs i = none := by
  rcases h.obj i hi with ⟨h, -⟩ | ⟨m1, m2, -, h1, -⟩
  · exact h
  · rw [hn] at h1; cases h1

theorem Sim.some_of' {own ownVar : Nat → ι} {t : ι} {ρ : Nat → Nat → Prop} {w1 w2 : World V}
    (h : Sim own ownVar t ρ w1 w2) {i : Nat} (hi : own i = t) {m2 : Members} (hm : w2.objs i = some m2) :
    ∃ m1, w1.objs i = some m1 ∧ SameMembers ρ m1 m2 := by
  rcases h.obj i hi with ⟨-, h1⟩ | ⟨m1, m2', h1, h2, h3⟩
  · rw [hm] at h1; cases h1
  · rw [hm] at h2; cases h2; exact ⟨m1, h1, h3⟩

/-- At the start. -/
theorem Sim.refl {own ownVar : Nat → ι} (t : ι) {w : World V} (hb : Bounded w) (hs : Separate own ownVar w) :
    ∃ ρ, Sim own ownVar t ρ w w := by
  refine ⟨fun p q => p = q ∧ ∃ i, own i = t ∧ HasOption w i p, ?_, ?_, ?_⟩
  · refine { long := .nil, ab := .nil, info := rfl, pos := rfl, isKvp := rfl, waiting := rfl, decl := ?_,
             inj := ?_, pres := ?_, presLe := ?_, sc := fun _ _ => rfl, vec := fun _ _ => rfl }
    · rintro p q ⟨rfl, i, -, m, hm, hp⟩
      have := hb i m hm p hp
      exact ⟨w.decls[p], by simp [World.view], by simp [World.view]⟩
    · rintro p q p' q' ⟨rfl, -⟩ ⟨rfl, -⟩; exact Iff.rfl
    · rintro p q ⟨rfl, -⟩ -; rfl
    · rintro p q ⟨rfl, -⟩ h; exact h
  · intro i hi
    cases hm : w.objs i with
    | none => exact .inl ⟨rfl, rfl⟩
    | some m =>
      right
      refine ⟨m, m, rfl, rfl, ?_, ?_, rfl, rfl, rfl, rfl⟩
      · exact List.forall₂_same.2 fun x hx => ⟨rfl, rfl, i, hi, m, hm, .inl ⟨x.1, hx⟩⟩
      · exact List.forall₂_same.2 fun x hx => ⟨rfl, rfl, i, hi, m, hm, .inr ⟨x.1, hx⟩⟩
  · rintro p q ⟨rfl, i, hi, hp⟩ j hj hj'
    exact hs.1 i j p (by rw [hi]; exact Ne.symm hj) hp hj'

/-- Another thread acts: nothing changes for thread `t`. -/
theorem Sim.other {own ownVar : Nat → ι} {t t' : ι} {ρ : Nat → Nat → Prop} {w1 w2 w2' : World V} {a : OptAct V} {b : Bool}
    (hsim : Sim own ownVar t ρ w1 w2) (hs : Separate own ownVar w2)
    (h : answer w2 a = .ok (w2', b)) (htt : t' ≠ t) (ho : ∀ i ∈ objectsOf a, own i = t')
    (hv : ∀ i c x, a = .call i c → Registers x c → ownVar x = t') : Sim own ownVar t ρ w1 w2' := by
  rcases answer_cases h with ⟨i, c, m0, o', rfl, hi, hr, rfl⟩ | ⟨x, v, hpl, rfl, -⟩
  · have hit : own i = t' := ho i (by simp [objectsOf])
    have he := Effect.run c hr
    have he' : Effect (fun a => Registers a c) (w2.view m0) ((w2.put i o').view m0) :=
      ⟨he.decls, fun _ h => .inl h, he.pres, he.presLe, he.sc, he.vec⟩
    have hne : ∀ j, own j = t → j ≠ i := by
      rintro j hj rfl; exact htt (hit.symm.trans hj)
    refine ⟨hsim.core.other he' ?_ ?_, ?_, ?_⟩
    · intro p q _ hq hpq
      exact hsim.foreign p q hpq i (by rw [hit]; exact htt) ⟨m0, hi, hq.listed⟩
    · intro a ha
      refine ⟨fun hR => htt ((hv i c a rfl hR).symm.trans ha), ?_⟩
      intro p d hp hd e
      subst e
      exact htt ((hit.symm.trans (hs.2 i p d ⟨m0, hi, hp.listed⟩ hd).symm).trans ha)
    · intro j hj
      rw [show (w2.put i o').objs j = w2.objs j from update_ne _ _ (hne j hj)]
      exact hsim.obj j hj
    · rintro p q hpq j hj ⟨m, hm, hq⟩
      by_cases hji : j = i
      · subst hji
        rw [show (w2.put j o').objs j = some (membersOf o') from update_same _ _ _] at hm
        cases hm
        rcases listed_run hr hq with h1 | h1
        · exact hsim.foreign p q hpq j hj ⟨m0, hi, h1⟩
        · obtain ⟨d, _, h2⟩ := hsim.core.decl p q hpq
          have h3 : q < w2.decls.length := (List.getElem?_eq_some_iff.1 h2).1
          have h4 : w2.decls.length ≤ q := h1.1
          omega
      · rw [show (w2.put i o').objs j = w2.objs j from update_ne _ _ hji] at hm
        exact hsim.foreign p q hpq j hj ⟨m, hm, hq⟩
  · have hxt : own x = t' := ho x hpl.mem
    refine ⟨hsim.core, ?_, ?_⟩
    · intro j hj
      have : j ≠ x := by rintro rfl; exact htt (hxt.symm.trans hj)
      simp only [update_ne _ _ this]
      exact hsim.obj j hj
    · rintro p q hpq j hj ⟨m, hm, hq⟩
      by_cases hjx : j = x
      · subst hjx
        simp only [update_same] at hm
        obtain ⟨y, hy, hy'⟩ := hpl.listed hm hq
        exact hsim.foreign p q hpq y (by rw [ho y hy, ← hxt]; exact hj) ⟨m, hy', hq⟩
      · simp only [update_ne _ _ hjx] at hm
        exact hsim.foreign p q hpq j hj ⟨m, hm, hq⟩

/-- A change of one object on both sides. -/
theorem Sim.update {own ownVar : Nat → ι} {t : ι} {ρ : Nat → Nat → Prop} {w1 w2 : World V}
    (hsim : Sim own ownVar t ρ w1 w2) {x : Nat} (hx : own x = t) {v1 v2 : Option Members}
    (hv : (v1 = none ∧ v2 = none) ∨ ∃ m1 m2, v1 = some m1 ∧ v2 = some m2 ∧ SameMembers ρ m1 m2) :
    Sim own ownVar t ρ { w1 with objs := update w1.objs x v1 } { w2 with objs := update w2.objs x v2 } := by
  refine ⟨hsim.core, ?_, ?_⟩
  · intro j hj
    by_cases hjx : j = x
    · subst hjx
      simp only [update_same]
      exact hv
    · simp only [update_ne _ _ hjx]
      exact hsim.obj j hj
  · rintro p q hpq j hj ⟨m, hm, hq⟩
    have hjx : j ≠ x := by rintro rfl; exact hj hx
    simp only [update_ne _ _ hjx] at hm
    exact hsim.foreign p q hpq j hj ⟨m, hm, hq⟩

theorem Sim.plain {own ownVar : Nat → ι} {t : ι} {ρ : Nat → Nat → Prop} {w1 w2 : World V} {a : OptAct V}
    (hsim : Sim own ownVar t ρ w1 w2) (ho : ∀ i ∈ objectsOf a, own i = t) :
    (∀ x v2, Plain w2 a x v2 → ∃ v1, Plain w1 a x v1) ∧
    ∀ x v1, Plain w1 a x v1 → ∃ v2, Plain w2 a x v2 ∧
      Sim own ownVar t ρ { w1 with objs := Opts.update w1.objs x v1 } { w2 with objs := Opts.update w2.objs x v2 } := by
  constructor
  · intro x v2 h
    cases h with
    | @new i k h => exact ⟨_, .new (hsim.none_iff' (ho x (by simp [objectsOf])) h)⟩
    | @copy i j m h h' =>
      obtain ⟨m1, h1, -⟩ := hsim.some_of' (ho i (by simp [objectsOf])) h
      exact ⟨_, .copy h1 (hsim.none_iff' (ho x (by simp [objectsOf])) h')⟩
    | @assign i j m m' h h' =>
      obtain ⟨m1, h1, -⟩ := hsim.some_of' (ho x (by simp [objectsOf])) h
      obtain ⟨m1', h1', -⟩ := hsim.some_of' (ho j (by simp [objectsOf])) h'
      exact ⟨_, .assign h1 h1'⟩
    | @destroy i m h =>
      obtain ⟨m1, h1, -⟩ := hsim.some_of' (ho x (by simp [objectsOf])) h
      exact ⟨_, .destroy h1⟩
  · intro x v1 h
    cases h with
    | @new i k h =>
      have hi := ho x (by simp [objectsOf])
      exact ⟨_, .new (hsim.none_iff hi h), hsim.update hi (.inr ⟨_, _, rfl, rfl, .nil, .nil, rfl, rfl, rfl, rfl⟩)⟩
    | @copy i j m h h' =>
      obtain ⟨m2, h2, hm⟩ := hsim.some_of (ho i (by simp [objectsOf])) h
      have hj := ho x (by simp [objectsOf])
      exact ⟨_, .copy h2 (hsim.none_iff hj h'), hsim.update hj (.inr ⟨_, _, rfl, rfl, hm⟩)⟩
    | @assign i j m m' h h' =>
      have hi := ho x (by simp [objectsOf])
      obtain ⟨m2, h2, -⟩ := hsim.some_of hi h
      obtain ⟨m2', h2', hm⟩ := hsim.some_of (ho j (by simp [objectsOf])) h'
      exact ⟨_, .assign h2 h2', hsim.update hi (.inr ⟨_, _, rfl, rfl, hm⟩)⟩
    | @destroy i m h =>
      have hi := ho x (by simp [objectsOf])
      obtain ⟨m2, h2, -⟩ := hsim.some_of hi h
      exact ⟨_, .destroy h2, hsim.update hi (.inl ⟨rfl, rfl⟩)⟩

/-- Thread `t` acts: by itself and among the others the same happens. -/
theorem Sim.own {own ownVar : Nat → ι} {t : ι} {ρ : Nat → Nat → Prop} {w1 w2 : World V} {a : OptAct V}
    (hsim : Sim own ownVar t ρ w1 w2) (hb : Bounded w2) (ho : ∀ i ∈ objectsOf a, own i = t) :
    (answer w1 a = .ub ∧ answer w2 a = .ub) ∨ ∃ w1' w2' b ms ρ', answer w1 a = .ok (w1', b) ∧ answer w2 a = .ok (w2', b) ∧
      w1'.cerr = w1.cerr ++ ms ∧ w2'.cerr = w2.cerr ++ ms ∧ Sim own ownVar t ρ' w1' w2' := by
  by_cases hc : ∃ i c, a = .call i c
  · obtain ⟨i, c, rfl⟩ := hc
    have hi := ho i (by simp [objectsOf])
    rcases hsim.obj i hi with ⟨h1, h2⟩ | ⟨m1, m2, h1, h2, hm⟩
    · left; simp [answer, World.call, h1, h2]
    rcases (hm.agree hsim.core).run c with ⟨e1, e2⟩ | ⟨o1', o2', b, ρ', e1, e2, hag, hρ, ds, d1, d2⟩
    · left; simp [answer, World.call, h1, h2, e1, e2, Res.bind]
    right
    refine ⟨w1.put i o1', w2.put i o2', b, ds, ρ', by simp [answer, World.call, h1, e1, Res.bind],
      by simp [answer, World.call, h2, e2, Res.bind], d1, d2, ?_, ?_, ?_⟩
    · exact { hag with long := .nil, ab := .nil, info := rfl, pos := rfl, isKvp := rfl, waiting := rfl }
    · intro j hj
      by_cases hji : j = i
      · subst hji
        exact .inr ⟨_, _, update_same _ _ _, update_same _ _ _, hag.sameMembers⟩
      · rw [show (w1.put i o1').objs j = w1.objs j from update_ne _ _ hji,
          show (w2.put i o2').objs j = w2.objs j from update_ne _ _ hji]
        rcases hsim.obj j hj with h | ⟨n1, n2, f1, f2, f3⟩
        · exact .inl h
        · exact .inr ⟨n1, n2, f1, f2, f3.mono hρ.1⟩
    · rintro p q hpq j hj ⟨m, hm', hq⟩
      have hji : j ≠ i := by rintro rfl; exact hj hi
      rw [show (w2.put i o2').objs j = w2.objs j from update_ne _ _ hji] at hm'
      rcases hρ.2 p q hpq with h | h
      · exact hsim.foreign p q h j hj ⟨m, hm', hq⟩
      · have h3 := hb j m hm' q hq
        have h4 : q = w2.decls.length := h
        omega
  · have hpl := hsim.plain ho
    by_cases hx : ∃ x v1, Plain w1 a x v1
    · obtain ⟨x, v1, h1⟩ := hx
      obtain ⟨v2, h2, h3⟩ := hpl.2 x v1 h1
      exact .inr ⟨_, _, true, [], ρ, h1.answer, h2.answer, by simp, by simp, h3⟩
    · left
      constructor
      · cases h : answer w1 a with
        | ub => rfl
        | throw e => exact nomatch e
        | ok r =>
          rcases answer_cases (b := r.2) (w' := r.1) h with ⟨i, c, -, -, rfl, -⟩ | ⟨x, v, h1, -⟩
          · exact absurd ⟨i, c, rfl⟩ hc
          · exact absurd ⟨x, v, h1⟩ hx
      · cases h : answer w2 a with
        | ub => rfl
        | throw e => exact nomatch e
        | ok r =>
          rcases answer_cases (b := r.2) (w' := r.1) h with ⟨i, c, -, -, rfl, -⟩ | ⟨x, v, h1, -⟩
          · exact absurd ⟨i, c, rfl⟩ hc
          · obtain ⟨v1, h2⟩ := hpl.1 x v h1
            exact absurd ⟨x, v1, h2⟩ hx

/-! ### All actions -/

theorem ownObjects_of_snoc {own ownVar : Nat → ι} {tr : List (OptEvent ι V)} {e : OptEvent ι V}
    (h : OwnObjects own ownVar (tr ++ [e])) : OwnObjects own ownVar tr :=
  fun e' he' => h e' (List.mem_append_left _ he')

theorem performs_good {own ownVar : Nat → ι} {w0 w : World V} {tr : List (OptEvent ι V)} (hb : Bounded w0)
    (hs : Separate own ownVar w0) (h : Performs w0 tr w) (ho : OwnObjects own ownVar tr) :
    Bounded w ∧ Separate own ownVar w := by
  induction h with
  | nil => exact ⟨hb, hs⟩
  | @snoc tr w' e w'' h ha hm ih =>
    obtain ⟨h1, h2⟩ := ih (ownObjects_of_snoc ho)
    obtain ⟨o1, o2⟩ := ho e (List.mem_append_right _ List.mem_cons_self)
    exact ⟨h1.answer ha, separate_answer h1 h2 ha o1 o2⟩

theorem performs_sim [DecidableEq ι] {own ownVar : Nat → ι} {w0 w : World V} {tr : List (OptEvent ι V)} (hb : Bounded w0)
    (hs : Separate own ownVar w0) (h : Performs w0 tr w) (ho : OwnObjects own ownVar tr) (t : ι) :
    ∃ ρ w1, Performs w0 (tr.filter fun e => decide (e.thread = t)) w1 ∧ Sim own ownVar t ρ w1 w := by
  induction h with
  | nil =>
    obtain ⟨ρ, h⟩ := Sim.refl t hb hs
    exact ⟨ρ, w0, .nil, h⟩
  | @snoc tr w' e w'' h ha hm ih =>
    obtain ⟨ρ, w1, h1, h2⟩ := ih (ownObjects_of_snoc ho)
    obtain ⟨o1, o2⟩ := ho e (List.mem_append_right _ List.mem_cons_self)
    obtain ⟨b', s'⟩ := performs_good hb hs h (ownObjects_of_snoc ho)
    rw [List.filter_append]
    by_cases ht : e.thread = t
    · rw [List.filter_cons_of_pos (by simpa using ht), List.filter_nil]
      rcases h2.own b' (fun i hi => (o1 i hi).trans ht) with ⟨-, h3⟩ | ⟨w1', w2', b, ms, ρ', e1, e2, c1, c2, h3⟩
      · rw [ha] at h3; cases h3
      · rw [ha] at e2
        cases e2
        rw [hm] at c2
        have : e.msgs = ms := List.append_cancel_left c2
        subst this
        exact ⟨ρ', w1', .snoc h1 e1 c1, h3⟩
    · rw [List.filter_cons_of_neg (by simpa using ht), List.filter_nil, List.append_nil]
      exact ⟨ρ, w1, h1, h2.other s' ha ht o1 o2⟩

theorem performs_unique {w0 w w' : World V} {tr : List (OptEvent ι V)} (h : Performs w0 tr w) (h' : Performs w0 tr w') :
    w = w' := by
  induction h generalizing w' with
  | nil =>
    generalize hn : ([] : List (OptEvent ι V)) = l at h'
    cases h' with
    | nil => rfl
    | snoc => simp at hn
  | @snoc tr w1 e w2 h ha hm ih =>
    generalize hn : tr ++ [e] = l at h'
    cases h' with
    | nil => simp at hn
    | @snoc tr' w1' e' w2' h1 ha1 hm1 =>
      obtain ⟨rfl, he⟩ := List.append_inj' hn rfl
      cases he
      have := ih h1
      subst this
      rw [ha] at ha1
      cases ha1
      rfl

end SoDa.Opts
