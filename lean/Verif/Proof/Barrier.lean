import Verif.Spec.Barrier
import Batteries.Data.List.Perm
import Mathlib.Data.List.Nodup
/-!
Invariants of the barrier.
-/
set_option linter.unusedSectionVars false
namespace SoDa.Bar
open Spec

variable {T : Type} [DecidableEq T]

/-- The thread owns the mutex. -/
def Pc.holds : Pc → Bool
  | .incr _ | .test _ | .reset | .bump | .notify | .pred _ | .predT _ | .expired | .setCorrupt
  | .setCount | .notifyT | .leave _ => true
  | _ => false

/-- The thread has executed `waiting++` and is still in the call. -/
def Pc.arrived : Pc → Bool
  | .idle | .start | .wantLock _ | .incr _ => false
  | _ => true

/-- What the execution so far says about a thread at `p` which arrived in generation `g`, when `G`
generations are complete. -/
def Pc.good (G g : Nat) : Pc → Prop
  | .test old => old = g % 4294967296 ∧ g = G
  | .pred old | .woken old false | .waitCv old => old = g % 4294967296 ∧ g ≤ G
  | .reset | .bump => g = G
  | .notify | .leave .normal | .out .normal => g < G
  | .idle | .start | .wantLock _ | .incr _ => True
  | _ => False

def arrivals (evs : List (Ev T)) : Nat := evs.countP fun e => match e with
  | .arrive _ _ => true
  | _ => false

/-- All threads sleep, or own the mutex, in one place only. -/
def Excl (c : Conf T) : Prop := ∀ t, (c.pc t).holds = true ↔ c.holder = some t

structure Inv (n : Nat) (evs : List (Ev T)) (c : Conf T) (G : Nat) (gen : T → Nat)
    (cur pend : List T) : Prop where
  excl : Excl c
  count : c.count = G % 4294967296
  arr : arrivals evs = n * G + cur.length
  good : ∀ t, (c.pc t).good G (gen t)
  cur_mem : ∀ t, t ∈ cur ↔ (c.pc t).arrived = true ∧ gen t = G
  cur_nodup : cur.Nodup
  pend_mem : ∀ t, t ∈ pend ↔ (c.pc t).arrived = true
  pend_nodup : pend.Nodup
  ret : allReturns evs + pend.length = arrivals evs
  len : cur.length ≤ n
  full : cur.length = n → ∃ u, (∃ old, c.pc u = .test old) ∨ c.pc u = .reset ∨ c.pc u = .bump
  full' : ∀ u, c.pc u = .reset ∨ c.pc u = .bump → cur.length = n
  wait : (∀ u, c.pc u ≠ .bump) → c.waiting = cur.length
  wait0 : ∀ u, c.pc u = .bump → c.waiting = 0
  awake : ∀ t old, c.pc t = .waitCv old → old ≠ c.count → ∃ u, c.pc u = .notify

theorem inv_init (n : Nat) (hn : 1 ≤ n) : Inv n [] (Conf.init : Conf T) 0 (fun _ => 0) [] [] where
  excl := by intro t; simp [Conf.init, Pc.holds]
  count := by simp [Conf.init]
  arr := by simp [arrivals]
  good := by intro t; simp [Conf.init, Pc.good]
  cur_mem := by intro t; simp [Conf.init, Pc.arrived]
  cur_nodup := by simp
  pend_mem := by intro t; simp [Conf.init, Pc.arrived]
  pend_nodup := by simp
  ret := by simp [allReturns, arrivals]
  len := by simp
  full := by intro h; simp at h; omega
  full' := by intro u; simp [Conf.init]
  wait := by simp [Conf.init]
  wait0 := by simp [Conf.init]
  awake := by intro t old; simp [Conf.init]

theorem arrivals_snoc (evs : List (Ev T)) (e : Ev T) : arrivals (evs ++ [e]) =
    arrivals evs + match e with | .arrive _ _ => 1 | _ => 0 := by
  unfold arrivals
  rw [List.countP_append]
  cases e <;> rfl

theorem allReturns_snoc (evs : List (Ev T)) (e : Ev T) : allReturns (evs ++ [e]) =
    allReturns evs + match e with | .ret _ => 1 | _ => 0 := by
  unfold allReturns
  rw [List.countP_append]
  cases e <;> rfl

/-- A step after which nobody has arrived, returned or advanced the generation. -/
theorem Inv.quiet {n evs G gen cur pend} {c c' : Conf T} {t : T} {p : Pc} {e : Ev T}
    (h : Inv n evs c G gen cur pend) (hc : c' = { c with holder := c'.holder }.goto t p)
    (he : (match e with | .arrive _ _ => False | .ret _ => False | _ => True))
    (hx : Excl c') (hg : p.good G (gen t)) (ha : p.arrived = (c.pc t).arrived)
    (hb : c.pc t ≠ .reset ∧ c.pc t ≠ .bump ∧ c.pc t ≠ .notify)
    (ht : (∃ old, c.pc t = .test old) → c.waiting ≠ n ∨ p = .reset)
    (hp : p ≠ .bump ∧ (∀ old, p = .test old → c.pc t = .test old)
      ∧ (p = .reset → (∃ old, c.pc t = .test old) ∧ c.waiting = n))
    (hw : ∀ old, p = .waitCv old → old = c.count) :
    Inv n (evs ++ [e]) c' G gen cur pend := by
  have e1 : arrivals (evs ++ [e]) = arrivals evs := by rw [arrivals_snoc]; cases e <;> first | rfl | exact he.elim
  have e2 : allReturns (evs ++ [e]) = allReturns evs := by rw [allReturns_snoc]; cases e <;> first | rfl | exact he.elim
  have hpc : ∀ u, c'.pc u = if u = t then p else c.pc u := by intro u; rw [hc]; rfl
  have hwt : c'.waiting = c.waiting := by rw [hc]; rfl
  have hct : c'.count = c.count := by rw [hc]; rfl
  have hnb : ∀ u, c.pc t = .test u → ∀ v, c.pc v ≠ .bump := by
    intro u hu v hv
    have h1 := (h.excl t).1 (by rw [hu]; rfl)
    have h2 := (h.excl v).1 (by rw [hv]; rfl)
    rw [h1] at h2
    cases h2
    rw [hu] at hv; cases hv
  constructor
  · exact hx
  · rw [hct, h.count]
  · rw [e1, h.arr]
  · intro u; rw [hpc]; split
    · next hu => rw [hu]; exact hg
    · exact h.good u
  · intro u; rw [hpc, h.cur_mem]; split
    · next hu => rw [hu, ha]
    · rfl
  · exact h.cur_nodup
  · intro u; rw [hpc, h.pend_mem]; split
    · next hu => rw [hu, ha]
    · rfl
  · exact h.pend_nodup
  · rw [e1, e2, h.ret]
  · exact h.len
  · intro hl
    obtain ⟨u, hu⟩ := h.full hl
    refine ⟨u, ?_⟩
    rw [hpc]
    split
    · next hut =>
      subst hut
      rcases hu with ⟨old, hu⟩ | hu | hu
      · have h1 := h.wait (hnb old hu)
        rcases ht ⟨old, hu⟩ with h2 | h2
        · omega
        · exact Or.inr (Or.inl h2)
      · exact absurd hu hb.1
      · exact absurd hu hb.2.1
    · exact hu
  · intro u
    rw [hpc]
    split
    · intro h1
      rcases h1 with h1 | h1
      · obtain ⟨⟨old, h2⟩, h3⟩ := hp.2.2 h1
        have h4 := h.wait (hnb old h2)
        omega
      · exact absurd h1 hp.1
    · exact h.full' u
  · intro hu
    rw [hwt]
    apply h.wait
    intro u hub
    by_cases hut : u = t
    · rw [hut] at hub; exact hb.2.1 hub
    · apply hu u; rw [hpc, if_neg hut, hub]
  · intro u; rw [hpc, hwt]; split
    · intro h1; exact absurd h1 hp.1
    · exact h.wait0 u
  · intro u old; rw [hpc, hct]; split
    · intro h1 h2; exact absurd (hw old h1) h2
    · intro h1 h2
      obtain ⟨v, hv⟩ := h.awake u old h1 h2
      refine ⟨v, ?_⟩
      rw [hpc]; split
      · next hvt => rw [hvt] at hv; exact absurd hv hb.2.2
      · exact hv

/-- The owner of the mutex is the thread that holds it. -/
theorem excl_step {n} {c c' : Conf T} {t m e} (h : Excl c) (hs : step n c t m = some (c', e)) :
    Excl c' := by
  have key : ∀ (c₁ : Conf T) p, c₁.pc = c.pc →
      (p.holds = true → c₁.holder = some t) → (p.holds = false → c₁.holder ≠ some t) →
      (∀ u, u ≠ t → (c₁.holder = some u ↔ c.holder = some u)) → Excl (c₁.goto t p) := by
    intro c₁ p h1 h2 h3 h4 u
    show (if u = t then p else c₁.pc u).holds = true ↔ c₁.holder = some u
    split
    · next hu =>
      rw [hu]
      cases hp : p.holds
      · simp [h3 hp]
      · simp [h2 hp]
    · next hu => rw [h1, h4 u hu]; exact h u
  have hwake : Excl c.wakeAll := by
    intro u
    have h1 := h u
    show (match c.pc u with | .waitCv old => Pc.woken old false | p => p).holds = true ↔ _
    rw [show c.wakeAll.holder = c.holder from rfl]
    cases hp : c.pc u <;> rw [hp] at h1 <;> simpa [Pc.holds] using h1
  have keyw : ∀ p, p.holds = true → c.holder = some t → Excl (c.wakeAll.goto t p) := by
    intro p h2 h3 u
    show (if u = t then p else c.wakeAll.pc u).holds = true ↔ c.holder = some u
    split
    · next hu => rw [hu, h2, h3]; simp
    · exact hwake u
  have hh : (c.pc t).holds = true → c.holder = some t := (h t).1
  have hn : (c.pc t).holds = false → c.holder ≠ some t := by
    intro h1 h2
    rw [(h t).2 h2] at h1; cases h1
  cases m with
  | call =>
    simp only [step] at hs
    split at hs
    · next hp =>
      cases hs
      exact key c _ rfl (by simp [Pc.holds]) (fun _ => hn (by rw [hp]; rfl)) (by simp)
    · cases hs
  | spurious =>
    simp only [step] at hs
    split at hs
    · next old hp =>
      cases hs
      exact key c _ rfl (by simp [Pc.holds]) (fun _ => hn (by rw [hp]; rfl)) (by simp)
    · cases hs
  | deadline =>
    simp only [step] at hs
    split at hs
    · next old hp =>
      cases hs
      exact key c _ rfl (by simp [Pc.holds]) (fun _ => hn (by rw [hp]; rfl)) (by simp)
    · cases hs
  | go =>
    simp only [step, stepGo] at hs
    cases hp : c.pc t <;> rw [hp] at hs hh hn <;> simp only [] at hs
    case idle => cases hs
    case waitCv => cases hs
    case start =>
      cases hs
      exact key c _ rfl (by simp [Pc.holds]) (fun _ => hn rfl) (by simp)
    case wantLock old =>
      split at hs
      · next h0 =>
        cases hs
        refine key _ _ rfl (by simp) (by simp [Pc.holds]) ?_
        intro u hu; simp [h0]; exact fun h => hu h.symm
      · cases hs
    case woken old b =>
      split at hs
      · next h0 =>
        cases hs
        refine key _ _ rfl (by simp) (by cases b <;> simp [Pc.holds]) ?_
        intro u hu; simp [h0]; exact fun h => hu h.symm
      · cases hs
    case leave r =>
      cases hs
      refine key _ _ rfl (by simp [Pc.holds]) (by simp) ?_
      intro u hu; simp [hh rfl]; exact fun h => hu h.symm
    case pred old =>
      split at hs
      · cases hs
        exact key c _ rfl (fun _ => hh rfl) (by simp [Pc.holds]) (by simp)
      · cases hs
        refine key _ _ rfl (by simp [Pc.holds]) (by simp) ?_
        intro u hu; simp [hh rfl]; exact fun h => hu h.symm
    case out r =>
      cases hs
      exact key c _ rfl (by simp [Pc.holds]) (fun _ => hn rfl) (by simp)
    case notify => cases hs; exact keyw _ rfl (hh rfl)
    case notifyT => cases hs; exact keyw _ rfl (hh rfl)
    case test old =>
      cases hs
      refine key _ _ rfl (fun _ => hh rfl) ?_ (by simp)
      split <;> simp [Pc.holds]
    case predT old =>
      cases hs
      refine key _ _ rfl (fun _ => hh rfl) ?_ (by simp)
      split <;> simp [Pc.holds]
    case expired =>
      cases hs
      refine key _ _ rfl (fun _ => hh rfl) ?_ (by simp)
      split <;> simp [Pc.holds]
    case incr old =>
      cases hs
      exact key _ _ rfl (fun _ => hh rfl) (by simp [Pc.holds]) (by simp)
    all_goals
      cases hs
      exact key _ _ rfl (fun _ => hh rfl) (by simp [Pc.holds]) (by simp)

/-- Two threads cannot both own the mutex. -/
theorem Excl.eq {c : Conf T} (h : Excl c) {t u : T} (ht : (c.pc t).holds = true)
    (hu : (c.pc u).holds = true) : u = t := by
  have h1 := (h t).1 ht
  have h2 := (h u).1 hu
  rw [h1] at h2; cases h2; rfl

/-- How a step changes the generation and the list of the threads waiting for its end. -/
def Change (n : Nat) (t : T) (e : Ev T) (G : Nat) (gen : T → Nat) (cur : List T)
    (G' : Nat) (gen' : T → Nat) (cur' : List T) : Prop :=
  (∀ u, gen' u = gen u ∨ gen' u = G) ∧
  ((G' = G ∧ cur' = cur ∧ ∀ u b, e ≠ .arrive u b) ∨
  (G' = G ∧ cur' = t :: cur ∧ e = .arrive t true) ∨
  (G' = G + 1 ∧ cur' = [] ∧ cur.length = n ∧ e = .tau t))

theorem inv_step {n evs G gen cur pend} {c c' : Conf T} {t m e} (hn : 1 ≤ n)
    (hn32 : n < 4294967296) (h : Inv n evs c G gen cur pend)
    (hs : step n c t m = some (c', e)) (hd : e ≠ .deadline t) (hf : e ≠ .arrive t false) :
    ∃ G' gen' cur' pend', Inv n (evs ++ [e]) c' G' gen' cur' pend'
      ∧ Change n t e G gen cur G' gen' cur' := by
  have hx := excl_step h.excl hs
  have hgt := h.good t
  cases m with
  | call =>
    simp only [step] at hs
    split at hs
    · next hp =>
      cases hs
      refine ⟨G, gen, cur, pend, h.quiet rfl trivial hx ?_ ?_ ?_ ?_ ?_ ?_, fun _ => Or.inl rfl, Or.inl ?_⟩ <;>
        simp [hp, Pc.good, Pc.arrived]
    · cases hs
  | spurious =>
    simp only [step] at hs
    split at hs
    · next old hp =>
      cases hs
      rw [hp] at hgt
      refine ⟨G, gen, cur, pend, h.quiet rfl trivial hx ?_ ?_ ?_ ?_ ?_ ?_, fun _ => Or.inl rfl, Or.inl ?_⟩
      rotate_left
      all_goals try simp [hp, Pc.arrived]
      exact hgt
    · cases hs
  | deadline =>
    simp only [step] at hs
    split at hs
    · cases hs; exact absurd rfl hd
    · cases hs
  | go =>
    simp only [step, stepGo] at hs
    cases hp : c.pc t <;> rw [hp] at hs hgt <;> simp only [] at hs
    case idle => cases hs
    case waitCv => cases hs
    case predT => exact hgt.elim
    case expired => exact hgt.elim
    case setCorrupt => exact hgt.elim
    case setCount => exact hgt.elim
    case notifyT => exact hgt.elim
    case start =>
      cases hs
      refine ⟨G, gen, cur, pend, h.quiet rfl trivial hx ?_ ?_ ?_ ?_ ?_ ?_, fun _ => Or.inl rfl, Or.inl ?_⟩ <;>
        simp [hp, Pc.good, Pc.arrived]
    case wantLock old =>
      split at hs
      · cases hs
        refine ⟨G, gen, cur, pend, h.quiet rfl trivial hx ?_ ?_ ?_ ?_ ?_ ?_, fun _ => Or.inl rfl, Or.inl ?_⟩ <;>
          simp [hp, Pc.good, Pc.arrived]
      · cases hs
    case woken old b =>
      cases b with
      | true => exact hgt.elim
      | false =>
        split at hs
        · cases hs
          refine ⟨G, gen, cur, pend, h.quiet rfl trivial hx ?_ ?_ ?_ ?_ ?_ ?_, fun _ => Or.inl rfl, Or.inl ?_⟩
          rotate_left
          all_goals try simp [hp, Pc.arrived]
          exact hgt
        · cases hs
    case pred old =>
      split at hs
      · next hne =>
        cases hs
        refine ⟨G, gen, cur, pend, h.quiet rfl trivial hx ?_ ?_ ?_ ?_ ?_ ?_, fun _ => Or.inl rfl, Or.inl ?_⟩
        rotate_left
        all_goals try simp [hp, Pc.arrived]
        obtain ⟨h1, h2⟩ := hgt
        rcases Nat.lt_or_ge (gen t) G with h3 | h3
        · exact h3
        · exfalso
          apply hne
          rw [h1, h.count, show gen t = G by omega]
      · next heq =>
        cases hs
        have heq' : old = c.count := by
          by_contra hne; exact heq hne
        refine ⟨G, gen, cur, pend, h.quiet rfl trivial hx ?_ ?_ ?_ ?_ ?_ ?_, fun _ => Or.inl rfl,
          Or.inl ?_⟩
        rotate_left
        all_goals try simp [hp, Pc.arrived]
        · exact heq'
        · exact hgt
    case test old =>
      cases hs
      refine ⟨G, gen, cur, pend, h.quiet rfl trivial hx ?_ ?_ ?_ ?_ ?_ ?_, fun _ => Or.inl rfl,
        Or.inl ?_⟩
      · split
        · exact hgt.2
        · exact ⟨hgt.1, Nat.le_of_eq hgt.2⟩
      · split <;> simp [hp, Pc.arrived]
      · simp [hp]
      · intro _; split
        · exact Or.inr rfl
        · next hne => exact Or.inl hne
      · split
        · next hw => simp [hp, hw]
        · simp
      · split <;> simp
      · simp
    case leave r =>
      cases hs
      refine ⟨G, gen, cur, pend, h.quiet rfl trivial hx ?_ ?_ ?_ ?_ ?_ ?_, fun _ => Or.inl rfl,
        Or.inl ?_⟩
      rotate_left
      all_goals try simp [hp, Pc.arrived]
      cases r <;> exact hgt
    case incr old =>
      cases hs
      have hold : old = c.count := by
        by_contra hne
        exact hf (by simp [hne])
      have hother : ∀ u, u ≠ t → (c.pc u).holds = false := by
        intro u hu
        by_contra hne
        exact hu (h.excl.eq (by rw [hp]; rfl) (by simpa using hne))
      have hnb : ∀ v, c.pc v ≠ .bump := by
        intro v hv
        by_cases hvt : v = t
        · rw [hvt, hp] at hv; cases hv
        · have := hother v hvt; rw [hv] at this; cases this
      have hlt : cur.length < n := by
        rcases Nat.lt_or_ge cur.length n with h1 | h1
        · exact h1
        · exfalso
          obtain ⟨u, hu⟩ := h.full (Nat.le_antisymm h.len h1)
          by_cases hut : u = t
          · rw [hut, hp] at hu; simp at hu
          · have h2 := hother u hut
            rcases hu with ⟨o, hu⟩ | hu | hu <;> rw [hu] at h2 <;> cases h2
      have hwt := h.wait hnb
      have htp : t ∉ pend := by rw [h.pend_mem, hp]; simp [Pc.arrived]
      have htc : t ∉ cur := by rw [h.cur_mem, hp]; simp [Pc.arrived]
      refine ⟨G, fun u => if u = t then G else gen u, t :: cur, t :: pend, ?_, ?_,
        Or.inr (Or.inl ⟨rfl, rfl, by simp [hold]⟩)⟩
      · have hpc : ∀ u, ({ c with waiting := (c.waiting + 1) % 4294967296 }.goto t (.test old)).pc u
            = if u = t then .test old else c.pc u := fun u => rfl
        constructor
        · exact hx
        · exact h.count
        · rw [arrivals_snoc, h.arr]; simp; omega
        · intro u; rw [hpc]; split
          · exact ⟨by rw [hold, h.count], rfl⟩
          · exact h.good u
        · intro u; rw [hpc]; simp only [List.mem_cons]; split
          · next hu => simp [hu, Pc.arrived]
          · next hu => simp [hu, h.cur_mem u]
        · exact List.nodup_cons.2 ⟨htc, h.cur_nodup⟩
        · intro u; rw [hpc]; simp only [List.mem_cons]; split
          · next hu => simp [hu, Pc.arrived]
          · next hu => simp [hu, h.pend_mem u]
        · exact List.nodup_cons.2 ⟨htp, h.pend_nodup⟩
        · rw [arrivals_snoc, allReturns_snoc]
          have := h.ret
          simp; omega
        · simp; omega
        · intro _; exact ⟨t, Or.inl ⟨old, by rw [hpc]; simp⟩⟩
        · intro u; rw [hpc]; split
          · simp
          · next hu =>
            intro h1
            have h2 := hother u hu
            rcases h1 with h1 | h1 <;> rw [h1] at h2 <;> cases h2
        · intro _
          show (c.waiting + 1) % 4294967296 = (t :: cur).length
          rw [hwt, List.length_cons]
          exact Nat.mod_eq_of_lt (by omega)
        · intro u; rw [hpc]; split
          · simp
          · intro h1; exact absurd h1 (hnb u)
        · intro u o; rw [hpc]; split
          · simp
          · intro h1 h2
            obtain ⟨v, hv⟩ := h.awake u o h1 h2
            refine ⟨v, ?_⟩
            rw [hpc]; split
            · next hvt => rw [hvt, hp] at hv; cases hv
            · exact hv
      · intro u; simp only []; split
        · exact Or.inr rfl
        · exact Or.inl rfl
    case reset =>
      cases hs
      have hother : ∀ u, u ≠ t → (c.pc u).holds = false := by
        intro u hu
        by_contra hne
        exact hu (h.excl.eq (by rw [hp]; rfl) (by simpa using hne))
      refine ⟨G, gen, cur, pend, ?_, fun _ => Or.inl rfl, Or.inl ⟨rfl, rfl, by simp⟩⟩
      have hpc : ∀ u, ({ c with waiting := 0 }.goto t .bump).pc u
            = if u = t then .bump else c.pc u := fun u => rfl
      constructor
      · exact hx
      · exact h.count
      · rw [arrivals_snoc]; exact h.arr
      · intro u; rw [hpc]; split
        · next hu => rw [hu]; exact hgt
        · exact h.good u
      · intro u; rw [hpc, h.cur_mem]; split
        · next hu => simp [hu, hp, Pc.arrived]
        · rfl
      · exact h.cur_nodup
      · intro u; rw [hpc, h.pend_mem]; split
        · next hu => simp [hu, hp, Pc.arrived]
        · rfl
      · exact h.pend_nodup
      · rw [arrivals_snoc, allReturns_snoc]; exact h.ret
      · exact h.len
      · intro _; exact ⟨t, Or.inr (Or.inr (by rw [hpc]; simp))⟩
      · intro u _; exact h.full' t (Or.inl hp)
      · intro h1; exact absurd (by rw [hpc]; simp) (h1 t)
      · intro u _; rfl
      · intro u o; rw [hpc]; split
        · simp
        · intro h1 h2
          obtain ⟨v, hv⟩ := h.awake u o h1 h2
          refine ⟨v, ?_⟩
          rw [hpc]; split
          · next hvt => rw [hvt, hp] at hv; cases hv
          · exact hv
    case bump =>
      cases hs
      have hother : ∀ u, u ≠ t → (c.pc u).holds = false := by
        intro u hu
        by_contra hne
        exact hu (h.excl.eq (by rw [hp]; rfl) (by simpa using hne))
      have hfull := h.full' t (Or.inr hp)
      refine ⟨G + 1, gen, [], pend, ?_, fun _ => Or.inl rfl,
        Or.inr (Or.inr ⟨rfl, rfl, hfull, rfl⟩)⟩
      have hpc : ∀ u, ({ c with count := (c.count + 1) % 4294967296 }.goto t .notify).pc u
            = if u = t then .notify else c.pc u := fun u => rfl
      have hle : ∀ u, (c.pc u).arrived = true → gen u ≤ G := by
        intro u hu
        have h1 := h.good u
        cases hq : c.pc u <;> rw [hq] at h1 hu
        case woken o b => cases b <;> first | exact h1.2 | exact h1.elim
        case leave r => cases r <;> first | exact Nat.le_of_lt h1 | exact h1.elim
        case out r => cases r <;> first | exact Nat.le_of_lt h1 | exact h1.elim
        all_goals first
          | exact h1.2 | exact Nat.le_of_lt h1 | exact Nat.le_of_eq h1 | exact Nat.le_of_eq h1.2
          | exact h1.elim | cases hu
      have hmono : ∀ u, u ≠ t → (c.pc u).good (G + 1) (gen u) := by
        intro u hu
        have h1 := h.good u
        have h2 := hother u hu
        cases hq : c.pc u <;> rw [hq] at h1 h2
        case woken o b => cases b <;> first | exact ⟨h1.1, Nat.le_succ_of_le h1.2⟩ | exact h1.elim
        case out r => cases r <;> first | exact Nat.lt_succ_of_lt h1 | exact h1.elim
        all_goals first
          | exact ⟨h1.1, Nat.le_succ_of_le h1.2⟩ | exact trivial | cases h2
      constructor
      · exact hx
      · show (c.count + 1) % 4294967296 = _
        rw [h.count]; omega
      · rw [arrivals_snoc, h.arr, hfull]; simp [Nat.mul_succ]
      · intro u; rw [hpc]; split
        · next hu => rw [hu]; show gen t < G + 1; have : gen t = G := hgt; omega
        · next hu => exact hmono u hu
      · intro u; rw [hpc]; split
        · next hu =>
          have : gen t = G := hgt
          subst hu
          simp [this]
        · have := hle u
          simp only [List.not_mem_nil, false_iff, not_and]
          intro h1
          have := hle u h1
          omega
      · exact List.nodup_nil
      · intro u; rw [hpc, h.pend_mem]; split
        · next hu => simp [hu, hp, Pc.arrived]
        · rfl
      · exact h.pend_nodup
      · rw [arrivals_snoc, allReturns_snoc]; exact h.ret
      · simp
      · intro h1; simp at h1; omega
      · intro u; rw [hpc]; split
        · simp
        · next hu =>
          intro h1
          have h2 := hother u hu
          rcases h1 with h1 | h1 <;> rw [h1] at h2 <;> cases h2
      · intro _; exact h.wait0 t hp
      · intro u _; exact h.wait0 t hp
      · intro u o _ _; exact ⟨t, by rw [hpc]; simp⟩
    case notify =>
      cases hs
      have hother : ∀ u, u ≠ t → (c.pc u).holds = false := by
        intro u hu
        by_contra hne
        exact hu (h.excl.eq (by rw [hp]; rfl) (by simpa using hne))
      refine ⟨G, gen, cur, pend, ?_, fun _ => Or.inl rfl, Or.inl ⟨rfl, rfl, by simp⟩⟩
      have hpct : (c.wakeAll.goto t (.leave .normal)).pc t = .leave .normal := by
        simp [Conf.goto]
      have hpcw : ∀ u old, u ≠ t → c.pc u = .waitCv old →
          (c.wakeAll.goto t (.leave .normal)).pc u = .woken old false := by
        intro u old hu h1
        simp [Conf.goto, Conf.wakeAll, hu, h1]
      have hpco : ∀ u, u ≠ t → (∀ old, c.pc u ≠ .waitCv old) →
          (c.wakeAll.goto t (.leave .normal)).pc u = c.pc u := by
        intro u hu h1
        simp only [Conf.goto, Conf.wakeAll, hu, if_false]
      have hcase : ∀ u, u ≠ t → (∃ old, c.pc u = .waitCv old) ∨ ∀ old, c.pc u ≠ .waitCv old := by
        intro u _
        cases hq : c.pc u <;> simp
      have harr : ∀ u, ((c.wakeAll.goto t (.leave .normal)).pc u).arrived = (c.pc u).arrived := by
        intro u
        by_cases hu : u = t
        · rw [hu, hpct, hp]; rfl
        · rcases hcase u hu with ⟨o, h1⟩ | h1
          · rw [hpcw u o hu h1, h1]; rfl
          · rw [hpco u hu h1]
      have hnot : ∀ u, u ≠ t → ∀ q, (∀ old, q ≠ .waitCv old) → (∀ old, q ≠ .woken old false) →
          (c.wakeAll.goto t (.leave .normal)).pc u = q → c.pc u = q := by
        intro u hu q h1 h2 h3
        rcases hcase u hu with ⟨o, h4⟩ | h4
        · rw [hpcw u o hu h4] at h3; exact absurd h3.symm (h2 o)
        · rw [hpco u hu h4] at h3; exact h3
      have hnob : ∀ u, (c.wakeAll.goto t (.leave .normal)).pc u ≠ .reset
          ∧ (c.wakeAll.goto t (.leave .normal)).pc u ≠ .bump := by
        intro u
        by_cases hu : u = t
        · rw [hu, hpct]; simp
        · have h2 := hother u hu
          constructor
          · intro h1
            rw [hnot u hu _ (by simp) (by simp) h1] at h2; cases h2
          · intro h1
            rw [hnot u hu _ (by simp) (by simp) h1] at h2; cases h2
      constructor
      · exact hx
      · exact h.count
      · rw [arrivals_snoc]; exact h.arr
      · intro u
        by_cases hu : u = t
        · rw [hu, hpct]; exact hgt
        · have h1 := h.good u
          rcases hcase u hu with ⟨o, h2⟩ | h2
          · rw [hpcw u o hu h2]; rw [h2] at h1; exact h1
          · rw [hpco u hu h2]; exact h1
      · intro u; rw [harr, h.cur_mem]
      · exact h.cur_nodup
      · intro u; rw [harr, h.pend_mem]
      · exact h.pend_nodup
      · rw [arrivals_snoc, allReturns_snoc]; exact h.ret
      · exact h.len
      · intro h1
        exfalso
        obtain ⟨u, hu⟩ := h.full h1
        by_cases hut : u = t
        · rw [hut, hp] at hu; simp at hu
        · have h2 := hother u hut
          rcases hu with ⟨o, hu⟩ | hu | hu <;> rw [hu] at h2 <;> cases h2
      · intro u h1
        rcases h1 with h1 | h1
        · exact absurd h1 (hnob u).1
        · exact absurd h1 (hnob u).2
      · intro _
        apply h.wait
        intro u hu
        by_cases hut : u = t
        · rw [hut, hp] at hu; cases hu
        · have h2 := hother u hut
          rw [hu] at h2; cases h2
      · intro u h1; exact absurd h1 (hnob u).2
      · intro u o h1
        exfalso
        by_cases hu : u = t
        · rw [hu, hpct] at h1; cases h1
        · rcases hcase u hu with ⟨o', h2⟩ | h2
          · rw [hpcw u o' hu h2] at h1; cases h1
          · rw [hpco u hu h2] at h1; exact h2 o h1
    case out r =>
      cases r with
      | timeout => exact hgt.elim
      | corrupt => exact hgt.elim
      | normal =>
        cases hs
        have hlt : gen t < G := hgt
        have htp : t ∈ pend := by rw [h.pend_mem, hp]; rfl
        refine ⟨G, gen, cur, pend.erase t, ?_, fun _ => Or.inl rfl, Or.inl ⟨rfl, rfl, by simp⟩⟩
        have hpc : ∀ u, (c.goto t .idle).pc u = if u = t then .idle else c.pc u := fun u => rfl
        constructor
        · exact hx
        · exact h.count
        · rw [arrivals_snoc]; exact h.arr
        · intro u; rw [hpc]; split
          · trivial
          · exact h.good u
        · intro u; rw [hpc, h.cur_mem]; split
          · next hu =>
            rw [hu]
            constructor
            · intro h1; omega
            · intro h1; exact absurd h1.1 (by simp [Pc.arrived])
          · rfl
        · exact h.cur_nodup
        · intro u; rw [hpc, h.pend_nodup.mem_erase_iff, h.pend_mem]; split
          · next hu => simp [hu, Pc.arrived]
          · next hu => simp [hu]
        · exact h.pend_nodup.erase t
        · rw [arrivals_snoc, allReturns_snoc, List.length_erase_of_mem htp]
          have h1 := h.ret
          have h2 := List.length_pos_of_mem htp
          simp; omega
        · exact h.len
        · intro h1
          obtain ⟨u, hu⟩ := h.full h1
          refine ⟨u, ?_⟩
          rw [hpc]; split
          · next hut => rw [hut, hp] at hu; simp at hu
          · exact hu
        · intro u; rw [hpc]; split
          · simp
          · exact h.full' u
        · intro h1
          apply h.wait
          intro u hu
          apply h1 u
          rw [hpc]; split
          · next hut => rw [hut, hp] at hu; cases hu
          · exact hu
        · intro u; rw [hpc]; split
          · simp
          · exact h.wait0 u
        · intro u o; rw [hpc]; split
          · simp
          · intro h1 h2
            obtain ⟨v, hv⟩ := h.awake u o h1 h2
            refine ⟨v, ?_⟩
            rw [hpc]; split
            · next hvt => rw [hvt, hp] at hv; cases hv
            · exact hv

end SoDa.Bar
