import Verif.Proof.Collect
import Verif.Props.LinearLocal
import Verif.Props.Together
/-!
# C139  What has been put before a barrier can be got after it
-/
namespace SoDa.Together
open Monitor (Label)
open Spec Mail

variable {β P : Type} {n : β → Nat} {thr : (b : β) → Fin (n b) → Nat} {name : Addr → Str}

/-- What the threads see of one mailbox. -/
def seenAt (a : Addr) : Lab β P n → Option (SeenEv Nat (Op P) (Resp P))
  | .mail (.call t o) => if o.1 = a then some (.call t o.2) else none
  | .mail (.ret t o r) => if o.1 = a then some (.ret t o.2 r) else none
  | _ => none

theorem seen_eq (a : Addr) (L : List (Lab β P n)) : Spec.historyOf a (visible (L.filterMap atMail)) = L.filterMap (seenAt a) := by
  unfold Spec.historyOf visible
  rw [List.filterMap_filterMap, List.filterMap_filterMap]
  congr 1
  funext l
  cases l with
  | bar b s => rfl
  | mail l => cases l <;> simp [atMail, seenAt, SeenEv.on]

theorem Exec.linear [DecidableEq β] {L : List (Lab β P n)} {c : Conf β P n} (h : Exec thr name L c)
    (hn : ∀ t o r, Lab.mail (.unlock t o r) ∈ L → r.Normal) (a : Addr) :
    Linearisable (fun es => ∃ m, OneAfterOther a (name a) es m) (L.filterMap (seenAt a)) := by
  rw [← seen_eq]
  refine ((C134_local name _).1 ((C133_many name _).1 ⟨_, _, h.mail, rfl, ?_⟩)).2 a
  intro t o r hm
  obtain ⟨l, hl, he⟩ := List.mem_filterMap.1 hm
  cases l with
  | mail l => cases he; exact hn _ _ _ hl
  | bar b s => cases he

/-- Place of a step in the history. -/
theorem place_get {L : List (Lab β P n)} {a : Addr} {i : Nat} {l : Lab β P n} {e} (hl : L[i]? = some l) (he : seenAt a l = some e) :
    ∃ k, Place (seenAt a) L i k ∧ (L.filterMap (seenAt a))[k]? = some e ∧ (L.take i).filterMap (seenAt a) = (L.filterMap (seenAt a)).take k := by
  have p : Place (seenAt a) L i _ := ⟨_, _, hl, he, rfl⟩
  obtain ⟨_, _, g1, g2, g3, g4⟩ := p.get
  rw [hl] at g1; cases g1; rw [he] at g2; cases g2
  exact ⟨_, p, g3, g4⟩

theorem place_back {L : List (Lab β P n)} {a : Addr} {k : Nat} {e} (he : (L.filterMap (seenAt a))[k]? = some e) :
    ∃ i l, Place (seenAt a) L i k ∧ L[i]? = some l ∧ seenAt a l = some e := by
  obtain ⟨i, p⟩ := place_of (p := seenAt a) L k (List.getElem?_eq_some_iff.1 he).1
  obtain ⟨l, x, q1, q2, q3, -⟩ := p.get
  rw [he] at q3; cases q3
  exact ⟨i, l, p, q1, q2⟩

theorem seenAt_call {a : Addr} {l : Lab β P n} {t : Nat} {o : Op P} (h : seenAt a l = some (.call t o)) : l = .mail (.call t (a, o)) := by
  cases l with
  | bar => cases h
  | mail l =>
    cases l with
    | call t' o' =>
      simp only [seenAt] at h
      split at h
      · rename_i ha; cases h; subst ha; rfl
      · cases h
    | ret t' o' r' =>
      simp only [seenAt] at h
      split at h <;> cases h
    | _ => cases h

theorem seenAt_ret {a : Addr} {l : Lab β P n} {t : Nat} {o : Op P} {r : Resp P} (h : seenAt a l = some (.ret t o r)) :
    l = .mail (.ret t (a, o) r) := by
  cases l with
  | bar => cases h
  | mail l =>
    cases l with
    | ret t' o' r' =>
      simp only [seenAt] at h
      split at h
      · rename_i ha; cases h; subst ha; rfl
      · cases h
    | call t' o' =>
      simp only [seenAt] at h
      split at h <;> cases h
    | _ => cases h

/-- The same call in the history. -/
theorem returns_ends {L : List (Lab β P n)} {k j t : Nat} {a : Addr} {o : Op P} {r : Resp P} (h : ReturnsAt L k j t a o r) :
    ∃ k' j', Place (seenAt a) L k k' ∧ Place (seenAt a) L j j' ∧ (L.filterMap (seenAt a))[k']? = some (.call t o) ∧
      EndsAt (L.filterMap (seenAt a)) k' j' r ∧ (L.take j).filterMap (seenAt a) = (L.filterMap (seenAt a)).take j' := by
  obtain ⟨h1, h2, h3, h4⟩ := h
  obtain ⟨k', p1, g1, -⟩ := place_get (a := a) (e := .call t o) h1 (by simp [seenAt])
  obtain ⟨j', p2, g2, g3⟩ := place_get (a := a) (e := .ret t o r) h2 (by simp [seenAt])
  refine ⟨k', j', p1, p2, g1, ⟨t, o, g1, g2, p1.mono p2 h3, ⟨_, g1, rfl⟩, ?_⟩, g3⟩
  intro x e hx1 hx2 he hw
  obtain ⟨i, l, pi, q1, q2⟩ := place_back he
  obtain ⟨c1, c2⟩ := h4 i (p1.lt pi hx1) (pi.lt p2 hx2)
  cases e with
  | call t' o' => rw [seenAt_call q2] at q1; cases hw; exact c1 _ q1
  | ret t' o' r' => rw [seenAt_ret q2] at q1; cases hw; exact c2 _ _ q1

theorem asksFor_count (L : List (Lab β P n)) (a : Addr) (s : Sub) :
    L.countP (asksFor a s) = (L.filterMap (seenAt a)).countP (callsGet s) := by
  induction L with
  | nil => rfl
  | cons l L ih =>
    rw [List.countP_cons, ih, List.filterMap_cons]
    cases l with
    | bar => rfl
    | mail l =>
      cases l with
      | call t o =>
        obtain ⟨a', o⟩ := o
        by_cases ha : a' = a
        · simp only [seenAt, ha, if_true, List.countP_cons]
          cases o with
          | get s' => cases s' <;> simp [asksFor, callsGet]
          | _ => simp [asksFor, callsGet]
        · simp only [seenAt, ha, if_false]
          cases o with
          | get s' => cases s' <;> simp [asksFor, ha]
          | _ => simp [asksFor]
      | ret t o r =>
        obtain ⟨a', o⟩ := o
        by_cases ha : a' = a
        · simp [seenAt, ha, asksFor, callsGet]
        · simp [seenAt, ha, asksFor]
      | _ => rfl

variable [DecidableEq β]

/-- Calls of `put` that have returned before a `get` begins, made after the subscription was there: if there are at least as many of them as `get`s
for the subscription have been called (up to the end of this one), it gives a message. -/
theorem C139_enough {L : List (Lab β P n)} {c : Conf β P n} (h : Exec thr name L c) (hn : ∀ t o r, Lab.mail (.unlock t o r) ∈ L → r.Normal)
    (a : Addr) (s : Sub) (pc p t₀ i j t : Nat) (r : Resp P) (hsub : ReturnsAt L pc p t₀ a .subscribe (.sub s))
    (hget : ReturnsAt L i j t a (.get (some s)) r) (hpi : p < i) (hu : Undisturbed L a s j) (puts : Finset Nat)
    (hputs : ∀ k ∈ puts, p < k ∧ ∃ t' x subs j', ReturnsAt L k j' t' a (.put x subs) .done ∧ subs ≠ some s ∧ j' < i)
    (hc : (L.take j).countP (asksFor a s) ≤ puts.card) : ∃ x, r = .msg (some x) := by
  by_contra hno
  have hr : ∀ x, r ≠ .msg (some x) := fun x e => hno ⟨x, e⟩
  obtain ⟨pc', p', -, pp, -, e1, -⟩ := returns_ends hsub
  obtain ⟨i', j', pi, pj, g1, e2, tk⟩ := returns_ends hget
  classical
  -- the same puts in the history
  have hpl : ∀ k ∈ puts, ∃ k', Place (seenAt a) L k k' ∧ p' < k' ∧ ∃ t' x subs y, (L.filterMap (seenAt a))[k']? = some (.call t' (.put x subs)) ∧
      subs ≠ some s ∧ EndsAt (L.filterMap (seenAt a)) k' y .done ∧ y < i' := by
    intro k hk
    obtain ⟨h1, t', x, subs, y, h2, h3, h4⟩ := hputs k hk
    obtain ⟨k', y', q1, q2, q3, q4, -⟩ := returns_ends h2
    exact ⟨k', q1, pp.mono q1 h1, t', x, subs, y', q3, h3, q4, q2.mono pi h4⟩
  choose! f hf using hpl
  have hcard : (puts.image f).card = puts.card := by
    refine Finset.card_image_of_injOn fun k hk k' hk' he => ?_
    have q1 := (hf k hk).1
    have q2 := (hf k' hk').1
    rcases Nat.lt_trichotomy k k' with hlt | heq | hlt
    · have := q1.mono q2 hlt
      omega
    · exact heq
    · have := q2.mono q1 hlt
      omega
  have := seen_count (h.linear hn a) e1 g1 e2 hr (pp.mono pi hpi) (fun k t' o hk hko => by
      obtain ⟨x, l, px, q1, q2⟩ := place_back hko
      rw [seenAt_call q2] at q1
      exact hu x t' o (px.lt pj hk) q1) (puts.image f) (fun k hk => by
      obtain ⟨k0, hk0, rfl⟩ := Finset.mem_image.1 hk
      exact (hf k0 hk0).2)
  rw [hcard, ← tk, ← asksFor_count] at this
  omega

theorem hbAll_lt {L : List (Lab β P n)} {i j : Nat} (h : HBAll thr L i j) : i < j := by
  induction h with
  | one h => exact h.lt
  | trans _ _ h1 h2 => omega

/-- With a barrier: messages that threads of the barrier put before they call `wait` for the time `g` are there for a `get` that is called after `wait`
has returned for the time `g`, to whichever thread. -/
theorem C139_barrier {L : List (Lab β P n)} {c : Conf β P n} (h : Exec thr name L c) (hn : ∀ t o r, Lab.mail (.unlock t o r) ∈ L → r.Normal)
    (b : β) (hb : n b < 2 ^ 32) (hd : NoDeadline (barEvents b L))
    (a : Addr) (s : Sub) (pc p t₀ i j t : Nat) (r : Resp P) (hsub : ReturnsAt L pc p t₀ a .subscribe (.sub s))
    (hget : ReturnsAt L i j t a (.get (some s)) r) (hpi : p < i) (hu : Undisturbed L a s j)
    (g : Nat) (v : Fin (n b)) (w : Nat) (hv : PassesAt L b v g w) (hw : w < i) (puts : Finset Nat)
    (hputs : ∀ k ∈ puts, p < k ∧ ∃ t' x subs j' u w', ReturnsAt L k j' t' a (.put x subs) .done ∧ subs ≠ some s ∧ WaitsAt L b u g w' ∧ j' < w')
    (hc : (L.take j).countP (asksFor a s) ≤ puts.card) : ∃ x, r = .msg (some x) := by
  refine C139_enough h hn a s pc p t₀ i j t r hsub hget hpi hu puts (fun k hk => ?_) hc
  obtain ⟨h1, t', x, subs, j', u, w', h2, h3, ⟨sc, c1, c2, c3⟩, h5⟩ := hputs k hk
  obtain ⟨sr, r1, r2, r3⟩ := hv
  have := hbAll_lt (C137_barrier h b hb hd v u g w' w sc sr c1 r1 c2 c3 r2 r3)
  exact ⟨h1, t', x, subs, j', h2, h3, by omega⟩

/-- So if every thread of the barrier puts a message after the subscription and before it waits, as many `get`s as there are threads give messages
after the barrier. -/
theorem C139_all {L : List (Lab β P n)} {c : Conf β P n} (h : Exec thr name L c) (hn : ∀ t o r, Lab.mail (.unlock t o r) ∈ L → r.Normal)
    (b : β) (hb : n b < 2 ^ 32) (hinj : Function.Injective (thr b)) (hd : NoDeadline (barEvents b L))
    (a : Addr) (s : Sub) (pc p t₀ i j t : Nat) (r : Resp P) (hsub : ReturnsAt L pc p t₀ a .subscribe (.sub s))
    (hget : ReturnsAt L i j t a (.get (some s)) r) (hpi : p < i) (hu : Undisturbed L a s j)
    (g : Nat) (v : Fin (n b)) (w : Nat) (hv : PassesAt L b v g w) (hw : w < i)
    (hputs : ∀ u, ∃ k j' x w', p < k ∧ ReturnsAt L k j' (thr b u) a (.put x none) .done ∧ WaitsAt L b u g w' ∧ j' < w')
    (hc : (L.take j).countP (asksFor a s) ≤ n b) : ∃ x, r = .msg (some x) := by
  choose f j' x w' h1 h2 h3 h4 using hputs
  classical
  refine C139_barrier h hn b hb hd a s pc p t₀ i j t r hsub hget hpi hu g v w hv hw (Finset.univ.image f) (fun k hk => ?_) ?_
  · obtain ⟨u, -, rfl⟩ := Finset.mem_image.1 hk
    exact ⟨h1 u, thr b u, x u, none, j' u, u, w' u, h2 u, by simp, h3 u, h4 u⟩
  · rw [Finset.card_image_of_injective _ fun u u' he => ?_, Finset.card_univ, Fintype.card_fin]
    · exact hc
    · have e1 := (h2 u).1
      have e2 := (h2 u').1
      rw [he, e2] at e1
      simp only [Option.some.injEq, Lab.mail.injEq, Label.call.injEq] at e1
      exact hinj e1.1.symm

/-! ### Example -/

/-- Thread 0 subscribes to mailbox 5; both threads put a message and wait at the barrier; thread 1 is through first and gets two messages. -/
def collect : List Pick :=
  [.call 0 (5, .subscribe)] ++ List.replicate 6 (.mail 0) ++ [.call 0 (5, .put (some 7) none)] ++ List.replicate 6 (.mail 0) ++
  [.call 1 (5, .put (some 8) none)] ++ List.replicate 6 (.mail 1) ++ [.bar 0 .call] ++ List.replicate 5 (.bar 0 .go) ++ [.bar 1 .call] ++
  List.replicate 9 (.bar 1 .go) ++ [.call 1 (5, .get (some ⟨5, 0⟩))] ++ List.replicate 5 (.mail 1) ++ [.call 1 (5, .get (some ⟨5, 0⟩))] ++
  List.replicate 5 (.mail 1)

def isSeen (t : Nat) : LabTwo → Bool
  | .mail (.call t' _) => t' = t
  | .mail (.ret t' _ _) => t' = t
  | _ => false

theorem returnsAt_of {L : List LabTwo} {k j t : Nat} {a : Addr} {o : Op Nat} {r : Resp Nat} (h1 : L[k]? = some (.mail (.call t (a, o))))
    (h2 : L[j]? = some (.mail (.ret t (a, o) r))) (h3 : k < j) (h4 : ((L.take j).drop (k + 1)).all (fun l => !isSeen t l) = true) :
    ReturnsAt L k j t a o r := by
  refine ⟨h1, h2, h3, fun x hx1 hx2 => ?_⟩
  have key : ∀ l, L[x]? = some l → isSeen t l = false := by
    intro l hl
    have := List.all_eq_true.1 h4 l (List.mem_iff_getElem?.2 ⟨x - (k + 1), by
      rw [List.getElem?_drop, List.getElem?_take, if_pos (by omega), show k + 1 + (x - (k + 1)) = x by omega]; exact hl⟩)
    simpa using this
  exact ⟨fun o' e => by have := key _ e; simp [isSeen] at this, fun o' r' e => by have := key _ e; simp [isSeen] at this⟩

def isCalm : LabTwo → Bool
  | .mail (.call _ (_, .put (some _) _)) => true
  | .mail (.call _ (_, .get _)) => true
  | .mail (.call _ (_, .subscribe)) => true
  | .mail (.call _ _) => false
  | .mail (.unlock _ _ .terminate) => false
  | .mail (.unlock _ _ .ub) => false
  | _ => true

/-- The second `get` gives a message, as two threads have put one before the barrier. -/
example : ∃ (L : List LabTwo) (c : Two), Exec thrTwo (fun _ => "m".toList) L c ∧ ReturnsAt L 43 48 1 5 (.get (some ⟨5, 0⟩)) (.msg (some 8)) ∧
    ∀ r, ReturnsAt L 43 48 1 5 (.get (some ⟨5, 0⟩)) r → ∃ x, r = .msg (some x) := by
  obtain ⟨L, c, hL, hp⟩ : ∃ L c, L = (match picks collect ([], Conf.init fun _ => "m".toList) with | some r => r.1 | none => []) ∧
    picks collect ([], Conf.init fun _ => "m".toList) = some (L, c) := ⟨_, _, rfl, rfl⟩
  have he := picks_exec (name := fun _ => "m".toList) collect .init hp
  have calm : L.all isCalm = true := by rw [hL]; rfl
  refine ⟨L, c, he, returnsAt_of (by rw [hL]; rfl) (by rw [hL]; rfl) (by decide) (by rw [hL]; rfl), fun r hr => ?_⟩
  refine C139_all (n := fun _ => 2) he ?_ () (by decide) (fun u u' h => Fin.ext h) (by rw [hL]; unfold NoDeadline; decide) 5 ⟨5, 0⟩ 0 6 0 43 48 1 r
    (returnsAt_of (by rw [hL]; rfl) (by rw [hL]; rfl) (by decide) (by rw [hL]; rfl)) hr (by decide) ?_ 0 1 36
    ⟨_, by rw [hL]; rfl, rfl, by rw [hL]; rfl⟩ (by decide) (fun u => ?_) (by rw [hL]; decide)
  · intro t o r h
    have := List.all_eq_true.1 calm _ h
    clear hL hp he calm h
    cases r <;> simp_all [isCalm, Resp.Normal]
  · intro x t o _ hx
    have := List.all_eq_true.1 calm _ (List.mem_of_getElem? hx)
    clear hL hp he calm hx hr
    cases o with
    | put m s => cases m <;> simp_all [isCalm, EndsMail, PutsNoNull]
    | _ => simp_all [isCalm, EndsMail, PutsNoNull]
  · match u with
    | 0 => exact ⟨7, 13, some 7, 21, by decide, returnsAt_of (by rw [hL]; rfl) (by rw [hL]; rfl) (by decide) (by rw [hL]; rfl),
        ⟨_, by rw [hL]; rfl, rfl, by rw [hL]; rfl⟩, by decide⟩
    | 1 => exact ⟨14, 20, some 8, 27, by decide, returnsAt_of (by rw [hL]; rfl) (by rw [hL]; rfl) (by decide) (by rw [hL]; rfl),
        ⟨_, by rw [hL]; rfl, rfl, by rw [hL]; rfl⟩, by decide⟩

end SoDa.Together
