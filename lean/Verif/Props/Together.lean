import Verif.Spec.TogetherHB
import Verif.Props.MonitorsHB
import Verif.Props.HappensBefore
/-!
# C137  Mailboxes and barriers together order memory
-/
namespace SoDa.Together
open Monitor (Label)
open Spec

section positions

variable {α γ : Type}

/-- Place `i` of `L` is place `k` of the selected elements. -/
def Place (p : α → Option γ) (L : List α) (i k : Nat) : Prop :=
  ∃ y x, L[i]? = some y ∧ p y = some x ∧ ((L.take i).filterMap p).length = k

theorem Place.get {p : α → Option γ} {L : List α} {i k : Nat} (h : Place p L i k) : ∃ y x, L[i]? = some y ∧ p y = some x ∧
    (L.filterMap p)[k]? = some x ∧ (L.take i).filterMap p = (L.filterMap p).take k := by
  obtain ⟨y, x, h1, h2, h3⟩ := h
  obtain ⟨hi, hy⟩ := List.getElem?_eq_some_iff.1 h1
  have e : L = L.take i ++ y :: L.drop (i + 1) := by
    conv_lhs => rw [← List.take_append_drop i L, List.drop_eq_getElem_cons hi, hy]
  have e' : L.filterMap p = (L.take i).filterMap p ++ x :: (L.drop (i + 1)).filterMap p := by
    conv_lhs => rw [e]
    rw [List.filterMap_append, List.filterMap_cons_some h2]
  refine ⟨y, x, h1, h2, ?_, ?_⟩
  · rw [e', ← h3]; simp
  · rw [e', ← h3]; simp

theorem place_of {p : α → Option γ} (L : List α) (k : Nat) (hk : k < (L.filterMap p).length) : ∃ i, Place p L i k := by
  induction L using List.reverseRecOn with
  | nil => simp at hk
  | append_singleton L y ih =>
    rw [List.filterMap_append] at hk
    by_cases h : k < (L.filterMap p).length
    · obtain ⟨i, z, x, h1, h2, h3⟩ := ih h
      have hi := (List.getElem?_eq_some_iff.1 h1).1
      exact ⟨i, z, x, by rw [List.getElem?_append_left hi]; exact h1, h2, by rw [List.take_append_of_le_length (by omega)]; exact h3⟩
    · cases hp : p y with
      | none => simp [hp] at hk; omega
      | some x =>
        simp [hp] at hk
        exact ⟨L.length, y, x, by simp, hp, by simp; omega⟩

theorem Place.lt {p : α → Option γ} {L : List α} {i i' k k' : Nat} (h : Place p L i k) (h' : Place p L i' k') (hk : k < k') : i < i' := by
  obtain ⟨-, -, -, -, h3⟩ := h
  obtain ⟨-, -, -, -, h3'⟩ := h'
  by_contra hle
  have : (L.take i').filterMap p = ((L.take i).take i').filterMap p := by rw [List.take_take, Nat.min_eq_left (by omega)]
  have h4 := ((List.take_sublist i' (L.take i)).filterMap p).length_le
  rw [← this] at h4
  omega

theorem Place.mono {p : α → Option γ} {L : List α} {i i' k k' : Nat} (h : Place p L i k) (h' : Place p L i' k') (hk : i < i') : k < k' := by
  obtain ⟨y, x, h1, h2, h3⟩ := h
  obtain ⟨-, -, -, -, h3'⟩ := h'
  have h4 : ((L.take (i + 1)).filterMap p).length = k + 1 := by
    rw [List.take_add_one, h1, List.filterMap_append]
    simp [h2, h3]
  have : (L.take (i + 1)) = (L.take i').take (i + 1) := by rw [List.take_take, Nat.min_eq_left (by omega)]
  have h5 := ((List.take_sublist (i + 1) (L.take i')).filterMap p).length_le
  rw [← this] at h5
  omega

end positions

variable {β P : Type} [DecidableEq β] {n : β → Nat} {thr : (b : β) → Fin (n b) → Nat} {name : Mail.Addr → Str}

/-! ### The steps at one kind of object -/

theorem Exec.mail {L : List (Lab β P n)} {c : Conf β P n} (h : Exec thr name L c) :
    Monitors.Steps Mail.body (Monitors.Conf.init fun a => Mail.Box.new (name a)) (L.filterMap atMail) c.mail := by
  induction h with
  | init => exact .nil
  | @snoc L c l c' h hs ih =>
    rw [List.filterMap_append]
    cases hs with
    | mail hs _ => exact .snoc ih hs
    | bar hs _ => simpa [List.filterMap_cons, atMail] using ih

/-- The steps at the barrier `b` are an execution of it. -/
theorem Exec.trace {L : List (Lab β P n)} {c : Conf β P n} (h : Exec thr name L c) (b : β) (hb : 0 < n b) :
    ∃ x : Trace (Fin (n b)), x.Valid (n b) (L.filterMap (atBar b)).length ∧ x.st (L.filterMap (atBar b)).length = c.bars b ∧
      ∀ k s, (L.filterMap (atBar b))[k]? = some s →
        s.who = x.who k ∧ s.mv = x.mv k ∧ s.ev = x.ev k ∧ s.before = (x.st k).holder ∧ s.after = (x.st (k + 1)).holder := by
  induction h with
  | init => exact ⟨⟨fun _ => Bar.Conf.init, fun _ => ⟨0, hb⟩, fun _ => .go, fun _ => .tau ⟨0, hb⟩⟩, ⟨rfl, by simp⟩, rfl, by simp⟩
  | @snoc L c l c' h hs ih =>
    obtain ⟨x, hv, hst, hx⟩ := ih
    rw [List.filterMap_append]
    cases hs with
    | mail hs _ => exact ⟨x, by simpa [List.filterMap_cons, atBar] using hv, by simpa [List.filterMap_cons, atBar] using hst,
        by simpa [List.filterMap_cons, atBar] using hx⟩
    | @bar b' t m c1 e hs _ =>
      by_cases hbb : b' = b
      · subst hbb
        generalize hN : (L.filterMap (atBar b')).length = N at hv hst
        refine ⟨⟨fun k => if k ≤ N then x.st k else c1, fun k => if k = N then t else x.who k, fun k => if k = N then m else x.mv k,
          fun k => if k = N then e else x.ev k⟩, ?_, ?_, ?_⟩
        · simp only [List.filterMap_cons, List.filterMap_nil, atBar, dif_pos, List.length_append, List.length_singleton, hN]
          refine ⟨by simpa using hv.init, fun i hi => ?_⟩
          by_cases hiN : i = N
          · subst hiN
            simp [hst, hs]
          · have hlt : i < N := by omega
            have h1 : i ≤ N := by omega
            have h2 : i + 1 ≤ N := by omega
            simp only [if_pos h1, if_pos h2, if_neg hiN]
            exact hv.ok i hlt
        · simp [atBar, hN]
        · intro k s hk
          by_cases hlt : k < N
          · rw [List.getElem?_append_left (by omega)] at hk
            have := hx k s hk
            have h1 : k ≤ N := by omega
            have h2 : k + 1 ≤ N := by omega
            have h3 : k ≠ N := by omega
            simp only [if_pos h1, if_pos h2, if_neg h3]
            exact this
          · have hk' := (List.getElem?_eq_some_iff.1 hk).1
            simp only [List.filterMap_cons, List.filterMap_nil, atBar, dif_pos, List.length_append, List.length_singleton, hN] at hk'
            obtain rfl : k = N := by omega
            rw [List.getElem?_append_right (by omega)] at hk
            simp [atBar, hN] at hk
            subst hk
            simp [hst]
      · have h1 : atBar b (Lab.bar (P := P) b' ⟨t, m, e, (c.bars b').holder, c1.holder⟩) = none := by simp [atBar, hbb]
        simp only [List.filterMap_cons, h1, List.filterMap_nil, List.append_nil]
        refine ⟨x, hv, ?_, hx⟩
        rw [hst]
        simp [Function.update_of_ne (fun e => hbb e.symm : b ≠ b')]

/-! ### Happens-before among the steps at one object is happens-before -/

omit [DecidableEq β] in
theorem stepThread_mail {l : Lab β P n} {m} (h : atMail l = some m) : stepThread thr l = threadOf m := by
  cases l with
  | mail l => cases h; rfl
  | bar b s => cases h

theorem stepThread_bar {l : Lab β P n} {b : β} {s} (h : atBar b l = some s) : stepThread thr l = thr b s.who := by
  cases l with
  | mail l => cases h
  | bar b' s' =>
    simp only [atBar] at h
    split at h
    · rename_i e; subst e; cases h; rfl
    · cases h

theorem actOf_thread (a : Mail.Addr) (pre) (m : Label Nat (Mail.Addr × Mail.Op P) (Mail.Resp P)) : (actOf a pre m).thread = threadOf m := by
  cases m <;> rfl

theorem act_mail {L : List (Lab β P n)} {a : Mail.Addr} {i k : Nat} (h : Place atMail L i k) {x : Act Nat}
    (hx : actOn a (L.filterMap atMail) k = some x) : actTogether thr L (.inl a) i = some x := by
  obtain ⟨y, m, h1, h2, h3, h4⟩ := h.get
  simp only [actOn, h3, Option.map_some, Option.some.injEq] at hx
  simp only [actTogether, h1, Option.map_some, syncMail, h2, stepThread_mail h2, h4, Option.some.injEq]
  rw [← actOf_thread a ((L.filterMap atMail).take k), hx]

theorem hb_mail {L : List (Lab β P n)} {a : Mail.Addr} {k k' : Nat} (h : HB (actOn a (L.filterMap atMail)) k k') :
    ∀ i i', Place atMail L i k → Place atMail L i' k' → HB (actTogether thr L (.inl a)) i i' := by
  induction h with
  | thread h ha hb ht => exact fun i i' p p' => .thread (p.lt p' h) (act_mail p ha) (act_mail p' hb) ht
  | mutex h ha hb hr hq => exact fun i i' p p' => .mutex (p.lt p' h) (act_mail p ha) (act_mail p' hb) hr hq
  | @trans k1 k2 k3 h1 h2 ih1 ih2 =>
    intro i i' p p'
    have hk3 := p'.get
    obtain ⟨-, x, -, -, hk, -⟩ := hk3
    have := (List.getElem?_eq_some_iff.1 hk).1
    obtain ⟨j, pj⟩ := place_of (p := atMail) L k2 (by have := h2.lt; omega)
    exact .trans (ih1 i j p pj) (ih2 j i' pj p')

/-- What is ordered at the mailboxes alone is ordered. -/
theorem many_mail {L : List (Lab β P n)} {k k' : Nat} (h : HBMany (L.filterMap atMail) k k') :
    ∀ i i', Place atMail L i k → Place atMail L i' k' → HBAll thr L i i' := by
  have lt : ∀ {k k'}, HBMany (L.filterMap atMail) k k' → k < k' := by
    intro k k' h
    induction h with
    | one h => exact h.lt
    | trans _ _ h1 h2 => omega
  induction h with
  | one h => exact fun i i' p p' => .one (hb_mail h i i' p p')
  | @trans k1 k2 k3 h1 h2 ih1 ih2 =>
    intro i i' p p'
    obtain ⟨-, x, -, -, hk, -⟩ := p'.get
    have := (List.getElem?_eq_some_iff.1 hk).1
    obtain ⟨j, pj⟩ := place_of (p := atMail) L k2 (by have := lt h2; omega)
    exact .trans (ih1 i j p pj) (ih2 j i' pj p')

theorem syncOf_eq {T : Type} (c c' : Bar.Conf T) : syncOf c c' = syncBy c.holder c'.holder := by
  unfold syncOf syncBy
  cases c.holder <;> cases c'.holder <;> rfl

theorem act_bar {L : List (Lab β P n)} {b : β} {x : Trace (Fin (n b))}
    (hx : ∀ k s, (L.filterMap (atBar b))[k]? = some s →
      s.who = x.who k ∧ s.mv = x.mv k ∧ s.ev = x.ev k ∧ s.before = (x.st k).holder ∧ s.after = (x.st (k + 1)).holder)
    {i k : Nat} (h : Place (atBar b) L i k) {y : Act (Fin (n b))} (hy : x.act (L.filterMap (atBar b)).length k = some y) :
    actTogether thr L (.inr b) i = some ⟨thr b y.thread, y.sync⟩ := by
  obtain ⟨l, s, h1, h2, h3, h4⟩ := h.get
  obtain ⟨e1, -, -, e4, e5⟩ := hx k s h3
  simp only [Trace.act] at hy
  split at hy
  · cases hy
    simp [actTogether, h1, stepThread_bar h2, syncBar, h2, e1, e4, e5, syncOf_eq]
  · cases hy

theorem hb_bar {L : List (Lab β P n)} {b : β} {x : Trace (Fin (n b))}
    (hx : ∀ k s, (L.filterMap (atBar b))[k]? = some s →
      s.who = x.who k ∧ s.mv = x.mv k ∧ s.ev = x.ev k ∧ s.before = (x.st k).holder ∧ s.after = (x.st (k + 1)).holder)
    {k k' : Nat} (h : HB (x.act (L.filterMap (atBar b)).length) k k') :
    ∀ i i', Place (atBar b) L i k → Place (atBar b) L i' k' → HB (actTogether thr L (.inr b)) i i' := by
  induction h with
  | thread h ha hb ht => exact fun i i' p p' => .thread (p.lt p' h) (act_bar hx p ha) (act_bar hx p' hb) (congrArg (thr b) ht)
  | mutex h ha hb hr hq => exact fun i i' p p' => .mutex (p.lt p' h) (act_bar hx p ha) (act_bar hx p' hb) hr hq
  | @trans k1 k2 k3 h1 h2 ih1 ih2 =>
    intro i i' p p'
    obtain ⟨-, s, -, -, hk, -⟩ := p'.get
    have := (List.getElem?_eq_some_iff.1 hk).1
    obtain ⟨j, pj⟩ := place_of (p := atBar b) L k2 (by have := h2.lt; omega)
    exact .trans (ih1 i j p pj) (ih2 j i' pj p')

theorem before_eq {L : List (Lab β P n)} {b : β} {x : Trace (Fin (n b))}
    (hx : ∀ k s, (L.filterMap (atBar b))[k]? = some s →
      s.who = x.who k ∧ s.mv = x.mv k ∧ s.ev = x.ev k ∧ s.before = (x.st k).holder ∧ s.after = (x.st (k + 1)).holder)
    (k : Nat) (hk : k ≤ (L.filterMap (atBar b)).length) : x.before k = ((L.filterMap (atBar b)).take k).map (·.ev) := by
  refine List.ext_getElem (by simp [Trace.before]; omega) fun i h1 h2 => ?_
  simp only [Trace.before, List.length_map, List.length_range] at h1
  have h3 : i < (L.filterMap (atBar b)).length := by omega
  have := (hx i _ (List.getElem?_eq_getElem h3)).2.2.1
  simp [Trace.before, this]

/-- Steps of one thread are ordered. -/
theorem hbAll_same {L : List (Lab β P n)} {i j : Nat} {l l' : Lab β P n} (hij : i < j) (hi : L[i]? = some l) (hj : L[j]? = some l')
    (ht : stepThread thr l = stepThread thr l') : HBAll thr L i j :=
  .one (o := .inl 0) (.thread (a := ⟨_, _⟩) (b := ⟨_, _⟩) hij (by simp only [actTogether, hi, Option.map_some]; rfl)
    (by simp only [actTogether, hj, Option.map_some]; rfl) ht)

/-! ### C137 -/

/-- `wait` at one barrier of a program with mailboxes and other barriers: the `k`-th call of `wait` by any of its threads happens before the
`k`-th return of `wait` to any of its threads. -/
theorem C137_barrier {L : List (Lab β P n)} {c : Conf β P n} (h : Exec thr name L c) (b : β) (hn : n b < 2 ^ 32)
    (hd : NoDeadline (barEvents b L)) (t u : Fin (n b)) (k i j : Nat) (s s' : BarStep (n b)) (hi : L[i]? = some (.bar b s))
    (hj : L[j]? = some (.bar b s')) (hcall : s.ev = .call u) (hck : callsBy u (barEvents b (L.take i)) = k)
    (hret : s'.ev = .ret t) (hrk : returnsTo t (barEvents b (L.take j)) = k) : HBAll thr L i j := by
  obtain ⟨x, hv, -, hx⟩ := h.trace b (Nat.lt_of_le_of_lt (Nat.zero_le _) t.2)
  have at1 : ∀ s : BarStep (n b), atBar b (Lab.bar (P := P) b s) = some s := fun s => by simp [atBar]
  have p : Place (atBar b) L i _ := ⟨_, _, hi, at1 s, rfl⟩
  have p' : Place (atBar b) L j _ := ⟨_, _, hj, at1 s', rfl⟩
  obtain ⟨_, _, g1, g2, g3, g4⟩ := p.get
  obtain ⟨_, _, g1', g2', g3', g4'⟩ := p'.get
  rw [hi] at g1; cases g1; rw [at1] at g2; cases g2
  rw [hj] at g1'; cases g1'; rw [at1] at g2'; cases g2'
  have l1 := (List.getElem?_eq_some_iff.1 g3).1
  have l2 := (List.getElem?_eq_some_iff.1 g3').1
  refine .one (o := .inr b) (hb_bar hx (Bar.C81_ordering hn (Fintype.card_fin _) hv ?_ t u k _ _ l1 l2 ?_ ?_ ?_ ?_) i j p p')
  · rw [before_eq hx _ (Nat.le_refl _), List.take_length]
    exact hd
  · rw [← (hx _ _ g3).2.2.1, hcall]
  · rw [before_eq hx _ (by omega), ← g4]; exact hck
  · rw [← (hx _ _ g3').2.2.1, hret]
  · rw [before_eq hx _ (by omega), ← g4']; exact hrk

/-- So everything a thread did before its `k`-th `wait`, at mailboxes and at other barriers too, happens before everything any thread of the
barrier does after its `k`-th `wait`. -/
theorem C137_phases {L : List (Lab β P n)} {c : Conf β P n} (h : Exec thr name L c) (b : β) (hn : n b < 2 ^ 32)
    (hd : NoDeadline (barEvents b L)) (t u : Fin (n b)) (k i j : Nat) (s s' : BarStep (n b)) (hi : L[i]? = some (.bar b s))
    (hj : L[j]? = some (.bar b s')) (hcall : s.ev = .call u) (hck : callsBy u (barEvents b (L.take i)) = k)
    (hret : s'.ev = .ret t) (hrk : returnsTo t (barEvents b (L.take j)) = k) (hsu : s.who = u) (hst : s'.who = t)
    (i' j' : Nat) (l l' : Lab β P n) (hl : L[i']? = some l) (hl' : L[j']? = some l') (h1 : i' < i) (h2 : j < j')
    (ht : stepThread thr l = thr b u) (ht' : stepThread thr l' = thr b t) : HBAll thr L i' j' := by
  have h0 := C137_barrier h b hn hd t u k i j s s' hi hj hcall hck hret hrk
  exact .trans (hbAll_same h1 hl hi (by rw [ht]; simp [stepThread, hsu])) (.trans h0 (hbAll_same h2 hj hl' (by rw [ht']; simp [stepThread, hst])))

/-- Messages in a program with barriers: a `put` of the message happens before the return of the `get` that gives it. -/
theorem C137_mail {L : List (Lab β P n)} {c : Conf β P n} (h : Exec thr name L c)
    (hn : ∀ t o r, Lab.mail (.unlock t o r) ∈ L → r.Normal) (a : Mail.Addr) (j t : Nat) (s : Mail.Sub) (m : P)
    (hj : L[j]? = some (.mail (.ret t (a, .get (some s)) (.msg (some m))))) :
    ∃ (i t' : Nat) (subs : Option Mail.Sub), L[i]? = some (.mail (.call t' (a, .put (some m) subs))) ∧ HBAll thr L i j := by
  have p : Place atMail L j _ := ⟨_, _, hj, rfl, rfl⟩
  obtain ⟨_, _, g1, g2, g3, -⟩ := p.get
  rw [hj] at g1; cases g1; cases g2
  obtain ⟨k, t', subs, hk, hb⟩ := C135_ordering name _ _ h.mail (by
    intro t o r hm
    obtain ⟨l, hl, he⟩ := List.mem_filterMap.1 hm
    cases l with
    | mail l => cases he; exact hn _ _ _ hl
    | bar b s => cases he) a _ t s m g3
  obtain ⟨i, pi⟩ := place_of (p := atMail) L k (List.getElem?_eq_some_iff.1 hk).1
  obtain ⟨l, x, q1, q2, q3, -⟩ := pi.get
  rw [hk] at q3
  cases q3
  refine ⟨i, t', subs, ?_, many_mail hb i j pi p⟩
  cases l with
  | mail l => cases q2; exact q1
  | bar b s => cases q2

/-- Accesses to the state of one mailbox are ordered. -/
theorem C137_mail_no_race {L : List (Lab β P n)} {c : Conf β P n} (h : Exec thr name L c) (a : Mail.Addr) (i j t u : Nat) (hij : i < j)
    (hi : L[i]? = some (.mail (.act t))) (hj : L[j]? = some (.mail (.act u)))
    (ha : lastObject t ((L.take i).filterMap atMail) = some a) (hb : lastObject u ((L.take j).filterMap atMail) = some a) : HBAll thr L i j := by
  have p : Place atMail L i _ := ⟨_, _, hi, rfl, rfl⟩
  have p' : Place atMail L j _ := ⟨_, _, hj, rfl, rfl⟩
  obtain ⟨_, _, g1, g2, g3, g4⟩ := p.get
  obtain ⟨_, _, g1', g2', g3', g4'⟩ := p'.get
  rw [hi] at g1; cases g1; cases g2
  rw [hj] at g1'; cases g1'; cases g2'
  rw [g4] at ha
  rw [g4'] at hb
  exact many_mail (C135_no_data_race name _ _ h.mail a _ _ t u (p.mono p' hij) g3 g3' ha hb) i j p p'

/-- The choices of the scheduler determine the states. -/
theorem trace_same {T : Type} [DecidableEq T] {k N : Nat} {x y : Trace T} (hx : x.Valid k N) (hy : y.Valid k N)
    (h : ∀ i < N, x.who i = y.who i ∧ x.mv i = y.mv i) : ∀ i ≤ N, x.st i = y.st i := by
  intro i hi
  induction i with
  | zero => rw [hx.init, hy.init]
  | succ i ih =>
    have e1 := hx.ok i (by omega)
    have e2 := hy.ok i (by omega)
    rw [ih (by omega), (h i (by omega)).1, (h i (by omega)).2, e2] at e1
    exact (Prod.mk.inj (Option.some.inj e1)).1.symm

/-- Accesses to the same member of one barrier (`c₁` and `c₂` are the states before them), one of them writing, are ordered. -/
theorem C137_bar_no_race {L : List (Lab β P n)} {c c₁ c₂ : Conf β P n} (h : Exec thr name L c) (b : β) (hn : n b < 2 ^ 32)
    (hd : NoDeadline (barEvents b L)) (i j : Nat) (hij : i < j) (s s' : BarStep (n b)) (hi : L[i]? = some (.bar b s))
    (hj : L[j]? = some (.bar b s')) (h1 : Exec thr name (L.take i) c₁) (h2 : Exec thr name (L.take j) c₂) (hs : s.mv = .go) (hs' : s'.mv = .go)
    (m : Member) (w w' : Bool) (ha : accesses ((c₁.bars b).pc s.who) = some (m, w)) (ha' : accesses ((c₂.bars b).pc s'.who) = some (m, w'))
    (hw : w = true ∨ w' = true) : HBAll thr L i j := by
  have hb0 : 0 < n b := Nat.lt_of_le_of_lt (Nat.zero_le _) s.who.2
  obtain ⟨x, hv, -, hx⟩ := h.trace b hb0
  have at1 : ∀ s : BarStep (n b), atBar b (Lab.bar (P := P) b s) = some s := fun s => by simp [atBar]
  have place : ∀ i s, L[i]? = some (.bar b s) → ∀ c', Exec thr name (L.take i) c' →
      ∃ k, Place (atBar b) L i k ∧ k < (L.filterMap (atBar b)).length ∧ (L.filterMap (atBar b))[k]? = some s ∧ x.st k = c'.bars b := by
    intro i s hi c' hc
    have p : Place (atBar b) L i _ := ⟨_, _, hi, at1 s, rfl⟩
    obtain ⟨_, _, g1, g2, g3, g4⟩ := p.get
    rw [hi] at g1; cases g1; rw [at1] at g2; cases g2
    have l1 := (List.getElem?_eq_some_iff.1 g3).1
    obtain ⟨y, hvy, hsty, hy⟩ := hc.trace b hb0
    refine ⟨_, p, l1, g3, ?_⟩
    rw [← hsty]
    refine trace_same ⟨hv.init, fun q hq => hv.ok q (by omega)⟩ hvy (fun q hq => ?_) _ (Nat.le_refl _)
    have e1 := List.getElem?_eq_getElem hq
    have e2 : (L.filterMap (atBar b))[q]? = some ((L.take i).filterMap (atBar b))[q] := by
      rw [← e1, g4, List.getElem?_take_of_lt hq]
    exact ⟨(hx q _ e2).1.symm.trans (hy q _ e1).1, (hx q _ e2).2.1.symm.trans (hy q _ e1).2.1⟩
  obtain ⟨k, p, l1, g, e⟩ := place i s hi c₁ h1
  obtain ⟨k', p', l2, g', e'⟩ := place j s' hj c₂ h2
  have ex := hx k s g
  have ex' := hx k' s' g'
  refine .one (o := .inr b) (hb_bar hx ?_ i j p p')
  by_cases hsame : x.who k = x.who k'
  · exact .thread (a := ⟨_, _⟩) (b := ⟨_, _⟩) (p.mono p' hij) (by simp only [Trace.act, if_pos l1]; rfl) (by simp only [Trace.act, if_pos l2]; rfl) hsame
  · by_contra hno
    refine Bar.C80_no_data_race hn (Fintype.card_fin _) hv ?_ k k' ⟨p.mono p' hij, l2, hsame, ⟨m, w, w', ?_, ?_, ?_, ?_, hw⟩, hno⟩
    · rw [before_eq hx _ (Nat.le_refl _), List.take_length]
      exact hd
    · rw [← ex.2.1, hs]
    · rw [← ex'.2.1, hs']
    · rw [e, ← ex.1]; exact ha
    · rw [e', ← ex'.1]; exact ha'

/-! ### Example -/

/-- The scheduler's choices for threads 0 and 1 with one barrier. -/
inductive Pick where
  | call (t : Fin 2) (o : Mail.Addr × Mail.Op Nat)
  | mail (t : Fin 2)
  | bar (t : Fin 2) (m : Bar.Move)

abbrev Two := Conf Unit Nat fun _ => 2
abbrev LabTwo := Lab Unit Nat fun _ => 2
def thrTwo : (b : Unit) → Fin 2 → Nat := fun _ u => u.val

def mailPick (t : Nat) (c : Two) : Option (LabTwo × Two) :=
  match c.mail.phase t with
  | .idle => none
  | .wants (a, o) =>
    if c.mail.holder a = none then
      some (.mail (.lock t), { c with mail := { c.mail with holder := Monitors.setAt c.mail.holder a (some t), phase := Monitor.setPhase c.mail.phase t (.runs (a, o) (Mail.body a o)) } })
    else none
  | .runs (a, o) (.act f k) =>
    some (.mail (.act t), { c with mail := { c.mail with shared := Monitors.setAt c.mail.shared a (f (c.mail.shared a)), phase := Monitor.setPhase c.mail.phase t (.runs (a, o) (k (c.mail.shared a))) } })
  | .runs (a, o) (.ret r) =>
    some (.mail (.unlock t (a, o) r), { c with mail := { c.mail with holder := Monitors.setAt c.mail.holder a none, phase := Monitor.setPhase c.mail.phase t (.leaving (a, o) r) } })
  | .leaving (a, o) r =>
    some (.mail (.ret t (a, o) r), { c with mail := { c.mail with phase := Monitor.setPhase c.mail.phase t .idle } })

def isIdle {S O R : Type} : Monitor.Phase S O R → Bool
  | .idle => true
  | _ => false

def pick (c : Two) : Pick → Option (LabTwo × Two)
  | .call t o =>
    if isIdle (c.mail.phase t.val) = true ∧ (c.bars ()).pc t = .idle then
      some (.mail (.call t.val o), { c with mail := { c.mail with phase := Monitor.setPhase c.mail.phase t.val (.wants o) } })
    else none
  | .mail t => mailPick t.val c
  | .bar t m =>
    if m = .call ∧ isIdle (c.mail.phase t.val) = false then none
    else match Bar.step 2 (c.bars ()) t m with
      | none => none
      | some (c', e) => some (.bar () ⟨t, m, e, (c.bars ()).holder, c'.holder⟩, { c with bars := Function.update c.bars () c' })

def picks : List Pick → List LabTwo × Two → Option (List LabTwo × Two)
  | [], r => some r
  | x :: xs, (L, c) => match pick c x with
    | none => none
    | some (l, c') => picks xs (L ++ [l], c')

theorem isIdle_iff {S O R : Type} {p : Monitor.Phase S O R} : isIdle p = true ↔ p = .idle := by cases p <;> simp [isIdle]

theorem pick_step {c c' : Two} {x : Pick} {l : LabTwo} (h : pick c x = some (l, c')) : Step thrTwo c l c' := by
  cases x with
  | call t o =>
    simp only [pick] at h
    split at h
    · rename_i hg
      cases h
      refine .mail (.call (a := o.1) (o := o.2) (isIdle_iff.1 hg.1)) ?_
      intro t' o' e b u hu
      cases e
      have : u = t := Fin.ext hu
      subst this
      exact hg.2
    · cases h
  | mail t =>
    simp only [pick, mailPick] at h
    split at h
    · cases h
    · rename_i a o hp
      split at h
      · rename_i hf
        cases h
        exact .mail (.lock hp hf) (by simp)
      · cases h
    · rename_i hp; cases h; exact .mail (.act hp) (by simp)
    · rename_i hp; cases h; exact .mail (.unlock hp) (by simp)
    · rename_i hp; cases h; exact .mail (.ret hp) (by simp)
  | bar t m =>
    simp only [pick] at h
    split at h
    · cases h
    · rename_i hg
      split at h
      · cases h
      · rename_i c1 e hs
        cases h
        refine .bar (b := ()) hs fun hm => ⟨?_, fun b' u hu => ?_⟩
        · refine isIdle_iff.1 ?_
          cases hi : isIdle (c.mail.phase (thrTwo () t)) with
          | true => rfl
          | false => exact absurd ⟨hm, hi⟩ hg
        · have : u = t := Fin.ext hu
          subst this
          subst hm
          simp only [Bar.step] at hs
          split at hs
          · assumption
          · cases hs

theorem picks_exec (xs : List Pick) : ∀ {L L' : List LabTwo} {c c' : Two}, Exec thrTwo name L c → picks xs (L, c) = some (L', c') →
    Exec thrTwo name L' c' := by
  induction xs with
  | nil => intro L L' c c' h hp; cases hp; exact h
  | cons x xs ih =>
    intro L L' c c' h hp
    simp only [picks] at hp
    split at hp
    · cases hp
    · rename_i l c1 h1
      exact ih (.snoc h (pick_step h1)) hp

/-- Thread 0 asks mailbox 5 and waits at the barrier; thread 1 waits there too; when it is through it asks mailbox 6. -/
def askAndWait : List Pick :=
  [.call 0 (5, .minReadyCount)] ++ List.replicate 4 (.mail 0) ++ [.bar 0 .call] ++ List.replicate 5 (.bar 0 .go) ++ [.bar 1 .call] ++
  List.replicate 9 (.bar 1 .go) ++ [.call 1 (6, .minReadyCount)] ++ List.replicate 4 (.mail 1)

/-- What thread 0 has done at mailbox 5 happens before what thread 1 does at mailbox 6 (without the barrier it would not, `strangers_not`). -/
example : ∃ (L : List LabTwo) (c : Two), Exec thrTwo (fun _ => "m".toList) L c ∧ NoDeadline (barEvents () L) ∧ L[2]? = some (.mail (.act 0)) ∧
    L[23]? = some (.mail (.act 1)) ∧ HBAll thrTwo L 2 23 := by
  refine ⟨_, _, picks_exec (name := fun _ => "m".toList) askAndWait .init rfl, by unfold NoDeadline; decide, rfl, rfl, ?_⟩
  exact C137_phases (name := fun _ => "m".toList) (picks_exec askAndWait .init rfl) () (by decide) (by unfold NoDeadline; decide) 1 0 0 5 20 _ _ rfl rfl rfl rfl rfl rfl rfl rfl 2 23 _ _ rfl
    rfl (by decide) (by decide) rfl rfl

end SoDa.Together
