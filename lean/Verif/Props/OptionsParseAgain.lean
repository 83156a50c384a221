import Verif.Props.OptionsParseAlloc
import Verif.Model.OptionsNum
import Verif.Spec.OptionsParseAgain
/-!
Property C116: exactly when parsing again after `std::bad_alloc` gives what the call would have given.
-/
namespace SoDa.Opts
open Spec

variable {V : Type}

/-! ### One pass of the loop -/

theorem parseStep_word {o : Options V} (hw : o.waiting = false) {w : Str} (hs : ¬ SwitchLike w) :
    o.parseStep none w = .inl ({ o with pos := o.pos ++ [w] }, none) := by
  have : o.swLen none w = 0 := by simp only [Options.swLen, hw]; exact isSwitch_not hs
  simp only [Options.parseStep, this, if_true]

theorem parseStep_known {o : Options V} (h : o.Wf) (hw : o.waiting = false) {sw : Str} {i : Nat}
    {d : Decl V} (hd : Denotes o.decls sw i d) (hh : ¬ HelpSwitch sw) :
    o.parseStep none sw =
      if d.kind = .presence then .inl ((if d.isSigned then { o with waiting := true } else o).setPresent i d, none)
      else .inl ((if d.isSigned then { o with waiting := true } else o), some (i, d)) := by
  cases hd with
  | @long n _ _ hn hl =>
    have h1 : ¬ (('-' :: '-' :: n) = "--help".toList) := fun he => hh (.inl he)
    simp only [Options.parseStep, Options.swLen, Options.release, hw, isSwitch_long hn]
    rw [if_neg (by simp), if_neg (by simp), if_neg (by simp only [h1]; simp)]
    simp only [List.drop_succ_cons, List.drop_zero, if_neg (show ¬ (2 : Nat) = 1 by decide),
      found_long h hl]
  | @short c r _ _ hc hl =>
    have h1 : c ≠ 'h' := by rintro rfl; exact hh (.inr ⟨r, rfl⟩)
    simp only [Options.parseStep, Options.swLen, Options.release, hw, isSwitch_short hc]
    rw [if_neg (by simp), if_neg (by simp [h1]), if_neg (by simp)]
    simp only [List.getElem?_cons_succ, List.getElem?_cons_zero, if_true, Option.bind_some,
      found_ab h hl]

theorem swLen_value {o : Options V} {p : Nat} {d : Decl V} {txt : Str}
    (hv : d.hasDefault = false ∨ Options.isSwitch o.waiting txt = 0) : o.swLen (some (p, d)) txt = 0 := by
  rcases hv with h | h <;> simp [Options.swLen, h]

theorem parseStep_accept {o : Options V} {p : Nat} {d : Decl V} {txt : Str} {v : V} (sw : Str)
    (hv : d.hasDefault = false ∨ Options.isSwitch o.waiting txt = 0) (hk : d.kind ≠ .presence) (ha : Accepts d txt v) :
    o.parseStep (some (p, d)) txt = .inl ({ applyItem o (.value sw p d txt v) with waiting := false }, none) := by
  simp only [Options.parseStep, swLen_value hv, if_true, setVal_accept sw hk ha]

/-- A switch after an option whose value is left out. -/
theorem released_eq {o : Options V} (hw : o.waiting = false) {p : Nat} {d : Decl V} (hg : ¬ Greedy d) :
    o.release (some (p, d)) = o.setPresent p d := by
  simp only [Greedy, not_or, Bool.not_eq_true, Bool.not_eq_false] at hg
  obtain ⟨decls, pres, lm, am, info, pos, kvp, w, sc, vec, cerr⟩ := o
  simp only at hw
  subst hw
  simp only [Options.release, Options.setPresent, hg.1]

theorem swLen_pending {o : Options V} {p : Nat} {d : Decl V} (hg : ¬ Greedy d) (t : Str) :
    o.swLen (some (p, d)) t = (o.setPresent p d).swLen none t := by
  simp only [Greedy, not_or, Bool.not_eq_true, Bool.not_eq_false] at hg
  simp only [Options.swLen, hg.2, if_true]
  rfl

theorem parseStep_pending_switch {o : Options V} (hw : o.waiting = false) {p : Nat} {d : Decl V} (hg : ¬ Greedy d) {t : Str} (hs : SwitchLike t) :
    o.parseStep (some (p, d)) t = (o.setPresent p d).parseStep none t := by
  have h0 : ¬ Options.isSwitch false t = 0 := fun h => (isSwitch_zero_iff t).1 h hs
  have h1 : ¬ (o.setPresent p d).swLen none t = 0 := by simpa [Options.swLen, Options.setPresent, hw] using h0
  have h2 : ¬ o.swLen (some (p, d)) t = 0 := by rw [swLen_pending hg]; exact h1
  unfold Options.parseStep
  rw [if_neg h1, if_neg h2, released_eq hw hg, swLen_pending hg]
  rfl

/-! ### Where the call is -/

/-- The state and `arg_p` after a line that was read to its end. -/
def pendingAt (o : Options V) : Ending V → Option (Options V × Option (Nat × Decl V))
  | .done => some (o, none)
  | .dangling _ i d => some ({ o with waiting := d.isSigned }, some (i, d))
  | _ => none

theorem parseLoopFails_reads {regs : List (Decl V)} {ts1 its1 e1} (hr : Reads regs ts1 its1 e1) (t : Str) (us : List Str) (pt : ParsePoint) :
    (e1 = .done ∨ ∃ sw i d, e1 = .dangling sw i d) →
    ∀ o : Options V, o.Wf → o.waiting = false → o.decls = regs →
      o.parseLoopFails none (ts1 ++ t :: us) ts1.length pt =
        (pendingAt (its1.foldl applyItem o) e1).bind fun x => x.1.outOfMemory x.2 t pt := by
  induction hr with
  | done => intro _ o _ _ _; rfl
  | word hs _ ih =>
    intro he o h hw hd
    simp only [List.cons_append, List.length_cons, Options.parseLoopFails, parseStep_word hw hs]
    exact ih he _ (h.applyItem (.word _)) hw hd
  | @flag sw i d ts its e hden hh hk _ ih =>
    intro he o h hw hd
    subst hd
    simp only [List.cons_append, List.length_cons, Options.parseLoopFails]
    rw [parseStep_known h hw hden hh, if_pos hk, h.signed d (Denotes.mem hden) (by simp [hk])]
    exact ih he _ (h.applyItem (.flag sw i d)) hw rfl
  | @value sw i d txt v ts its e hden hh hk hg ha _ ih =>
    intro he' o h hw hd
    subst hd
    simp only [List.cons_append, List.length_cons, Options.parseLoopFails]
    rw [parseStep_known h hw hden hh, if_neg hk, signed_waiting o hw]
    dsimp only
    rw [parseStep_accept sw (greedy_or hg) hk ha]
    simp only [applyItem_with_waiting, List.foldl_cons]
    have he : ({ applyItem o (.value sw i d txt v) with waiting := false } : Options V) =
        applyItem o (.value sw i d txt v) := by
      rw [← hw, ← applyItem_waiting o (.value sw i d txt v)]
    rw [he]
    exact ih he' _ (h.applyItem _) (by simpa using hw) (by simp)
  | @bare sw i d t' ts its e hden hh hk hg hs _ ih =>
    intro he o h hw hd
    subst hd
    have hsg : d.isSigned = false := by
      cases hs : d.isSigned
      · rfl
      · exact absurd (.inl hs) hg
    have := ih he _ (h.applyItem (.bare sw i d)) hw rfl
    simp only [List.cons_append, List.length_cons, Options.parseLoopFails] at this ⊢
    rw [parseStep_known h hw hden hh, if_neg hk, hsg]
    simp only [Bool.false_eq_true, if_false]
    rw [parseStep_pending_switch hw hg hs]
    exact this
  | @dangling sw i d hden hh hk =>
    intro _ o h hw hd
    subst hd
    simp only [List.cons_append, List.length_cons, Options.parseLoopFails, List.length_nil, List.nil_append]
    rw [parseStep_known h hw hden hh, if_neg hk, signed_waiting o hw]
    rfl
  | unknown => intro he; rcases he with he | ⟨_, _, _, he⟩ <;> cases he
  | help => intro he; rcases he with he | ⟨_, _, _, he⟩ <;> cases he
  | rejected => intro he; rcases he with he | ⟨_, _, _, he⟩ <;> cases he

/-! ### The state that is left -/

theorem foldl_sc (its : List (LineItem V)) : ∀ (y : Options V) (s : Nat → V),
    its.foldl applyItem { y with sc := s } = { its.foldl applyItem y with sc := (its.foldl applyItem { y with sc := s }).sc } := by
  induction its with
  | nil => intro y s; rfl
  | cons it its ih =>
    intro y s
    simp only [List.foldl_cons]
    have : ∃ s', applyItem { y with sc := s } it = { applyItem y it with sc := s' } := by
      cases it with
      | word => exact ⟨_, rfl⟩
      | flag => exact ⟨_, rfl⟩
      | bare => exact ⟨_, rfl⟩
      | value sw i d t v =>
        simp only [applyItem]
        cases d.kind with
        | vector => exact ⟨_, rfl⟩
        | scalar => exact ⟨_, rfl⟩
        | presence => exact ⟨_, rfl⟩
    obtain ⟨s', e⟩ := this
    rw [e]
    exact ih _ s'

/-- Words are tokens; where the line does not end properly some token is not a word. -/
theorem words_length {regs : List (Decl V)} {ts its e} (h : Reads regs ts its e) :
    (words' its).length ≤ ts.length ∧ (e ≠ .done → (words' its).length < ts.length) := by
  induction h with
  | done => simp [words']
  | word _ _ ih =>
    simp only [words', List.length_cons]
    exact ⟨by omega, fun he => by have := ih.2 he; omega⟩
  | flag _ _ _ _ ih =>
    simp only [words', List.length_cons]
    exact ⟨by omega, fun he => by have := ih.2 he; omega⟩
  | value _ _ _ _ _ _ ih =>
    simp only [words', List.length_cons]
    exact ⟨by omega, fun he => by have := ih.2 he; omega⟩
  | bare _ _ _ _ _ _ ih =>
    simp only [words', List.length_cons] at ih ⊢
    exact ⟨by omega, fun he => by have := ih.2 he; omega⟩
  | dangling => simp [words']
  | unknown => simp [words']
  | help => simp [words']
  | rejected => simp [words']

theorem finish_pos (o : Options V) (e : Ending V) : (finish o e).1.pos = o.pos ∧ (finish o e).1.vec = o.vec := by
  cases e <;> exact ⟨rfl, rfl⟩

/-- What a call that runs out of memory leaves alone. -/
theorem outOfMemory_keep {o o' : Options V} {arg : Option (Nat × Decl V)} {t : Str} {pt : ParsePoint} (h : o.outOfMemory arg t pt = some o') :
    o'.decls = o.decls ∧ o'.longMap = o.longMap ∧ o'.abMap = o.abMap ∧ o'.pos = o.pos ∧ o'.vec = o.vec ∧ o'.isKvp = o.isKvp := by
  cases pt with
  | start => cases h; exact ⟨rfl, rfl, rfl, rfl, rfl, rfl⟩
  | value =>
    simp only [Options.outOfMemory] at h
    split at h
    · split at h
      · split at h
        · cases h; exact ⟨rfl, rfl, rfl, rfl, rfl, rfl⟩
        · cases h
      · cases h
    · cases h
  | released =>
    simp only [Options.outOfMemory] at h
    split at h
    · cases h
    · cases h
      cases arg with
      | none => exact ⟨rfl, rfl, rfl, rfl, rfl, rfl⟩
      | some x => exact ⟨rfl, rfl, rfl, rfl, rfl, rfl⟩

/-- Parsing again does the same, when the items before the failure have no further effect the second time. -/
theorem again_same {o o' : Options V} (ho : o.Wf) (how : o.waiting = false) {ts us its2 its' e2 e'} (hr2 : Reads o.decls us its2 e2)
    (hr : Reads o.decls ts (its2 ++ its') e')
    (ho' : o' = its2.foldl applyItem o) (hp : o'.pos = o.pos) (hv : o'.vec = o.vec) : o'.parse ts = o.parse ts := by
  subst ho'
  have hk := items_keep its2 o
  have hw1 : words' its2 = [] := by
    have := items_pos its2 o
    rw [hp] at this
    simpa using this
  have hv1 : ∀ a, vectorValues a its2 = [] := by
    intro a
    have := items_vec its2 a o
    rw [hv] at this
    simpa using this
  rw [parse_reads ho how hr, parse_reads (ho.congr hk.1 hk.2.1 hk.2.2.1) (hk.2.2.2.1.trans how) (by rw [hk.1]; exact hr)]
  rw [List.foldl_append, List.foldl_append, items_again hr2 o hw1 hv1]

/-- A line whose last switch lacks its value, and the value. -/
theorem reads_then_value {regs : List (Decl V)} {ts its e} (h : Reads regs ts its e) {sw i d} (he : e = .dangling sw i d) {t : Str}
    (hg : Greedy d ∨ ¬ SwitchLike t) (us : List Str) :
    d ∈ regs ∧ d.kind ≠ .presence ∧
    ((∃ v its' e', Accepts d t v ∧ Reads regs (ts ++ t :: us) (its ++ .value sw i d t v :: its') e') ∨
     ((∀ v, ¬ Accepts d t v) ∧ Reads regs (ts ++ t :: us) its (.rejected sw i d t))) := by
  induction h with
  | done => cases he
  | word h1 _ ih =>
    obtain ⟨m, k, h⟩ := ih he
    refine ⟨m, k, ?_⟩
    rcases h with ⟨v, its', e', a, h⟩ | ⟨a, h⟩
    · exact .inl ⟨v, its', e', a, .word h1 h⟩
    · exact .inr ⟨a, .word h1 h⟩
  | flag h1 h2 h3 _ ih =>
    obtain ⟨m, k, h⟩ := ih he
    refine ⟨m, k, ?_⟩
    rcases h with ⟨v, its', e', a, h⟩ | ⟨a, h⟩
    · exact .inl ⟨v, its', e', a, .flag h1 h2 h3 h⟩
    · exact .inr ⟨a, .flag h1 h2 h3 h⟩
  | value h1 h2 h3 h4 h5 _ ih =>
    obtain ⟨m, k, h⟩ := ih he
    refine ⟨m, k, ?_⟩
    rcases h with ⟨v, its', e', a, h⟩ | ⟨a, h⟩
    · exact .inl ⟨v, its', e', a, .value h1 h2 h3 h4 h5 h⟩
    · exact .inr ⟨a, .value h1 h2 h3 h4 h5 h⟩
  | bare h1 h2 h3 h4 h5 _ ih =>
    obtain ⟨m, k, h⟩ := ih he
    refine ⟨m, k, ?_⟩
    rcases h with ⟨v, its', e', a, h⟩ | ⟨a, h⟩
    · exact .inl ⟨v, its', e', a, .bare h1 h2 h3 h4 h5 h⟩
    · exact .inr ⟨a, .bare h1 h2 h3 h4 h5 h⟩
  | dangling h1 h2 h3 =>
    cases he
    refine ⟨Denotes.mem h1, h3, ?_⟩
    by_cases ha : ∃ v, Accepts d t v
    · obtain ⟨v, ha⟩ := ha
      obtain ⟨its', e', hr⟩ := reads_total regs _ us (le_refl _)
      exact .inl ⟨v, its', e', ha, .value h1 h2 h3 hg ha hr⟩
    · have ha : ∀ v, ¬ Accepts d t v := fun v h => ha ⟨v, h⟩
      exact .inr ⟨ha, .rejected h1 h2 h3 hg ha⟩
  | unknown => cases he
  | help => cases he
  | rejected => cases he

theorem greedy_of_swLen {o : Options V} {i : Nat} {d : Decl V} {t : Str} (hw : o.waiting = d.isSigned) :
    o.swLen (some (i, d)) t = 0 ↔ Greedy d ∨ ¬ SwitchLike t := by
  simp only [Options.swLen, Greedy, hw]
  cases d.hasDefault <;> cases d.isSigned <;> simp [isSwitch_waiting, isSwitch_zero_iff]

theorem update_again {A B : Type} [DecidableEq A] (f : A → B) (a : A) (x y : B) : update (update f a x) a y = update f a y := by
  funext b; simp only [update]; split <;> rfl

theorem update_at {A B : Type} [DecidableEq A] (f : A → B) (a : A) (x : B) : update f a x a = x := by simp [update]

/-- C116.  Exactly when parsing again after a call that ran out of memory gives what the call would have given: there are no more
positional arguments and vector elements than before the call, and no value of a signed type is expected. -/
theorem C116_again_exact (o o' : Options V) (ts : List Str) (n : Nat) (pt : ParsePoint) (ho : Ready o) (hs : Settles o.decls)
    (h : o.parseFails ts n pt = some o') :
    o'.parse ts = o.parse ts ↔ o'.getPosArgs = o.getPosArgs ∧ o'.vec = o.vec ∧ o'.waiting = false := by
  have B := C116_between o o' ts n pt h
  obtain ⟨t, oN, argN, h1, _, _, _⟩ := parseLoopFails_at ts n o o' none pt (by simp) h
  obtain ⟨us, e0⟩ : ∃ us, ts = ts.take n ++ t :: us := by
    refine ⟨ts.drop (n + 1), ?_⟩
    have : t = ts[n]'(by rw [List.getElem?_eq_some_iff] at h1; exact h1.1) := by
      rw [List.getElem?_eq_some_iff] at h1; exact h1.2.symm
    rw [this, List.getElem_cons_drop, List.take_append_drop]
  obtain ⟨its1, e1, hr1⟩ := reads_total o.decls _ (ts.take n) (le_refl _)
  have hk := items_keep its1 o
  have B1 := B.1
  rw [parse_reads ho.wf ho.waiting hr1] at B1
  have he : e1 = .done ∨ ∃ sw i d, e1 = .dangling sw i d := by
    cases e1 with
    | done => exact .inl rfl
    | dangling sw i d => exact .inr ⟨sw, i, d, rfl⟩
    | unknown => simp [finish] at B1
    | help => simp [finish] at B1
    | rejected => simp [finish] at B1
  have hlen : (ts.take n).length = n := by
    rw [List.length_take]; rw [List.getElem?_eq_some_iff] at h1; have := h1.1; omega
  have F := parseLoopFails_reads hr1 t us pt he o ho.wf ho.waiting rfl
  rw [← e0, hlen, show o.parseLoopFails none ts n pt = some o' from h] at F
  generalize hy : its1.foldl applyItem o = y at F
  have yk : y.decls = o.decls ∧ y.longMap = o.longMap ∧ y.abMap = o.abMap ∧ y.waiting = false := by
    rw [← hy]; exact ⟨hk.1, hk.2.1, hk.2.2.1, hk.2.2.2.1.trans ho.waiting⟩
  have ypos : y.pos = o.pos ++ words' its1 := by rw [← hy]; exact items_pos its1 o
  have ok : o'.decls = o.decls ∧ o'.longMap = o.longMap ∧ o'.abMap = o.abMap ∧ o'.pos = y.pos ∧ o'.vec = y.vec := by
    rcases he with rfl | ⟨sw, i, d, rfl⟩
    · have := outOfMemory_keep F.symm
      exact ⟨this.1.trans yk.1, this.2.1.trans yk.2.1, this.2.2.1.trans yk.2.2.1, this.2.2.2.1, this.2.2.2.2.1⟩
    · have := outOfMemory_keep F.symm
      exact ⟨this.1.trans yk.1, this.2.1.trans yk.2.1, this.2.2.1.trans yk.2.2.1, this.2.2.2.1, this.2.2.2.2.1⟩
  obtain ⟨its, e, hr⟩ := reads_total o.decls _ ts (le_refl _)
  have wf' : o'.Wf := ho.wf.congr ok.1 ok.2.1 ok.2.2.1
  constructor
  · intro hsame
    have P := parse_reads ho.wf ho.waiting hr
    cases hw : o'.waiting with
    | true =>
      exfalso
      rw [parse_waiting hw, P] at hsame
      have q1 := congrArg (fun r => r.1.pos.length) hsame
      have q2 := congrArg (fun r => r.1.waiting) hsame
      simp only [(finish_pos _ e).1, items_pos, ok.2.2.2.1, ypos, List.length_append, hw] at q1 q2
      have wl := words_length hr
      have : e ≠ .done := by
        rintro rfl
        simp only [finish, (items_keep its o).2.2.2.1, ho.waiting] at q2
        cases q2
      have := wl.2 this
      omega
    | false =>
      rw [P, parse_reads wf' hw (by rw [ok.1]; exact hr)] at hsame
      have q1 := congrArg (fun r => r.1.pos) hsame
      have q2 := congrArg (fun r => r.1.vec) hsame
      simp only [(finish_pos _ e).1, (finish_pos _ e).2, items_pos] at q1 q2
      refine ⟨List.append_cancel_right q1, funext fun a => ?_, rfl⟩
      have q3 := congrFun q2 a
      rw [items_vec, items_vec] at q3
      exact List.append_cancel_right q3
  · rintro ⟨hp, hv, hw⟩
    simp only [Options.getPosArgs] at hp
    have A : o' = y → o'.parse ts = o.parse ts := by
      intro hy'
      obtain ⟨its', e', hr'⟩ := reads_longer hr1 he (t :: us)
      rw [← e0] at hr'
      exact again_same ho.wf ho.waiting hr1 hr' (hy'.trans hy.symm) hp hv
    rcases he with rfl | ⟨sw, i, d, rfl⟩
    · -- no switch is pending
      simp only [pendingAt, Option.bind_some] at F
      cases pt with
      | start => cases F; exact A rfl
      | value =>
        simp only [Options.outOfMemory] at F
        split at F <;> cases F
      | released =>
        simp only [Options.outOfMemory] at F
        split at F
        · cases F
        · cases F; exact A rfl
    · simp only [pendingAt, Option.bind_some] at F
      have yw : ∀ b : Bool, b = false → ({ y with waiting := b } : Options V) = y := by
        intro b hb; rw [hb, ← yk.2.2.2]
      cases pt with
      | start =>
        simp only [Options.outOfMemory, Option.some.injEq] at F
        rw [F] at hw
        exact A (F.trans (yw _ hw))
      | value =>
        simp only [Options.outOfMemory] at F
        split at F
        · rename_i h0
          rw [greedy_of_swLen rfl] at h0
          split at F
          · rename_i hkind
            simp only [Option.some.injEq] at F
            rw [F] at hw
            simp only at hw
            obtain ⟨hm, _, hval⟩ := reads_then_value hr1 rfl h0 us
            rw [← e0] at hval
            have w1 : words' its1 = [] := by rw [ok.2.2.2.1, ypos] at hp; simpa using hp
            have v1 : ∀ a, vectorValues a its1 = [] := by
              intro a
              have := items_vec its1 a o
              rw [hy, ← ok.2.2.2.2, hv] at this
              simpa using this
            have idem : its1.foldl applyItem y = y := by
              have := items_again hr1 o w1 v1
              rwa [hy] at this
            -- the variable before the value is assigned again
            obtain ⟨w, hwv, hz⟩ : ∃ w, (w = y.sc d.target ∨ w = (match d.read t with
                | some v => v
                | none => d.readFail t (y.sc d.target))) ∧
                its1.foldl applyItem o' = { y with sc := update y.sc d.target w } := by
              have hs1 : ∀ a, y.sc a = (scalarValues a its1).getLast?.getD (y.sc a) := by
                intro a
                have := items_sc hr1 a y
                rwa [idem] at this
              refine ⟨(scalarValues d.target its1).getLast?.getD (match d.read t with
                | some v => v
                | none => d.readFail t (y.sc d.target)), ?_, ?_⟩
              · have := hs1 d.target
                cases hl : (scalarValues d.target its1).getLast? with
                | none => exact .inr rfl
                | some x => rw [hl] at this; exact .inl this.symm
              · have e2 : o' = { y with sc := update y.sc d.target (match d.read t with
                    | some v => v
                    | none => d.readFail t (y.sc d.target)) } := by
                  rw [F]
                  generalize update y.sc d.target _ = q
                  rw [hw]
                  have yw' := yk.2.2.2
                  obtain ⟨decls, pres, lm, am, info, pos, kvp, w, sc, vec, cerr⟩ := y
                  simp only at yw'
                  rw [yw']
                rw [e2, foldl_sc, idem]
                refine congrArg (fun q => ({ y with sc := q } : Options V)) (funext fun a => ?_)
                rw [items_sc hr1 a]
                simp only [update]
                by_cases ha : a = d.target
                · rw [if_pos ha, if_pos ha, ha]
                · rw [if_neg ha, if_neg ha]; exact (hs1 a).symm
            rcases hval with ⟨v, its', e', ha, hr'⟩ | ⟨ha, hr'⟩
            · rw [parse_reads ho.wf ho.waiting hr', parse_reads wf' (by rw [F]; exact hw) (by rw [ok.1]; exact hr'), List.foldl_append, List.foldl_append,
                List.foldl_cons, List.foldl_cons, hz, hy]
              congr 2
              simp only [applyItem, hkind, update_again]
            · rw [parse_reads ho.wf ho.waiting hr', parse_reads wf' (by rw [F]; exact hw) (by rw [ok.1]; exact hr'), hz, hy]
              simp only [finish, rejectVal, hkind, if_true, update_again, update_at]
              cases hread : d.read t with
              | some v => rfl
              | none =>
                simp only [hread] at hwv ⊢
                rcases hwv with rfl | rfl
                · rfl
                · rw [hs d hm t]
          · cases F
        · cases F
      | released =>
        simp only [Options.outOfMemory] at F
        split at F
        · cases F
        · rename_i h0
          rw [greedy_of_swLen rfl, not_or, not_not] at h0
          obtain ⟨hg, hsw⟩ := h0
          have hsg : d.isSigned = false := by
            cases hs : d.isSigned
            · rfl
            · exact absurd (.inl hs) hg
          rw [yw _ hsg, released_eq yk.2.2.2 hg, Option.some.injEq] at F
          obtain ⟨its', e', hr'⟩ := reads_total o.decls _ (t :: us) (le_refl _)
          have hr2 := (reads_append hr1 hsw hr').2 sw i d rfl hg
          rw [← e0] at hr2
          -- the items up to the switch, on a line of their own
          have hr3 : ∃ us' e3, Reads o.decls us' (its1 ++ [.bare sw i d]) e3 := by
            exact ⟨_, _, (reads_append hr1 (show SwitchLike "-h".toList from .inl ⟨'h', [], rfl, by decide⟩)
              (.help (ts := []) (.inr ⟨[], rfl⟩))).2 sw i d rfl hg⟩
          obtain ⟨us', e3, hr3⟩ := hr3
          refine again_same ho.wf ho.waiting hr3 (its' := its') (by simpa using hr2) ?_ hp hv
          rw [F, List.foldl_append, hy]
          rfl

/-! ### The other overloads -/

theorem parseLoopFails_isKvp (ts : List Str) : ∀ (n : Nat) (o o' : Options V) (arg : Option (Nat × Decl V)) (pt : ParsePoint),
    o.parseLoopFails arg ts n pt = some o' → o'.isKvp = o.isKvp := by
  have step : ∀ (o o1 : Options V) (arg arg1 : Option (Nat × Decl V)) (t : Str), o.parseStep arg t = .inl (o1, arg1) → o1.isKvp = o.isKvp := by
    intro o o1 arg arg1 t h
    have hset : ∀ p d, (o.setVal p d t).1.isKvp = o.isKvp := by
      intro p d
      unfold Options.setVal
      split
      · split
        · rfl
        · dsimp only; split <;> rfl
      · split
        · rfl
        · split <;> rfl
      · rfl
    have hrel : (o.release arg).isKvp = o.isKvp := by cases arg <;> rfl
    unfold Options.parseStep at h
    split at h
    · split at h
      · rename_i p d _
        have := hset p d
        split at h
        · rename_i he; rw [he] at this; cases h; exact this
        · cases h
      · cases h; rfl
    · dsimp only at h
      split at h
      · cases h
      · split at h
        · cases h
        · split at h
          · cases h
          · split at h
            · cases h; split <;> exact hrel
            · cases h; split <;> exact hrel
  induction ts with
  | nil => intro n o o' arg pt h; simp [Options.parseLoopFails] at h
  | cons t ts ih =>
    intro n o o' arg pt h
    cases n with
    | zero => exact (outOfMemory_keep h).2.2.2.2.2
    | succ n =>
      simp only [Options.parseLoopFails] at h
      cases hs : o.parseStep arg t with
      | inr r => simp [hs] at h
      | inl x =>
        obtain ⟨o1, arg1⟩ := x
        simp only [hs] at h
        exact (ih n o1 o' arg1 pt h).trans (step _ _ _ _ _ hs)

theorem parseAny_tokens (o : Options V) (a : Str ⊕ List Str) : o.parseAny a =
    (Options.tokensOf o.isKvp a).bind fun r => match r with
      | none => .ok (o, false)
      | some ts => .ok (o.parse ts) := by
  cases a with
  | inl s =>
    simp only [Options.parseAny, Options.parseString, Options.tokensOf]
    cases o.isKvp with
    | false => rfl
    | true =>
      simp only [if_true, Options.parseKeyValue]
      by_cases h1 : s.length = 0
      · rw [if_pos h1, if_pos h1]; rfl
      · rw [if_neg h1, if_neg h1]
        cases split s ",".toList with
        | ub => rfl
        | throw e => rfl
        | ok l =>
          simp only [Res.bind]
          by_cases h2 : l.length = 0
          · rw [if_pos h2, if_pos h2]
          · rw [if_neg h2, if_neg h2, Options.parseKeyValueList]
            cases Options.kvTokens l <;> rfl
  | inr argv =>
    simp only [Options.parseAny, Options.parseArgv, Options.tokensOf]
    cases o.isKvp with
    | false => rfl
    | true =>
      simp only [if_true, Options.parseKeyValueList]
      cases Options.kvTokens (tokensArgv argv) <;> rfl

/-- C116.  The same for command lines given as a string or as `argv`, in both styles (`--name value`, `name=value`). -/
theorem C116_again_any (o o' : Options V) (a : Str ⊕ List Str) (at_ : Option (Nat × ParsePoint)) (ho : Ready o) (hs : Settles o.decls)
    (h : o.parseAnyFails a at_ = some o') :
    o'.parseAny a = o.parseAny a ↔ o'.getPosArgs = o.getPosArgs ∧ o'.vec = o.vec ∧ o'.waiting = false := by
  cases at_ with
  | none =>
    cases h
    exact ⟨fun _ => ⟨rfl, rfl, ho.waiting⟩, fun _ => rfl⟩
  | some x =>
    obtain ⟨n, pt⟩ := x
    simp only [Options.parseAnyFails] at h
    split at h
    · rename_i ts hts
      rw [parseAny_tokens, parseAny_tokens, parseLoopFails_isKvp ts n o o' none pt h, hts]
      simp only [Res.bind, Res.ok.injEq]
      exact C116_again_exact o o' ts n pt ho hs h
    · cases h

/-! ### The types of options -/

/-- The types that the library is used with settle. -/
theorem settles_types :
    (∀ t x, intTy.readFail t (intTy.readFail t x) = intTy.readFail t x) ∧
    (∀ t x, strTy.readFail t (strTy.readFail t x) = strTy.readFail t x) ∧
    (∀ t x, boolTy.readFail t (boolTy.readFail t x) = boolTy.readFail t x) ∧
    (∀ sg ext (inj : Int → V) t x, (tyOf sg ext inj).readFail t ((tyOf sg ext inj).readFail t x) = (tyOf sg ext inj).readFail t x) ∧
    (∀ rnd big (inj : Dbl → V) t x, (realTy rnd big inj).readFail t ((realTy rnd big inj).readFail t x) = (realTy rnd big inj).readFail t x) ∧
    (∀ (inj : Char → V) t x, (charTy inj).readFail t ((charTy inj).readFail t x) = (charTy inj).readFail t x) := by
  refine ⟨?_, ?_, ?_, ?_, ?_, ?_⟩
  · intro t x; simp only [intTy]; split <;> rfl
  · intro t x; rfl
  · intro t x; simp only [boolTy]; split <;> rfl
  · intro sg ext inj t x; simp only [tyOf]; split <;> rfl
  · intro rnd big inj t x; simp only [realTy]; split <;> rfl
  · intro inj t x; simp only [charTy]; cases (t.dropWhile isSpace).head? <;> rfl

/-- `opts.add<int>(&x, "num", 'n', 5).add<std::string>(&s, "str", 's', "")`. -/
def parseAgainSample : Options Val := parseAllocSample.addDef strTy 1 "str".toList 's' (.str [])

theorem parseAgainSample_ready : Ready parseAgainSample := .addDef _ _ _ _ _ _ _ _ parseAllocSample_ready

theorem parseAgainSample_settles : Settles parseAgainSample.decls := by
  intro d hd t x
  have : d.readFail = intTy.readFail ∨ d.readFail = strTy.readFail := by
    have h : parseAgainSample.decls = [_, _] := rfl
    rw [h] at hd
    rcases List.mem_cons.mp hd with rfl | hd
    · exact .inl rfl
    · rcases List.mem_cons.mp hd with rfl | hd
      · exact .inr rfl
      · simp at hd
  rcases this with e | e
  · rw [e]; exact (settles_types (V := Val)).1 t x
  · rw [e]; exact (settles_types (V := Val)).2.1 t x

/-- The line `--num 7 --str abc`; memory runs out after the second variable was assigned: parsing again is right. -/
example : ∃ o', parseAgainSample.parseAnyFails (.inl "--num 7 --str abc".toList) (some (3, .value)) = some o' ∧
    o'.getPosArgs = parseAgainSample.getPosArgs ∧ o'.vec = parseAgainSample.vec ∧ o'.waiting = false ∧ o'.sc 1 = .str "abc".toList ∧
    o'.isPresent "str".toList = false := by
  refine ⟨_, rfl, ?_, rfl, ?_, ?_, ?_⟩ <;> decide +kernel

/-- After the first one was assigned it is not. -/
example : ∃ o', parseAgainSample.parseAnyFails (.inl "--num 7 --str abc".toList) (some (1, .value)) = some o' ∧ o'.waiting = true ∧ o'.sc 0 = .int 7 := by
  refine ⟨_, rfl, ?_, ?_⟩ <;> decide +kernel

end SoDa.Opts
