import Verif.Props.Options
import Verif.Props.OptionsNum
import Verif.Props.MailBox
import Verif.Props.PropertyTree
import Verif.Props.FormatExt
/-!
Exactly when the refuted claims C31, C32, C33, C36, C47, C53, C69 and C76 hold.
-/
namespace SoDa.Opts
open Spec

variable {V : Type}

/-- Exactly when C31 holds of a line: the option without a value counts as present only if it did so before. -/
theorem C31_exact (o : Options V) (ho : Ready o) (pre : List Str) (its : List (LineItem V))
    (sw : Str) (i : Nat) (d : Decl V) (hr : Reads o.decls pre its .done)
    (hd : Denotes o.decls sw i d) (hh : ¬ HelpSwitch sw) (hk : d.kind ≠ .presence) :
    (∃ o1 o2, o.parse pre = (o1, true) ∧ o.parse (pre ++ [sw]) = (o2, true) ∧
      o2.sc = o1.sc ∧ o2.vec = o1.vec ∧ o2.pos = o1.pos ∧ o2.pres i = true) ↔
    o.pres i = true ∨ Appears i its := by
  obtain ⟨o1, o2, e1, e2, h1, h2, h3, h4, _⟩ := C31_dangling_partial o ho pre its sw i d hr hd hh hk
  have e3 := parse_reads ho.wf ho.waiting hr
  rw [e1] at e3
  have e4 : o1 = its.foldl applyItem o := congrArg Prod.fst e3
  rw [← items_pres i its o, ← e4, ← h4]
  constructor
  · rintro ⟨p1, p2, f1, f2, _, _, _, g⟩
    rw [e2] at f2
    have : o2 = p2 := congrArg Prod.fst f2
    rw [this]; exact g
  · intro g
    exact ⟨o1, o2, e1, e2, h1, h2, h3, g⟩

/-- `--out x --out`: the second occurrence has no value, the first one has marked the option. -/
example : (sample.parse (["--out", "x", "--out"].map (·.toList))).1.isPresent "out".toList = true ∧
    (sample.parse (["--out"].map (·.toList))).1.isPresent "out".toList = false := by decide

/-- Exactly when C32 holds after a line: unless it ended within an option of a signed type. -/
theorem C32_exact (o : Options V) (ho : Ready o) (before : List Str)
    (its : List (LineItem V)) (e : Ending V) (hr : Reads o.decls before its e) :
    (∀ ts, SameReading (o.parse before).1 o ts) ↔
      (∀ sw i d, e = .dangling sw i d → d.isSigned = false) ∧
      (∀ sw i d txt, e = .rejected sw i d txt → d.isSigned = false) := by
  constructor
  · intro h
    have key : ∀ sw i d, Denotes o.decls sw i d → ¬ HelpSwitch sw → d.kind ≠ .presence →
        (o.parse before).1.waiting = d.isSigned → d.isSigned = false := by
      intro sw i d hd hh hk hw
      cases hs : d.isSigned with
      | false => rfl
      | true =>
        exfalso
        rw [hs] at hw
        obtain ⟨_, ⟨ws, w1, w2⟩, _⟩ := h [sw]
        rw [parse_waiting hw] at w1
        rw [parse_reads ho.wf ho.waiting (.dangling hd hh hk)] at w2
        have h1 : ws = [sw] := (List.append_cancel_left w1).symm
        have h2 : o.pos = o.pos ++ ws := w2
        rw [h1] at h2
        have := congrArg List.length h2
        simp at this
    have hend : ∀ {ts its e}, Reads o.decls ts its e →
        (∀ sw i d, e = .dangling sw i d → Denotes o.decls sw i d ∧ ¬ HelpSwitch sw ∧ d.kind ≠ .presence) ∧
        (∀ sw i d txt, e = .rejected sw i d txt →
          Denotes o.decls sw i d ∧ ¬ HelpSwitch sw ∧ d.kind ≠ .presence) := by
      intro ts its e hr
      induction hr with
      | dangling h1 h2 h3 =>
        refine ⟨?_, by intros; contradiction⟩
        intro sw i d he; cases he; exact ⟨h1, h2, h3⟩
      | rejected h1 h2 h3 _ _ =>
        refine ⟨by intros; contradiction, ?_⟩
        intro sw i d txt he; cases he; exact ⟨h1, h2, h3⟩
      | done => exact ⟨by intros; contradiction, by intros; contradiction⟩
      | unknown => exact ⟨by intros; contradiction, by intros; contradiction⟩
      | help => exact ⟨by intros; contradiction, by intros; contradiction⟩
      | word _ _ ih => exact ih
      | flag _ _ _ _ ih => exact ih
      | value _ _ _ _ _ _ ih => exact ih
      | bare _ _ _ _ _ _ ih => exact ih
    have hp := parse_reads ho.wf ho.waiting hr
    refine ⟨?_, ?_⟩
    · rintro sw i d rfl
      obtain ⟨h1, h2, h3⟩ := (hend hr).1 _ _ _ rfl
      exact key sw i d h1 h2 h3 (by rw [hp]; rfl)
    · rintro sw i d txt rfl
      obtain ⟨h1, h2, h3⟩ := (hend hr).2 _ _ _ _ rfl
      exact key sw i d h1 h2 h3 (by rw [hp]; rfl)
  · rintro ⟨h1, h2⟩ ts
    exact C32_reparse_partial o ho before its e hr h1 h2 ts

/-- C33 fails for every vector and every text that looks like a switch, in particular for every negative number:
nothing is appended to any vector. -/
theorem C33_vectors_refuted (o : Options V) (ho : Ready o) (sw txt : Str) (i : Nat) (d : Decl V)
    (hd : Denotes o.decls sw i d) (hh : ¬ HelpSwitch sw) (hk : d.kind = .vector) (ht : SwitchLike txt) :
    (o.parse [sw, txt]).1.vec = o.vec := by
  have hkp : d.kind ≠ .presence := by simp [hk]
  have hng : ¬ Greedy d := by
    have h1 := ho.wf.signed d (Denotes.mem hd) (by simp [hk])
    have h2 := ho.wf.default d (Denotes.mem hd) (by simp [hk])
    simp [Greedy, h1, h2]
  obtain ⟨its, e, hr⟩ := reads_total o.decls _ [txt] (Nat.le_refl _)
  have h3 := parse_reads ho.wf ho.waiting (.bare hd hh hkp hng ht hr)
  have hv : ∀ a, vectorValues a its = [] := by
    intro a
    cases hr with
    | word hs _ => exact absurd ht hs
    | flag _ _ _ h => cases h; rfl
    | dangling => rfl
    | unknown => rfl
    | help => rfl
  rw [h3]
  funext a
  have h4 := items_vec (.bare sw i d :: its) a o
  have h5 : vectorValues a (.bare sw i d :: its) = [] := by simp only [vectorValues]; exact hv a
  rw [h5, List.append_nil] at h4
  rw [← h4]
  cases e <;> rfl

theorem switchLike_neg (n : Int) (hn : n < 0) : SwitchLike (showInt n) := by
  cases n with
  | ofNat k => exact absurd hn (by simp)
  | negSucc k =>
    obtain ⟨d, t, _, h2, h3⟩ := head_toDigits 10 (by omega) (by omega) (k + 1) (by omega)
    refine .inl ⟨Nat.digitChar d, t, by simp [showInt, h3], ?_⟩
    have : ∀ d < 10, Nat.digitChar d ≠ '-' := by decide
    exact this d h2

/-- Exactly when C33 holds of an `int` option: for scalars of signed type, never for vectors. -/
theorem C33_exact (o : Options Val) (ho : Ready o) (sw : Str) (i : Nat) (d : Decl Val)
    (hd : Denotes o.decls sw i d) (hh : ¬ HelpSwitch sw) (hk : d.kind ≠ .presence)
    (hr : d.read = intTy.read) (hs : d.kind = .scalar → d.isSigned = true) (ht : ∀ v, d.test v = true) :
    C33_claim o sw d ↔ d.kind = .scalar := by
  constructor
  · intro h
    cases hkind : d.kind with
    | scalar => rfl
    | presence => exact absurd hkind hk
    | vector =>
      exfalso
      obtain ⟨o', h1, _, h3⟩ := h (-1) (by decide) (by decide)
      have h4 := C33_vectors_refuted o ho sw _ i d hd hh hkind (switchLike_neg (-1) (by decide))
      rw [h1] at h4
      have h5 := congrFun h4 d.target
      simp only [h3 hkind] at h5
      have := congrArg List.length h5
      simp at this
  · intro hkind
    exact C33_int_partial o ho sw i d hd hh hkind hr (hs hkind) ht

/-- The vector option of the sample meets the hypotheses. -/
example : ¬ C33_claim sample "--list".toList sample.decls[3] := by
  have hd : Denotes sample.decls "--list".toList 3 sample.decls[3] :=
    .long (n := "list".toList) (by simp) (isLast_of_findLong sample_ready.wf (by decide) rfl)
  rw [C33_exact sample sample_ready _ 3 _ hd (not_help (by decide) (by decide)) (by decide) rfl (by decide)
    (fun _ => rfl)]
  decide

/-- Exactly when C36 holds of an index. -/
theorem C36_exact (o : Options V) (hsz : o.getPosArgs.length < 2147483647) (idx : Int)
    (h1 : -2147483648 ≤ idx) (h2 : idx ≤ 2147483647) :
    o.getPosArg idx =
      .ok (if 0 ≤ idx ∧ idx < o.numPosArgs then (o.getPosArgs[idx.toNat]?).getD [] else []) ↔
    idx ≠ o.numPosArgs := by
  refine ⟨?_, C36_getPosArg_partial o (Nat.lt_succ_of_lt hsz) idx h1 h2⟩
  intro h he
  rw [he] at h
  rw [(C36_refuted o hsz).1] at h
  cases h

/-- C76 fails for every unsigned type and every option: behind a space, `-1` is accepted. -/
theorem C76_refuted_always (bits : Nat) (hb : 0 < bits) (inj : Int → V) (o : Options V) (ho : Ready o) (sw : Str)
    (i : Nat) (d : Decl V) (hd : Denotes o.decls sw i d) (hh : ¬ HelpSwitch sw) (hk : d.kind = .scalar)
    (hr : d.read = (uintTy bits inj).read) (ht : ∀ v, d.test v = true) :
    ¬ C76_claim bits inj o sw d ∧
    ∃ o', o.parse [sw, " -1".toList] = (o', true) ∧ o'.sc d.target = inj (2 ^ bits - 1) := by
  have hn : ¬ SwitchLike " -1".toList := by
    rintro (⟨c, r, h, _⟩ | ⟨n, h, _⟩) <;> simp at h
  have hm : BeginsWithInt " -1".toList (-1) :=
    ⟨[' '], ['-'], ['1'], [], 1, rfl, by simp [White], .inr (.inr rfl), by decide, by simp, rfl⟩
  have hp : (2 : Int) ^ 1 ≤ 2 ^ bits := pow_le_pow_right₀ (by norm_num) hb
  obtain ⟨o', e1, e2⟩ := (C76_unsigned_partial bits inj o ho sw _ i d hd hh hk hr ht (.inr hn)).1 (-1) hm
    (by omega) (by omega)
  have h3 : inj (if (0 : Int) ≤ -1 then -1 else -1 + 2 ^ bits) = inj (2 ^ bits - 1) := by
    rw [if_neg (by omega)]; ring_nf
  refine ⟨?_, o', e1, by rw [e2, h3]⟩
  intro h
  have := (h _ (.inr hn)).2 (by
    rintro ⟨n, hb, h0, _⟩
    obtain ⟨neg1, m1, e1, f1⟩ := (scanInt_iff _ _).2 hb
    obtain ⟨neg2, m2, e2, f2⟩ := (scanInt_iff _ _).2 hm
    rw [e1] at e2
    simp only [IntScan.num.injEq] at e2
    rw [e2.1, e2.2, ← f2] at f1
    omega)
  rw [e1] at this
  simp at this

example : (intSample.parse ["-c".toList, " -1".toList]).1.sc 1 = 4294967295 := by decide +kernel

end SoDa.Opts

namespace SoDa.Mail
open Spec Monitor

variable {P : Type}

/-- Exactly when C47 holds of a subscription that was handed out: unless it has been ended already, by `unsubscribe`
with its id or by dropping a copy of it.  Then dropping it ends the program. -/
theorem C47_exact (this : Addr) (name : Str) (tr : List (Event P)) (b : Box P)
    (h : Run this (Box.new name) tr b) (s : Sub) (hs : ∃ e ∈ tr, e.resp = .sub s) :
    ((exec this b (.drop s)).2 = .done ↔
      ∀ e ∈ tr, e.resp = .done → e.op ≠ .unsubscribe s.idx ∧ ∀ s', e.op = .drop s' → s'.idx ≠ s.idx) ∧
    ((exec this b (.drop s)).2 = .done ∨ (exec this b (.drop s)).2 = .terminate) := by
  have k := known h
  have hsub : ∃ e ∈ tr, Subscribes s.idx e = true := by
    obtain ⟨e, he, hr⟩ := hs
    exact ⟨e, he, subscribes_iff.2 ⟨s, hr, rfl⟩⟩
  have hends : (∀ e ∈ tr, Ends s.idx e = false) ↔
      ∀ e ∈ tr, e.resp = .done → e.op ≠ .unsubscribe s.idx ∧ ∀ s', e.op = .drop s' → s'.idx ≠ s.idx := by
    refine forall_congr' fun e => forall_congr' fun _ => ?_
    obtain ⟨t, o, r⟩ := e
    cases o <;> cases r <;> simp [Ends]
  have hlive : Live s.idx tr ↔ ∀ e ∈ tr, Ends s.idx e = false :=
    ⟨fun hl => hl.2, fun hl => ⟨hsub, hl⟩⟩
  rw [← hends, ← hlive, ← k.live]
  cases hw : waiting b s.idx with
  | none =>
    have : (exec this b (.drop s)).2 = .terminate := by
      unfold waiting at hw
      simp [exec, Box.unsubscribe, Box.getQueueI, hw]
    simp [this]
  | some q => simp [exec, Box.unsubscribe, getQueueI_ok.2 hw]

/-- A copy of a dropped subscription. -/
example : ∃ b, Run 5 (Box.new "m".toList) (sampleTrace ++ [⟨1, .drop ⟨5, 0⟩, .done⟩]) b ∧
    (exec 5 b (.drop ⟨5, 0⟩)).2 ≠ .done := by
  have r1 := Run.snoc (t := 1) (o := .drop ⟨5, 0⟩) sample_run rfl trivial
  refine ⟨_, r1, ?_⟩
  rw [ne_eq, (C47_exact 5 _ _ _ r1 ⟨5, 0⟩ ⟨⟨1, .subscribe, .sub ⟨5, 0⟩⟩, by simp [sampleTrace], rfl⟩).1]
  intro h
  exact (h ⟨1, .drop ⟨5, 0⟩, .done⟩ (by simp) rfl).2 _ rfl rfl

end SoDa.Mail

namespace SoDa.Prop
open Spec

/-- Exactly when a path is reported as missing by `get`: if some component is not a key of the root.  Otherwise the
value of the root is read. -/
theorem C53_exact {V : Type} (T : Ty V) (root : Node) (ks : List Str) (t : Bool) (h : Writable ks) :
    (get T root (pathOf ks) t = .throw (.notFound (pathOf ks)) ↔ ∃ k ∈ ks, k ∉ root.getKeys) ∧
    ((∀ k ∈ ks, k ∈ root.getKeys) → get T root (pathOf ks) t = (Ref.root root).get T t) := by
  have h2 : (∀ k ∈ ks, k ∈ root.getKeys) → get T root (pathOf ks) t = (Ref.root root).get T t := by
    intro hall
    have := (C52_lookup_partial (Ref.root root) ks t h).2 hall
    unfold get
    rw [this]
  refine ⟨⟨?_, C53_get_partial T root ks t h⟩, h2⟩
  intro hg
  apply Classical.byContradiction
  intro hn
  have hall : ∀ k ∈ ks, k ∈ root.getKeys := fun k hk => Classical.byContradiction fun hk' => hn ⟨k, hk, hk'⟩
  rw [h2 hall] at hg
  unfold Ref.get at hg
  split at hg
  · cases hg
  · split at hg <;> cases hg

end SoDa.Prop

namespace SoDa.Ext
open Spec

theorem ins_inj {f f' : Fmt} {a b : Str} (h : f = f') (h1 : Inserts (Fmt.mk' "%0".toList) f a)
    (h2 : Inserts (Fmt.mk' "%0".toList) f' b) : a = b := by
  unfold Inserts at h1 h2
  rw [addS_zero] at h1 h2
  rw [h] at h1
  exact insert_hole_inj _ _ (Res.ok.inj (h1.trans h2.symm))

theorem addU_inj (v v' w g : Nat) (fmt : Char) (hw : w < 2 ^ 31)
    (h : (Fmt.mk' "%0".toList).addU v fmt w nul g = (Fmt.mk' "%0".toList).addU v' fmt w nul g) : v = v' := by
  by_cases hx : fmt = 'x' ∨ fmt = 'X' ∨ fmt = 'h' ∨ fmt = 'H'
  · obtain ⟨_, d, h1, _, _, h2, _⟩ := C13_addU_hex (Fmt.mk' "%0".toList) v w g fmt hw hx
    obtain ⟨_, d', h1', _, _, h2', _⟩ := C13_addU_hex (Fmt.mk' "%0".toList) v' w g fmt hw hx
    have := ins_inj h h1 h1'
    have := List.append_cancel_left this
    rw [this, h2'] at h2
    exact (Option.some.inj h2).symm
  · by_cases ho : fmt = 'o' ∨ fmt = 'O'
    · obtain ⟨_, d, h1, _, _, _, _, _, h2⟩ := C14_addU_oct (Fmt.mk' "%0".toList) v w g fmt hw ho
      obtain ⟨_, d', h1', _, _, _, _, _, h2'⟩ := C14_addU_oct (Fmt.mk' "%0".toList) v' w g fmt hw ho
      have := ins_inj h h1 h1'
      rw [this, h2'] at h2
      exact (Option.some.inj h2).symm
    · have hd : fmt ∉ ['x', 'X', 'h', 'H', 'o', 'O'] := by
        simp only [List.mem_cons, List.not_mem_nil, or_false]
        tauto
      obtain ⟨d, h1, _, h2⟩ := C15_addU_dec (Fmt.mk' "%0".toList) v w g fmt hw hd
      obtain ⟨d', h1', _, h2'⟩ := C15_addU_dec (Fmt.mk' "%0".toList) v' w g fmt hw hd
      have := ins_inj h h1 h1'
      have hdrop : ∀ (k : Nat) (d : Str) (v : Nat), numeral 10 d = some v →
          (List.replicate k ' ' ++ d).dropWhile (· == ' ') = d := by
        intro k d v hn
        have h0 : d.dropWhile (· == ' ') = d := by
          cases d with
          | nil => rfl
          | cons c t =>
            have : c ≠ ' ' := by
              rintro rfl
              simp [numeral, valueFrom, digitValue] at hn
            simp [this]
        induction k with
        | zero => simpa using h0
        | succ k ih => simpa [List.replicate_succ] using ih
      have h3 := congrArg (List.dropWhile (· == ' ')) this
      rw [hdrop _ d v h2, hdrop _ d' v' h2'] at h3
      rw [h3, h2'] at h2
      exact (Option.some.inj h2).symm

/-- Exactly when `addU` of the extension inserts what `Format::addU` inserts into a free place, without separators. -/
theorem C69_exact (E : Env) (v : Nat) (fmt : Char) (w g : Nat) (hw : w < 2 ^ 31) :
    (Call.addU' v fmt w nul g).onFormat E (Fmt.mk' "%0".toList) =
      some (.ok ((Fmt.mk' "%0".toList).addU v fmt w nul g)) ↔ v < 2 ^ 32 := by
  refine ⟨?_, (C69_same_partial E _).1 v fmt w nul g⟩
  intro h
  rw [(C69_same_partial E _).2.1] at h
  simp only [Option.some.injEq, Res.ok.injEq] at h
  have := addU_inj _ _ w g fmt hw h
  rw [← this]
  exact Nat.mod_lt _ (by norm_num)

end SoDa.Ext
