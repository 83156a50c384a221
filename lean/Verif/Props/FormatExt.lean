import Verif.Model.FormatExt
import Verif.Model.Binary64
/-!
Properties of `Format_ext`: chained calls, copies, argument conversions.
-/
namespace SoDa.Ext

/-- Specification: the calls, one after the other, on one `Format` object. -/
def inTurn (E : Env) (f : Fmt) : List Call → Option (Res Empty Fmt)
  | [] => some (.ok f)
  | c :: cs => (c.onFormat E f).bind fun r => match r with
    | .ok f' => inTurn E f' cs
    | .throw e => some (.throw e)
    | .ub => some .ub

/-- Specification: a chain on the object at `a`, which holds the format `f`, has the effect of the calls in turn on that
object, leaves every other object alone, and returns a reference to the object. -/
def ChainsOn (E : Env) (h : Heap) (a : Nat) (f : Fmt) (cs : List Call) : Prop :=
  match inTurn E f cs with
  | none => chain E h a cs = none
  | some .ub => chain E h a cs = some .ub
  | some (.throw e) => chain E h a cs = some (.throw e)
  | some (.ok f') => ∃ h', chain E h a cs = some (.ok (h', a)) ∧ (∃ o, h' a = some o ∧ o.fmt = f') ∧
      ∀ b, b ≠ a → h' b = h b

theorem Heap.set_self (h : Heap) (a : Nat) (o : Option Obj) : h.set a o a = o := by simp [Heap.set]

theorem Heap.set_other (h : Heap) {a b : Nat} (o : Option Obj) (hb : b ≠ a) : h.set a o b = h b := by
  simp [Heap.set, hb]

/-- A chain on an object that refers to itself. -/
theorem chainsOn_self (E : Env) (cs : List Call) : ∀ (h : Heap) (a : Nat) (f : Fmt), h a = some ⟨f, a⟩ →
    ChainsOn E h a f cs ∧ ∀ h' b, chain E h a cs = some (.ok (h', b)) → ∃ f', h' a = some ⟨f', a⟩ := by
  induction cs with
  | nil =>
    intro h a f ha
    refine ⟨⟨h, rfl, ⟨_, ha, rfl⟩, fun _ _ => rfl⟩, ?_⟩
    intro h' b hc
    simp only [chain, Option.some.injEq, Res.ok.injEq, Prod.mk.injEq] at hc
    rw [← hc.1]
    exact ⟨f, ha⟩
  | cons c cs ih =>
    intro h a f ha
    unfold ChainsOn
    simp only [inTurn, chain, ha]
    rcases hc : c.onFormat E f with _ | (f' | e | _)
    · simp
    · simp only [Option.bind_some]
      obtain ⟨h1, h2⟩ := ih (h.set a (some ⟨f', a⟩)) a f' (Heap.set_self _ _ _)
      refine ⟨?_, h2⟩
      unfold ChainsOn at h1
      rcases hi : inTurn E f' cs with _ | (f'' | e | _)
      · simpa [hi] using h1
      · rw [hi] at h1
        obtain ⟨h', g1, g2, g3⟩ := h1
        exact ⟨h', g1, g2, fun b hb => by rw [g3 b hb, Heap.set_other _ _ hb]⟩
      · simpa [hi] using h1
      · simpa [hi] using h1
    · simp
    · simp

/-- Chains on self-referring objects keep all objects self-referring. -/
def SelfRef (h : Heap) : Prop := ∀ a o, h a = some o → o.saved = a

/-- The statement copies or assigns an object. -/
def Stmt.Copies : Stmt → Prop
  | .copy _ _ => True
  | .assign _ _ => True
  | _ => False

theorem SelfRef.set {h : Heap} (hs : SelfRef h) (a : Nat) (f : Fmt) : SelfRef (h.set a (some ⟨f, a⟩)) := by
  intro b o hb
  by_cases hab : b = a
  · subst hab
    rw [Heap.set_self] at hb
    cases hb; rfl
  · rw [Heap.set_other _ _ hab] at hb
    exact hs b o hb

theorem SelfRef.exec {E : Env} {h h' : Heap} (hs : SelfRef h) {s : Stmt} (hc : ¬ s.Copies)
    (he : s.exec E h = some (.ok h')) : SelfRef h' := by
  cases s with
  | construct a t =>
    simp only [Stmt.exec, Option.some.injEq] at he
    split at he
    · cases he
    · cases he; exact hs.set a _
  | copy a b => exact absurd trivial hc
  | assign a b => exact absurd trivial hc
  | destroy a =>
    simp only [Stmt.exec, Option.some.injEq] at he
    split at he
    · cases he
      intro b o hb
      by_cases hab : b = a
      · subst hab; rw [Heap.set_self] at hb; cases hb
      · rw [Heap.set_other _ _ hab] at hb; exact hs b o hb
    · cases he
  | reset a =>
    simp only [Stmt.exec, Option.some.injEq] at he
    split at he
    · rename_i o ho
      cases he
      rw [hs a o ho]
      exact hs.set a _
    · cases he
  | chain a cs =>
    simp only [Stmt.exec] at he
    rcases hh : Ext.chain E h a cs with _ | (⟨h1, b⟩ | e | _)
    · rw [hh] at he; cases he
    · rw [hh] at he
      cases he
      cases cs with
      | nil => simp only [Ext.chain, Option.some.injEq, Res.ok.injEq, Prod.mk.injEq] at hh; rw [← hh.1]; exact hs
      | cons c cs =>
        rcases ha : h a with _ | ⟨f, sv⟩
        · simp [Ext.chain, ha] at hh
        · obtain rfl : sv = a := hs a _ ha
          obtain ⟨g1, g2⟩ := chainsOn_self E (c :: cs) h sv f ha
          obtain ⟨f', hf'⟩ := g2 _ _ hh
          unfold ChainsOn at g1
          rw [hh] at g1
          split at g1
          · cases g1
          · cases g1
          · cases g1
          · obtain ⟨h'', k1, _, k3⟩ := g1
            simp only [Option.some.injEq, Res.ok.injEq, Prod.mk.injEq] at k1
            obtain ⟨rfl, _⟩ := k1
            intro b o hb
            change h1 b = some o at hb
            by_cases hab : b = sv
            · subst hab; rw [hf'] at hb; cases hb; rfl
            · rw [k3 b hab] at hb; exact hs b o hb
    · rw [hh] at he; cases he
    · rw [hh] at he; cases he

/-- The claim for programs that may copy formatters. -/
def C68_claim : Prop :=
  ∀ (E : Env) (ss : List Stmt) (h : Heap) (a : Nat) (o : Obj) (cs : List Call),
    Runs E Heap.empty ss h → h a = some o → ChainsOn E h a o.fmt cs

theorem selfRef_runs {E : Env} {h h' : Heap} {ss : List Stmt} (hs : SelfRef h) (hr : Runs E h ss h')
    (hc : ∀ s ∈ ss, ¬ s.Copies) : SelfRef h' := by
  induction hr with
  | nil => exact hs
  | cons he _ ih =>
    exact ih (hs.exec (hc _ (by simp)) he) fun s hm => hc s (List.mem_cons_of_mem _ hm)

/-- C68, what holds: in every program that does not copy or assign formatters a chain has the effect of its calls in turn
on the object it starts with.  Missing: programs with copies (`C68_refuted`, and exactly `C68_copies_partial`). -/
theorem C68_chain_partial (E : Env) (ss : List Stmt) (hc : ∀ s ∈ ss, ¬ s.Copies) (h : Heap)
    (hr : Runs E Heap.empty ss h) (a : Nat) (o : Obj) (ho : h a = some o) (cs : List Call) :
    ChainsOn E h a o.fmt cs := by
  have hs : SelfRef h := selfRef_runs (by intro a o h; cases h) hr hc
  obtain ⟨f, sv⟩ := o
  obtain rfl : sv = a := hs a _ ho
  exact (chainsOn_self E cs h sv f ho).1

/-- Specification: what a statement does to the format of the object at `a`, in a program without copies. -/
def effect (E : Env) (a : Nat) (f : Option Fmt) : Stmt → Option Fmt
  | .construct b s => if b = a then some (Fmt.mk' s) else f
  | .destroy b => if b = a then none else f
  | .chain b cs => if b = a then f.bind fun f => match inTurn E f cs with
      | some (.ok f') => some f'
      | _ => none
    else f
  | .reset b => if b = a then f.map Fmt.reset else f
  | _ => f

theorem effect_exec {E : Env} {h h' : Heap} (hs : SelfRef h) {s : Stmt} (hc : ¬ s.Copies)
    (he : s.exec E h = some (.ok h')) (a : Nat) : (h' a).map Obj.fmt = effect E a ((h a).map Obj.fmt) s := by
  cases s with
  | construct b t =>
    simp only [Stmt.exec, Option.some.injEq] at he
    split at he
    · cases he
    · cases he
      by_cases hb : b = a
      · subst hb; simp [Heap.set_self, effect]
      · simp [Heap.set_other _ _ (Ne.symm hb), effect, hb]
  | copy b c => exact absurd trivial hc
  | assign b c => exact absurd trivial hc
  | destroy b =>
    simp only [Stmt.exec, Option.some.injEq] at he
    split at he
    · cases he
      by_cases hb : b = a
      · subst hb; simp [Heap.set_self, effect]
      · simp [Heap.set_other _ _ (Ne.symm hb), effect, hb]
    · cases he
  | reset b =>
    simp only [Stmt.exec, Option.some.injEq] at he
    split at he
    · rename_i o ho
      cases he
      by_cases hb : b = a
      · subst hb; simp [Heap.set_self, effect, ho]
      · simp [Heap.set_other _ _ (Ne.symm hb), effect, hb]
    · cases he
  | chain b cs =>
    simp only [Stmt.exec] at he
    rcases hh : Ext.chain E h b cs with _ | (⟨h1, x⟩ | e | _)
    · rw [hh] at he; cases he
    · rw [hh] at he
      cases he
      cases cs with
      | nil =>
        simp only [Ext.chain, Option.some.injEq, Res.ok.injEq, Prod.mk.injEq] at hh
        rw [← hh.1]
        simp only [effect, inTurn]
        split <;> simp
      | cons c cs =>
        rcases hb : h b with _ | ⟨f, sv⟩
        · simp [Ext.chain, hb] at hh
        · obtain rfl : sv = b := hs b _ hb
          obtain ⟨g1, -⟩ := chainsOn_self E (c :: cs) h sv f hb
          unfold ChainsOn at g1
          rw [hh] at g1
          split at g1
          · cases g1
          · cases g1
          · cases g1
          · rename_i f' hf'
            obtain ⟨h'', k1, ⟨o, k2, k3⟩, k4⟩ := g1
            simp only [Option.some.injEq, Res.ok.injEq, Prod.mk.injEq] at k1
            obtain ⟨rfl, _⟩ := k1
            by_cases ha : sv = a
            · subst ha
              simp [effect, hb, k2, k3, hf']
            · simp [effect, ha, k4 a (Ne.symm ha)]
    · rw [hh] at he; cases he
    · rw [hh] at he; cases he

/-- In every program that does not copy or assign formatters, each formatter holds in the end what its own statements,
in turn, make of a `Format`: no statement on one formatter has an effect on another one.  Missing: as before, programs
with copies. -/
theorem C68_program_partial (E : Env) (ss : List Stmt) (hc : ∀ s ∈ ss, ¬ s.Copies) (h : Heap)
    (hr : Runs E Heap.empty ss h) (a : Nat) : (h a).map Obj.fmt = ss.foldl (effect E a) none := by
  have gen : ∀ (h0 h : Heap) (ss : List Stmt), Runs E h0 ss h → SelfRef h0 → (∀ s ∈ ss, ¬ s.Copies) →
      (h a).map Obj.fmt = ss.foldl (effect E a) ((h0 a).map Obj.fmt) := by
    intro h0 h ss hr
    induction hr with
    | nil => intro _ _; rfl
    | cons he _ ih =>
      intro hs hc
      have hc1 := hc _ List.mem_cons_self
      rw [ih (hs.exec hc1 he) fun s hm => hc s (List.mem_cons_of_mem _ hm), List.foldl_cons, effect_exec hs hc1 he]
  exact gen _ _ _ hr (by intro a o h; cases h) hc

/-- Two formatters; one is used, reset and used again. -/
example : ∃ h, Runs ⟨exactArith, 0, '.'⟩ Heap.empty
      [.construct 3 "%0-%1".toList, .construct 4 "<%0>".toList, .chain 3 [.addC 'a', .addB true], .chain 4 [.addC 'b'],
        .reset 3, .chain 3 [.addC 'c']] h ∧
    ((h 3).map fun o => o.fmt.str) = some (.ok "c-%1".toList) ∧
    ((h 4).map fun o => o.fmt.str) = some (.ok "<b>".toList) := by
  refine ⟨_, .cons rfl (.cons rfl (.cons rfl (.cons rfl (.cons rfl (.cons rfl (.nil _)))))), ?_, ?_⟩ <;> decide

/-- With copies, and in every state of the objects: a chain works if the object refers to itself; a single call always
works; from the second call on a chain works on the object `saved_ptr` points to instead, and is undefined if that object
no longer exists. -/
theorem C68_copies_partial (E : Env) (h : Heap) (a : Nat) (o : Obj) (ho : h a = some o) :
    (o.saved = a → ∀ cs, ChainsOn E h a o.fmt cs) ∧
    (∀ c f', c.onFormat E o.fmt = some (.ok f') → ∃ h', chain E h a [c] = some (.ok (h', o.saved)) ∧
      (∃ o', h' a = some o' ∧ o'.fmt = f') ∧ ∀ b, b ≠ a → h' b = h b) ∧
    (o.saved ≠ a → ∀ c f', c.onFormat E o.fmt = some (.ok f') →
      (h o.saved = none → ∀ d cs, chain E h a (c :: d :: cs) = some .ub) ∧
      ∀ p d g, h o.saved = some p → d.onFormat E p.fmt = some (.ok g) →
        ∃ h', chain E h a [c, d] = some (.ok (h', p.saved)) ∧ (∃ o', h' a = some o' ∧ o'.fmt = f') ∧
          (∃ p', h' o.saved = some p' ∧ p'.fmt = g)) := by
  refine ⟨?_, ?_, ?_⟩
  · intro hs cs
    obtain ⟨f, sv⟩ := o
    obtain rfl : sv = a := hs
    exact (chainsOn_self E cs h sv f ho).1
  · intro c f' hc
    refine ⟨h.set a (some ⟨f', o.saved⟩), by simp [chain, ho, hc], ⟨_, Heap.set_self _ _ _, rfl⟩, ?_⟩
    intro b hb
    exact Heap.set_other _ _ hb
  · intro hs c f' hc
    refine ⟨?_, ?_⟩
    · intro hn d cs
      simp [chain, ho, hc, Heap.set_other _ _ hs, hn]
    · intro p d g hp hd
      refine ⟨(h.set a (some ⟨f', o.saved⟩)).set o.saved (some ⟨g, p.saved⟩), ?_, ⟨⟨f', o.saved⟩, ?_, rfl⟩,
        ⟨_, Heap.set_self _ _ _, rfl⟩⟩
      · simp [chain, ho, hc, Heap.set_other _ _ hs, hp, hd]
      · rw [Heap.set_other _ _ (Ne.symm hs), Heap.set_self]

/-- The program `T x("%0 %1"); T y(x);` -/
def copyProgram : List Stmt := [.construct 0 "%0 %1".toList, .copy 1 0]

def copyHeap : Heap :=
  (Heap.empty.set 0 (some ⟨Fmt.mk' "%0 %1".toList, 0⟩)).set 1 (some ⟨Fmt.mk' "%0 %1".toList, 0⟩)

theorem copyHeap_runs (E : Env) : Runs E Heap.empty copyProgram copyHeap :=
  .cons rfl (.cons rfl (.nil _))

/-- After the copy, `y.addC('a').addC('b')` puts only `a` into `y`; `b` goes into `x`. -/
theorem C68_refuted : ¬ C68_claim := by
  intro hcl
  have h := hcl ⟨exactArith, 0, '.'⟩ copyProgram copyHeap 1 _ [.addC 'a', .addC 'b'] (copyHeap_runs _) rfl
  unfold ChainsOn at h
  obtain ⟨h', h1, _⟩ := h
  have : chain ⟨exactArith, 0, '.'⟩ copyHeap 1 [.addC 'a', .addC 'b'] = some (.ok (_, 0)) := rfl
  rw [this] at h1
  simp at h1

/-- The texts of `x` and `y` after `y.addC('a').addC('b')`. -/
example : (chain ⟨exactArith, 0, '.'⟩ copyHeap 1 [.addC 'a', .addC 'b']).map
    (fun r => r.map fun p => ((p.1 0).map fun o => o.fmt.str, (p.1 1).map fun o => o.fmt.str)) =
    some (.ok (some (.ok "b %1".toList), some (.ok "a %1".toList))) := by decide

/-- If `x` is destroyed first the chain is undefined. -/
theorem C68_dangling (E : Env) : ∃ h, Runs E Heap.empty (copyProgram ++ [.destroy 0]) h ∧
    chain E h 1 [.addC 'a', .addC 'b'] = some .ub := by
  refine ⟨copyHeap.set 0 none, .cons rfl (.cons rfl (.cons rfl (.nil _))), ?_⟩
  rfl

/-- Assignment is as bad as copying: after `T x("%0 %1"); T y("<%0>"); y = x;`, the chain `y.addC('a').addC('b')` puts
only `a` into `y`. -/
theorem C68_assign (E : Env) : ∃ h, Runs E Heap.empty
      [.construct 0 "%0 %1".toList, .construct 1 "<%0>".toList, .assign 1 0] h ∧
    (chain E h 1 [.addC 'a', .addC 'b']).map
      (fun r => r.map fun p => ((p.1 0).map fun o => o.fmt.str, (p.1 1).map fun o => o.fmt.str)) =
      some (.ok (some (.ok "b %1".toList), some (.ok "a %1".toList))) := by
  refine ⟨_, .cons rfl (.cons rfl (.cons rfl (.nil _))), ?_⟩
  rfl

/-- The example program of examples/FormatExample.cxx without copies. -/
example : ∃ h, Runs ⟨binary64, 100, '.'⟩ Heap.empty [.construct 3 "%0 and %1".toList] h ∧
    (h 3).isSome ∧ (∀ s ∈ [Stmt.construct 3 "%0 and %1".toList], ¬ s.Copies) ∧
    (chain ⟨binary64, 100, '.'⟩ h 3 [.addI' 12345 8 ',', .addF (.fin true (5 / 2)) 'f' 0 1]).map
      (fun r => r.map fun p => ((p.1 3).map fun o => o.fmt.str, p.2)) =
      some (.ok (some (.ok "  12,345 and -2.5 ".toList), 3)) := by
  refine ⟨_, .cons rfl (.nil _), rfl, ?_, by decide +kernel⟩
  simp [Stmt.Copies]

/-! ## C69  argument conversions -/

/-- The claim: `addU` of the extension inserts what `Format::addU` inserts, for every `unsigned long`. -/
def C69_claim : Prop :=
  ∀ (E : Env) (f : Fmt) (v : Nat) (fmt : Char) (w : Nat) (sep : Char) (g : Nat), v < 2 ^ 64 →
    (Call.addU' v fmt w sep g).onFormat E f = some (.ok (f.addU v fmt w sep g))

/-- C69, what holds: every other method, and `addU` below 2^32.  Missing: `addU` from 2^32 on, which drops the upper
bits. -/
theorem C69_same_partial (E : Env) (f : Fmt) :
    (∀ v fmt w sep g, v < 2 ^ 32 → (Call.addU' v fmt w sep g).onFormat E f = some (.ok (f.addU v fmt w sep g))) ∧
    (∀ v fmt w sep g, (Call.addU' v fmt w sep g).onFormat E f = some (.ok (f.addU (v % 2 ^ 32) fmt w sep g))) ∧
    (∀ v : Int, ∀ w sep, -2 ^ 31 ≤ v → v < 2 ^ 31 →
      (Call.addI' v w sep).onFormat E f = some (.ok (f.addI v w sep))) ∧
    (∀ v : Int, ∀ w sep, (Call.addI' v w sep).onFormat E f = some (.ok (f.addI (v.bmod (2 ^ 32)) w sep))) ∧
    (∀ v width, (Call.addS v width).onFormat E f = some (f.addS v width)) ∧
    (∀ v fmt w sig, (Call.addF v fmt w sig).onFormat E f = f.addF E.arith E.fuel E.radix v fmt w sig) ∧
    (∀ c, (Call.addC c).onFormat E f = some (.ok (f.addC c))) ∧
    (∀ b, (Call.addB b).onFormat E f = some (.ok (f.addB b))) := by
  refine ⟨?_, ?_, ?_, ?_, fun _ _ => rfl, fun _ _ _ _ => rfl, fun _ => rfl, fun _ => rfl⟩
  · intro v fmt w sep g hv
    simp only [Call.addU', Call.onFormat]
    rw [Nat.mod_eq_of_lt (by omega)]
  · intro v fmt w sep g; rfl
  · intro v w sep h1 h2
    have : toI32 v = v := by unfold toI32; omega
    simp only [Call.addI', Call.onFormat, this]
  · intro v w sep
    have : toI32 v = v.bmod (2 ^ 32) := by unfold toI32; rw [Int.bmod_def]; omega
    simp only [Call.addI', Call.onFormat, this]

/-- `0xfedcba9876543210`, the number of examples/FormatExample.cxx:61. -/
theorem C69_refuted : ¬ C69_claim := by
  intro h
  have := h ⟨exactArith, 0, '.'⟩ (Fmt.mk' "%0".toList) 0xfedcba9876543210 'x' 0 nul 4 (by norm_num)
  simp only [Option.some.injEq, Call.addU', Call.onFormat, Res.ok.injEq] at this
  have h2 := congrArg (fun f => f.str) this
  revert h2
  decide

end SoDa.Ext
