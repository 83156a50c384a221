import Verif.Proof.PropertyThreads
import Verif.Props.PropertyHeap
/-!
Property C123: property trees in several threads.

The threads execute statements on tree objects in any order; each thread has its own variables.  What a statement reads and
writes are nodes of the tree of its variable (C123_apart, C123_writes, C123_looks), so that statements of different threads can
as well be executed at the same time.
-/
namespace SoDa.PropMem
open SoDa.Prop Spec

/-! ## C123  Tree objects in several threads -/

/-- If no variables of different threads share nodes at the beginning, each thread does exactly what it would do alone: its
statements end in the same way, and afterwards its variables have the same trees. -/
theorem C123_alone {ι : Type} [DecidableEq ι] {cs s0} (h : Reach cs s0) (own : Nat → ι)
    (hs : ∀ i j, own i ≠ own j → ¬ Shares s0 i j) (tr : List (ι × Cmd × ReadOut)) (s : St) (hr : RunsTo s0 tr s)
    (ho : OwnVars own tr) (t : ι) :
    ∃ s', RunsTo s0 (tr.filter fun e => decide (e.1 = t)) s' ∧ ∀ i n, own i = t → (ShowsTree s i n ↔ ShowsTree s' i n) := by
  obtain ⟨-, s', h1, h2⟩ := runs_alone (reach_good h) hs hr ho t
  refine ⟨s', h1, fun i n hi => ?_⟩
  rcases h2.trees i hi with ⟨h3, h4⟩ | ⟨k, h3, h4⟩
  · exact ⟨fun h => absurd h3 (showsTree_ne h), fun h => absurd h4 (showsTree_ne h)⟩
  · exact ⟨fun h => showsTree_unique h h3 ▸ h4, fun h => showsTree_unique h h4 ▸ h3⟩

/-- Two orders of the same statements of each thread: the same outcomes and trees. -/
theorem C123_any_order {ι : Type} [DecidableEq ι] {cs s0} (h : Reach cs s0) (own : Nat → ι)
    (hs : ∀ i j, own i ≠ own j → ¬ Shares s0 i j) (tr tr' : List (ι × Cmd × ReadOut)) (s s' : St) (hr : RunsTo s0 tr s)
    (hr' : RunsTo s0 tr' s') (ho : OwnVars own tr) (ho' : OwnVars own tr')
    (hp : ∀ t, (tr.filter fun e => decide (e.1 = t)).map (·.2.1) = (tr'.filter fun e => decide (e.1 = t)).map (·.2.1)) :
    (∀ t, tr.filter (fun e => decide (e.1 = t)) = tr'.filter fun e => decide (e.1 = t)) ∧
      ∀ i n, ShowsTree s i n ↔ ShowsTree s' i n := by
  have det : ∀ (t : ι) {a b : List (ι × Cmd × ReadOut)} {sa sb}, RunsTo s0 a sa → RunsTo s0 b sb →
      (∀ e ∈ a, e.1 = t) → (∀ e ∈ b, e.1 = t) → a.map (·.2.1) = b.map (·.2.1) → a = b ∧ sa = sb := by
    intro t a b sa sb ha
    induction ha generalizing b sb with
    | nil =>
      intro hb _ _ hm
      cases hb with
      | nil => exact ⟨rfl, rfl⟩
      | snoc => simp at hm
    | @snoc a s1 u c out s2 ha he ih =>
      intro hb h1 h2 hm
      cases hb with
      | nil => simp at hm
      | @snoc b s1' u' c' out' s2' hb he' =>
        simp only [List.map_append, List.map_cons, List.map_nil] at hm
        obtain ⟨hm1, hm2⟩ := List.append_inj' hm rfl
        obtain ⟨rfl, rfl⟩ := ih hb (fun e he => h1 e (by simp [he])) (fun e he => h2 e (by simp [he])) hm1
        simp only [List.cons.injEq, and_true] at hm2
        subst hm2
        rw [he] at he'; cases he'
        have e1 := h1 (u, c, out) (by simp)
        have e2 := h2 (u', c, out) (by simp)
        simp only at e1 e2
        subst e1 e2
        exact ⟨rfl, rfl⟩
  have key : ∀ t, ∃ s1, tr.filter (fun e => decide (e.1 = t)) = tr'.filter (fun e => decide (e.1 = t)) ∧
      ∀ i n, own i = t → (ShowsTree s i n ↔ ShowsTree s1 i n) ∧ (ShowsTree s' i n ↔ ShowsTree s1 i n) := by
    intro t
    obtain ⟨s1, h1, h2⟩ := C123_alone h own hs tr s hr ho t
    obtain ⟨s1', h1', h2'⟩ := C123_alone h own hs tr' s' hr' ho' t
    obtain ⟨e1, rfl⟩ := det t h1 h1' (fun e he => by simpa using (List.mem_filter.1 he).2)
      (fun e he => by simpa using (List.mem_filter.1 he).2) (hp t)
    exact ⟨s1, e1, fun i n hi => ⟨h2 i n hi, h2' i n hi⟩⟩
  refine ⟨fun t => (key t).choose_spec.1, fun i n => ?_⟩
  obtain ⟨s1, -, h1⟩ := key (own i)
  exact (h1 i n rfl).1.trans (h1 i n rfl).2.symm

/-- At every time the variables of different threads have no node in common. -/
theorem C123_apart {ι : Type} [DecidableEq ι] {cs s0} (h : Reach cs s0) (own : Nat → ι)
    (hs : ∀ i j, own i ≠ own j → ¬ Shares s0 i j) (tr : List (ι × Cmd × ReadOut)) (s : St) (hr : RunsTo s0 tr s)
    (ho : OwnVars own tr) (i j : Nat) (hij : own i ≠ own j) (r r' : Nat) (n n' : Node) (fp fp' : List Nat)
    (hi : s.root i = some r) (hj : s.root j = some r') (hh : Holds s.mem none r n fp) (hh' : Holds s.mem none r' n' fp') :
    ∀ x ∈ fp, x ∉ fp' := by
  obtain ⟨h1, -⟩ := runs_alone (reach_good h) hs hr ho (own i)
  exact (runsTo_good (reach_good h) hr).apart i j r r' n n' fp fp' hi hj
    (fun e => h1 i j hij ⟨by simp [hi], by rw [hi, hj, e]⟩) hh hh'

/-- The nodes that a statement changes: new ones, and the root of the variable that a file is read into. -/
theorem C123_writes {cs s} (h : Reach cs s) (c : Cmd) (s' : St) (out : ReadOut) (he : exec s c = some (s', out)) (q : Nat)
    (hq : q < s.mem.length) (hc : s'.mem[q]? ≠ s.mem[q]?) : ∃ i f, c = .read i f ∧ s.root i = some q := by
  have g := reach_good h
  cases c with
  | make i =>
    simp only [exec] at he
    split at he <;> cases he
    exact absurd (getElem?_alloc_lt _ _ _ _ hq) hc
  | load i f =>
    obtain ⟨m', h1, h2, h3, -⟩ := load_spec s f
    simp only [exec] at he
    split at he
    · rw [h1] at he
      cases ho : (Prop.readFile newTree f).2 <;> rw [ho] at he <;> simp only at he <;> cases he <;> exact absurd (h3 q hq) hc
    · cases he
  | copy i j => simp only [exec] at he; split at he <;> cases he; exact absurd rfl hc
  | assign i j => simp only [exec] at he; split at he <;> cases he; exact absurd rfl hc
  | read i f =>
    cases hr : s.root i with
    | none => simp [exec, hr] at he
    | some r =>
      obtain ⟨n, fp, hh⟩ := g.tree i r hr
      obtain ⟨m', h1, h2⟩ := exec_read hr hh f
      rw [h1] at he
      cases he
      refine ⟨i, f, rfl, ?_⟩
      by_contra hne
      exact hc (h2.same q hq fun e => hne (by rw [hr, e]))
  | destroy i => simp only [exec] at he; split at he <;> cases he; exact absurd rfl hc

/-- What `dump`, `get` and `readFile` look at: memories with the same nodes in the tree of the variable give the same text,
the same value and the same outcome. -/
theorem C123_looks {V : Type} (T : Ty V) (s : St) (i r : Nat) (n : Node) (fp : List Nat) (hi : s.root i = some r)
    (hh : Holds s.mem none r n fp) (m : Mem) (hm : ∀ q ∈ fp, m[q]? = s.mem[q]?) :
    (∀ calls indent, fp.length ≤ calls → dump m calls r indent = dump s.mem calls r indent) ∧
      (∀ path throwEx, get T 1 m r path throwEx = get T 1 s.mem r path throwEx) ∧
      ∀ f, (exec { s with mem := m } (.read i f)).map (·.2) = (exec s (.read i f)).map (·.2) := by
  have hh' := hh.frame hm
  refine ⟨fun calls indent hc => ?_, fun path throwEx => ?_, fun f => ?_⟩
  · rw [dump_spec hh calls hc, dump_spec hh' calls hc]
  · obtain ⟨r1, h1, h2⟩ := C92_get T s i n ⟨r, fp, hi, hh⟩ path throwEx
    obtain ⟨r2, h3, h4⟩ := C92_get T { s with mem := m } i n ⟨r, fp, hi, hh'⟩ path throwEx
    rw [hi] at h1; cases h1
    change s.root i = some r2 at h3
    rw [hi] at h3; cases h3
    rw [h2, h4]
  · obtain ⟨m1, h1, -⟩ := exec_read hi hh f
    obtain ⟨m2, h2, -⟩ := exec_read (s := { s with mem := m }) hi hh' f
    rw [h1, h2]; rfl

/-- Two threads with a tree each; they read files in turn. -/
def exThreads : List (Bool × Cmd × ReadOut) :=
  [(false, .make 0, .normal), (true, .make 1, .normal), (true, .read 1 (.doc exDoc2), .normal),
   (false, .read 0 (.doc exDoc), .normal), (true, .copy 3 1, .normal)]

example : ∃ s, RunsTo St.init exThreads s ∧ OwnVars (fun i => i % 2 == 1) exThreads ∧
    (∀ i j : Nat, (i % 2 == 1) ≠ (j % 2 == 1) → ¬ Shares St.init i j) ∧ ShowsTree s 0 exTree := by
  have h1 : RunsTo St.init [(false, Cmd.make 0, ReadOut.normal)] _ := RunsTo.snoc .nil rfl
  have h2 := RunsTo.snoc (t := true) (c := .make 1) h1 rfl
  have h3 := RunsTo.snoc (t := true) (c := .read 1 (.doc exDoc2)) h2 rfl
  have h4 := RunsTo.snoc (t := false) (c := .read 0 (.doc exDoc)) h3 rfl
  have h5 := RunsTo.snoc (t := true) (c := .copy 3 1) h4 rfl
  refine ⟨_, h5, ?_, fun i j _ h => h.1 rfl, ?_⟩
  · intro e he
    simp only [exThreads, List.mem_cons, List.not_mem_nil, or_false] at he
    rcases he with rfl | rfl | rfl | rfl | rfl <;> simp [varsOf]
  · exact ⟨0, [0, 3, 4], rfl,
      .mk rfl .nil (.cons (.mk rfl .nil (.cons (.mk rfl .nil .nil (by decide)) .nil) (by decide)) .nil) (by decide)⟩

/-- With a copy made before, the threads do disturb each other: here thread `false` has variable 0 and does nothing. -/
theorem C123_copies : ∃ (cs : List Cmd) (s0 : St) (tr : List (Bool × Cmd × ReadOut)) (s : St), Reach cs s0 ∧
    RunsTo s0 tr s ∧ OwnVars (fun i => i == 1) tr ∧ (∀ e ∈ tr, e.1 = true) ∧
    ∃ n, ShowsTree s0 0 n ∧ ¬ ShowsTree s 0 n := by
  obtain ⟨s', h1, -, h3⟩ := C93_refuted_always exState_reach 1 0 exTree (by simp [Shares, exState])
    ⟨0, [0, 1, 2], rfl, exState_holds⟩ (.doc exDoc2)
  refine ⟨_, _, [(true, .read 1 (.doc exDoc2), _)], s', exState_reach, RunsTo.snoc .nil h1, ?_, by simp, exTree,
    ⟨0, [0, 1, 2], rfl, exState_holds⟩, h3 ?_⟩
  · intro e he
    simp only [List.mem_singleton] at he
    subst he
    simp [varsOf]
  · intro e
    have := congrArg Node.getKeys e
    revert this
    decide

end SoDa.PropMem
