import Verif.Spec.PropertyThreads
import Verif.Proof.PropertyHeap
/-!
Proofs for property trees in several threads: what a thread does alone.
-/
namespace SoDa.PropMem
open SoDa.Prop Spec

theorem showsTree_unique {s : St} {i : Nat} {a b : Node} (ha : ShowsTree s i a) (hb : ShowsTree s i b) : a = b := by
  obtain ⟨r, fp, hr, ha⟩ := ha
  obtain ⟨r', fp', hr', hb⟩ := hb
  rw [hr] at hr'; cases hr'
  exact (ha.unique hb).2.1

theorem Good.shows {s : St} (g : Good s) {i : Nat} (hi : s.root i ≠ none) : ∃ n, ShowsTree s i n := by
  obtain ⟨r, hr⟩ := Option.ne_none_iff_exists'.1 hi
  obtain ⟨n, fp, hh⟩ := g.tree i r hr
  exact ⟨n, r, fp, hr, hh⟩

/-- What a statement does to the variables and their trees. -/
inductive Effect (s s' : St) : Cmd → ReadOut → Prop where
  /-- a new object -/
  | new {c out} (i : Nat) (n : Node) (hc : (c = .make i ∧ n = newTree ∧ out = .normal) ∨
      ∃ f, c = .load i f ∧ Prop.readFile newTree f = (n, .normal) ∧ out = .normal) (hi : s.root i = none)
      (hn : ShowsTree s' i n) (hs : ∀ j, Shares s' i j → j = i) (hr : ∀ j, j ≠ i → s'.root j = s.root j)
      (ho : ∀ j k, ShowsTree s j k → ShowsTree s' j k) : Effect s s' c out
  /-- no object -/
  | failed {out} (i : Nat) (f) (hi : s.root i = none) (hf : (Prop.readFile newTree f).2 = out) (hn : out ≠ .normal)
      (hr : s'.root = s.root) (ho : ∀ j k, ShowsTree s j k → ShowsTree s' j k) : Effect s s' (.load i f) out
  /-- a reading -/
  | read (i : Nat) (f) (n : Node) (hn : ShowsTree s i n) (hr : s'.root = s.root)
      (h1 : ShowsTree s' i (Prop.readFile n f).1) (h2 : ∀ j k, ¬ Shares s i j → ShowsTree s j k → ShowsTree s' j k) :
      Effect s s' (.read i f) (Prop.readFile n f).2
  /-- a copy -/
  | copy {c} (i j : Nat) (hc : (c = .copy i j ∧ s.root i = none) ∨ (c = .assign i j ∧ s.root i ≠ none)) (hj : s.root j ≠ none)
      (hs : s' = s.setRoot i (s.root j)) : Effect s s' c .normal
  /-- the end of a life -/
  | destroy (i : Nat) (hi : s.root i ≠ none) (hs : s' = s.setRoot i none) : Effect s s' (.destroy i) .normal

theorem exec_effect {s : St} (g : Good s) {c s' out} (he : exec s c = some (s', out)) : Effect s s' c out := by
  have fresh : ∀ (m' : Mem) i, s.root i = none → (∀ q < s.mem.length, m'[q]? = s.mem[q]?) →
      (∀ j, Shares (({ s with mem := m' } : St).setRoot i (some s.mem.length)) i j → j = i) ∧
      (∀ j k, ShowsTree s j k → ShowsTree ({ s with mem := m' } : St) j k ∧
        ShowsTree (({ s with mem := m' } : St).setRoot i (some s.mem.length)) j k) := by
    intro m' i hi hm
    refine ⟨fun j ⟨_, h⟩ => ?_, ?_⟩
    · by_contra hj
      simp only [St.setRoot, if_true, hj, if_false] at h
      obtain ⟨n, fp, hh⟩ := g.tree j _ h.symm
      exact absurd hh.lt (by omega)
    · rintro j k ⟨q, fq, hq, hk⟩
      have hk' : Holds m' none q k fq := hk.frame fun x hx => hm x (hk.valid x hx)
      have hj : j ≠ i := by rintro rfl; simp [hi] at hq
      exact ⟨⟨q, fq, hq, hk'⟩, ⟨q, fq, by simpa [St.setRoot, hj] using hq, hk'⟩⟩
  cases c with
  | make i =>
    simp only [exec] at he
    split at he
    · next hi =>
      cases he
      obtain ⟨h1, h2⟩ := fresh _ i hi (fun q hq => getElem?_alloc_lt s.mem none "root".toList false hq)
      exact .new i newTree (.inl ⟨rfl, rfl, rfl⟩) hi ⟨s.mem.length, _, by simp [St.setRoot], holds_root _⟩ h1
        (fun j hj => by simp [St.setRoot, hj]) fun j k hk => (h2 j k hk).2
    · cases he
  | load i f =>
    obtain ⟨m', h1, h2, h3, fp, h4, h5⟩ := load_spec s f
    simp only [exec] at he
    split at he
    · next hi =>
      obtain ⟨h6, h7⟩ := fresh m' i hi h3
      rw [h1] at he
      cases ho : (Prop.readFile newTree f).2 <;> rw [ho] at he <;> simp only at he <;> cases he
      · exact .new i _ (.inr ⟨f, rfl, by rw [← ho], rfl⟩) hi ⟨s.mem.length, fp, by simp [St.setRoot], h4⟩ h6
          (fun j hj => by simp [St.setRoot, hj]) fun j k hk => (h7 j k hk).2
      all_goals exact .failed i f hi ho (by simp) rfl fun j k hk => (h7 j k hk).1
    · cases he
  | copy i j =>
    simp only [exec] at he
    split at he
    · next r hi hj => cases he; exact .copy i j (.inl ⟨rfl, hi⟩) (by simp [hj]) (by rw [hj])
    · cases he
  | assign i j =>
    simp only [exec] at he
    split at he
    · next r hi hj => cases he; exact .copy i j (.inr ⟨rfl, by simp [hi]⟩) (by simp [hj]) (by rw [hj])
    · cases he
  | read i f =>
    cases hr : s.root i with
    | none => simp [exec, hr] at he
    | some r =>
      obtain ⟨n, fp, h⟩ := g.tree i r hr
      obtain ⟨m', h1, h2⟩ := exec_read hr h f
      rw [h1] at he
      cases he
      obtain ⟨fp', h3, -⟩ := h2.holds
      refine .read i f n ⟨r, fp, hr, h⟩ rfl ⟨r, fp', hr, h3⟩ ?_
      rintro j k hs ⟨q, fq, hq, hk⟩
      exact ⟨q, fq, hq, h2.other hk (g.apart i j r q n k fp fq hr hq (fun e => hs ⟨by simp [hr], by rw [hr, hq, e]⟩) h hk r
        (Holds_root_mem h))⟩
  | destroy i =>
    simp only [exec] at he
    split at he
    · cases he
    · next hi => cases he; exact .destroy i (by simp [hi]) rfl

/-- A statement that makes sense is executed. -/
theorem exec_defined {s : St} (g : Good s) (c : Cmd) (h : match c with
      | .make i | .load i _ => s.root i = none
      | .read i _ | .destroy i => s.root i ≠ none
      | .copy i j => s.root i = none ∧ s.root j ≠ none
      | .assign i j => s.root i ≠ none ∧ s.root j ≠ none) : ∃ s' out, exec s c = some (s', out) := by
  cases c with
  | make i => exact ⟨_, _, if_pos h⟩
  | load i f =>
    obtain ⟨m', h1, -⟩ := load_spec s f
    simp only [exec, if_pos h, h1]
    cases (Prop.readFile newTree f).2 <;> exact ⟨_, _, rfl⟩
  | copy i j =>
    obtain ⟨h1, h2⟩ := h
    obtain ⟨r, hr⟩ := Option.ne_none_iff_exists'.1 h2
    exact ⟨_, _, by simp only [exec, h1, hr]; rfl⟩
  | assign i j =>
    obtain ⟨h1, h2⟩ := h
    obtain ⟨r, hr⟩ := Option.ne_none_iff_exists'.1 h2
    obtain ⟨r', hr'⟩ := Option.ne_none_iff_exists'.1 h1
    exact ⟨_, _, by simp only [exec, hr', hr]; rfl⟩
  | read i f =>
    obtain ⟨r, hr⟩ := Option.ne_none_iff_exists'.1 h
    obtain ⟨n, fp, hh⟩ := g.tree i r hr
    obtain ⟨m', h1, -⟩ := exec_read hr hh f
    exact ⟨_, _, h1⟩
  | destroy i =>
    obtain ⟨r, hr⟩ := Option.ne_none_iff_exists'.1 h
    exact ⟨_, _, by simp only [exec, hr]; rfl⟩

/-- The variables of a thread look the same in both states. -/
structure Alike {ι : Type} (own : Nat → ι) (t : ι) (s s' : St) : Prop where
  trees : ∀ i, own i = t → (s.root i = none ∧ s'.root i = none) ∨ ∃ n, ShowsTree s i n ∧ ShowsTree s' i n
  shares : ∀ i j, own i = t → own j = t → (Shares s i j ↔ Shares s' i j)

theorem showsTree_ne {s : St} {i n} (h : ShowsTree s i n) : s.root i ≠ none := by
  obtain ⟨r, -, hr, -⟩ := h; simp [hr]

variable {ι : Type} {own : Nat → ι}

theorem Alike.none_iff {t s s'} (a : Alike own t s s') {i} (hi : own i = t) : s.root i = none ↔ s'.root i = none := by
  rcases a.trees i hi with ⟨h1, h2⟩ | ⟨n, h1, h2⟩
  · simp [h1, h2]
  · simp [showsTree_ne h1, showsTree_ne h2]

theorem setRoot_shows {s : St} {i : Nat} {o : Option Nat} {j : Nat} {n : Node} (hj : j ≠ i) :
    ShowsTree (s.setRoot i o) j n ↔ ShowsTree s j n := by
  simp [ShowsTree, St.setRoot, hj]

theorem setRoot_shows_self {s : St} {i j : Nat} {n : Node} :
    ShowsTree (s.setRoot i (s.root j)) i n ↔ ShowsTree s j n := by
  simp [ShowsTree, St.setRoot]

/-- Another thread's statement is not noticed. -/
theorem Alike.other {t s1 s2 s'} (a : Alike own t s1 s') {c out} (e : Effect s1 s2 c out)
    (hc : ∀ i ∈ varsOf c, own i ≠ t) (hs : ∀ i j, own i ≠ own j → ¬ Shares s1 i j) : Alike own t s2 s' := by
  have key : ∀ j, own j = t → s2.root j = s1.root j ∧ ∀ n, ShowsTree s1 j n → ShowsTree s2 j n := by
    intro j hj
    cases e with
    | new i n h hi hn hsh hr ho =>
      have hi : own i ≠ t := by rcases h with ⟨rfl, -⟩ | ⟨f, rfl, -⟩ <;> exact hc i (by simp [varsOf])
      exact ⟨hr j (by rintro rfl; exact hi hj), ho j⟩
    | failed i f hi hf hn hr ho => exact ⟨by rw [hr], ho j⟩
    | read i f n hn hr h1 h2 =>
      have hi := hc i (by simp [varsOf])
      exact ⟨by rw [hr], fun k => h2 j k (hs i j (by rw [hj]; exact hi))⟩
    | copy i k h hk he =>
      have hi : own i ≠ t := by rcases h with ⟨rfl, -⟩ | ⟨rfl, -⟩ <;> exact hc i (by simp [varsOf])
      have : j ≠ i := by rintro rfl; exact hi hj
      subst he
      exact ⟨by simp [St.setRoot, this], fun n => (setRoot_shows this).2⟩
    | destroy i hi he =>
      have hi := hc i (by simp [varsOf])
      have : j ≠ i := by rintro rfl; exact hi hj
      subst he
      exact ⟨by simp [St.setRoot, this], fun n => (setRoot_shows this).2⟩
  refine ⟨fun i hi => ?_, fun i j hi hj => ?_⟩
  · rw [(key i hi).1]
    exact (a.trees i hi).imp id fun ⟨n, h1, h2⟩ => ⟨n, (key i hi).2 n h1, h2⟩
  · rw [← a.shares i j hi hj]
    simp only [Shares, (key i hi).1, (key j hj).1]

theorem shares_copy {s : St} {i j k l : Nat} :
    Shares (s.setRoot i (s.root j)) k l ↔ Shares s (if k = i then j else k) (if l = i then j else l) := by
  by_cases hk : k = i <;> by_cases hl : l = i <;> simp [Shares, St.setRoot, hk, hl]

theorem shares_destroy {s : St} {i k l : Nat} :
    Shares (s.setRoot i none) k l ↔ k ≠ i ∧ l ≠ i ∧ Shares s k l := by
  by_cases hk : k = i <;> by_cases hl : l = i <;> simp [Shares, St.setRoot, hk, hl]

theorem shares_symm {s : St} {i j : Nat} (h : Shares s i j) : Shares s j i := ⟨h.2 ▸ h.1, h.2.symm⟩

/-- Both states get a new object. -/
theorem Alike.new {t s1 s2 s' s''} (a : Alike own t s1 s') {i n} (hn : ShowsTree s2 i n) (hs : ∀ j, Shares s2 i j → j = i)
    (hr : ∀ j, j ≠ i → s2.root j = s1.root j) (ho : ∀ j k, ShowsTree s1 j k → ShowsTree s2 j k)
    (hn' : ShowsTree s'' i n) (hs' : ∀ j, Shares s'' i j → j = i) (hr' : ∀ j, j ≠ i → s''.root j = s'.root j)
    (ho' : ∀ j k, ShowsTree s' j k → ShowsTree s'' j k) : Alike own t s2 s'' := by
  refine ⟨fun j hj => ?_, fun j k hj hk => ?_⟩
  · by_cases e : j = i
    · subst e; exact .inr ⟨n, hn, hn'⟩
    · rw [hr j e, hr' j e]
      exact (a.trees j hj).imp id fun ⟨k, h1, h2⟩ => ⟨k, ho j k h1, ho' j k h2⟩
  · by_cases e : j = i
    · subst e
      by_cases e : k = j
      · subst e; simp [Shares, showsTree_ne hn, showsTree_ne hn']
      · exact ⟨fun h => absurd (hs k h) e, fun h => absurd (hs' k h) e⟩
    · by_cases e' : k = i
      · subst e'
        exact ⟨fun h => absurd (hs j (shares_symm h)) e, fun h => absurd (hs' j (shares_symm h)) e⟩
      · rw [Shares, Shares, hr j e, hr' j e, hr k e', hr' k e']
        exact a.shares j k hj hk

/-- The thread's own statement can be executed in both states, with the same outcome. -/
theorem Alike.both {t s1 s2 s'} (a : Alike own t s1 s') (g' : Good s') {c out} (e : Effect s1 s2 c out)
    (hc : ∀ i ∈ varsOf c, own i = t) : ∃ s'', exec s' c = some (s'', out) ∧ Alike own t s2 s'' := by
  cases e with
  | new i n h hi hn hs hr ho =>
    have oi : own i = t := by rcases h with ⟨rfl, -⟩ | ⟨f, rfl, -⟩ <;> exact hc i (by simp [varsOf])
    have hi' := (a.none_iff oi).1 hi
    rcases h with ⟨rfl, rfl, rfl⟩ | ⟨f, rfl, hf, rfl⟩
    · obtain ⟨s'', out', h1⟩ := exec_defined g' (.make i) hi'
      cases exec_effect g' h1 with
      | new i' n' h' hi' hn' hs' hr' ho' =>
        rcases h' with ⟨e, rfl, rfl⟩ | ⟨f, e, -⟩ <;> cases e
        exact ⟨s'', h1, a.new hn hs hr ho hn' hs' hr' ho'⟩
      | copy i' j' h' => rcases h' with ⟨e, -⟩ | ⟨e, -⟩ <;> cases e
    · obtain ⟨s'', out', h1⟩ := exec_defined g' (.load i f) hi'
      cases exec_effect g' h1 with
      | new i' n' h' hi' hn' hs' hr' ho' =>
        rcases h' with ⟨e, -⟩ | ⟨f, e, hf', rfl⟩ <;> cases e
        rw [hf] at hf'; cases hf'
        exact ⟨s'', h1, a.new hn hs hr ho hn' hs' hr' ho'⟩
      | failed _ _ _ hf' hn' => rw [hf] at hf'; exact absurd hf'.symm hn'
      | copy i' j' h' => rcases h' with ⟨e, -⟩ | ⟨e, -⟩ <;> cases e
  | failed i f hi hf hn hr ho =>
    have oi : own i = t := hc i (by simp [varsOf])
    obtain ⟨s'', out', h1⟩ := exec_defined g' (.load i f) ((a.none_iff oi).1 hi)
    cases exec_effect g' h1 with
    | new i' n' h' =>
      rcases h' with ⟨e, -⟩ | ⟨f, e, hf', rfl⟩ <;> cases e
      rw [hf'] at hf; exact absurd hf.symm hn
    | failed _ _ _ hf' hn' hr' ho' =>
      rw [hf] at hf'; subst hf'
      refine ⟨s'', h1, fun j hj => ?_, fun j k hj hk => ?_⟩
      · rw [hr, hr']
        exact (a.trees j hj).imp id fun ⟨k, h1, h2⟩ => ⟨k, ho j k h1, ho' j k h2⟩
      · rw [Shares, Shares, hr, hr']; exact a.shares j k hj hk
    | copy i' j' h' => rcases h' with ⟨e, -⟩ | ⟨e, -⟩ <;> cases e
  | read i f n hn hr h1 h2 =>
    have oi : own i = t := hc i (by simp [varsOf])
    obtain ⟨n0, hn1, hn2⟩ : ∃ n, ShowsTree s1 i n ∧ ShowsTree s' i n :=
      (a.trees i oi).resolve_left fun h => showsTree_ne hn h.1
    cases showsTree_unique hn hn1
    obtain ⟨s'', out', h3⟩ := exec_defined g' (.read i f) (showsTree_ne hn2)
    cases exec_effect g' h3 with
    | new i' n' h' => rcases h' with ⟨e, -⟩ | ⟨f, e, -⟩ <;> cases e
    | copy i' j' h' => rcases h' with ⟨e, -⟩ | ⟨e, -⟩ <;> cases e
    | read _ _ n' hn' hr' h1' h2' =>
      cases showsTree_unique hn2 hn'
      refine ⟨s'', h3, fun j hj => ?_, fun j k hj hk => ?_⟩
      · by_cases hsh : Shares s1 i j
        · have hsh' := (a.shares i j oi hj).1 hsh
          refine .inr ⟨(Prop.readFile n f).1, ?_, ?_⟩
          · have : s2.root j = s2.root i := by rw [hr]; exact hsh.2.symm
            simpa [ShowsTree, this] using h1
          · have : s''.root j = s''.root i := by rw [hr']; exact hsh'.2.symm
            simpa [ShowsTree, this] using h1'
        · have hsh' : ¬ Shares s' i j := fun h => hsh ((a.shares i j oi hj).2 h)
          rw [hr, hr']
          exact (a.trees j hj).imp id fun ⟨k, h4, h5⟩ => ⟨k, h2 j k hsh h4, h2' j k hsh' h5⟩
      · rw [Shares, Shares, hr, hr']; exact a.shares j k hj hk
  | copy i j h hj hs =>
    have oi : own i = t ∧ own j = t := by
      rcases h with ⟨rfl, -⟩ | ⟨rfl, -⟩ <;> exact ⟨hc i (by simp [varsOf]), hc j (by simp [varsOf])⟩
    have hj' : s'.root j ≠ none := fun h => hj ((a.none_iff oi.2).2 h)
    have al : Alike own t s2 (s'.setRoot i (s'.root j)) := by
      subst hs
      refine ⟨fun k hk => ?_, fun k l hk hl => ?_⟩
      · by_cases e : k = i
        · subst e
          refine .inr ?_
          obtain ⟨n, h1, h2⟩ := (a.trees j oi.2).resolve_left fun h => hj h.1
          exact ⟨n, setRoot_shows_self.2 h1, setRoot_shows_self.2 h2⟩
        · have := a.trees k hk
          simp only [setRoot_shows e]
          simpa only [St.setRoot, e, if_false] using this
      · rw [shares_copy, shares_copy]
        refine a.shares _ _ ?_ ?_ <;> split <;> simp [*]
    rcases h with ⟨rfl, hi⟩ | ⟨rfl, hi⟩
    · obtain ⟨s'', out', h3⟩ := exec_defined g' (.copy i j) ⟨(a.none_iff oi.1).1 hi, hj'⟩
      cases exec_effect g' h3 with
      | new i' n' h' => rcases h' with ⟨e, -⟩ | ⟨f, e, -⟩ <;> cases e
      | copy i' j' h' hj'' hs' => 
        rcases h' with ⟨e, -⟩ | ⟨e, -⟩ <;> cases e
        exact ⟨s'', h3, hs' ▸ al⟩
    · obtain ⟨s'', out', h3⟩ := exec_defined g' (.assign i j) ⟨fun h => hi ((a.none_iff oi.1).2 h), hj'⟩
      cases exec_effect g' h3 with
      | new i' n' h' => rcases h' with ⟨e, -⟩ | ⟨f, e, -⟩ <;> cases e
      | copy i' j' h' hj'' hs' => 
        rcases h' with ⟨e, -⟩ | ⟨e, -⟩ <;> cases e
        exact ⟨s'', h3, hs' ▸ al⟩
  | destroy i hi hs =>
    have oi : own i = t := hc i (by simp [varsOf])
    obtain ⟨s'', out', h3⟩ := exec_defined g' (.destroy i) fun h => hi ((a.none_iff oi).2 h)
    cases exec_effect g' h3 with
    | new i' n' h' => rcases h' with ⟨e, -⟩ | ⟨f, e, -⟩ <;> cases e
    | copy i' j' h' => rcases h' with ⟨e, -⟩ | ⟨e, -⟩ <;> cases e
    | destroy _ hi' hs' =>
      refine ⟨s'', h3, ?_⟩
      subst hs hs'
      refine ⟨fun k hk => ?_, fun k l hk hl => ?_⟩
      · by_cases e : k = i
        · subst e; left; simp [St.setRoot]
        · have := a.trees k hk
          simp only [setRoot_shows e]
          simpa only [St.setRoot, e, if_false] using this
      · rw [shares_destroy, shares_destroy, a.shares k l hk hl]

/-- No variables of different threads share nodes. -/
def Separate (own : Nat → ι) (s : St) : Prop := ∀ i j, own i ≠ own j → ¬ Shares s i j

theorem Separate.step {s s' : St} (h : Separate own s) {c out t} (e : Effect s s' c out) (hc : ∀ i ∈ varsOf c, own i = t) :
    Separate own s' := by
  intro j k hjk hsh
  cases e with
  | new i n _ hi hn hs hr ho =>
    by_cases e : j = i
    · subst e; exact hjk (by rw [hs k hsh])
    · by_cases e' : k = i
      · subst e'; exact hjk (by rw [hs j (shares_symm hsh)])
      · rw [Shares, hr j e, hr k e'] at hsh; exact h j k hjk hsh
  | failed i f hi hf hn hr ho => rw [Shares, hr] at hsh; exact h j k hjk hsh
  | read i f n hn hr => rw [Shares, hr] at hsh; exact h j k hjk hsh
  | copy i l hl hj hs =>
    have oi : own i = own l := by
      rcases hl with ⟨rfl, -⟩ | ⟨rfl, -⟩ <;> rw [hc i (by simp [varsOf]), hc l (by simp [varsOf])]
    subst hs
    rw [shares_copy] at hsh
    refine h _ _ ?_ hsh
    split <;> split <;> simp_all
  | destroy i hi hs =>
    subst hs
    rw [shares_destroy] at hsh
    exact h j k hjk hsh.2.2

theorem runsTo_good {s0 s : St} {tr : List (ι × Cmd × ReadOut)} (g : Good s0) (h : RunsTo s0 tr s) : Good s := by
  induction h with
  | nil => exact g
  | snoc _ he ih => exact exec_good ih he

/-- A thread alone does what it does among the others. -/
theorem runs_alone [DecidableEq ι] {s0 s : St} {tr : List (ι × Cmd × ReadOut)} (g : Good s0) (hs : Separate own s0)
    (h : RunsTo s0 tr s) (ho : OwnVars own tr) (t : ι) :
    Separate own s ∧ ∃ s', RunsTo s0 (tr.filter fun e => decide (e.1 = t)) s' ∧ Alike own t s s' := by
  induction h with
  | nil =>
    refine ⟨hs, s0, .nil, fun i _ => ?_, fun _ _ _ _ => Iff.rfl⟩
    by_cases hi : s0.root i = none
    · exact .inl ⟨hi, hi⟩
    · obtain ⟨n, hn⟩ := g.shows hi
      exact .inr ⟨n, hn, hn⟩
  | @snoc tr s1 u c out s2 h he ih =>
    obtain ⟨h1, s', h2, h3⟩ := ih fun e he => ho e (by simp [he])
    have hc : ∀ i ∈ varsOf c, own i = u := ho (u, c, out) (by simp)
    have e := exec_effect (runsTo_good g h) he
    refine ⟨h1.step e hc, ?_⟩
    by_cases ht : u = t
    · subst ht
      obtain ⟨s'', h4, h5⟩ := h3.both (runsTo_good g h2) e hc
      exact ⟨s'', by simpa using h2.snoc h4, h5⟩
    · exact ⟨s', by simpa [ht] using h2, h3.other e (fun i hi => by rw [hc i hi]; exact ht) h1⟩

end SoDa.PropMem
