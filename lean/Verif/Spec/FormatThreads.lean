import Verif.Model.FormatThreads
/-!
Which memory the statements of a program with `SoDa::Format` objects use, by their description in include/Format.hxx, and data races as
in [intro.races] of the C++ standard for threads that do not synchronise: two accesses of different threads to one location, at least one
of them a write.
-/
namespace SoDa.FThr

inductive Loc where
  /-- the `Format` object with this number -/
  | obj (a : Nat)
  /-- `SoDa::Format::separator` -/
  | sep
  deriving DecidableEq

/-- A call of `addF` that shows the radix separator: zero in engineering notation. -/
def ShowsZero (v : Dbl) (fmt : Char) : Prop := fmt = 'e' ∧ ∃ neg, v = .fin neg 0

/-- Everything but construction and the assignment to the separator looks at an object; `addF` may look at the separator. -/
inductive Reads : Stmt → Loc → Prop where
  | copy (a b : Nat) : Reads (.copy a b) (.obj b)
  | destroy (a : Nat) : Reads (.destroy a) (.obj a)
  | call (a : Nat) (c : Call) : Reads (.call a c) (.obj a)
  | addF (a : Nat) (v : Dbl) (fmt : Char) (w sig : Nat) : Reads (.addF a v fmt w sig) (.obj a)
  | zero (a : Nat) (v : Dbl) (fmt : Char) (w sig : Nat) (h : ShowsZero v fmt) : Reads (.addF a v fmt w sig) .sep

/-- Everything but `str` changes something. -/
inductive Writes : Stmt → Loc → Prop where
  | construct (a : Nat) (s : Str) : Writes (.construct a s) (.obj a)
  | copy (a b : Nat) : Writes (.copy a b) (.obj a)
  | destroy (a : Nat) : Writes (.destroy a) (.obj a)
  | call (a : Nat) (c : Call) (h : ∀ check, c ≠ .str check) : Writes (.call a c) (.obj a)
  | addF (a : Nat) (v : Dbl) (fmt : Char) (w sig : Nat) : Writes (.addF a v fmt w sig) (.obj a)
  | setSep (c : Char) : Writes (.setSep c) .sep

def Uses (s : Stmt) (ℓ : Loc) : Prop := Reads s ℓ ∨ Writes s ℓ

/-- Two threads have statements of which one writes what the other uses. -/
def Conflict {ι : Type} (P : ι → List Stmt) : Prop :=
  ∃ t u, t ≠ u ∧ ∃ s ∈ P t, ∃ s' ∈ P u, ∃ ℓ, Writes s ℓ ∧ Uses s' ℓ

/-- What a step of an execution reads and writes. -/
inductive Lab.Reads {ι : Type} : Lab ι → Loc → Prop where
  | mk (t : ι) {s : Stmt} {ℓ : Loc} (h : FThr.Reads s ℓ) : Lab.Reads (.first t s) ℓ

inductive Lab.Writes {ι : Type} : Lab ι → Loc → Prop where
  | mk (t : ι) {s : Stmt} {ℓ : Loc} (h : FThr.Writes s ℓ) : Lab.Writes (.second t s) ℓ

/-- The execution has a data race. -/
def Race {ι : Type} (tr : List (Lab ι)) : Prop :=
  ∃ l ∈ tr, ∃ l' ∈ tr, l.thread ≠ l'.thread ∧ ∃ ℓ, l.Writes ℓ ∧ (l'.Reads ℓ ∨ l'.Writes ℓ)

/-- The two memories have the same at `ℓ`. -/
def SameAt (m m' : Mem) : Loc → Prop
  | .obj a => m.objs a = m'.objs a
  | .sep => m.sep = m'.sep

/-- Every thread has executed all of its statements. -/
def Finished {ι : Type} (c : Conf ι) : Prop :=
  ∀ t, (c.thr t).rest = [] ∧ (c.thr t).pend = none

/-- Different threads use different objects. -/
def OwnObjects {ι : Type} (P : ι → List Stmt) : Prop :=
  ∀ t u, t ≠ u → ∀ s ∈ P t, ∀ s' ∈ P u, ∀ a, Uses s (.obj a) → ¬ Uses s' (.obj a)

/-- The steps of thread `t`. -/
def stepsOf {ι : Type} [DecidableEq ι] (t : ι) (tr : List (Lab ι)) : List (Lab ι) :=
  tr.filter fun l => decide (l.thread = t)

end SoDa.FThr
