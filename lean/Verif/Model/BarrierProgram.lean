import Verif.Model.Barrier
/-!
Programs whose threads execute a fixed sequence of statements and meet at one barrier, such as examples/BarrierExample.cxx.

* A statement is anything of the program's own, a call of `wait`, the creation of a thread or a `join`.
* An exception from `wait` is not caught: `std::terminate` ends the program.
* One `operator<<` writes its text at once: texts of different threads are not mixed.
* `exit(0)` follows the last statement of `main`; the barrier and the thread objects are never destroyed.
-/
namespace SoDa.BarProg
open Bar (Ev Conf Move Out)

/-- A statement of a thread; `act` is one that has nothing to do with the barrier. -/
inductive Item (T A : Type) where
  | act (a : A)
  | wait
  | spawn (t : T)
  | join (t : T)
  deriving DecidableEq, Repr

/-- The state: what each thread has still to execute, which threads have been created, and which statements (thread, position)
have been executed, in order. -/
structure St (T A : Type) where
  bar : Conf T
  rest : T → List (Item T A)
  born : T → Bool
  log : List (T × Nat)
  aborted : Bool

variable {T A : Type} [DecidableEq T]

/-- The start: only `root` exists. -/
def St.start (script : T → List (Item T A)) (root : T) : St T A :=
  { bar := Conf.init, rest := script, born := fun t => t == root, log := [], aborted := false }

/-- `t` has executed its next statement. -/
def St.next (s : St T A) (t : T) : St T A := { s with rest := fun u => if u = t then (s.rest t).tail else s.rest u }

/-- What follows from an event at the barrier. -/
def St.after (s : St T A) : Ev T → St T A
  | .ret t => s.next t
  | .raise _ _ => { s with aborted := true }
  | _ => s

/-- One step; `n` is the number of waiters of the barrier. -/
inductive Step (script : T → List (Item T A)) (n : Nat) : St T A → Option (Ev T) → St T A → Prop where
  | act {s : St T A} {t a r} (ha : s.aborted = false) (hb : s.born t = true) (h : s.rest t = .act a :: r) :
      Step script n s none { s.next t with log := s.log ++ [(t, (script t).length - (s.rest t).length)] }
  | bar {s : St T A} {t m b e} (ha : s.aborted = false) (hs : Bar.step n s.bar t m = some (b, e))
      (hc : m = .call → s.born t = true ∧ ∃ r, s.rest t = .wait :: r) :
      Step script n s (some e) ({ s with bar := b }.after e)
  | spawn {s : St T A} {t u r} (ha : s.aborted = false) (hb : s.born t = true) (h : s.rest t = .spawn u :: r)
      (hu : s.born u = false) :
      Step script n s none { s.next t with born := fun v => if v = u then true else s.born v }
  | join {s : St T A} {t u r} (ha : s.aborted = false) (hb : s.born t = true) (h : s.rest t = .join u :: r)
      (hu : s.born u = true) (he : s.rest u = []) :
      Step script n s none (s.next t)

/-- Executions: the steps and the state reached. -/
inductive Exec (script : T → List (Item T A)) (root : T) (n : Nat) : List (Option (Ev T)) → St T A → Prop where
  | init : Exec script root n [] (St.start script root)
  | snoc {ls s l s'} (h : Exec script root n ls s) (hs : Step script n s l s') : Exec script root n (ls ++ [l]) s'

/-- The events at the barrier. -/
def events (ls : List (Option (Ev T))) : List (Ev T) := ls.filterMap id

/-- All threads have executed everything. -/
def St.Finished (s : St T A) : Prop := ∀ t, s.rest t = []

/-! ### examples/BarrierExample.cxx -/

/-- What the program writes. -/
inductive Mark where
  | digit (i : Nat)
  | arriving
  | cleared
  deriving DecidableEq, Repr

/-- Lines 10, 19, 42 and 57. -/
def Mark.text : Mark → Str
  | .digit i => (toString i).toList
  | .arriving => " wait at the barrier\n".toList
  | .cleared => " clear the barrier\n".toList

/-- `main`, lines 22-60 (`none`), and thread `i`, lines 9-20; `n` is `num_threads` (26).  `sleepOneSecond` does not matter: the
scheduler is arbitrary. -/
def example_ (n : Nat) : Option (Fin n) → List (Item (Option (Fin n)) Mark)
  | none => (List.finRange n).map (fun i => .spawn (some i)) ++ [.act .arriving, .wait, .wait] ++
      (List.finRange n).map (fun i => .join (some i)) ++ [.act .cleared]
  | some i => [.act (.digit i), .wait, .wait, .act (.digit i)]

/-- What statement `x` has written. -/
def written (n : Nat) (x : Option (Fin n) × Nat) : Str :=
  match (example_ n x.1)[x.2]? with
  | some (.act m) => m.text
  | _ => []

end SoDa.BarProg
