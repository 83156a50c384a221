import Verif.Spec.Barrier
import Verif.Spec.HappensBefore
/-!
Executions of the barrier step by step, for properties about happens-before: the state before each
step, the thread that executes it, and what it does to the mutex and to the members of the barrier.
-/
namespace SoDa.Spec
open Bar

variable {T : Type} [DecidableEq T]

/-- State before, thread, scheduler's choice and visible event of step number `i`. -/
structure Trace (T : Type) where
  st : Nat → Conf T
  who : Nat → T
  mv : Nat → Move
  ev : Nat → Ev T

/-- The first `N` steps are an execution from a new barrier for `n` waiters. -/
structure Trace.Valid (x : Trace T) (n N : Nat) : Prop where
  init : x.st 0 = Conf.init
  ok : ∀ i < N, step n (x.st i) (x.who i) (x.mv i) = some (x.st (i + 1), x.ev i)

/-- The events before step `i`. -/
def Trace.before (x : Trace T) (i : Nat) : List (Ev T) := (List.range i).map x.ev

/-- What a step does to the mutex. -/
def syncOf (c c' : Conf T) : Sync :=
  match c.holder, c'.holder with
  | none, some _ => .acquire
  | some _, none => .release
  | _, _ => .other

/-- The steps as `HB` sees them. -/
def Trace.act (x : Trace T) (N i : Nat) : Option (Act T) :=
  if i < N then some ⟨x.who i, syncOf (x.st i) (x.st (i + 1))⟩ else none

/-- The members of a barrier that change (include/Barrier.hxx:245-249). -/
inductive Member where
  | waiting
  | count
  | corrupted
  deriving DecidableEq

/-- The member the next statement accesses, and whether it writes it (src/Barrier.cxx:58-93). -/
def accesses : Pc → Option (Member × Bool)
  | .start => some (.count, false)          -- 58: old_barrier_count = barrier_count
  | .incr _ => some (.waiting, true)        -- 62: waiting++
  | .test _ => some (.waiting, false)       -- 63: waiting == num_waiters
  | .reset => some (.waiting, true)         -- 65: waiting = 0
  | .bump => some (.count, true)            -- 66: barrier_count++
  | .pred _ => some (.count, false)         -- 77: old_barrier_count != barrier_count
  | .predT _ => some (.count, false)        -- 77
  | .expired => some (.corrupted, false)    -- 85: old_corrupt = corrupted
  | .setCorrupt => some (.corrupted, true)  -- 91: corrupted = true
  | .setCount => some (.count, true)        -- 93: barrier_count = 0xffffffff
  | _ => none

/-- Steps `i < j` are a data race: different threads access the same member, at least one of them
writes it, and the first does not happen before the second. -/
def DataRace (x : Trace T) (N i j : Nat) : Prop :=
  i < j ∧ j < N ∧ x.who i ≠ x.who j ∧
  (∃ m w w', x.mv i = .go ∧ x.mv j = .go ∧
    accesses ((x.st i).pc (x.who i)) = some (m, w) ∧ accesses ((x.st j).pc (x.who j)) = some (m, w') ∧
    (w = true ∨ w' = true)) ∧
  ¬ HB (x.act N) i j

end SoDa.Spec
