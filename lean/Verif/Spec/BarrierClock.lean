import Verif.Model.BarrierClock
import Verif.Spec.Barrier
/-!
What the clock has to do with the barrier, for properties C113.
-/
namespace SoDa.Spec
open Bar

variable {T : Type} [DecidableEq T]

/-- The last call of `wait` by thread `t` in `tr` was at time `σ`, with a timeout of `ms` milliseconds. -/
def CalledLast (t : T) (ms : Int) (σ : Nat) (tr : List (TEv T)) : Prop :=
  ∃ a c, tr = a ++ ⟨.call t, σ, ms⟩ :: c ∧ ∀ e ∈ c, e.ev ≠ .call t

/-- The timeout that the caller of `wait(std::chrono::milliseconds)` asks for, in milliseconds: zero means 1000 days. -/
def limit (ms : Int) : Int := if ms = 0 then 1000 * 24 * 3600 * 1000 else ms

/-- Whenever a thread enters the barrier for the `k`-th time, with whatever timeout, everybody enters the barrier for the `k`-th time
before that timeout is over (unless the execution is over first). -/
def InTime (tr : List (TEv T)) : Prop :=
  ∀ (a : List (TEv T)) (t : T) (b : Bool) (σ : Nat) (ms : Int) (c : List (TEv T)), tr = a ++ ⟨.arrive t b, σ, ms⟩ :: c →
    (∃ e ∈ c, (σ : Int) + limit ms * 1000000 ≤ e.at_) →
    ∀ u, ∃ (a' : List (TEv T)) (b' : Bool) (σ' : Nat) (ms' : Int) (c' : List (TEv T)), tr = a' ++ ⟨.arrive u b', σ', ms'⟩ :: c' ∧
      entered u (a'.map TEv.ev) = entered t (a.map TEv.ev) ∧ (σ' : Int) < σ + limit ms * 1000000

/-- The timeout that the caller of `wait(timeout_ms)` asks for, in milliseconds (include/Barrier.hxx:211-223): zero means 1000 days. -/
def requested (timeout_ms : Nat) : Nat := if timeout_ms = 0 then 1000 * 24 * 3600 * 1000 else timeout_ms

/-- All calls were calls of `wait(unsigned long)`, with such arguments. -/
def Asked (tr : List (TEv T)) (ask : Nat → Prop) : Prop :=
  ∀ e ∈ tr, (∃ t, e.ev = .call t) → ∃ timeout_ms, timeout_ms < 2 ^ 64 ∧ ask timeout_ms ∧ e.ms = effective timeout_ms

/-- No exception is thrown before the time asked for has passed since the call. -/
def NotEarly (tr : List (TEv T)) : Prop :=
  ∀ (a : List (TEv T)) (t : T) (r : Out) (τ : Nat) (timeout_ms : Nat) (c : List (TEv T)), timeout_ms < 2 ^ 64 →
    tr = a ++ ⟨.raise t r, τ, effective timeout_ms⟩ :: c →
    ∃ σ, CalledLast t (effective timeout_ms) σ a ∧ σ + requested timeout_ms * 1000000 ≤ τ

/-- The steps from one state to another; time may pass between them. -/
inductive ClockOnward (n : Nat) (s : TConf T) : List (TEv T) → TConf T → Prop where
  | nil : ClockOnward n s [] s
  | tick {tr s' now'} : ClockOnward n s tr s' → s'.now ≤ now' → now' < 9223372036854775808 → ClockOnward n s tr { s' with now := now' }
  | snoc {tr s' t m s'' e} : ClockOnward n s tr s' → s'.ub = false → tstep n s' t m = some (s'', e) → ClockOnward n s (tr ++ [⟨e, s'.now, s''.dur t⟩]) s''

end SoDa.Spec
