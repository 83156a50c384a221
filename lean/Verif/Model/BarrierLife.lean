import Verif.Model.Barrier
/-!
Model of who keeps a barrier alive: `BarrierPtr` and `makeBarrier` (include/Barrier.hxx:257-272, src/Barrier.cxx:102-104).

* A `BarrierPtr` is a `std::shared_ptr`: a count of the pointers is kept, and the barrier is destroyed when it becomes 0.
* Every pointer is a variable of one thread.  A thread copies it, passes it to another (possibly new) thread, or lets it go, when
  it is not inside `wait`.  Pointer variables that several threads assign to are not modelled, nor are `std::weak_ptr`s.
-/
namespace SoDa.Bar

variable {T : Type} [DecidableEq T]

/-- The barrier and the pointers to it; `own t` is how many of them are variables of `t`. -/
structure Life (T : Type) where
  bar : Conf T
  own : T → Nat
  /-- the use count -/
  refs : Nat
  /-- how often `~Barrier` has been executed -/
  destroyed : Nat

/-- What happens: something at the barrier; `t` gives a copy of its pointer to `u` (itself, or another thread); `t` lets a pointer go,
and `last` if that destroys the barrier. -/
inductive Act (T : Type) where
  | bar (e : Ev T)
  | copy (t u : T)
  | drop (t : T) (last : Bool)
  deriving DecidableEq

/-- `makeBarrier`, called by `t`. -/
def Life.make (t : T) : Life T :=
  { bar := Conf.init, own := fun u => if u = t then 1 else 0, refs := 1, destroyed := 0 }

inductive Life.Step (n : Nat) : Life T → Act T → Life T → Prop where
  /-- `p->wait()` needs a pointer -/
  | bar {s : Life T} {t m b e} (h : step n s.bar t m = some (b, e)) (hc : m = .call → 0 < s.own t) :
      Step n s (.bar e) { s with bar := b }
  | copy {s : Life T} {t u} (h : 0 < s.own t) (hi : s.bar.pc t = .idle) :
      Step n s (.copy t u) { s with own := fun v => if v = u then s.own u + 1 else s.own v, refs := s.refs + 1 }
  | drop {s : Life T} {t} (h : 0 < s.own t) (hi : s.bar.pc t = .idle) :
      Step n s (.drop t (s.refs - 1 == 0))
        { s with own := fun v => if v = t then s.own t - 1 else s.own v, refs := s.refs - 1,
                 destroyed := s.destroyed + if s.refs - 1 = 0 then 1 else 0 }

/-- Executions that begin with `makeBarrier`, called by `t`. -/
inductive Life.Exec (n : Nat) (t : T) : List (Act T) → Life T → Prop where
  | init : Exec n t [] (Life.make t)
  | snoc {as s a s'} (h : Exec n t as s) (hs : Life.Step n s a s') : Exec n t (as ++ [a]) s'

end SoDa.Bar
