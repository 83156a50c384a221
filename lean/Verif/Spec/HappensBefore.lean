/-!
The happens-before relation of the C++ memory model, for programs whose only synchronisation is one
mutex ([intro.races] and [thread.mutex.requirements.mutex] of the standard): a step happens before
the later steps of its thread; a release of the mutex happens before every later acquisition; and
the relation is transitive.
-/
namespace SoDa.Spec

/-- What a step does to the mutex. -/
inductive Sync where
  | acquire
  | release
  | other
  deriving DecidableEq, Repr

/-- A step as far as happens-before is concerned. -/
structure Act (T : Type) where
  thread : T
  sync : Sync
  deriving DecidableEq

/-- Step number `i` happens before step number `j`; `act k` is step number `k`. -/
inductive HB {T : Type} (act : Nat → Option (Act T)) : Nat → Nat → Prop where
  | thread {i j a b} (h : i < j) (ha : act i = some a) (hb : act j = some b)
      (ht : a.thread = b.thread) : HB act i j
  | mutex {i j a b} (h : i < j) (ha : act i = some a) (hb : act j = some b)
      (hr : a.sync = .release) (hq : b.sync = .acquire) : HB act i j
  | trans {i j k} (h1 : HB act i j) (h2 : HB act j k) : HB act i k

end SoDa.Spec
