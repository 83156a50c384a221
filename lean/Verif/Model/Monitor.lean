import Verif.Model.Basic
/-!
Threads calling the methods of one object that is protected by one `std::mutex`: every method
body runs between the construction and the destruction of a `std::lock_guard` on that mutex.
Used for `SoDa::MailBox` (include/MailBox.hxx:306-422, every public method begins with
`std::lock_guard<std::mutex> lock(mtx);`).

Memory model: the fields of the object are only accessed while its mutex is held, so the steps of
the threads can be interleaved sequentially (a data-race-free C++ program is sequentially
consistent).  The scheduler is arbitrary: it need not be fair, and the mutex may be given to any
thread that waits for it.
-/
namespace SoDa.Monitor

/-- The statements executed inside the critical section of one call: a sequence of accesses to
the shared state `S`, each of which may decide how to continue, and a final result. -/
inductive Body (S R : Type) where
  | ret (r : R)
  /-- Replace the state `s` by `f s` and go on with `k s`. -/
  | act (f : S → S) (k : S → Body S R)

/-- Executing a critical section without interruption. -/
def Body.run {S R : Type} : Body S R → S → S × R
  | .ret r, s => (s, r)
  | .act f k, s => (k s).run (f s)

/-- What a thread is doing. -/
inductive Phase (S O R : Type) where
  | idle
  /-- called, waiting in `mtx.lock()` -/
  | wants (o : O)
  /-- holds the mutex; the rest of the body is `b` -/
  | runs (o : O) (b : Body S R)
  /-- has released the mutex, not yet returned -/
  | leaving (o : O) (r : R)

structure Conf (T S O R : Type) where
  shared : S
  holder : Option T
  phase : T → Phase S O R

inductive Label (T O R : Type) where
  | call (t : T) (o : O)
  | lock (t : T)
  | act (t : T)
  | unlock (t : T) (o : O) (r : R)
  | ret (t : T) (o : O) (r : R)
  deriving DecidableEq

variable {T S O R : Type} [DecidableEq T]

/-- Change the phase of one thread. -/
def setPhase (f : T → Phase S O R) (t : T) (p : Phase S O R) : T → Phase S O R :=
  fun t' => if t' = t then p else f t'

/-- One step of the system; `body o` is the critical section of a call of `o`. -/
inductive Step (body : O → Body S R) : Conf T S O R → Label T O R → Conf T S O R → Prop where
  | call {c t o} (h : c.phase t = .idle) :
      Step body c (.call t o) { c with phase := setPhase c.phase t (.wants o) }
  | lock {c t o} (h : c.phase t = .wants o) (hf : c.holder = none) :
      Step body c (.lock t)
        { c with holder := some t, phase := setPhase c.phase t (.runs o (body o)) }
  | act {c t o f k} (h : c.phase t = .runs o (.act f k)) :
      Step body c (.act t)
        { c with shared := f c.shared, phase := setPhase c.phase t (.runs o (k c.shared)) }
  | unlock {c t o r} (h : c.phase t = .runs o (.ret r)) :
      Step body c (.unlock t o r)
        { c with holder := none, phase := setPhase c.phase t (.leaving o r) }
  | ret {c t o r} (h : c.phase t = .leaving o r) :
      Step body c (.ret t o r) { c with phase := setPhase c.phase t .idle }

/-- Executions: any finite sequence of steps. -/
inductive Steps (body : O → Body S R) : Conf T S O R → List (Label T O R) → Conf T S O R → Prop where
  | nil {c} : Steps body c [] c
  | snoc {c ls c' l c''} (h : Steps body c ls c') (hs : Step body c' l c'') :
      Steps body c (ls ++ [l]) c''

/-- All threads idle, mutex free. -/
def Conf.init (s : S) : Conf T S O R := { shared := s, holder := none, phase := fun _ => .idle }

end SoDa.Monitor
