import Verif.Model.Monitor
/-!
Threads calling the methods of several objects, each of which is protected by its own `std::mutex`, as several `SoDa::MailBox`es are
(include/MailBox.hxx:306-422: every public method locks `mtx` of its object, 440, and no method calls a method of another object).

The memory model and the scheduler are those of Monitor.lean.  All objects exist all the time.
-/
namespace SoDa.Monitors
open Monitor (Body Phase Label setPhase)

/-- The members and the mutexes of the objects; what the threads do (a call is an object and a method with its arguments). -/
structure Conf (T A S O R : Type) where
  shared : A → S
  holder : A → Option T
  phase : T → Phase S (A × O) R

variable {T A S O R : Type} [DecidableEq T] [DecidableEq A]

/-- Change the value for one object. -/
def setAt {W : Type} (f : A → W) (a : A) (w : W) : A → W := fun a' => if a' = a then w else f a'

/-- One step; `body a o` is the critical section of a call of `o` on the object `a`. -/
inductive Step (body : A → O → Body S R) : Conf T A S O R → Label T (A × O) R → Conf T A S O R → Prop where
  | call {c t a o} (h : c.phase t = .idle) :
      Step body c (.call t (a, o)) { c with phase := setPhase c.phase t (.wants (a, o)) }
  | lock {c t a o} (h : c.phase t = .wants (a, o)) (hf : c.holder a = none) :
      Step body c (.lock t) { c with holder := setAt c.holder a (some t), phase := setPhase c.phase t (.runs (a, o) (body a o)) }
  | act {c t a o f k} (h : c.phase t = .runs (a, o) (.act f k)) :
      Step body c (.act t)
        { c with shared := setAt c.shared a (f (c.shared a)), phase := setPhase c.phase t (.runs (a, o) (k (c.shared a))) }
  | unlock {c t a o r} (h : c.phase t = .runs (a, o) (.ret r)) :
      Step body c (.unlock t (a, o) r) { c with holder := setAt c.holder a none, phase := setPhase c.phase t (.leaving (a, o) r) }
  | ret {c t a o r} (h : c.phase t = .leaving (a, o) r) :
      Step body c (.ret t (a, o) r) { c with phase := setPhase c.phase t .idle }

/-- Executions. -/
inductive Steps (body : A → O → Body S R) : Conf T A S O R → List (Label T (A × O) R) → Conf T A S O R → Prop where
  | nil {c} : Steps body c [] c
  | snoc {c ls c' l c''} (h : Steps body c ls c') (hs : Step body c' l c'') : Steps body c (ls ++ [l]) c''

/-- All threads idle, all mutexes free. -/
def Conf.init (s : A → S) : Conf T A S O R := { shared := s, holder := fun _ => none, phase := fun _ => .idle }

end SoDa.Monitors
