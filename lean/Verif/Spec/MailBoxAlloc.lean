import Verif.Model.MailBoxAlloc
import Verif.Spec.MailBox
/-!
Specification vocabulary for mailboxes when memory runs out inside calls: what the history of calls
and responses says about each subscriber.  Only the calls, where they ran out of memory, and their
responses are used, not the state of the mailbox.
-/
namespace SoDa.Spec
open Mail

variable {P : Type}

/-- The calls that did not run out of memory. -/
def succeeded (tr : List (EventA P)) : List (Event P) :=
  tr.filterMap fun e => match e.resp with
    | .normal r => some ⟨e.thread, e.call.op, r⟩
    | .badAlloc => none

/-- The ids of the subscribers at the end of a history, in the order in which they subscribed. -/
def subscribers (tr : List (EventA P)) : List Int :=
  (idsGiven (succeeded tr)).filter fun i => (succeeded tr).all fun e => !Ends i e

/-- The subscribers that a `put` reaches when its `n`-th delivery fails: the first `n` of them, in
the order in which they subscribed, the sender not counted.  With the subscription of another mailbox
as the sender `put` reaches nobody. -/
def reached (this : Addr) (past : List (EventA P)) (n : Nat) : Option Sub → List Int
  | none => (subscribers past).take n
  | some s => if s.box = this then ((subscribers past).filter (· ≠ s.idx)).take n else []

/-- How a call looks to subscriber `i`: a `put` that runs out of memory after it has reached `i` is
a `put` to `i`; any other call that runs out of memory is nothing. -/
def looksTo (this : Addr) (i : Int) (past : List (EventA P)) (e : EventA P) : List (Event P) :=
  match e.resp with
  | .normal r => [⟨e.thread, e.call.op, r⟩]
  | .badAlloc =>
    match e.call with
    | ⟨.put m subs, some n⟩ =>
      if i ∈ reached this past n subs then [⟨e.thread, .put m none, .done⟩] else []
    | _ => []

/-- The history as it looks to subscriber `i`, after `past`. -/
def seenFrom (this : Addr) (i : Int) (past : List (EventA P)) : List (EventA P) → List (Event P)
  | [] => []
  | e :: tr => looksTo this i past e ++ seenFrom this i (past ++ [e]) tr

/-- The history as it looks to subscriber `i`. -/
def seenBy (this : Addr) (i : Int) (tr : List (EventA P)) : List (Event P) := seenFrom this i [] tr

/-- All messages that were sent, also by calls that ran out of memory. -/
def attempted (tr : List (EventA P)) : List P :=
  tr.filterMap fun e => match e.call.op, e.resp with
    | .put (some p) _, .normal .done => some p
    | .put (some p) _, .badAlloc => some p
    | _, _ => none

end SoDa.Spec
