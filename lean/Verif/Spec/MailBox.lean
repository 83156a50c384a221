import Verif.Model.MailBox
/-!
Specification vocabulary for `MailBox`: what the history of calls and responses of one mailbox
says about each subscriber.  Only the calls, their arguments and their responses are used, not the
state of the mailbox.  Subscribers are identified by their id (`Sub.idx`).
-/
namespace SoDa.Spec
open Mail

variable {P : Type}

/-- The call handed out the subscription `i`. -/
def Subscribes (i : Int) (e : Event P) : Bool :=
  match e.resp with
  | .sub s => s.idx = i
  | _ => false

/-- The call ended the subscription `i`. -/
def Ends (i : Int) (e : Event P) : Bool :=
  match e.op, e.resp with
  | .unsubscribe k, .done => k = i
  | .drop s, .done => s.idx = i
  | _, _ => false

/-- The call emptied the mailbox of subscriber `i`. -/
def Clears (i : Int) (e : Event P) : Bool :=
  match e.op, e.resp with
  | .clear (some s), .done => s.idx = i
  | _, _ => false

/-- The message (if any) that the call sends to subscriber `i`: `put` sends to everybody, except to
the subscriber it names as the sender. -/
def sendsTo (i : Int) (e : Event P) : Option P :=
  match e.op, e.resp with
  | .put (some p) none, .done => some p
  | .put (some p) (some s), .done => if s.idx = i then none else some p
  | _, _ => none

/-- The message (if any) that the call sends. -/
def sends (e : Event P) : Option P :=
  match e.op, e.resp with
  | .put (some p) _, .done => some p
  | _, _ => none

/-- The message (if any) that the call gives to subscriber `i`. -/
def gives (i : Int) (e : Event P) : Option P :=
  match e.op, e.resp with
  | .get (some s), .msg (some p) => if s.idx = i then some p else none
  | _, _ => none

/-- The part of a history after the last call satisfying `p`. -/
def since (p : Event P → Bool) (tr : List (Event P)) : List (Event P) :=
  (tr.reverse.takeWhile (fun e => !p e)).reverse

/-- The part of the history after `i` subscribed or last cleared its mailbox. -/
def sinceFresh (i : Int) (tr : List (Event P)) : List (Event P) :=
  since (fun e => Subscribes i e || Clears i e) tr

/-- The messages sent to `i` since it subscribed or last cleared, in the order of sending. -/
def sentTo (i : Int) (tr : List (Event P)) : List P := (sinceFresh i tr).filterMap (sendsTo i)

/-- The messages received by `i` since it subscribed or last cleared, in the order received. -/
def received (i : Int) (tr : List (Event P)) : List P := (sinceFresh i tr).filterMap (gives i)

/-- The messages sent to `i` since it subscribed or last cleared that it has not received. -/
def outstanding (i : Int) (tr : List (Event P)) : List P := (sentTo i tr).drop (received i tr).length

/-- The messages `i` ever received. -/
def receivedEver (i : Int) (tr : List (Event P)) : List P := tr.filterMap (gives i)

/-- All messages sent. -/
def sentLog (tr : List (Event P)) : List P := tr.filterMap sends

/-- All messages sent by one thread. -/
def sentBy (t : Nat) (tr : List (Event P)) : List P := (tr.filter (·.thread = t)).filterMap sends

/-- `i` has subscribed and its subscription has not ended. -/
def Live (i : Int) (tr : List (Event P)) : Prop :=
  (∃ e ∈ tr, Subscribes i e = true) ∧ ∀ e ∈ tr, Ends i e = false

/-- Nobody sends null pointers (which a receiver cannot tell from an empty mailbox). -/
def NoNull (tr : List (Event P)) : Prop := ∀ e ∈ tr, ∀ subs, e.op ≠ .put none subs

/-- The ids handed out, in order. -/
def idsGiven (tr : List (Event P)) : List Int :=
  tr.filterMap fun e => match e.resp with
    | .sub s => some s.idx
    | _ => none

end SoDa.Spec
