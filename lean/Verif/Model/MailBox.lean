import Verif.Model.StdMap
import Verif.Model.Monitor
import Verif.Model.Format
/-!
Model of `include/MailBox.hxx`.

* A `std::shared_ptr<T>` is an `Option P`: `none` is `nullptr`, `some p` points to message `p`.
  The mailbox holds a reference to `p` exactly if `some p` is in one of its queues.
* A mailbox is identified by its address (a natural number).  A `Subscription`
  (`std::unique_ptr<SubscriptionCl>`) is an `Option Sub`, `none` being a null pointer.
* The methods are given twice: as functions on the state of the mailbox, which is what they do
  when executed without interruption, and (further down) as sequences of steps executed by threads
  while they hold `mtx`.
* Failure of memory allocation is in MailBoxAlloc.lean.  The message objects and the pointers to them are in MailBoxLife.lean.
-/
namespace SoDa.Mail

/-- Addresses of mailboxes. -/
abbrev Addr := Nat

/-- `MailBox<T>`: `name` (line 233), `message_queues`, `subscription_counter` (424-425). -/
structure Box (P : Type) where
  name : Str
  queues : List (Int × List (Option P))
  counter : Int
  deriving DecidableEq, Repr

/-- `SubscriptionCl`: `this_mbox` and `subscriber_index` (290-293). -/
structure Sub where
  box : Addr
  idx : Int
  deriving DecidableEq, Repr

/-- The exceptions of the methods. -/
inductive Err where
  /-- `MissingSubscriber(name, operation, sub_id)`, 185-190. -/
  | missing (name operation : Str) (id : Int)
  /-- `SubscriptionMismatch(should_be, was)`, 192-199; the two mailboxes instead of their names. -/
  | mismatch (mbox thisMbox : Addr)
  deriving DecidableEq, Repr

variable {P : Type}

namespace Box

/-- `MailBox(std::string name)`, 259-261. -/
def new (name : Str) : Box P := { name, queues := [], counter := 0 }

end Box

/-- `SubscriptionCl::getIndex`, 282-289, called through a `Subscription`; dereferencing a null
`Subscription` is undefined. -/
def getIndex (mbox : Addr) : Option Sub → Res Err Int
  | none => .ub
  | some s => if mbox ≠ s.box then .throw (.mismatch mbox s.box) else .ok s.idx

namespace Box

/-- `getQueue(int idx)`, 427-432. -/
def getQueueI (b : Box P) (idx : Int) : Res Err (List (Option P)) :=
  match mapFind intLess idx b.queues with
  | none => .throw (.missing b.name "get()".toList idx)
  | some q => .ok q

/-- `getQueue(Subscription & subs)`, 434-437; also returns the index, for the assignment to the
queue through the returned reference. -/
def getQueue (this : Addr) (b : Box P) (subs : Option Sub) : Res Err (Int × List (Option P)) :=
  (getIndex this subs).bind fun idx => (b.getQueueI idx).map fun q => (idx, q)

/-- Assignment to a queue of the map. -/
def setQueue (b : Box P) (idx : Int) (q : List (Option P)) : Box P :=
  { b with queues := mapSet intLess idx q b.queues }

/-- `subscribe`, 306-317.  Incrementing the `int` counter beyond 2^31-1 is undefined. -/
def subscribe (this : Addr) (b : Box P) : Res Err (Box P × Sub) :=
  if b.counter = 2147483647 then .ub
  else .ok ({ b.setQueue b.counter [] with counter := b.counter + 1 }, ⟨this, b.counter⟩)

/-- `get`, 327-339. -/
def get (this : Addr) (b : Box P) (subs : Option Sub) : Res Err (Box P × Option P) :=
  (b.getQueue this subs).bind fun (idx, q) =>
    match q with
    | [] => .ok (b, none)
    | m :: rest => .ok (b.setQueue idx rest, m)

/-- The loop of `put`, 356-360. -/
def pushAll (msg : Option P) (omit_key : Int) (m : List (Int × List (Option P))) :
    List (Int × List (Option P)) :=
  m.map fun kq => if kq.1 ≠ omit_key then (kq.1, kq.2 ++ [msg]) else kq

/-- `put`, 350-361. -/
def put (this : Addr) (b : Box P) (msg : Option P) (subs : Option Sub) : Res Err (Box P) :=
  let omit_key : Res Err Int := match subs with
    | none => .ok b.counter
    | some s => getIndex this (some s)
  omit_key.bind fun k => .ok { b with queues := pushAll msg k b.queues }

/-- `readyCount`, 370-379: the size is converted to `unsigned int`. -/
def readyCount (this : Addr) (b : Box P) (subs : Option Sub) : Res Err Nat :=
  (b.getQueue this subs).map fun (_, q) => if q.isEmpty then 0 else q.length % 4294967296

/-- `minReadyCount`, 388-396; `ret` is an `unsigned int`, initially 2^32-1. -/
def minReadyCount (b : Box P) : Nat :=
  b.queues.foldl (fun ret kq => (if ret < kq.2.length then ret else kq.2.length) % 4294967296) 4294967295

/-- `clear`, 404-408. -/
def clear (this : Addr) (b : Box P) (subs : Option Sub) : Res Err (Box P) :=
  (b.getQueue this subs).map fun (idx, _) => b.setQueue idx []

/-- `unsubscribe`, 410-417. -/
def unsubscribe (b : Box P) (subid : Int) : Res Err (Box P) :=
  (b.getQueueI subid).map fun _ => { b with queues := mapErase intLess subid b.queues }

/-- `subscriberCount`, 419-422. -/
def subscriberCount (b : Box P) : Nat := b.queues.length % 4294967296

end Box

/-! ### Calls -/

/-- A call of a method of the mailbox.  `drop` is the destruction of a `Subscription` of this
mailbox (its `unique_ptr` is reset or goes out of scope). -/
inductive Op (P : Type) where
  | subscribe
  | get (subs : Option Sub)
  | put (msg : Option P) (subs : Option Sub)
  | readyCount (subs : Option Sub)
  | minReadyCount
  | clear (subs : Option Sub)
  | unsubscribe (subid : Int)
  | subscriberCount
  | drop (subs : Sub)
  deriving DecidableEq, Repr

/-- How a call ends. -/
inductive Resp (P : Type) where
  | sub (s : Sub)
  | msg (m : Option P)
  | count (n : Nat)
  | done
  | threw (e : Err)
  /-- `std::terminate`: an exception leaves a destructor -/
  | terminate
  /-- undefined behaviour -/
  | ub
  deriving DecidableEq, Repr

/-- The program goes on after this response. -/
def Resp.Normal : Resp P → Prop
  | .terminate => False
  | .ub => False
  | _ => True

/-- The state and response of a call, when an exception leaves the state as it was. -/
def ofRes {α : Type} (b : Box P) (r : Res Err α) (f : α → Box P × Resp P) : Box P × Resp P :=
  match r with
  | .ok a => f a
  | .throw e => (b, .threw e)
  | .ub => (b, .ub)

/-- One uninterrupted call on the mailbox at address `this`. -/
def exec (this : Addr) (b : Box P) : Op P → Box P × Resp P
  | .subscribe => ofRes b (b.subscribe this) fun (b', s) => (b', .sub s)
  | .get subs => ofRes b (b.get this subs) fun (b', m) => (b', .msg m)
  | .put msg subs => ofRes b (b.put this msg subs) fun b' => (b', .done)
  | .readyCount subs => ofRes b (b.readyCount this subs) fun n => (b, .count n)
  | .minReadyCount => (b, .count b.minReadyCount)
  | .clear subs => ofRes b (b.clear this subs) fun b' => (b', .done)
  | .unsubscribe subid => ofRes b (b.unsubscribe subid) fun b' => (b', .done)
  | .subscriberCount => (b, .count b.subscriberCount)
  | .drop s =>
    -- `~SubscriptionCl`, 278-280: an exception from a destructor terminates the program
    match b.unsubscribe s.idx with
    | .ok b' => (b', .done)
    | _ => (b, .terminate)

/-- A call by a thread with its response. -/
structure Event (P : Type) where
  thread : Nat
  op : Op P
  resp : Resp P
  deriving DecidableEq, Repr

/-- Histories of one mailbox: calls one after the other, up to a call that does not end
normally. -/
inductive Run (this : Addr) : Box P → List (Event P) → Box P → Prop where
  | nil {b} : Run this b [] b
  | snoc {b tr b' t o r b''} (h : Run this b tr b') (he : exec this b' o = (b'', r))
      (hn : r.Normal) : Run this b (tr ++ [⟨t, o, r⟩]) b''

/-! ### Calls as sequences of steps under the lock -/

open Monitor (Body)

/-- One step that reads the state. -/
def look {R : Type} (k : Box P → Body (Box P) R) : Body (Box P) R := .act id k

/-- Throw, or continue with a value computed from the state. -/
def onRes {α : Type} (r : Res Err α) (k : α → Body (Box P) (Resp P)) : Body (Box P) (Resp P) :=
  match r with
  | .ok a => k a
  | .throw e => .ret (.threw e)
  | .ub => .ret .ub

/-- The loop of `put` (356-360) as single steps: the iterator goes over the keys. -/
def pushLoop (msg : Option P) (omit_key : Int) : List Int → Body (Box P) (Resp P)
  | [] => .ret .done
  | k :: ks =>
    if k ≠ omit_key then
      .act (fun b => { b with queues := b.queues.map fun kq =>
        if kq.1 = k then (kq.1, kq.2 ++ [msg]) else kq }) fun _ => pushLoop msg omit_key ks
    else pushLoop msg omit_key ks

/-- `while(!mqueue.empty()) mqueue.pop();` (407, 414) as single steps; `n` is the number of
elements left. -/
def popLoop (idx : Int) (fin : Body (Box P) (Resp P)) : Nat → Body (Box P) (Resp P)
  | 0 => fin
  | n + 1 =>
    .act (fun b => { b with queues := b.queues.map fun kq =>
      if kq.1 = idx then (kq.1, kq.2.tail) else kq }) fun _ => popLoop idx fin n

/-- The loop of `minReadyCount` (391-394) as single steps. -/
def minLoop (ret : Nat) : List Int → Body (Box P) (Resp P)
  | [] => .ret (.count ret)
  | k :: ks => look fun b =>
    match mapFind intLess k b.queues with
    | none => minLoop ret ks
    | some q => minLoop ((if ret < q.length then ret else q.length) % 4294967296) ks

/-- `unsubscribe` as single steps: `failed` is the response if the id is unknown. -/
def unsubBody (subid : Int) (failed : Err → Resp P) : Body (Box P) (Resp P) :=
  look fun b => match b.getQueueI subid with
    | .ok q => popLoop subid
        (.act (fun b => { b with queues := mapErase intLess subid b.queues }) fun _ => .ret .done)
        q.length
    | .throw e => .ret (failed e)
    | .ub => .ret .ub

/-- The critical section of a call. -/
def body (this : Addr) : Op P → Body (Box P) (Resp P)
  | .subscribe => look fun b =>
      -- 309-313, then 315
      .act (fun b => b.setQueue b.counter []) fun _ =>
        if b.counter = 2147483647 then .ret .ub
        else .act (fun b => { b with counter := b.counter + 1 }) fun _ => .ret (.sub ⟨this, b.counter⟩)
  | .get subs => look fun b => onRes (b.getQueue this subs) fun (idx, q) =>
      match q with
      | [] => .ret (.msg none)
      | m :: _ => .act (fun b => { b with queues := b.queues.map fun kq =>
          if kq.1 = idx then (kq.1, kq.2.tail) else kq }) fun _ => .ret (.msg m)
  | .put msg subs => look fun b =>
      onRes (match subs with
        | none => .ok b.counter
        | some s => getIndex this (some s)) fun omit_key =>
        look fun b => pushLoop msg omit_key (b.queues.map (·.1))
  | .readyCount subs => look fun b => onRes (b.readyCount this subs) fun n => .ret (.count n)
  | .minReadyCount => look fun b => minLoop 4294967295 (b.queues.map (·.1))
  | .clear subs => look fun b => onRes (b.getQueue this subs) fun (idx, q) =>
      popLoop idx (.ret .done) q.length
  | .unsubscribe subid => unsubBody subid .threw
  | .subscriberCount => look fun b => .ret (.count b.subscriberCount)
  | .drop s => unsubBody s.idx fun _ => .terminate

/-! ### Several mailboxes -/

/-- The mailboxes of the program; `none` for addresses without a (living) mailbox. -/
abbrev World (P : Type) := Addr → Option (Box P)

/-- A call of a method of the mailbox at `a`, or the construction or destruction of a mailbox. -/
inductive WOp (P : Type) where
  | create (a : Addr) (name : Str)
  | destroy (a : Addr)
  | call (a : Addr) (o : Op P)
  /-- destruction of a `Subscription` -/
  | drop (s : Sub)
  deriving DecidableEq, Repr

/-- Change one address. -/
def World.set (w : World P) (a : Addr) (b : Option (Box P)) : World P :=
  fun a' => if a' = a then b else w a'

/-- One uninterrupted call.  Using a mailbox that does not exist (any more) is undefined; a
`Subscription` destroyed after its mailbox calls `unsubscribe` through a dangling pointer; asking a
subscription of a mailbox that does not exist any more for the name of its mailbox (284) is
undefined too. -/
def World.exec (w : World P) : WOp P → World P × Resp P
  | .create a name => match w a with
    | some _ => (w, .ub)
    | none => (w.set a (some (Box.new name)), .done)
  | .destroy a => match w a with
    | some _ => (w.set a none, .done)
    | none => (w, .ub)
  | .call a o => match w a with
    | none => (w, .ub)
    | some b =>
      match Mail.exec a b o with
      | (_, .threw (.mismatch m t)) => if (w t).isSome then (w, .threw (.mismatch m t)) else (w, .ub)
      | (b', r) => (w.set a (some b'), r)
  | .drop s => match w s.box with
    | none => (w, .ub)
    | some b => let (b', r) := Mail.exec s.box b (.drop s); (w.set s.box (some b'), r)

/-- `what()` of the exceptions (174-199); `nameOf` gives the names of the mailboxes. -/
def Err.what (nameOf : Addr → Str) : Err → Res Fmt.BadFormat Str
  | .missing name operation id =>
    .ok ("SoDa::MailBox[".toList ++ name ++ "] ".toList ++
      ("::".toList ++ operation ++ " Subscriber ID ".toList ++ showInt id ++ " not found.".toList))
  | .mismatch mbox thisMbox =>
    match (Fmt.mk' "caller specified the wrong mailbox".toList).addS (nameOf thisMbox) 0 with
    | .ok f => (f.str false).map fun problem =>
        "SoDa::MailBox[".toList ++ nameOf mbox ++ "] ".toList ++ problem
    | _ => .ub

end SoDa.Mail
