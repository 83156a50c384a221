import Verif.Model.MailBox
/-!
Model of the methods of `include/MailBox.hxx` when a request for memory inside them fails, i.e.
when `operator new` throws `std::bad_alloc`.

Where the methods ask for memory:

* `subscribe` (306-317): for the `SubscriptionCl` (309, request 0); then for the temporary
  `std::queue`, the node of the map and the queue in it (313, requests 1, 2, ...).
* `put` (350-361): the `push` into the queue of a subscriber (358) may need memory; request number
  `n` is the `n`-th `push` of the call.  (A `push` of a `std::deque` needs memory only now and then;
  which ones do is left open, so every one may fail.)
* `minReadyCount` (388-396): `for(auto q : message_queues)` copies every queue; request number `n`
  is the copy of the `n`-th queue.
* The texts of `MissingSubscriber` and `SubscriptionMismatch` (174-199), wherever they are thrown.
* `get`, `readyCount`, `clear`, `unsubscribe`, `subscriberCount`, `~SubscriptionCl` ask for nothing
  unless they throw.

A method that fails releases `mtx`: the `lock_guard` is destroyed when the exception passes.
Objects are destroyed in the reverse order of construction.
-/
namespace SoDa.Mail

variable {P : Type}

/-- A call, and which of its requests for memory fails (`none`: all of them succeed). -/
structure OpA (P : Type) where
  op : Op P
  fail : Option Nat
  deriving DecidableEq, Repr

/-- How a call ends when memory may run out. -/
inductive RespA (P : Type) where
  | normal (r : Resp P)
  /-- `std::bad_alloc` -/
  | badAlloc
  deriving DecidableEq, Repr

/-- The program goes on after this response. -/
def RespA.Normal : RespA P → Prop
  | .normal r => r.Normal
  | .badAlloc => True

/-- The omitted key of `put` (352-355). -/
def omitKey (this : Addr) (b : Box P) : Option Sub → Res Err Int
  | none => .ok b.counter
  | some s => getIndex this (some s)

/-- The ids whose queues the loop of `put` (356-360) pushes to, in the order of the map. -/
def receivers (b : Box P) (omit_key : Int) : List Int := (b.queues.map (·.1)).filter (· ≠ omit_key)

/-- `push` into the queues of the ids `ks`. -/
def pushTo (msg : Option P) (ks : List Int) (b : Box P) : Box P :=
  { b with queues := b.queues.map fun kq => if kq.1 ∈ ks then (kq.1, kq.2 ++ [msg]) else kq }

/-- One uninterrupted call on the mailbox at address `this`.

`subscribe`, 306-317: if the first request fails, nothing has been done.  If a later one fails,
`ret` is destroyed while `lock` still exists (it was constructed after it); `~SubscriptionCl` (278)
calls `unsubscribe`, which locks the mutex the same thread holds already: undefined. -/
def execA (this : Addr) (b : Box P) (c : OpA P) : Box P × RespA P :=
  let normal := ((exec this b c.op).1, RespA.normal (exec this b c.op).2)
  match c.fail with
  | none => normal
  | some n =>
    match c.op with
    | .subscribe => if n = 0 then (b, .badAlloc) else (b, .normal .ub)
    | .put msg subs =>
      match omitKey this b subs with
      | .ok k =>
        if n < (receivers b k).length then (pushTo msg ((receivers b k).take n) b, .badAlloc)
        else normal
      | .throw _ => (b, .badAlloc)
      | .ub => normal
    | .minReadyCount => if n < b.queues.length then (b, .badAlloc) else normal
    | _ =>
      match (exec this b c.op).2 with
      | .threw _ => (b, .badAlloc)
      | _ => normal

/-- A call with its response. -/
structure EventA (P : Type) where
  thread : Nat
  call : OpA P
  resp : RespA P
  deriving DecidableEq, Repr

/-- Histories of one mailbox, with calls that run out of memory. -/
inductive RunA (this : Addr) : Box P → List (EventA P) → Box P → Prop where
  | nil {b} : RunA this b [] b
  | snoc {b tr b' t c r b''} (h : RunA this b tr b') (he : execA this b' c = (b'', r))
      (hn : r.Normal) : RunA this b (tr ++ [⟨t, c, r⟩]) b''

/-! ### As sequences of steps under the lock -/

open Monitor (Body)

/-- The loop of `put` (356-360) as single steps; the `n`-th `push` fails. -/
def pushLoopA (msg : Option P) (omit_key : Int) : Nat → List Int → Body (Box P) (RespA P)
  | _, [] => .ret (.normal .done)
  | n, k :: ks =>
    if k ≠ omit_key then
      match n with
      | 0 => .ret .badAlloc
      | n + 1 => .act (fun b => { b with queues := b.queues.map fun kq =>
          if kq.1 = k then (kq.1, kq.2 ++ [msg]) else kq }) fun _ => pushLoopA msg omit_key n ks
    else pushLoopA msg omit_key n ks

/-- The loop of `minReadyCount` (391-394) as single steps; the copy of the `n`-th queue fails. -/
def minLoopA (ret : Nat) : Nat → List Int → Body (Box P) (RespA P)
  | _, [] => .ret (.normal (.count ret))
  | 0, _ :: _ => .ret .badAlloc
  | n + 1, k :: ks => look' fun b =>
    match mapFind intLess k b.queues with
    | none => minLoopA ret n ks
    | some q => minLoopA ((if ret < q.length then ret else q.length) % 4294967296) n ks
where
  /-- One step that reads the state. -/
  look' (k : Box P → Body (Box P) (RespA P)) : Body (Box P) (RespA P) := .act id k

/-- The same steps with the responses changed. -/
def mapBody {S R R' : Type} (f : R → R') : Body S R → Body S R'
  | .ret r => .ret (f r)
  | .act g k => .act g fun s => mapBody f (k s)

/-- The response of a call without requests for memory other than for the text of an exception. -/
def textFails : Resp P → RespA P
  | .threw _ => .badAlloc
  | r => .normal r

/-- The critical section of a call. -/
def bodyA (this : Addr) (c : OpA P) : Body (Box P) (RespA P) :=
  match c.fail with
  | none => mapBody .normal (body this c.op)
  | some n =>
    match c.op with
    | .subscribe => if n = 0 then .ret .badAlloc else .ret (.normal .ub)
    | .put msg subs => .act id fun b =>
        match omitKey this b subs with
        | .ok k => .act id fun b => pushLoopA msg k n (b.queues.map (·.1))
        | .throw _ => .ret .badAlloc
        | .ub => .ret (.normal .ub)
    | .minReadyCount => .act id fun b => minLoopA 4294967295 n (b.queues.map (·.1))
    | o => mapBody textFails (body this o)

end SoDa.Mail
