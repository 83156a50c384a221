import Verif.Model.MailBox
/-!
The methods of several mailboxes (include/MailBox.hxx) with the construction and destruction of the `std::lock_guard`s as statements
of their own, and with what happens when the last pointer to a message is destroyed inside a method: the destructor of the message
runs there, and it may call mailboxes.

In `Verif.Model.Monitor` a call takes the mutex, runs its critical section, and releases the mutex because the model says so.  Here
the mutex is a variable, `lock_guard` is code, and a thread that executes statements without it simply does so.

* Every address has a mailbox, from the beginning to the end.  (Mailboxes that are constructed and destroyed: `World` in
  `Verif.Model.MailBox`.)
* The destructor of message `p` makes the calls `dtor p`, one after the other; a destructor must not throw.  It discards the results.
  Pointers to messages that are members of a message are not counted.
* The pointers of the program are counted, but not which thread has them.
* `std::bad_alloc` is thrown only where line 313 fails (`subscribeFails`); the other places are in `Verif.Model.MailBoxAlloc`.
-/
namespace SoDa.Mail.Guard

variable {P : Type}

/-- A call of a method of a mailbox. -/
inductive Call (P : Type) where
  | op (o : Op P)
  /-- `subscribe`, in which a request for memory of line 313 fails -/
  | subscribeFails
  deriving DecidableEq, Repr

/-- The rest of a method. -/
inductive Code (P : Type) where
  | ret (r : Resp P)
  /-- a `std::lock_guard` on the mutex of the mailbox is constructed, destroyed -/
  | lock (k : Code P)
  | unlock (k : Code P)
  /-- access to the members of the mailbox -/
  | act (f : Box P → Box P) (k : Box P → Code P)
  /-- `q.second.push(msg)`, 358 -/
  | push (i : Int) (msg : Option P) (k : Code P)
  /-- `mqueue.pop()`, 407, 414 -/
  | pop (i : Int) (k : Code P)
  /-- `auto ret = mqueue.front(); mqueue.pop();`, 335-336 -/
  | take (i : Int) (k : Code P)
  /-- the destructor of a local variable makes these calls -/
  | invoke (os : List (Addr × Call P)) (k : Code P)

/-- Wherever the scope is left, the guard is destroyed. -/
def Code.thenUnlock : Code P → Code P
  | .ret r => .unlock (.ret r)
  | .lock k => .lock k.thenUnlock
  | .unlock k => .unlock k.thenUnlock
  | .act f k => .act f fun b => (k b).thenUnlock
  | .push i msg k => .push i msg k.thenUnlock
  | .pop i k => .pop i k.thenUnlock
  | .take i k => .take i k.thenUnlock
  | .invoke os k => .invoke os k.thenUnlock

/-- `std::lock_guard<std::mutex> lock(mtx);` followed by the rest of the method. -/
def lockGuard (c : Code P) : Code P := .lock c.thenUnlock

/-- One step that reads the state. -/
def look (k : Box P → Code P) : Code P := .act id k

/-- Throw, or go on. -/
def onRes {α : Type} (r : Res Err α) (k : α → Code P) : Code P :=
  match r with
  | .ok a => k a
  | .throw e => .ret (.threw e)
  | .ub => .ret .ub

/-- The loop of `put`, 356-360. -/
def pushLoop (msg : Option P) (omit_key : Int) : List Int → Code P
  | [] => .ret .done
  | k :: ks => if k ≠ omit_key then .push k msg (pushLoop msg omit_key ks) else pushLoop msg omit_key ks

/-- `while(!mqueue.empty()) mqueue.pop();`, 407, 414. -/
def popLoop (idx : Int) (fin : Code P) : Nat → Code P
  | 0 => fin
  | n + 1 => .pop idx (popLoop idx fin n)

/-- The loop of `minReadyCount`, 391-394; the copies of the queues are never the last pointers. -/
def minLoop (ret : Nat) : List Int → Code P
  | [] => .ret (.count ret)
  | k :: ks => look fun b =>
    match mapFind intLess k b.queues with
    | none => minLoop ret ks
    | some q => minLoop ((if ret < q.length then ret else q.length) % 4294967296) ks

/-- `unsubscribe`, 410-417; `failed` is the response if the id is unknown. -/
def unsubscribe (subid : Int) (failed : Err → Resp P) : Code P :=
  lockGuard <| look fun b => match b.getQueueI subid with
    | .ok q => popLoop subid
        (.act (fun b => { b with queues := mapErase intLess subid b.queues }) fun _ => .ret .done) q.length
    | .throw e => .ret (failed e)
    | .ub => .ret .ub

/-- The methods, 306-422, and `~SubscriptionCl`, 278-280, of the mailbox at `this`. -/
def method (this : Addr) : Call P → Code P
  | .op .subscribe => lockGuard <| look fun b =>
      .act (fun b => b.setQueue b.counter []) fun _ =>
        if b.counter = 2147483647 then .ret .ub
        else .act (fun b => { b with counter := b.counter + 1 }) fun _ => .ret (.sub ⟨this, b.counter⟩)
  -- 313 throws; `ret` (309) was constructed after `lock` (307), so it is destroyed before it
  | .subscribeFails => lockGuard <| look fun b =>
      .invoke [(this, .op (.drop ⟨this, b.counter⟩))] (.ret .ub)
  | .op (.get subs) => lockGuard <| look fun b => onRes (b.getQueue this subs) fun (idx, q) =>
      match q with
      | [] => .ret (.msg none)
      | m :: _ => .take idx (.ret (.msg m))
  | .op (.put msg subs) => lockGuard <| look fun b =>
      onRes (match subs with
        | none => .ok b.counter
        | some s => getIndex this (some s)) fun omit_key =>
        look fun b => pushLoop msg omit_key (b.queues.map (·.1))
  | .op (.readyCount subs) => lockGuard <| look fun b => onRes (b.readyCount this subs) fun n => .ret (.count n)
  | .op .minReadyCount => lockGuard <| look fun b => minLoop 4294967295 (b.queues.map (·.1))
  | .op (.clear subs) => lockGuard <| look fun b => onRes (b.getQueue this subs) fun (idx, q) =>
      popLoop idx (.ret .done) q.length
  | .op (.unsubscribe subid) => unsubscribe subid .threw
  | .op .subscriberCount => lockGuard <| look fun b => .ret (.count b.subscriberCount)
  | .op (.drop s) => unsubscribe s.idx fun _ => .terminate

/-! ### Threads -/

/-- What a thread has to do, innermost first. -/
inductive Item (P : Type) where
  /-- the rest of a call of a method of the mailbox at `a` -/
  | frame (a : Addr) (o : Call P) (c : Code P)
  /-- the rest of the calls of a destructor -/
  | dtor (os : List (Addr × Call P))
  /-- pointers to these messages are to be destroyed -/
  | release (ps : List P)

/-- The mailboxes, who holds their mutexes, the number of pointers to each message, the number of those that are in variables of the
program, the messages constructed, and what the threads have to do. -/
structure Conf (P : Type) where
  boxes : Addr → Box P
  holder : Addr → Option Nat
  count : P → Nat
  mine : P → Nat
  made : List P
  stack : Nat → List (Item P)

/-- What happens in a step. -/
inductive Label (P : Type) where
  | make (t : Nat) (p : P)
  | copy (t : Nat) (p : P)
  | release (t : Nat) (p : P)
  | call (t : Nat) (a : Addr) (o : Call P)
  | lock (t : Nat) (a : Addr)
  | act (t : Nat) (a : Addr)
  | unlock (t : Nat) (a : Addr) (o : Call P) (r : Resp P)
  | ret (t : Nat) (a : Addr) (o : Call P) (r : Resp P)
  /-- a step outside of the methods -/
  | other (t : Nat)
  deriving DecidableEq, Repr

/-- Change a function at one point. -/
def update {A B : Type} [DecidableEq A] (f : A → B) (a : A) (b : B) : A → B := fun x => if x = a then b else f x

/-- The message passed by a call. -/
def Call.args : Call P → List P
  | .op (.put (some p) _) => [p]
  | _ => []

/-- The message returned by a call. -/
def resultOf : Resp P → List P
  | .msg (some p) => [p]
  | _ => []

/-- `q.second.push(msg)` in the map. -/
def pushFn (i : Int) (msg : Option P) (b : Box P) : Box P :=
  { b with queues := b.queues.map fun kq => if kq.1 = i then (kq.1, kq.2 ++ [msg]) else kq }

/-- `mqueue.pop()` in the map. -/
def popFn (i : Int) (b : Box P) : Box P :=
  { b with queues := b.queues.map fun kq => if kq.1 = i then (kq.1, kq.2.tail) else kq }

/-- The message that `mqueue.pop()` removes. -/
def front (i : Int) (b : Box P) : Option P :=
  match mapFind intLess i b.queues with
  | some (m :: _) => m
  | _ => none

variable [DecidableEq P]

/-- One more pointer to each of these messages. -/
def incAll (f : P → Nat) (ps : List P) : P → Nat := ps.foldl (fun f p => update f p (f p + 1)) f

namespace Conf

def setStack (c : Conf P) (t : Nat) (s : List (Item P)) : Conf P := { c with stack := update c.stack t s }

/-- A method is called: the parameters are initialised. -/
def enter (c : Conf P) (t : Nat) (a : Addr) (o : Call P) (s : List (Item P)) : Conf P :=
  { c with count := incAll c.count o.args, stack := update c.stack t (.frame a o (method a o) :: s) }

/-- A pointer to `p` is destroyed by thread `t`, which goes on with `s`. -/
def lose (dtor : P → List (Addr × Call P)) (c : Conf P) (t : Nat) (p : P) (s : List (Item P)) : Conf P :=
  { c with
    count := update c.count p (c.count p - 1)
    stack := update c.stack t (if c.count p = 1 then .dtor (dtor p) :: s else s) }

end Conf

/-- The next step of thread `t`, if it has one: it has none if it has nothing to do, waits for a mutex, or has ended the program. -/
def next (dtor : P → List (Addr × Call P)) (c : Conf P) (t : Nat) : Option (Label P × Conf P) :=
  match c.stack t with
  | [] => none
  | .dtor [] :: s => some (.other t, c.setStack t s)
  | .dtor ((a, o) :: os) :: s => some (.call t a o, c.enter t a o (.dtor os :: s))
  | .release [] :: s => some (.other t, c.setStack t s)
  | .release (p :: ps) :: s => some (.other t, c.lose dtor t p (.release ps :: s))
  | .frame a o (.lock k) :: s =>
    if c.holder a = none then
      some (.lock t a, { c with holder := update c.holder a (some t), stack := update c.stack t (.frame a o k :: s) })
    else none
  | .frame a o (.unlock k) :: s =>
    match k with
    | .ret r =>
      -- undefined behaviour and `std::terminate` end the program
      match r with
      | .ub => none
      | .terminate => none
      | r => some (.unlock t a o r, { c with holder := update c.holder a none, stack := update c.stack t (.frame a o (.ret r) :: s) })
    | _ => none
  | .frame a o (.act f k) :: s =>
    some (.act t a, { c with boxes := update c.boxes a (f (c.boxes a)), stack := update c.stack t (.frame a o (k (c.boxes a)) :: s) })
  | .frame a o (.push i msg k) :: s =>
    some (.act t a, { c with
      boxes := update c.boxes a (pushFn i msg (c.boxes a))
      count := incAll c.count msg.toList
      stack := update c.stack t (.frame a o k :: s) })
  | .frame a o (.pop i k) :: s =>
    some (.act t a,
      match front i (c.boxes a) with
      | none => { c with boxes := update c.boxes a (popFn i (c.boxes a)), stack := update c.stack t (.frame a o k :: s) }
      | some p => { c with boxes := update c.boxes a (popFn i (c.boxes a)) }.lose dtor t p (.frame a o k :: s))
  | .frame a o (.take i k) :: s =>
    some (.act t a, { c with boxes := update c.boxes a (popFn i (c.boxes a)), stack := update c.stack t (.frame a o k :: s) })
  | .frame a o (.invoke os k) :: s => some (.other t, c.setStack t (.dtor os :: .frame a o k :: s))
  | .frame a o (.ret r) :: s =>
    match s with
    -- the result belongs to the program
    | [] => some (.ret t a o r, { c with mine := incAll c.mine (resultOf r), stack := update c.stack t [.release o.args] })
    | _ =>
      -- in a destructor: the result is discarded; an exception must not leave it
      match r with
      | .threw _ => none
      | r => some (.ret t a o r, c.setStack t (.release (o.args ++ resultOf r) :: s))

/-- Executions: the threads construct messages, copy and destroy pointers, and call methods.  All mailboxes are new at the
beginning. -/
inductive Steps (dtor : P → List (Addr × Call P)) (name : Addr → Str) : List (Label P) → Conf P → Prop where
  | init : Steps dtor name []
      { boxes := fun a => Box.new (name a), holder := fun _ => none, count := fun _ => 0, mine := fun _ => 0, made := [], stack := fun _ => [] }
  | make {ls c t p} : Steps dtor name ls c → c.stack t = [] → p ∉ c.made →
      Steps dtor name (ls ++ [.make t p]) { c with count := update c.count p 1, mine := update c.mine p 1, made := p :: c.made }
  | copy {ls c t p} : Steps dtor name ls c → c.stack t = [] → 0 < c.mine p →
      Steps dtor name (ls ++ [.copy t p]) { c with count := incAll c.count [p], mine := incAll c.mine [p] }
  | release {ls c t p} : Steps dtor name ls c → c.stack t = [] → 0 < c.mine p →
      Steps dtor name (ls ++ [.release t p]) { c with mine := update c.mine p (c.mine p - 1), stack := update c.stack t [.release [p]] }
  | call {ls c t a o} : Steps dtor name ls c → c.stack t = [] → (∀ p ∈ o.args, 0 < c.mine p) →
      Steps dtor name (ls ++ [.call t a o]) (c.enter t a o [])
  | go {ls c t l c'} : Steps dtor name ls c → next dtor c t = some (l, c') → Steps dtor name (ls ++ [l]) c'

end SoDa.Mail.Guard
