import Verif.Model.MailBox
/-!
Mailboxes made by `makeMailBox` (include/MailBox.hxx:454-457), with the `std::shared_ptr`s to them and the `Subscription`s, in the
variables of several threads.

* A `MailBoxPtr<T>` is a pointer with a count of all pointers to the mailbox (`refs`); when the count goes to zero the mailbox is destroyed
  (`~MailBox`, 263-268) by the thread that destroys the last pointer.
* A `Subscription` (297) is a `std::unique_ptr<SubscriptionCl>`; when it is destroyed or assigned to, `~SubscriptionCl` (278-280) calls
  `unsubscribe` of the mailbox by means of a bare pointer.
* All variables belong to one thread each.  A thread begins with copies of pointers in its variables (the arguments of `std::thread`), to
  mailboxes made before.
* A call of a method takes two steps, one that enters it and one that does everything the method does (it has the mutex during that time,
  C127) and leaves it.  Between the two any other thread may do something.  To enter a method of a mailbox that has been destroyed, and to
  destroy a mailbox while a thread is inside of one of its methods, is undefined.
* Exceptions of methods are caught by the caller.  Where a new mailbox is in memory is for `alloc` to say; the place may have been used
  before.
* Not modelled: `unsubscribe` called by the program, mailboxes that are not made by `makeMailBox` (both C47, C105), pointers that are handed to
  threads that are running.
-/
namespace SoDa.Mail

variable {P : Type}

/-- A call of a method with subscriptions in variables. -/
inductive PCall (P : Type) where
  | get (s : Nat)
  /-- `s = none`: the second argument is left out -/
  | put (msg : Option P) (s : Option Nat)
  | readyCount (s : Nat)
  | minReadyCount
  | clear (s : Nat)
  | subscriberCount
  deriving DecidableEq, Repr

/-- A statement of a thread; `x`, `y` are its variables of type `MailBoxPtr<T>`, `s`, `s'` those of type `Subscription`. -/
inductive PStmt (P : Type) where
  /-- `x = makeMailBox<T>(name);` -/
  | make (x : Nat) (name : Str)
  /-- `x = y;` -/
  | copy (x y : Nat)
  /-- `x = nullptr;` or the end of the scope of `x` -/
  | reset (x : Nat)
  /-- `s = x->subscribe();` -/
  | subscribe (s x : Nat)
  /-- `s = nullptr;` or the end of the scope of `s` -/
  | drop (s : Nat)
  /-- `s = std::move(s');` -/
  | move (s s' : Nat)
  /-- `x->method(...);` -/
  | call (x : Nat) (c : PCall P)
  deriving DecidableEq, Repr

/-- The call with the subscriptions that are in the variables. -/
def PCall.op (sub : Nat → Option Sub) : PCall P → Op P
  | .get s => .get (sub s)
  | .put msg s => .put msg (s.bind sub)
  | .readyCount s => .readyCount (sub s)
  | .minReadyCount => .minReadyCount
  | .clear s => .clear (sub s)
  | .subscriberCount => .subscriberCount

/-- The method a thread is inside of: called by the program, with the variable for the result of `subscribe`, or by `~SubscriptionCl`. -/
inductive Pending (P : Type) where
  | call (a : Addr) (o : Op P) (dest : Option Nat)
  | drop (s : Sub)
  deriving DecidableEq, Repr

/-- The mailbox of the method. -/
def Pending.on : Pending P → Addr
  | .call a _ _ => a
  | .drop s => s.box

/-- A thread: its variables, the method it is inside of, the statements that it has not begun. -/
structure PThread (P : Type) where
  ptr : Nat → Option Addr
  sub : Nat → Option Sub
  busy : Option (Pending P)
  todo : List (PStmt P)

/-- The mailboxes, the counts of the pointers to them, the addresses ever used, and `n` threads. -/
structure PState (P : Type) where
  world : World P
  refs : Addr → Nat
  made : List Addr
  n : Nat
  thr : Nat → PThread P

namespace PState

/-- Another state of one thread. -/
def put (σ : PState P) (t : Nat) (th : PThread P) : PState P := { σ with thr := fun u => if u = t then th else σ.thr u }

/-- Another value of one variable. -/
def _root_.SoDa.Mail.PThread.setPtr (th : PThread P) (x : Nat) (o : Option Addr) : PThread P :=
  { th with ptr := fun y => if y = x then o else th.ptr y }

def _root_.SoDa.Mail.PThread.setSub (th : PThread P) (s : Nat) (o : Option Sub) : PThread P :=
  { th with sub := fun y => if y = s then o else th.sub y }

/-- Another count. -/
def setRefs (σ : PState P) (a : Addr) (k : Nat) : PState P := { σ with refs := fun b => if b = a then k else σ.refs b }

/-- A copy of a pointer is made. -/
def retain (σ : PState P) : Option Addr → PState P
  | none => σ
  | some a => σ.setRefs a (σ.refs a + 1)

/-- A thread is inside of a method of the mailbox. -/
def inUse (σ : PState P) (a : Addr) : Bool :=
  (List.range σ.n).any fun t => match (σ.thr t).busy with
    | some p => p.on == a
    | none => false

/-- A pointer is destroyed; with the last one the mailbox. -/
def release (σ : PState P) : Option Addr → Res Unit (PState P)
  | none => .ok σ
  | some a =>
    if σ.refs a = 1 then
      if σ.inUse a then .ub else .ok { σ.setRefs a 0 with world := σ.world.set a none }
    else .ok (σ.setRefs a (σ.refs a - 1))

/-- A thread enters a method. -/
def enter (σ : PState P) (t : Nat) (p : Pending P) : Res Unit (PState P) :=
  match σ.world p.on with
  | none => .ub
  | some _ => .ok (σ.put t { σ.thr t with busy := some p })

/-- The subscription that was in a variable is destroyed. -/
def dropOld (σ : PState P) (t : Nat) : Option Sub → Res Unit (PState P)
  | none => .ok σ
  | some b => σ.enter t (.drop b)

/-- A statement begins. -/
def begin (alloc : PState P → Addr) (σ : PState P) (t : Nat) : PStmt P → Res Unit (PState P)
  | .make x name =>
    let a := alloc σ
    let σ' := { σ.setRefs a 1 with world := σ.world.set a (some (Box.new name)), made := a :: σ.made }
    (σ'.put t ((σ.thr t).setPtr x (some a))).release ((σ.thr t).ptr x)
  | .copy x y => ((σ.retain ((σ.thr t).ptr y)).put t ((σ.thr t).setPtr x ((σ.thr t).ptr y))).release ((σ.thr t).ptr x)
  | .reset x => (σ.put t ((σ.thr t).setPtr x none)).release ((σ.thr t).ptr x)
  | .subscribe s x =>
    match (σ.thr t).ptr x with
    | none => .ub
    | some a => σ.enter t (.call a .subscribe (some s))
  | .drop s => (σ.put t ((σ.thr t).setSub s none)).dropOld t ((σ.thr t).sub s)
  | .move s s' =>
    if s = s' then .ok σ
    else (σ.put t (((σ.thr t).setSub s' none).setSub s ((σ.thr t).sub s'))).dropOld t ((σ.thr t).sub s)
  | .call x c =>
    match (σ.thr t).ptr x with
    | none => .ub
    | some a => σ.enter t (.call a (c.op (σ.thr t).sub) none)

/-- A method does its work and returns.  `std::terminate` is `throw ()`. -/
def finish (σ : PState P) (t : Nat) : Pending P → Res Unit (PState P)
  | .call a o dest =>
    let r := σ.world.exec (.call a o)
    let th := { σ.thr t with busy := none }
    match r.2, dest with
    | .ub, _ => .ub
    | .terminate, _ => .throw ()
    | .sub b, some s => ({ σ with world := r.1 }.put t (th.setSub s (some b))).dropOld t ((σ.thr t).sub s)
    | _, _ => .ok ({ σ with world := r.1 }.put t th)
  | .drop b =>
    let r := σ.world.exec (.drop b)
    match r.2 with
    | .ub => .ub
    | .terminate => .throw ()
    | _ => .ok ({ σ with world := r.1 }.put t { σ.thr t with busy := none })

/-- The next step of thread `t`; `none` if it has ended. -/
def step (alloc : PState P → Addr) (σ : PState P) (t : Nat) : Option (Res Unit (PState P)) :=
  if t < σ.n then
    match (σ.thr t).busy, (σ.thr t).todo with
    | some p, _ => some (σ.finish t p)
    | none, st :: rest => some ((σ.put t { σ.thr t with todo := rest }).begin alloc t st)
    | none, [] => none
  else none

/-- The steps of the threads in the order of the list; threads that have ended are passed over. -/
def run (alloc : PState P → Addr) (σ : PState P) : List Nat → Res Unit (PState P)
  | [] => .ok σ
  | t :: ts =>
    match σ.step alloc t with
    | none => σ.run alloc ts
    | some r => r.bind fun σ' => σ'.run alloc ts

/-- The start: mailboxes with the given names (number `a` at address `a`), and threads, each with pointers to some mailboxes in its
variables and its statements.  A mailbox to which no thread has a pointer is gone. -/
def start (names : List Str) (threads : List (List Nat × List (PStmt P))) : PState P where
  world a := if (threads.flatMap (·.1)).count a = 0 then none else names[a]?.map Box.new
  refs a := (threads.flatMap (·.1)).count a
  made := List.range names.length
  n := threads.length
  thr t := match threads[t]? with
    | some th => ⟨fun x => th.1[x]?, fun _ => none, none, th.2⟩
    | none => ⟨fun _ => none, fun _ => none, none, []⟩

end PState
end SoDa.Mail
