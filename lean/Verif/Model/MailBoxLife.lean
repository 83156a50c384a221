import Verif.Model.MailBox
/-!
Messages as objects: `include/MailBox.hxx` with the reference counts of the `std::shared_ptr<T>`s.

A message is constructed by the program together with its first pointer (`std::make_shared`).  Every copy of a pointer, in a
variable, a parameter or a queue, increments the count of the message; the destruction of a pointer decrements it, and destroys the
message when it reaches zero (in the thread that does that, at that point).  The counts are atomic: other threads may copy and
destroy pointers while a thread is inside a call.

The steps of the calls are those of `Verif.Model.MailBox` (`body`), with what they do to the counts.
-/
namespace SoDa.Mail
open Monitor (Body Conf Phase setPhase)

variable {P : Type} [DecidableEq P]

/-- Where a pointer outside of the mailbox is: in a variable of thread `t`, in the parameter `msg` of its call of `put` (350), or in
the local variable `ret` of its call of `get` (335). -/
inductive Owner where
  | var (t : Nat)
  | param (t : Nat)
  | loc (t : Nat)
  deriving DecidableEq, Repr

/-- The mailbox, the reference counts, the pointers outside of the mailbox, the messages constructed, and those destroyed: with the
mutex of the mailbox held by the thread that destroys it, or not. -/
structure Mem (P : Type) where
  box : Box P
  count : P → Nat
  vars : List (Owner × P)
  made : List P
  gone : List (P × Bool)

namespace Mem

/-- A `shared_ptr` is copied. -/
def inc (p : P) (m : Mem P) : Mem P := { m with count := fun x => if x = p then m.count x + 1 else m.count x }

/-- A `shared_ptr` is destroyed. -/
def dec (locked : Bool) (p : P) (m : Mem P) : Mem P :=
  { m with
    count := fun x => if x = p then m.count x - 1 else m.count x
    gone := if m.count p = 1 then m.gone ++ [(p, locked)] else m.gone }

/-- The same for a pointer that may be null. -/
def incO (x : Option P) (m : Mem P) : Mem P :=
  match x with
  | none => m
  | some p => m.inc p

def decO (locked : Bool) (x : Option P) (m : Mem P) : Mem P :=
  match x with
  | none => m
  | some p => m.dec locked p

/-- The elements of a queue are copied, destroyed. -/
def incs (q : List (Option P)) (m : Mem P) : Mem P := q.foldl (fun m x => m.incO x) m

def decs (locked : Bool) (q : List (Option P)) (m : Mem P) : Mem P := q.foldl (fun m x => m.decO locked x) m

/-- `q.second.push(msg)`, 358. -/
def pushAt (k : Int) (msg : Option P) (m : Mem P) : Mem P :=
  match mapFind intLess k m.box.queues with
  | none => m
  | some q => { m.incO msg with box := m.box.setQueue k (q ++ [msg]) }

/-- `mqueue.pop()`, 407, 414. -/
def popAt (k : Int) (m : Mem P) : Mem P :=
  match mapFind intLess k m.box.queues with
  | some (x :: q) => { m with box := m.box.setQueue k q }.decO true x
  | _ => m

/-- `auto ret = mqueue.front(); mqueue.pop();`, 335-336. -/
def takeAt (t : Nat) (k : Int) (m : Mem P) : Mem P :=
  match mapFind intLess k m.box.queues with
  | some (x :: q) =>
    { m.incO x with box := m.box.setQueue k q, vars := (x.toList.map fun p => (Owner.loc t, p)) ++ m.vars }.decO true x
  | _ => m

/-- `message_queues[subscription_counter] = std::queue<std::shared_ptr<T>>();`, 313: the previous contents, if any, are destroyed. -/
def replaceAt (k : Int) (m : Mem P) : Mem P :=
  { m with box := m.box.setQueue k [] }.decs true ((mapFind intLess k m.box.queues).getD [])

/-- `message_queues.erase(subid)`, 416. -/
def eraseAt (k : Int) (m : Mem P) : Mem P :=
  { m with box := { m.box with queues := mapErase intLess k m.box.queues } }.decs true ((mapFind intLess k m.box.queues).getD [])

/-- `for(auto q : message_queues)`, 391: the queue is copied, and the copy destroyed at the end of the iteration. -/
def copyAt (k : Int) (m : Mem P) : Mem P :=
  (m.incs ((mapFind intLess k m.box.queues).getD [])).decs true ((mapFind intLess k m.box.queues).getD [])

/-- The parameters of a call are initialised. -/
def enter (t : Nat) (ps : List P) (m : Mem P) : Mem P :=
  { m.incs (ps.map some) with vars := (ps.map fun p => (Owner.param t, p)) ++ m.vars }

/-- A call returns: the result is in a variable of the caller, and the parameters are destroyed. -/
def leave (t : Nat) (m : Mem P) : Mem P :=
  decs false ((m.vars.filter fun v => v.1 = Owner.param t).map fun v => some v.2)
    { m with vars := (m.vars.filter fun v => v.1 ≠ Owner.param t).map fun v => if v.1 = Owner.loc t then (Owner.var t, v.2) else v }

end Mem

/-! ### The calls -/

/-- One step that reads the state. -/
def lookL {R : Type} (k : Box P → Body (Mem P) R) : Body (Mem P) R := .act id fun m => k m.box

/-- Throw, or continue with a value computed from the state. -/
def onResL {α : Type} (r : Res Err α) (k : α → Body (Mem P) (Resp P)) : Body (Mem P) (Resp P) :=
  match r with
  | .ok a => k a
  | .throw e => .ret (.threw e)
  | .ub => .ret .ub

/-- The loop of `put`, 356-360. -/
def pushLoopL (msg : Option P) (omit_key : Int) : List Int → Body (Mem P) (Resp P)
  | [] => .ret .done
  | k :: ks => if k ≠ omit_key then .act (Mem.pushAt k msg) fun _ => pushLoopL msg omit_key ks else pushLoopL msg omit_key ks

/-- `while(!mqueue.empty()) mqueue.pop();`, 407, 414. -/
def popLoopL (idx : Int) (fin : Body (Mem P) (Resp P)) : Nat → Body (Mem P) (Resp P)
  | 0 => fin
  | n + 1 => .act (Mem.popAt idx) fun _ => popLoopL idx fin n

/-- The loop of `minReadyCount`, 391-394. -/
def minLoopL (ret : Nat) : List Int → Body (Mem P) (Resp P)
  | [] => .ret (.count ret)
  | k :: ks => .act (Mem.copyAt k) fun m =>
    match mapFind intLess k m.box.queues with
    | none => minLoopL ret ks
    | some q => minLoopL ((if ret < q.length then ret else q.length) % 4294967296) ks

/-- `unsubscribe`, 410-417. -/
def unsubBodyL (subid : Int) (failed : Err → Resp P) : Body (Mem P) (Resp P) :=
  lookL fun b => match b.getQueueI subid with
    | .ok q => popLoopL subid (.act (Mem.eraseAt subid) fun _ => .ret .done) q.length
    | .throw e => .ret (failed e)
    | .ub => .ret .ub

/-- The critical section of a call by thread `t`, 306-422. -/
def bodyL (this : Addr) (t : Nat) : Op P → Body (Mem P) (Resp P)
  | .subscribe => lookL fun b =>
      .act (Mem.replaceAt b.counter) fun _ =>
        if b.counter = 2147483647 then .ret .ub
        else .act (fun m => { m with box := { m.box with counter := m.box.counter + 1 } }) fun _ => .ret (.sub ⟨this, b.counter⟩)
  | .get subs => lookL fun b => onResL (b.getQueue this subs) fun (idx, q) =>
      match q with
      | [] => .ret (.msg none)
      | x :: _ => .act (Mem.takeAt t idx) fun _ => .ret (.msg x)
  | .put msg subs => lookL fun b =>
      onResL (match subs with
        | none => .ok b.counter
        | some s => getIndex this (some s)) fun omit_key =>
        lookL fun b => pushLoopL msg omit_key (b.queues.map (·.1))
  | .readyCount subs => lookL fun b => onResL (b.readyCount this subs) fun n => .ret (.count n)
  | .minReadyCount => lookL fun b => minLoopL 4294967295 (b.queues.map (·.1))
  | .clear subs => lookL fun b => onResL (b.getQueue this subs) fun (idx, q) => popLoopL idx (.ret .done) q.length
  | .unsubscribe subid => unsubBodyL subid .threw
  | .subscriberCount => lookL fun b => .ret (.count b.subscriberCount)
  | .drop s => unsubBodyL s.idx fun _ => .terminate

/-! ### Programs -/

/-- The state of the program.  Calls are labelled with the thread that makes them. -/
abbrev LConf (P : Type) := Conf Nat (Mem P) (Nat × Op P) (Resp P)

/-- What happens in a step. -/
inductive LLabel (P : Type) where
  /-- `std::make_shared<T>(...)` into a variable -/
  | make (t : Nat) (p : P)
  /-- a pointer in a variable is copied to a variable of thread `u` (its own, or one of a thread it starts) -/
  | copy (t u : Nat) (p : P)
  /-- a variable with a pointer is destroyed or assigned -/
  | release (t : Nat) (p : P)
  /-- a step of a call -/
  | mon (l : Monitor.Label Nat (Nat × Op P) (Resp P))

/-- The pointers that are passed by a call. -/
def Op.args : Op P → List P
  | .put (some p) _ => [p]
  | _ => []

/-- Steps of the program: the threads make messages, copy and release their pointers, and call the methods of the mailbox. -/
inductive LStep (this : Addr) : LConf P → LLabel P → LConf P → Prop where
  | make {c t p} : c.phase t = .idle → p ∉ c.shared.made →
      LStep this c (.make t p) { c with shared := { c.shared.inc p with made := p :: c.shared.made, vars := (.var t, p) :: c.shared.vars } }
  | copy {c t u p} : c.phase t = .idle → (.var t, p) ∈ c.shared.vars →
      LStep this c (.copy t u p) { c with shared := { c.shared.inc p with vars := (.var u, p) :: c.shared.vars } }
  | release {c t p} : c.phase t = .idle → (.var t, p) ∈ c.shared.vars →
      LStep this c (.release t p) { c with shared := { c.shared with vars := c.shared.vars.erase (.var t, p) }.dec false p }
  | call {c t o} : c.phase t = .idle → (∀ p ∈ o.args, (.var t, p) ∈ c.shared.vars) →
      LStep this c (.mon (.call t (t, o)))
        { c with shared := c.shared.enter t o.args, phase := setPhase c.phase t (.wants (t, o)) }
  /-- the pointer is moved to the parameter, or the parameter is initialised with a temporary: `put(std::make_shared<T>())` -/
  | move {c t o p} : c.phase t = .idle → o.args = [p] → (.var t, p) ∈ c.shared.vars →
      LStep this c (.mon (.call t (t, o)))
        { c with shared := { c.shared with vars := (Owner.param t, p) :: c.shared.vars.erase (Owner.var t, p) },
                 phase := setPhase c.phase t (.wants (t, o)) }
  | lock {c t o c'} : Monitor.Step (fun o : Nat × Op P => bodyL this o.1 o.2) c (.lock t) c' → c.phase t = .wants (t, o) →
      LStep this c (.mon (.lock t)) c'
  | act {c t c'} : Monitor.Step (fun o : Nat × Op P => bodyL this o.1 o.2) c (.act t) c' → LStep this c (.mon (.act t)) c'
  /-- the program goes on only if the call had no undefined behaviour and did not end it -/
  | unlock {c t o r c'} : Monitor.Step (fun o : Nat × Op P => bodyL this o.1 o.2) c (.unlock t o r) c' → r.Normal →
      LStep this c (.mon (.unlock t o r)) c'
  | ret {c t o r} : c.phase t = .leaving o r →
      LStep this c (.mon (.ret t o r)) { c with shared := c.shared.leave t, phase := setPhase c.phase t .idle }

/-- Executions of programs that begin with a new mailbox and no messages. -/
inductive LSteps (this : Addr) (name : Str) : List (LLabel P) → LConf P → Prop where
  | init : LSteps this name [] (Conf.init { box := Box.new name, count := fun _ => 0, vars := [], made := [], gone := [] })
  | snoc {ls c l c'} : LSteps this name ls c → LStep this c l c' → LSteps this name (ls ++ [l]) c'

/-- `~MailBox`, 263-268, and the destruction of the members. -/
def Mem.close (m : Mem P) : Mem P :=
  Mem.decs false (m.box.queues.flatMap fun kq => kq.2) { m with box := { m.box with queues := [] } }

end SoDa.Mail
