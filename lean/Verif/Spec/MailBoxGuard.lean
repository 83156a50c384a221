import Verif.Model.MailBoxGuard
/-!
Specification vocabulary for the mutexes of several mailboxes.
-/
namespace SoDa.Spec
open Mail Mail.Guard

variable {P : Type}

/-- Thread `t` is about to construct a `lock_guard` on a mutex that is held by thread `u` (perhaps itself). -/
def WaitsFor (c : Guard.Conf P) (t u : Nat) : Prop :=
  ∃ a o k s, c.stack t = .frame a o (.lock k) :: s ∧ c.holder a = some u

/-- Some threads wait for each other. -/
def Deadlocked (c : Guard.Conf P) (ts : List Nat) : Prop := ts ≠ [] ∧ ∀ t ∈ ts, ∃ u ∈ ts, WaitsFor c t u

/-- Thread `t` is about to use the members of the mailbox at `a`, or to release its mutex. -/
def Uses (c : Guard.Conf P) (t : Nat) (a : Addr) : Prop :=
  ∃ o k s, c.stack t = .frame a o k :: s ∧
    ((∃ k', k = .unlock k') ∨ (∃ f k', k = .act f k') ∨ (∃ i m k', k = .push i m k') ∨ (∃ i k', k = .pop i k') ∨ ∃ i k', k = .take i k')

/-- Thread `t` has ended the program: an exception leaves a destructor, or undefined behaviour of a method. -/
def EndedBy (c : Guard.Conf P) (t : Nat) : Prop :=
  ∃ a o s, c.stack t = .frame a o (.unlock (.ret .ub)) :: s ∨ c.stack t = .frame a o (.unlock (.ret .terminate)) :: s ∨
    (s ≠ [] ∧ ∃ e, c.stack t = .frame a o (.ret (.threw e)) :: s)

/-- The destructors of the messages that were put into a mailbox call only mailboxes further up, and no `subscribe` ran out of
memory in line 313. -/
structure Upwards (rank : Addr → Nat) (dtor : P → List (Addr × Guard.Call P)) (ls : List (Guard.Label P)) : Prop where
  puts : ∀ t a p subs, .call t a (.op (.put (some p) subs)) ∈ ls → ∀ x ∈ dtor p, rank a < rank x.1
  memory : ∀ t a, .call t a .subscribeFails ∉ ls

/-- The call throws away messages, or runs out of memory. -/
def Discarding : Guard.Call P → Prop
  | .op (.clear _) => True
  | .op (.unsubscribe _) => True
  | .op (.drop _) => True
  | .subscribeFails => True
  | _ => False

/-- What the mailbox at `a` sees of a step. -/
def seen (a : Addr) : Guard.Label P → Option (Monitor.Label Nat (Op P) (Resp P))
  | .call t a' (.op o) => if a' = a then some (.call t o) else none
  | .lock t a' => if a' = a then some (.lock t) else none
  | .act t a' => if a' = a then some (.act t) else none
  | .unlock t a' (.op o) r => if a' = a then some (.unlock t o r) else none
  | .ret t a' (.op o) r => if a' = a then some (.ret t o r) else none
  | _ => none

end SoDa.Spec
