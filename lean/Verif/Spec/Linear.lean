import Verif.Model.MailBox
import Mathlib.Data.List.Forall2
/-!
Linearisability (Herlihy and Wing 1990) of what the threads of a program see of a shared object: the beginnings and ends of their calls, in
the order in which they happen.  Nothing of the object itself is used, except which sequences of calls are possible one after the other.
-/
namespace SoDa.Spec

/-- A call begins, or ends with a result. -/
inductive SeenEv (T O R : Type) where
  | call (t : T) (o : O)
  | ret (t : T) (o : O) (r : R)
  deriving DecidableEq

variable {T O R : Type}

/-- The thread that calls or returns. -/
def SeenEv.who : SeenEv T O R → T
  | .call t _ => t
  | .ret t _ _ => t

/-- Of what thread `t` does before position `j` of the history, the last is at position `i`. -/
def LastBefore (H : List (SeenEv T O R)) (t : T) (i j : Nat) : Prop :=
  i < j ∧ (∃ e, H[i]? = some e ∧ e.who = t) ∧ ∀ k e, i < k → k < j → H[k]? = some e → e.who ≠ t

/-- The call that begins at position `i` ends at position `j` with the result `r`. -/
def EndsAt (H : List (SeenEv T O R)) (i j : Nat) (r : R) : Prop :=
  ∃ t o, H[i]? = some (.call t o) ∧ H[j]? = some (.ret t o r) ∧ LastBefore H t i j

/-- Each thread makes one call after the other: an end belongs to the call before, and the next call comes after the end. -/
def OneByOne (H : List (SeenEv T O R)) : Prop :=
  (∀ j t o r, H[j]? = some (.ret t o r) → ∃ i, H[i]? = some (.call t o) ∧ LastBefore H t i j) ∧
  ∀ j t o i, H[j]? = some (.call t o) → LastBefore H t i j → ∃ o' r, H[i]? = some (.ret t o' r)

/-- The calls of the history (all that have ended and some of the others) can be put into an order `L` (of the positions where they begin,
with results) such that they are possible one after the other in this order, with the results seen, and no call stands before one that
had ended when it began. -/
def Linearisable (Possible : List (T × O × R) → Prop) (H : List (SeenEv T O R)) : Prop :=
  OneByOne H ∧ ∃ (L : List (Nat × R)) (es : List (T × O × R)),
    Possible es ∧ List.Forall₂ (fun x e => H[x.1]? = some (.call e.1 e.2.1) ∧ x.2 = e.2.2) L es ∧
    (L.map (·.1)).Nodup ∧ (∀ i j r, EndsAt H i j r → (i, r) ∈ L) ∧
    L.Pairwise fun x y => ∀ j r, EndsAt H y.1 j r → ¬ j < x.1

/-! ### A mailbox used by one thread -/

open Mail

variable {P : Type}

/-- A mailbox as a user imagines it: how many subscriptions there have been, and what waits for each of those that have not ended. -/
structure Imagined (P : Type) where
  given : Nat
  mail : Int → Option (List (Option P))

/-- Nobody has subscribed. -/
def Imagined.new : Imagined P := ⟨0, fun _ => none⟩

/-- The mail of subscriber `i` is replaced. -/
def Imagined.with (m : Imagined P) (i : Int) (q : Option (List (Option P))) : Imagined P :=
  ⟨m.given, fun j => if j = i then q else m.mail j⟩

/-- A subscription given to a call of the mailbox `this` with this name: what the call does not accept. -/
inductive CallRefused (this : Addr) (name : Str) (m : Imagined P) (s : Sub) : Err → Prop where
  | other (h : s.box ≠ this) : CallRefused this name m s (.mismatch this s.box)
  | ended (h : s.box = this) (hm : m.mail s.idx = none) : CallRefused this name m s (.missing name "get()".toList s.idx)

/-- What a call does and answers. -/
inductive CallDoes (this : Addr) (name : Str) : Imagined P → Op P → Imagined P → Resp P → Prop where
  | subscribe {m : Imagined P} (h : m.given < 2147483647) :
      CallDoes this name m .subscribe ⟨m.given + 1, (m.with m.given (some [])).mail⟩ (.sub ⟨this, m.given⟩)
  | getEmpty {m : Imagined P} {s : Sub} (h : s.box = this) (hm : m.mail s.idx = some []) : CallDoes this name m (.get (some s)) m (.msg none)
  | get {m : Imagined P} {s : Sub} {p : Option P} {q : List (Option P)} (h : s.box = this) (hm : m.mail s.idx = some (p :: q)) :
      CallDoes this name m (.get (some s)) (m.with s.idx (some q)) (.msg p)
  | put {m : Imagined P} {p : Option P} :
      CallDoes this name m (.put p none) ⟨m.given, fun j => (m.mail j).map (· ++ [p])⟩ .done
  | putOthers {m : Imagined P} {p : Option P} {s : Sub} (h : s.box = this) :
      CallDoes this name m (.put p (some s)) ⟨m.given, fun j => if j = s.idx then m.mail j else (m.mail j).map (· ++ [p])⟩ .done
  | ready {m : Imagined P} {s : Sub} {q : List (Option P)} (h : s.box = this) (hm : m.mail s.idx = some q) :
      CallDoes this name m (.readyCount (some s)) m (.count (q.length % 4294967296))
  | minReady {m : Imagined P} {n : Nat} (hle : n ≤ 4294967295) (hall : ∀ i q, m.mail i = some q → n ≤ q.length)
      (hex : n = 4294967295 ∨ ∃ i q, m.mail i = some q ∧ n = q.length) : CallDoes this name m .minReadyCount m (.count n)
  | clear {m : Imagined P} {s : Sub} {q : List (Option P)} (h : s.box = this) (hm : m.mail s.idx = some q) :
      CallDoes this name m (.clear (some s)) (m.with s.idx (some [])) .done
  | unsubscribe {m : Imagined P} {i : Int} {q : List (Option P)} (hm : m.mail i = some q) :
      CallDoes this name m (.unsubscribe i) (m.with i none) .done
  | notSubscribed {m : Imagined P} {i : Int} (hm : m.mail i = none) :
      CallDoes this name m (.unsubscribe i) m (.threw (.missing name "get()".toList i))
  | subscribers {m : Imagined P} : CallDoes this name m .subscriberCount m
      (.count ((List.range m.given).countP fun (i : Nat) => (m.mail (i : Int)).isSome))
  | drop {m : Imagined P} {s : Sub} {q : List (Option P)} (hm : m.mail s.idx = some q) :
      CallDoes this name m (.drop s) (m.with s.idx none) .done
  | refusedGet {m : Imagined P} {s : Sub} {x : Err} (h : CallRefused this name m s x) : CallDoes this name m (.get (some s)) m (.threw x)
  | refusedReady {m : Imagined P} {s : Sub} {x : Err} (h : CallRefused this name m s x) : CallDoes this name m (.readyCount (some s)) m (.threw x)
  | refusedClear {m : Imagined P} {s : Sub} {x : Err} (h : CallRefused this name m s x) : CallDoes this name m (.clear (some s)) m (.threw x)
  | refusedPut {m : Imagined P} {s : Sub} {p : Option P} (h : s.box ≠ this) :
      CallDoes this name m (.put p (some s)) m (.threw (.mismatch this s.box))

/-- Calls one after the other. -/
inductive OneAfterOther (this : Addr) (name : Str) : List (T × Op P × Resp P) → Imagined P → Prop where
  | nil : OneAfterOther this name [] Imagined.new
  | snoc {es m t o r m'} (h : OneAfterOther this name es m) (hd : CallDoes this name m o m' r) : OneAfterOther this name (es ++ [(t, o, r)]) m'

/-- Of calls on several objects, those on one. -/
def onOnly {A : Type} [DecidableEq A] (a : A) (es : List (T × (A × O) × R)) : List (T × O × R) :=
  es.filterMap fun e => if e.2.1.1 = a then some (e.1, e.2.1.2, e.2.2) else none

/-- The event, if it belongs to a call on the object `a`. -/
def SeenEv.on {A : Type} [DecidableEq A] (a : A) : SeenEv T (A × O) R → Option (SeenEv T O R)
  | .call t o => if o.1 = a then some (.call t o.2) else none
  | .ret t o r => if o.1 = a then some (.ret t o.2 r) else none

/-- The history of one object. -/
def historyOf {A : Type} [DecidableEq A] (a : A) (H : List (SeenEv T (A × O) R)) : List (SeenEv T O R) := H.filterMap (SeenEv.on a)

/-- What the threads see. -/
def visible (ls : List (Monitor.Label T O R)) : List (SeenEv T O R) :=
  ls.filterMap fun
    | .call t o => some (.call t o)
    | .ret t o r => some (.ret t o r)
    | _ => none

end SoDa.Spec
