import Verif.Model.BarrierTest
import Verif.Model.MailBoxTest
import Verif.Model.MailBoxBase
/-!
Model of what test/CMakeLists.txt makes of the test programs of the barrier and the mailbox: what the programs print, their exit
code, and whether CTest says that the test has passed.

* Everything is printed to `std::cerr`, which CTest reads.  One `operator<<` writes its text (a *chunk*) at once; the chunks of
  different threads are interleaved arbitrarily.  `operator<<` of a `Format` writes one chunk (src/Format.cxx:614-617).
* The expressions in test/CMakeLists.txt have no special characters: matching is searching.
-/
namespace SoDa.CTest

/-- Whether `pat` occurs in `text`. -/
def found (pat : Str) : Str → Bool
  | [] => pat.isEmpty
  | c :: cs => pat.isPrefixOf (c :: cs) || found pat cs

/-- The properties of a test: PASS_REGULAR_EXPRESSION and FAIL_REGULAR_EXPRESSION. -/
structure Test where
  pass : Option Str
  fail : Option Str

/-- The conclusion of CTest from the output and the exit code: with a PASS_REGULAR_EXPRESSION the exit code does not matter. -/
def Test.passes (c : Test) (output : Str) (code : Int) : Bool :=
  match c.pass with
  | some s => found s output
  | none => code == 0 && match c.fail with
    | some s => !found s output
    | none => true

/-- test/CMakeLists.txt:37-41 -/
def fastBarrierTest : Test := ⟨none, some "Ooops, dang!".toList⟩
/-- test/CMakeLists.txt:43-46 -/
def shouldTimeout : Test := ⟨some "Ooops, dang!".toList, none⟩
/-- test/CMakeLists.txt:49-57 -/
def mailBoxTest : Test := ⟨none, some "subscriber".toList⟩

/-- The text of a `Format`, which is inserted into a stream. -/
def textOf (r : Res Fmt.BadFormat Str) : Str :=
  match r with
  | .ok s => s
  | _ => []

end SoDa.CTest

namespace SoDa.BarTest
open Bar (Ev Conf Move)

/-- The program with its output; `pend none` is what `main`, `pend (some t)` what thread `t` has to write before it goes on. -/
structure OSt (n : Nat) where
  prog : St n
  pend : Option (Fin n) → List Str
  out : List Str

/-- test/BarrierTest.cxx:30 -/
def oops : Str := "Ooops, dang!: ".toList

/-- test/BarrierTest.cxx:30; the barrier is called `test barrier` (37), the timeout is 100 ms (26). -/
def caughtText (e : Bar.Out) : List Str :=
  [oops, CTest.textOf (match e with
    | .timeout => Bar.timeoutWhat "test barrier".toList 100
    | _ => Bar.corruptWhat "test barrier".toList), "\n".toList]

/-- test/BarrierTest.cxx:40-43 -/
def startText (p : Params) : List Str :=
  ["Creating threads\n".toList,
   CTest.textOf ((Fmt.mk' "Spawning %0 threads\n".toList).addI p.threads).stream]

/-- test/BarrierTest.cxx:56 and 62: what `main` writes when it has got to this point. -/
def mainText : Main → List Str
  | .join 0 => ["Waiting to join threads\n".toList]
  | .exited _ => ["Joined all threads\n".toList]
  | _ => []

def OSt.start (p : Params) : OSt p.n :=
  { prog := St.start p.n, pend := fun w => if w = none then startText p else [], out := [] }

def setPend {n : Nat} (pend : Option (Fin n) → List Str) (w : Option (Fin n)) (cs : List Str) : Option (Fin n) → List Str :=
  fun v => if v = w then cs else pend v

/-- What there is to write after a step of a thread. -/
def pendAfter {n : Nat} (pend : Option (Fin n) → List Str) : Option (Ev (Fin n)) → Option (Fin n) → List Str
  | some (.raise t e) => setPend pend (some t) (caughtText e)
  | _ => pend

/-- One step: a thread goes on; `main` goes on, which has to have written everything, as has a thread that is joined; or a chunk
is written. -/
inductive OStep (p : Params) : OSt p.n → Option (Option (Ev (Fin p.n))) → OSt p.n → Prop where
  | thread {o : OSt p.n} {l s'} (h : Step p o.prog l s') (hm : s'.main = o.prog.main) :
      OStep p o (some l) { o with prog := s', pend := pendAfter o.pend l }
  | main {o : OSt p.n} {s'} (h : Step p o.prog none s') (hm : s'.main ≠ o.prog.main) (hp : o.pend none = [])
      (hj : ∀ t : Fin p.n, s'.main = .join (t.val + 1) → o.pend (some t) = []) :
      OStep p o (some none) { o with prog := s', pend := setPend o.pend none (mainText s'.main) }
  | write {o : OSt p.n} {w c cs} (h : o.pend w = c :: cs) :
      OStep p o none { o with pend := setPend o.pend w cs, out := o.out ++ [c] }

/-- Executions with output: the steps of the program, and the state reached. -/
inductive OExec (p : Params) : List (Option (Ev (Fin p.n))) → OSt p.n → Prop where
  | init : OExec p [] (OSt.start p)
  | snoc {ls o l o'} (h : OExec p ls o) (hs : OStep p o l o') : OExec p (ls ++ l.toList) o'

/-- The program has ended: what `main` had to write is written. -/
def OSt.Ended {n : Nat} (o : OSt n) (code : Int) : Prop := o.prog.main = .exited code ∧ o.pend none = []

/-- What is on `std::cerr`. -/
def OSt.text {n : Nat} (o : OSt n) : Str := o.out.flatten

end SoDa.BarTest

namespace SoDa.MailTest
open MailBase

/-! ### `main` of test/MailBoxTest.cxx -/

/-- The classes `MailBoxBase`, `MailBox<MyMsg>`, `MailBox<int>`. -/
inductive Cls where
  | base
  | myMsg
  | int
  deriving DecidableEq, Repr

def classes : Classes Cls where
  base := .base
  derives c d := c == d || d == .base
  ptrName
    | .base => "std::shared_ptr<SoDa::MailBoxBase>".toList
    | .myMsg => "std::shared_ptr<SoDa::MailBox<MyMsg> >".toList
    | .int => "std::shared_ptr<SoDa::MailBox<int> >".toList

/-- `testMBoxConversion`, test/MailBoxTest.cxx:153-176: what it writes, and the code if it ends the program. -/
def conversionTest : Str × Option Int :=
  let mb_p : Obj Cls := ⟨1, "MessageMailbox".toList, .myMsg⟩
  match convert classes .myMsg (some mb_p) with
  | .ok _ =>
    match convert classes .int (some mb_p) with
    | .throw e => (CTest.textOf e.what ++ "\n".toList, none)
    | .ok _ => ("testMBoxConversion: bad pointer conversion did not throw an exception\n".toList, some (-1))
    | .ub => ([], some 134)
  | _ => ([], some 134)   -- not caught: `std::terminate`

/-- The complaint about a wrong sum, test/MailBoxTest.cxx:86-91. -/
def sumText (me totmsgs : Int) (msgSum senderSum expectedSum : Nat) : Str :=
  CTest.textOf ((((((Fmt.mk' ("subscriber %0 got all %1 expected messages sum was %2 (should have been %4) sender sum was " ++
    "%3\n").toList).addI me).addI totmsgs).addU msgSum).addU senderSum).addU expectedSum).stream

/-- The complaint about an extra message, test/MailBoxTest.cxx:98-100: there are values for two of the three fields. -/
def extraText (me v : Int) : Str :=
  CTest.textOf (((Fmt.mk' "subscriber %0 got extra message from subscriber %1 : %2\n".toList).addI me).addI v).stream

/-- Whether a thread writes one of these complaints in a step; the location before and after. -/
def speaks : Loc → Loc → Bool
  | .recv _ _ _ _, .leave _ _ => true
  | .extra _, .leave _ _ => true
  | _, _ => false

/-- What `main` and `testObjMessage` write, test/MailBoxTest.cxx:126-148 and 197, when they are not interrupted. -/
def mainText (threads : Int) : Str :=
  conversionTest.1 ++ "test 2\n".toList ++ "Creating threads\n".toList ++
    CTest.textOf ((Fmt.mk' "Spawning %0 threads\n".toList).addI threads).stream ++
    CTest.textOf (Fmt.mk' "Waiting to join threads\n".toList).stream ++ "Joined all threads\n".toList

/-- test/MailBoxTest.cxx:200-204: `tot_active` is the number of messages that exist.  The threads have ended (their variables are gone), so a
message that exists is in the mailbox, and in fact none is, because `testObjMessage` has returned and its mailbox is gone too; the
theorems about this need no more than that no message exists that is in no queue. -/
def exitCode (totActive : Nat) : Int := if totActive > 0 then -1 else 0

/-- The messages in the mailbox, counted once for each subscriber that has not got them. -/
def inMailbox (b : Mail.Box Msg) : Nat := (b.queues.map fun q => q.2.length).sum

/-! ### The command line -/

open Opts

/-- test/MailBoxTest.cxx:180-187; the four variables have the addresses 0, 1, 2, 3. -/
def cmd (sc : Nat → Val) (vec : Nat → List Val) : Options Val :=
  ((((Options.new false sc vec).addDef intTy 0 "msgs".toList 'm' (.int 1)
      "Number of messages to send from each thread".toList).addDef intTy 1 "th".toList 't' (.int 2)
      "Number of threads in test.".toList).addDef intTy 2 "trials".toList 'r' (.int 1)
      "Number of trials to run.".toList).addP (.bool false) (.bool true) 3 "noecho".toList 'n'
      "When present, a thread will not \"see\" its own outbound messages.".toList

end SoDa.MailTest
