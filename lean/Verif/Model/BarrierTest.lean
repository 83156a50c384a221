import Verif.Model.Barrier
import Verif.Model.Options
/-!
Model of the program test/BarrierTest.cxx: `main` reads three options, creates a barrier and as many threads as it has
waiters; each thread sleeps and waits at the barrier in every trial; `main` joins the threads.

The calls of `wait` are executed statement by statement as in `Model/Barrier.lean`; this file adds the program that `main` and
the threads execute around them.

* Sleeping (23) has no effect: threads are interleaved arbitrarily.
* The random generator is not modelled, except that its seed (14) is computed in `int` and that
  `std::uniform_int_distribution(1, b)` is undefined for `b < 1` (16).
* What is printed is in Model/CTest.lean.  Not modelled: that the thread objects are never deleted.
-/
namespace SoDa.BarTest
open Bar (Ev Conf Move)

/-- `trial_count`, `num_threads`, `max_duration` (71), `int`s. -/
structure Params where
  trials : Int
  threads : Int
  maxDuration : Int
  deriving DecidableEq, Repr

/-- The number of turns of `for(int i = 0; i < num_threads; i++)` (46). -/
def Params.n (p : Params) : Nat := p.threads.toNat

/-- What a thread (or rather its function, 12-33) does next. -/
inductive Loc where
  /-- has not been created (47) -/
  | unborn
  /-- 20: at the head of the loop -/
  | loop (i : Int)
  /-- 26: in `bar->wait` -/
  | inWait (i : Int)
  /-- 33: has returned after the loop -/
  | done
  /-- 29-31: has caught an exception, printed it, and returned -/
  | caught
  /-- its behaviour is undefined -/
  | undef
  deriving DecidableEq, Repr

/-- Lines 14-16 of thread `my_idx`. -/
def Params.begin (p : Params) (my_idx : Nat) : Loc :=
  let seed : Int := my_idx * 234525 + 23919
  if seed > 2147483647 then .undef   -- overflow of `int`
  else if p.maxDuration % 4294967296 < 1 then .undef   -- conversion to `unsigned int`
  else .loop 0

/-- What `main` does next (in `testBarrier`, 35-65). -/
inductive Main where
  /-- 46: at the head of the loop that creates threads -/
  | spawn (i : Nat)
  /-- 58: at the head of the loop that joins them, `i` are joined -/
  | join (i : Nat)
  /-- the program has ended with this exit code; 64 returns 0, which 78 ignores, and `main` returns 0 without a `return` -/
  | exited (code : Int)
  deriving DecidableEq, Repr

/-- The state of the program; the barrier is that of line 37. -/
structure St (n : Nat) where
  bar : Conf (Fin n)
  loc : Fin n → Loc
  main : Main

/-- The start of `testBarrier`. -/
def St.start (n : Nat) : St n := { bar := Conf.init, loc := fun _ => .unborn, main := .spawn 0 }

/-- What a thread does after an event at the barrier: it has entered `wait`, left it, or an exception is caught. -/
def Loc.after : Loc → Bool → Loc
  | .inWait i, true => .loop (i + 1)
  | .inWait _, false => .caught
  | l, _ => l

def Loc.enter : Loc → Loc
  | .loop i => .inWait i
  | l => l

def set {n : Nat} (loc : Fin n → Loc) (t : Fin n) (l : Loc) : Fin n → Loc := fun u => if u = t then l else loc u

def afterBar {n : Nat} (loc : Fin n → Loc) : Ev (Fin n) → Fin n → Loc
  | .call t => set loc t (loc t).enter
  | .ret t => set loc t ((loc t).after true)
  | .raise t _ => set loc t ((loc t).after false)
  | _ => loc

/-- A thread that can be joined. -/
def Loc.ended : Loc → Bool
  | .done | .caught => true
  | _ => false

/-- One step: of `main`, of a thread at the barrier, or the end of a thread. -/
inductive Step (p : Params) : St p.n → Option (Ev (Fin p.n)) → St p.n → Prop where
  /-- 47-51 -/
  | spawn {s : St p.n} {i} (hm : s.main = .spawn i) (h : i < p.n) :
      Step p s none { s with main := .spawn (i + 1), loc := set s.loc ⟨i, h⟩ (p.begin i) }
  /-- 46: the loop ends -/
  | spawned {s : St p.n} (hm : s.main = .spawn p.n) : Step p s none { s with main := .join 0 }
  /-- 59 -/
  | join {s : St p.n} {i} (hm : s.main = .join i) (h : i < p.n) (he : (s.loc ⟨i, h⟩).ended = true) :
      Step p s none { s with main := .join (i + 1) }
  /-- 58: the loop ends -/
  | exit {s : St p.n} (hm : s.main = .join p.n) : Step p s none { s with main := .exited 0 }
  /-- 26 -/
  | bar {s : St p.n} {t m b e} (hs : Bar.step p.n s.bar t m = some (b, e))
      (hc : m = .call → ∃ i, s.loc t = .loop i ∧ i < p.trials) :
      Step p s (some e) { s with bar := b, loc := afterBar s.loc e }
  /-- 20: the loop ends -/
  | leave {s : St p.n} {t i} (hl : s.loc t = .loop i) (h : ¬ i < p.trials) :
      Step p s none { s with loc := set s.loc t .done }

/-- Executions of `testBarrier`: the steps and the state reached. -/
inductive Exec (p : Params) : List (Option (Ev (Fin p.n))) → St p.n → Prop where
  | init : Exec p [] (St.start p.n)
  | snoc {ls s l s'} (h : Exec p ls s) (hs : Step p s l s') : Exec p (ls ++ [l]) s'

/-- The events at the barrier. -/
def events {n : Nat} (ls : List (Option (Ev (Fin n)))) : List (Ev (Fin n)) := ls.filterMap id

/-! ### The command line -/

open Opts

/-- Lines 69-74; the three variables have the addresses 0, 1, 2, and hold anything before. -/
def cmd (sc : Nat → Val) (vec : Nat → List Val) : Options Val :=
  (((Options.new false sc vec).addDef intTy 0 "trials".toList 'r' (.int 100)
      "Number of passes through the barrier".toList).addDef intTy 1 "threads".toList 't' (.int 10)
      "Number of threads in test.".toList).addDef intTy 2 "maddur".toList 'm' (.int 50)
      "Max time in us for the random wait between barriers".toList

/-- The value of an `int` variable. -/
def asInt : Val → Int
  | .int i => i
  | _ => 0

/-- Lines 76-78: `none` is `exit(-1)`, otherwise these are the arguments of `testBarrier`. -/
def mainParams (sc : Nat → Val) (vec : Nat → List Val) (argv : List Str) : Res Empty (Option Params) :=
  match (cmd sc vec).parseArgv argv with
  | .ok (o, true) => .ok (some ⟨asInt (o.sc 0), asInt (o.sc 1), asInt (o.sc 2)⟩)
  | .ok (_, false) => .ok none
  | .throw e => .throw e
  | .ub => .ub

end SoDa.BarTest
