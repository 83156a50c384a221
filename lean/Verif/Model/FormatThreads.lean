import Verif.Model.FormatF
/-!
Threads that use `SoDa::Format` objects (include/Format.hxx, src/Format.cxx) without any synchronisation.  The only memory that objects
share is the static variable `Format::separator` (include/Format.hxx:507, src/Format.cxx:41).

A statement takes two steps of its thread: first everything is read and computed, then everything is written; steps of other threads may
come before, between and after.  This is finer than executing statements one after the other, and coarser than the single accesses of
the C++ code; it shows what data races do to the results, and executions without data race are the same in all granularities (the C++
memory model gives them the meaning of interleavings).

A statement that has undefined behaviour in itself stops its thread (`dead`).  A statement that does not terminate has no first step.
-/
namespace SoDa.FThr

/-- Statements.  Variables of type `Format` are numbered. -/
inductive Stmt where
  /-- `Format a(s);` -/
  | construct (a : Nat) (s : Str)
  /-- `Format a(b);` or `a = b;`, implicit copy operations -/
  | copy (a b : Nat)
  /-- end of the lifetime of `a` -/
  | destroy (a : Nat)
  /-- `a.addI(…)`, `addU`, `addS`, `addC`, `addB`, `reset`, or `a.str(check)`, of which the thread keeps the result -/
  | call (a : Nat) (c : Call)
  /-- `a.addF(v, fmt, w, sig)` -/
  | addF (a : Nat) (v : Dbl) (fmt : Char) (w sig : Nat)
  /-- `SoDa::Format::separator = c;`, include/Format.hxx:238-240 -/
  | setSep (c : Char)

/-- The memory: the objects that exist, and `Format::separator`. -/
structure Mem where
  objs : Nat → Option Fmt
  sep : Char

/-- What a statement writes. -/
inductive Eff where
  | none
  | obj (a : Nat) (f : Option Fmt)
  | sep (c : Char)

def Eff.apply (m : Mem) : Eff → Mem
  | .none => m
  | .obj a f => { m with objs := fun b => if b = a then f else m.objs b }
  | .sep c => { m with sep := c }

/-- The result of `str`. -/
abbrev Out := Res Fmt.BadFormat Str

/-- First step of a statement: what is to be written, and what `str` returns.  `none`: it does not terminate. -/
def Stmt.eval (A : Arith) (fuel : Nat) (m : Mem) : Stmt → Option (Res Empty (Eff × List Out))
  | .construct a s => some (.ok (.obj a (some (Fmt.mk' s)), []))
  | .copy a b => match m.objs b with
    | some f => some (.ok (.obj a (some f), []))
    | none => some .ub
  | .destroy a => match m.objs a with
    | some _ => some (.ok (.obj a none, []))
    | none => some .ub
  | .call a c => match m.objs a with
    | some f => match c with
      | .str check => some (.ok (.none, [f.str check]))
      | c => some ((f.call c).map fun f' => (.obj a (some f'), []))
    | none => some .ub
  | .addF a v fmt w sig => match m.objs a with
    | some f => (f.addF A fuel m.sep v fmt w sig).map fun r => r.map fun f' => (.obj a (some f'), [])
    | none => some .ub
  | .setSep c => some (.ok (.sep c, []))

/-- A thread: the statements to be executed, the statement of which the first step has been executed with what it is about to write,
the results so far, and whether it has run into undefined behaviour. -/
structure Thr where
  rest : List Stmt
  pend : Option (Stmt × Eff)
  out : List Out
  dead : Bool

structure Conf (ι : Type) where
  thr : ι → Thr
  mem : Mem

/-- Before the first step. -/
def Conf.init {ι : Type} (P : ι → List Stmt) (m : Mem) : Conf ι :=
  ⟨fun t => ⟨P t, none, [], false⟩, m⟩

/-- Steps of an execution: the first or second step of a statement. -/
inductive Lab (ι : Type) where
  | first (t : ι) (s : Stmt)
  | second (t : ι) (s : Stmt)

def Lab.thread {ι : Type} : Lab ι → ι
  | .first t _ => t
  | .second t _ => t

def Conf.set {ι : Type} [DecidableEq ι] (c : Conf ι) (t : ι) (x : Thr) (m : Mem) : Conf ι :=
  ⟨fun u => if u = t then x else c.thr u, m⟩

inductive Step {ι : Type} [DecidableEq ι] (A : Arith) (fuel : Nat) : Conf ι → Lab ι → Conf ι → Prop where
  | first {c : Conf ι} {t : ι} {s : Stmt} {ss : List Stmt} {out : List Out} {e : Eff} {o : List Out}
      (ht : c.thr t = ⟨s :: ss, none, out, false⟩) (he : s.eval A fuel c.mem = some (.ok (e, o))) :
      Step A fuel c (.first t s) (c.set t ⟨ss, some (s, e), out ++ o, false⟩ c.mem)
  | undef {c : Conf ι} {t : ι} {s : Stmt} {ss : List Stmt} {out : List Out}
      (ht : c.thr t = ⟨s :: ss, none, out, false⟩) (he : s.eval A fuel c.mem = some .ub) :
      Step A fuel c (.first t s) (c.set t ⟨s :: ss, none, out, true⟩ c.mem)
  | second {c : Conf ι} {t : ι} {s : Stmt} {ss : List Stmt} {out : List Out} {e : Eff}
      (ht : c.thr t = ⟨ss, some (s, e), out, false⟩) :
      Step A fuel c (.second t s) (c.set t ⟨ss, none, out, false⟩ (e.apply c.mem))

/-- Executions. -/
inductive Exec {ι : Type} [DecidableEq ι] (A : Arith) (fuel : Nat) (c0 : Conf ι) : List (Lab ι) → Conf ι → Prop where
  | nil : Exec A fuel c0 [] c0
  | snoc {tr : List (Lab ι)} {c c' : Conf ι} {l : Lab ι} (h : Exec A fuel c0 tr c) (hs : Step A fuel c l c') :
      Exec A fuel c0 (tr ++ [l]) c'

end SoDa.FThr
