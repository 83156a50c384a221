import Verif.Props.Split
import Verif.Props.FormatExt
import Verif.Props.Options
import Verif.Props.PropertyHeap
/-!
Property C110: what a call means that leaves out the optional arguments.
-/
namespace SoDa
open Spec

/-- A number, or a text, added without further arguments is inserted as it is: decimal, without padding and separators. -/
theorem C110_format (f : Fmt) :
    (∀ v, Inserts f (f.addI v) (showInt v)) ∧ (∀ v, Inserts f (f.addU v) (Nat.toDigits 10 v)) ∧
    (∀ s, ∃ g, f.addS s = .ok g ∧ Inserts f g s) ∧
    (∀ A fuel radix v, Fmt.addF A fuel radix f v = Fmt.addF A fuel radix f v 'f' 0 6) ∧
    ∃ t, f.str = .ok t := by
  refine ⟨fun v => ?_, fun v => ?_, fun s => ⟨_, rfl, inserts_insertField _ _⟩, fun _ _ _ _ => rfl, _, rfl⟩
  · have : textI v 0 nul nul = showInt v := by simp [textI, padLeft]
    rw [← this]
    exact inserts_insertField _ _
  · have : textU v 'd' 0 nul 4 = Nat.toDigits 10 v := by simp [textU, padLeft]
    rw [← this]
    exact inserts_insertField _ _

/-- If only the format is given, hexadecimal and octal numbers have no leading zeros; if a separator is given, it comes between
groups of four. -/
theorem C110_addU (f : Fmt) (v w : Nat) (fmt sep : Char) :
    f.addU v fmt = f.addU v fmt 0 nul 4 ∧ f.addU v fmt w = f.addU v fmt w nul 4 ∧ f.addU v fmt w sep = f.addU v fmt w sep 4 :=
  ⟨rfl, rfl, rfl⟩

theorem C110_addI (f : Fmt) (v : Int) (w : Nat) (sep : Char) :
    f.addI v w = f.addI v w nul nul ∧ f.addI v w sep = f.addI v w sep nul := ⟨rfl, rfl⟩

theorem C110_addF (A : Arith) (fuel : Nat) (radix : Char) (f : Fmt) (v : Dbl) (fmt : Char) (w : Nat) :
    Fmt.addF A fuel radix f v fmt = Fmt.addF A fuel radix f v fmt 0 6 ∧
    Fmt.addF A fuel radix f v fmt w = Fmt.addF A fuel radix f v fmt w 6 := ⟨rfl, rfl⟩

/-- `split` and `splitVec` keep the empty fields if not told otherwise. -/
theorem C110_split (s d : Str) : split s d = split s d false ∧ splitVec s d = splitVec s d false := ⟨rfl, rfl⟩

example : splitVec "a,,b".toList ",".toList = .ok #["a".toList, [], "b".toList] := by decide +kernel

end SoDa

namespace SoDa.Opts
open Spec

/-- An option registered without a test accepts every value that can be read, and has an empty text in the help. -/
theorem C110_options {V : Type} (o : Options V) (T : Ty V) (val : Nat) (long : Str) (ab : Char) (dv : V) (i : Nat) (d : Decl V)
    (h : (o.addDef T val long ab dv).decls[i]? = some d ∨ (o.add T val long ab).decls[i]? = some d ∨
      (o.addV T val long ab).decls[i]? = some d) (hi : i = o.decls.length) :
    d.doc = [] ∧ d.err = [] ∧ ∀ txt v, Accepts d txt v ↔ T.read txt = some v := by
  subst hi
  simp only [Options.addDef, Options.add, Options.addV, Options.registerOpt, List.getElem?_concat_length, Option.some.injEq] at h
  rcases h with rfl | rfl | rfl <;> exact ⟨rfl, rfl, fun _ _ => ⟨fun h => h.1, fun h => ⟨h, rfl⟩⟩⟩

end SoDa.Opts

namespace SoDa.PropMem

theorem recursive_no_throw (m : Mem) (orig : Str) (ks : List Str) (p : Ptr) (e : «Prop».Err) :
    getPropRecursive m p orig false ks ≠ .throw e := by
  induction ks with
  | nil => simp [getPropRecursive]
  | cons k ks ih =>
    unfold getPropRecursive
    split
    · simp
    · split
      · exact ih
      · simp

/-- Without the last argument, `getProp` does not throw (it returns a null pointer), nor does `get` of a node. -/
theorem C110_tree {V : Type} (T : «Prop».Ty V) (calls : Nat) (m : Mem) (p : Ptr) (path : Str) (e : «Prop».Err) :
    getProp m p path ≠ .throw e ∧ nodeGet T calls m p ≠ .throw e ∧
      get T calls m p path = get T calls m p path false := by
  refine ⟨?_, ?_, rfl⟩
  · unfold getProp
    split
    · exact recursive_no_throw _ _ _ _ _
    · simp
  · unfold nodeGet
    split
    · simp
    · split <;> simp

end SoDa.PropMem

namespace SoDa.Prop

/-- The same for the tree without addresses. -/
theorem C110_tree {V : Type} (T : Ty V) (r : Ref) (root : Node) (path : Str) :
    getProp r path = getProp r path false ∧ r.get T = r.get T false ∧ get T root path = get T root path false := ⟨rfl, rfl, rfl⟩

end SoDa.Prop
