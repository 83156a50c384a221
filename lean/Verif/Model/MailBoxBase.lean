import Verif.Model.Format
/-!
Model of `MailBoxBase` (include/MailBox.hxx:166-236): mailboxes of different message types behind one base class.

A class is a value of the type parameter `Ty`; `derives c d` says that `d` is `c` or a public base of `c`.  The demangled
name of the type `std::shared_ptr<c>` is `ptrName c`.  Simplification: `abi::__cxa_demangle` succeeds.
-/
namespace SoDa.MailBase

/-- A mailbox object: its address, `name` (233), and its class. -/
structure Obj (Ty : Type) where
  addr : Nat
  name : Str
  cls : Ty
  deriving DecidableEq, Repr

/-- `BadConversion(name, from_type, to_type)`, 201-210. -/
structure BadConversion where
  name : Str
  fromType : Str
  toType : Str
  deriving DecidableEq, Repr

/-- The classes of a program. -/
structure Classes (Ty : Type) where
  /-- `MailBoxBase`. -/
  base : Ty
  derives : Ty → Ty → Bool
  ptrName : Ty → Str

variable {Ty : Type}

/-- `std::dynamic_pointer_cast<T>(p)`: the same object seen as a `T`, or null. -/
def dynamicCast (C : Classes Ty) (target : Ty) : Option (Obj Ty) → Option (Obj Ty)
  | some o => if C.derives o.cls target then some o else none
  | none => none

/-- `MailBoxBase::convert<T>`, 212-225; `typeid(p)` and `typeid(ret)` are the pointer types; `p->name` of a null pointer
is undefined. -/
def convert (C : Classes Ty) (target : Ty) (p : Option (Obj Ty)) : Res BadConversion (Obj Ty) :=
  match dynamicCast C target p with
  | some ret => .ok ret
  | none => match p with
    | none => .ub
    | some o => .throw ⟨o.name, C.ptrName C.base, C.ptrName target⟩

/-- `getName`, 231. -/
def getName (o : Obj Ty) : Str := o.name

/-- `what()` of a `BadConversion`, 174-180 and 203-209. -/
def BadConversion.what (e : BadConversion) : Res Fmt.BadFormat Str :=
  match (Fmt.mk' "MailBoxBase::convert attempted to promote from %0 to %1. That isn't right.\n".toList).calls
      [.addS e.fromType 0, .addS e.toType 0] with
  | .ok f => (f.str false).map fun problem => "SoDa::MailBox[".toList ++ e.name ++ "] ".toList ++ problem
  | _ => .ub

end SoDa.MailBase
