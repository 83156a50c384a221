/-!
Common vocabulary of the model: strings, and outcomes of C++ operations that may
throw or have undefined behaviour.  (No code of /repo is modelled in this file.)
-/
namespace SoDa

/-- `std::string`: a sequence of characters.  -/
abbrev Str := List Char

/-- The NUL character `'\000'`, used by the library as "no separator / no fill". -/
def nul : Char := Char.ofNat 0

/-- Outcome of a C++ operation: a value, an exception of type `ε`, or undefined behaviour. -/
inductive Res (ε α : Type) where
  | ok (a : α)
  | throw (e : ε)
  | ub
  deriving DecidableEq, Repr

namespace Res
variable {ε α β : Type}

/-- Sequencing: exceptions and undefined behaviour propagate. -/
def bind (r : Res ε α) (f : α → Res ε β) : Res ε β :=
  match r with
  | ok a => f a
  | throw e => throw e
  | ub => ub

def map (f : α → β) (r : Res ε α) : Res ε β := r.bind (fun a => ok (f a))

instance : Monad (Res ε) where
  pure := ok
  bind := bind

@[simp] theorem bind_ok (a : α) (f : α → Res ε β) : (ok a).bind f = f a := rfl
@[simp] theorem bind_throw (e : ε) (f : α → Res ε β) : (throw e : Res ε α).bind f = throw e := rfl
@[simp] theorem bind_ub (f : α → Res ε β) : (ub : Res ε α).bind f = ub := rfl
@[simp] theorem map_ok (f : α → β) (a : α) : (ok a : Res ε α).map f = ok (f a) := rfl
@[simp] theorem map_ub (f : α → β) : (ub : Res ε α).map f = ub := rfl
@[simp] theorem map_throw (f : α → β) (e : ε) : (throw e : Res ε α).map f = throw e := rfl
end Res

end SoDa
