import Verif.Model.Options
/-!
Specification for C116: texts that cannot be converted.
-/
namespace SoDa.Spec
open Opts

variable {V : Type}

/-- Converting a text a second time that cannot be converted leaves what the first time left. -/
def Settles (regs : List (Decl V)) : Prop := ∀ d ∈ regs, ∀ (t : Str) (x : V), d.readFail t (d.readFail t x) = d.readFail t x

end SoDa.Spec
