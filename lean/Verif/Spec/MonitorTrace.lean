import Verif.Model.Monitor
import Verif.Spec.HappensBefore
/-!
The steps of threads calling the methods of a mutex-protected object, as happens-before sees them.
-/
namespace SoDa.Spec
open Monitor

variable {T O R : Type}

/-- The thread that executes a step and what the step does to the mutex. -/
def labelAct : Label T O R → Act T
  | .call t _ => ⟨t, .other⟩
  | .lock t => ⟨t, .acquire⟩
  | .act t => ⟨t, .other⟩
  | .unlock t _ _ => ⟨t, .release⟩
  | .ret t _ _ => ⟨t, .other⟩

/-- The steps of an execution. -/
def actAt (ls : List (Label T O R)) (i : Nat) : Option (Act T) := ls[i]?.map labelAct

end SoDa.Spec
