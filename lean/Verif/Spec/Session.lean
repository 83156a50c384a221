import Verif.Spec.MailBox
/-!
Specification vocabulary for the protocol of mailbox and barrier.
-/
namespace SoDa.Spec
open Mail

variable {P : Type}

/-- The messages meant for subscriber `i` in the whole history: all but those naming `i` as sender. -/
def meantFor (i : Int) (tr : List (Event P)) : List P := tr.filterMap (sendsTo i)

end SoDa.Spec
