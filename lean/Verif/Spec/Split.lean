import Verif.Model.Basic
/-!
Specification vocabulary for splitting strings.  Nothing here mentions the model of the code.
-/
namespace SoDa.Spec

/-- The fields of `s` between consecutive characters satisfying `d` (always at least one field;
`fields (· = ',') "a,,b,"` is `["a", "", "b", ""]`). -/
def fields (d : Char → Bool) : Str → List Str
  | [] => [[]]
  | c :: cs =>
    if d c then [] :: fields d cs
    else match fields d cs with
      | [] => [[c]]            -- unreachable, `fields` is never empty
      | f :: fs => (c :: f) :: fs

/-- The words of a string: its maximal runs of non-space characters. -/
def words (s : Str) : List Str := (fields (· = ' ') s).filter (fun w => !w.isEmpty)

/-- Texts joined by a separator text. -/
def join (sep : Str) : List Str → Str
  | [] => []
  | [w] => w
  | w :: ws => w ++ sep ++ join sep ws

/-- A list of fields without its last element when that element is empty. -/
def dropFinalEmpty : List Str → List Str
  | [] => []
  | [f] => if f.isEmpty then [] else [f]
  | f :: fs => f :: dropFinalEmpty fs

end SoDa.Spec
