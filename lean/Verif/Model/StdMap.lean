import Verif.Model.Basic
/-!
`std::map` as used by `include/Options.hxx` (option tables), `include/MailBox.hxx` (message
queues) and `include/PropertyTree.hxx` (dictionaries): the list of its entries in ascending order
of the keys.  Iterating over a map visits the list from front to back.
-/
namespace SoDa

/-- `std::less<std::string>`: lexicographic order. -/
def strLess : Str → Str → Bool
  | [], [] => false
  | [], _ :: _ => true
  | _ :: _, [] => false
  | a :: as, b :: bs => if a < b then true else if b < a then false else strLess as bs

/-- `std::less<char>`.  (The order of `ab_map` is never observable.) -/
def charLess (a b : Char) : Bool := decide (a < b)

/-- `m[k] = v` on a `std::map`, kept as the list of its entries in ascending order of keys. -/
def mapSet {K W : Type} (less : K → K → Bool) (k : K) (v : W) : List (K × W) → List (K × W)
  | [] => [(k, v)]
  | (k', v') :: m =>
    if less k k' then (k, v) :: (k', v') :: m
    else if less k' k then (k', v') :: mapSet less k v m
    else (k', v) :: m

/-- `m.find(k)`: two keys are the same if neither is less than the other. -/
def mapFind {K W : Type} (less : K → K → Bool) (k : K) : List (K × W) → Option W
  | [] => none
  | (k', v') :: m => if !less k k' && !less k' k then some v' else mapFind less k m

/-- `std::less<int>`. -/
def intLess (a b : Int) : Bool := decide (a < b)

/-- `m.erase(k)`. -/
def mapErase {K W : Type} (less : K → K → Bool) (k : K) : List (K × W) → List (K × W)
  | [] => []
  | (k', v') :: m => if !less k k' && !less k' k then m else (k', v') :: mapErase less k m

end SoDa
