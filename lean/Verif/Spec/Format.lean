import Verif.Model.Basic
/-!
Specification vocabulary for format strings and for the texts of numbers.  Nothing here mentions
the model of the code.
-/
namespace SoDa.Spec

/-- What a format string consists of: characters to be printed and numbered placeholders. -/
inductive Item where
  | chr (c : Char)
  | hole (n : Nat)
  deriving DecidableEq, Repr

/-- How a format string is read.  `%` followed by digits is a placeholder whose number is the
decimal value of the whole digit run modulo 2^32; `%%` is one percent sign; any other character
stands for itself (also a `%` that is last or followed by something else, and that something). -/
def template : Str → List Item
  | [] => []
  | c :: cs =>
    if c ≠ '%' then .chr c :: template cs
    else
      match cs with
      | [] => [.chr '%']
      | x :: xs =>
        if x.isDigit then
          .hole (Nat.ofDigitChars 10 (x :: xs.takeWhile Char.isDigit) 0 % 2 ^ 32) ::
            template (xs.dropWhile Char.isDigit)
        else if x = '%' then .chr '%' :: template xs
        else .chr '%' :: .chr x :: template xs
termination_by s => s.length
decreasing_by
  · simp
  · have := (List.dropWhile_sublist Char.isDigit (l := xs)).length_le
    simp only [List.length_cons]; omega
  · simp only [List.length_cons]; omega
  · simp only [List.length_cons]; omega

/-- The text of one item when `vals` have been supplied (value number 0 first). -/
def renderItem (vals : List Str) : Item → Str
  | .chr c => [c]
  | .hole n => match vals[n]? with
    | some v => v
    | none => '%' :: (toString n).toList

/-- The printed text. -/
def render (vals : List Str) (items : List Item) : Str := items.flatMap (renderItem vals)

/-- Doubling of percent signs. -/
def escape : Str → Str
  | [] => []
  | c :: cs => if c = '%' then '%' :: '%' :: escape cs else c :: escape cs

/-- The number denoted by a numeral in base `b` (digits `0-9`, `a-z`, `A-Z`), if it is one. -/
def digitValue (b : Nat) (c : Char) : Option Nat :=
  let v := if '0' ≤ c ∧ c ≤ '9' then some (c.toNat - '0'.toNat)
    else if 'a' ≤ c ∧ c ≤ 'z' then some (c.toNat - 'a'.toNat + 10)
    else if 'A' ≤ c ∧ c ≤ 'Z' then some (c.toNat - 'A'.toNat + 10)
    else none
  v.filter (· < b)

def valueFrom (b : Nat) (acc : Nat) : Str → Option Nat
  | [] => some acc
  | c :: cs => (digitValue b c).bind fun d => valueFrom b (acc * b + d) cs

/-- The value of a non-empty numeral. -/
def numeral (b : Nat) (s : Str) : Option Nat := if s = [] then none else valueFrom b 0 s

/-- The value of a signed decimal numeral (`-` allowed in front). -/
def signedNumeral (s : Str) : Option Int :=
  match s with
  | '-' :: ds => (numeral 10 ds).map fun n => -(n : Int)
  | ds => (numeral 10 ds).map fun n => (n : Int)

/-- `out` is `body` cut into chunks of `g` characters counted from the right (only the leftmost
one may be shorter, none is empty) with the character `sep` between neighbouring chunks. -/
def Grouped (g : Nat) (sep : Char) (body out : Str) : Prop :=
  ∃ chunks : List Str,
    chunks.flatten = body ∧
    (∀ ck ∈ chunks.tail, ck.length = g) ∧
    (∀ ck, chunks.head? = some ck → 1 ≤ ck.length ∧ ck.length ≤ g) ∧
    out = List.intercalate [sep] chunks

end SoDa.Spec
