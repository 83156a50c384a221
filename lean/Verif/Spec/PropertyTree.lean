import Verif.Model.PropertyTree
import Verif.Spec.Split
import Verif.Spec.Options
/-!
Specification vocabulary for property trees: following keys in a tree of nodes and in a document.
-/
namespace SoDa.Spec
open SoDa.Prop

/-- The node under key `k`. -/
def childAt (n : Node) (k : Str) : Option Node := (n.dict.find? (fun e => e.1 = k)).map (·.2)

/-- The node reached from `n` by following keys. -/
def nodeAt (n : Node) : List Str → Option Node
  | [] => some n
  | k :: ks => (childAt n k).bind fun m => nodeAt m ks

/-- The value an entry of a map gives to key `k`; sequences and nulls are left out. -/
def entryOne (e : Y × Y) (k : Str) : Option Y :=
  match e with
  | (.scalar k', .scalar s) => if k' = k then some (.scalar s) else none
  | (.scalar k', .map m) => if k' = k then some (.map m) else none
  | _ => none

/-- The value with key `k` in the entries of a map: the last one that is not a sequence. -/
def entryAt (es : List (Y × Y)) (k : Str) : Option Y :=
  es.foldl (fun found e => (entryOne e k).or found) none

/-- The value reached in a document by following keys. -/
def docAt (y : Y) : List Str → Option Y
  | [] => some y
  | k :: ks => match y with
    | .map es => (entryAt es k).bind fun z => docAt z ks
    | _ => none

/-- Nested maps with scalar leaves; the keys are scalars. -/
inductive Nested : Y → Prop where
  | scalar (s : Str) : Nested (.scalar s)
  | map (es : List (Y × Y)) (hk : ∀ e ∈ es, ∃ s, e.1 = .scalar s)
      (hv : ∀ e ∈ es, Nested e.2) :
      Nested (.map es)

/-- The same with sequences of scalars as further values. -/
inductive Plain : Y → Prop where
  | scalar (s : Str) : Plain (.scalar s)
  | seq (l : List Str) : Plain (.seq (l.map .scalar))
  | map (es : List (Y × Y)) (hk : ∀ e ∈ es, ∃ s, e.1 = .scalar s)
      (hv : ∀ e ∈ es, Plain e.2) :
      Plain (.map es)

/-- The scalars of the sequences that are values in a map, in document order. -/
def scalarsIn (es : List (Y × Y)) : List Str := es.flatMap fun e => match e.2 with
  | .seq l => l.filterMap fun y => match y with
    | .scalar s => some s
    | _ => none
  | _ => []

/-- A leaf of the tree with value `s`. -/
def leaf (s : Str) : Node := .mk s true [] []

/-- `n` stands for the map with entries `es`: no value of its own, the keys of the map (each once,
ascending), and the scalars of its sequences as its list. -/
structure StandsFor (n : Node) (es : List (Y × Y)) : Prop where
  inner : n.terminal = false
  ascending : n.getKeys.Pairwise (· < ·)
  keys : ∀ k, k ∈ n.getKeys ↔ (entryAt es k).isSome = true
  scalars : n.getList = (scalarsIn es).map leaf

/-- The node found at a path stands for the value found at the same path of the document. -/
def Mirrors (n : Option Node) (y : Option Y) : Prop :=
  match n, y with
  | none, none => True
  | some n, some (.scalar s) => n = leaf s
  | some n, some (.map es) => StandsFor n es
  | _, _ => False

/-! ### Documents in general -/

/-- What a document contributes to the node it is read into: scalars for its list, and values
under keys. -/
inductive Contrib where
  | item (s : Str)
  | entry (k : Str) (y : Y)

mutual
/-- The contributions of a document in document order.  The elements of a sequence that is the
value of a key (its key is ignored) contribute to the same node: scalars become list items, the
entries of a map become entries of the node itself. -/
def contents : Y → List Contrib
  | .null => []
  | .scalar s => [.item s]
  | .seq _ => []
  | .map es => contentsEntries es
def contentsEntries : List (Y × Y) → List Contrib
  | [] => []
  | e :: es => contentsEntry e ++ contentsEntries es
def contentsEntry : Y × Y → List Contrib
  | (_, .seq l) => contentsList l
  | (.scalar k, .scalar s) => [.entry k (.scalar s)]
  | (.scalar k, .map m) => [.entry k (.map m)]
  | _ => []
def contentsList : List Y → List Contrib
  | [] => []
  | y :: ys => contents y ++ contentsList ys
end

mutual
/-- Documents without a non-empty sequence at the top or within a sequence, and with scalar keys
(where a value other than null or a sequence is stored). -/
def Readable : Y → Prop
  | .null => True
  | .scalar _ => True
  | .seq l => l = []
  | .map es => ReadableEntries es
def ReadableEntries : List (Y × Y) → Prop
  | [] => True
  | e :: es => ReadableEntry e ∧ ReadableEntries es
def ReadableEntry : Y × Y → Prop
  | (_, .null) => True
  | (k, .scalar _) => ∃ s, k = .scalar s
  | (k, .map m) => (∃ s, k = .scalar s) ∧ ReadableEntries m
  | (_, .seq l) => ReadableList l
def ReadableList : List Y → Prop
  | [] => True
  | y :: ys => Readable y ∧ ReadableList ys
end

/-- The scalars among some contributions. -/
def items (l : List Contrib) : List Str := l.filterMap fun i => match i with
  | .item s => some s
  | .entry _ _ => none

/-- The value contributed last under key `k`. -/
def lastEntry (l : List Contrib) (k : Str) : Option Y := (l.reverse.filterMap fun i => match i with
  | .entry k' y => if k' = k then some y else none
  | .item _ => none).head?

/-- The value reached in a document by following keys. -/
def valueAt (y : Y) : List Str → Option Y
  | [] => some y
  | k :: ks => (lastEntry (contents y) k).bind fun z => valueAt z ks

/-- `n` shows the contributions `l`. -/
structure Shows (n : Node) (l : List Contrib) : Prop where
  ascending : n.getKeys.Pairwise (· < ·)
  keys : ∀ k, k ∈ n.getKeys ↔ ∃ y, Contrib.entry k y ∈ l
  scalars : n.getList = (items l).map leaf

/-- A node below the root stands for the value found in the document. -/
def Represents (n : Option Node) (y : Option Y) : Prop :=
  match n, y with
  | none, none => True
  | some n, some (.scalar s) => n = leaf s
  | some n, some (.map es) => n.terminal = false ∧ n.val = [] ∧ Shows n (contents (.map es))
  | _, _ => False

/-! ### Paths -/

/-- Keys that can be written in a path: the path is not blank, no key contains a colon, none begins
or ends with a space or contains two adjacent spaces, and the last one is not empty. -/
structure Writable (ks : List Str) : Prop where
  some_key : ks ≠ []
  last : ks.getLast? ≠ some []
  colon : ∀ k ∈ ks, ':' ∉ k
  spaces : ∀ k ∈ ks, k.head? ≠ some ' ' ∧ k.getLast? ≠ some ' ' ∧ ¬ ∃ a b, k = a ++ ' ' :: ' ' :: b

/-- The path with these keys. -/
def pathOf (ks : List Str) : Str := join [':'] ks

/-! ### Texts -/

/-- `line` is one of the lines of `text`. -/
def HasLine (text line : Str) : Prop :=
  ∃ a b, text = a ++ (line ++ '\n' :: b) ∧ (a = [] ∨ a.getLast? = some '\n')

/-- The string is white space, a word, and then nothing or white space and more. -/
def FirstWord (s w : Str) : Prop :=
  ∃ ws rest, s = ws ++ w ++ rest ∧ (∀ c ∈ ws, White c) ∧ w ≠ [] ∧ (∀ c ∈ w, ¬ White c) ∧
    ∀ c, rest.head? = some c → White c

end SoDa.Spec
