import Verif.Model.PropertyTree
/-!
`PropertyTreeYAML::readFile` for documents with aliases.

* What `YAML::LoadFile` returns is a graph: an alias (`*a`) stands for the very node that has the anchor (`&a`).  The nodes
  are named by numbers, and a sequence or map refers to its parts by these names.  yaml-cpp knows the anchor of a node before
  it has read the node itself, so an alias may refer to an enclosing node (`&a {b: *a}`), and the graph then has a cycle.
* The recursion of `fillRecurse` need not end; the model counts nested calls, and `none` means "more nested calls than
  that".
-/
namespace SoDa.Prop

/-- A node of a document. -/
inductive GNode where
  | null
  | scalar (s : Str)
  | seq (l : List Nat)
  | map (es : List (Nat × Nat))
  deriving DecidableEq, Repr

/-- The nodes of a document. -/
abbrev Graph := Nat → GNode

namespace Graph
variable (g : Graph)

/-- `key.as<std::string>()`, as `keyStr`. -/
def keyStr (k : Nat) : Option Str := match g k with
  | .scalar s => some s
  | _ => none

/-- The loop over the elements of a sequence, src/PropertyTreeYAML.cxx:93-95; `call` is the nested call. -/
def fillList (call : Nat → Node → Option (Node × Option YErr)) : List Nat → Node → Option (Node × Option YErr)
  | [], n => some (n, none)
  | y :: ys, n =>
    match call y n with
    | none => none
    | some (n', some e) => some (n', some e)
    | some (n', none) => fillList call ys n'

/-- The body of the loop over the entries, src/PropertyTreeYAML.cxx:72-96. -/
def fillEntry (call : Nat → Node → Option (Node × Option YErr)) (k v : Nat) (n : Node) : Option (Node × Option YErr) :=
  match g v with
  | .null => some (n, none)
  | .map _ =>
    match g.keyStr k with
    | none => some (n, some .badConversion)
    | some ks => (call v (Node.new [] false)).map fun r => (n.set ks r.1, r.2)
  | .scalar s =>
    match g.keyStr k with
    | none => some (n, some .badConversion)
    | some ks => some (n.set ks (Node.new s true), none)
  | .seq l => fillList call l n

/-- The loop over the entries, src/PropertyTreeYAML.cxx:68-97. -/
def fillEntries (call : Nat → Node → Option (Node × Option YErr)) : List (Nat × Nat) → Node → Option (Node × Option YErr)
  | [], n => some (n, none)
  | e :: es, n =>
    match g.fillEntry call e.1 e.2 n with
    | none => none
    | some (n', some e) => some (n', some e)
    | some (n', none) => fillEntries call es n'

/-- `PropertyTreeYAML::fillRecurse`, src/PropertyTreeYAML.cxx:58-98, with calls nested at most that deep: the node
afterwards, and the exception if one was thrown. -/
def fill : Nat → Nat → Node → Option (Node × Option YErr)
  | 0, _, _ => none
  | calls + 1, i, n =>
    match g i with
    | .null => some (n, none)
    | .scalar s => some (n.push (Node.new s true), none)
    | .seq [] => some (n, none)
    | .seq (_ :: _) => some (n, some .invalidNode)
    | .map es => g.fillEntries (fill calls) es n

/-- `PropertyTreeYAML::readFile`, src/PropertyTreeYAML.cxx:44-56, for a file whose document begins at node `top`. -/
def readFile (calls top : Nat) (root : Node) : Option (Node × ReadOut) :=
  (g.fill calls top root).map fun
    | (r, none) => (r, .normal)
    | (r, some e) => (r, .yaml e)

end Graph
end SoDa.Prop
