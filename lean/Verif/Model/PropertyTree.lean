import Verif.Model.StdMap
import Verif.Model.Split
import Verif.Model.Options
/-!
Model of `src/PropertyTree.cxx`, `src/PropertyTreeYAML.cxx` and their headers.

* A `PropNode` with everything below it is a finite tree (`fillRecurse` only ever attaches newly
  created nodes).  `Model/PropertyHeap.lean` has the nodes and pointers themselves.
* The `parent` pointers are used by `getPathName` only.  A pointer to a node is modelled as a
  `Ref`: the node together with the `val_string`s on the way from the root down to it.
* yaml-cpp is represented by what `YAML::LoadFile` yields: the document as a tree of `Y`, a
  `BadFile`, or another exception.  Documents in which an alias refers to an enclosing node are not
  finite trees; they are in `Model/PropertyAlias.lean`.  Iterating over a map visits the entries in document order,
  duplicates included.  Iterating over a non-empty sequence gives items whose `first` and `second`
  are invalid nodes, for which `IsMap()` throws `YAML::InvalidNode`.
-/
namespace SoDa.Prop

/-- `PropertyTree::PropNode`, include/PropertyTree.hxx:143-155: `val_string`, `is_terminal`,
`prop_list`, `dictionary`. -/
inductive Node where
  | mk (val : Str) (terminal : Bool) (list : List Node) (dict : List (Str × Node))

namespace Node

def val : Node → Str | mk v _ _ _ => v
def terminal : Node → Bool | mk _ t _ _ => t
def list : Node → List Node | mk _ _ l _ => l
def dict : Node → List (Str × Node) | mk _ _ _ d => d

/-- `new PropNode(parent, val_string, is_terminal)`, src/PropertyTree.cxx:50-56. -/
def new (val : Str) (terminal : Bool) : Node := mk val terminal [] []

/-- `prop->prop_list.push_back(pnp)`. -/
def push (n p : Node) : Node := mk n.val n.terminal (n.list ++ [p]) n.dict

/-- `prop->dictionary[key] = pnp`. -/
def set (n : Node) (key : Str) (p : Node) : Node :=
  mk n.val n.terminal n.list (mapSet strLess key p n.dict)

/-- `PropNode::getKeys`, src/PropertyTree.cxx:92-98. -/
def getKeys (n : Node) : List Str := n.dict.map (·.1)

/-- `PropNode::getList`, src/PropertyTree.cxx:88-90. -/
def getList (n : Node) : List Node := n.list

end Node

/-- `PropertyTree::PropertyTree`, src/PropertyTree.cxx:36-38: the root node. -/
def newTree : Node := Node.new "root".toList false

/-! ### Documents -/

/-- A `YAML::Node`. -/
inductive Y where
  | null
  | scalar (s : Str)
  | seq (l : List Y)
  | map (es : List (Y × Y))

/-- What can be thrown by yaml-cpp while the tree is filled. -/
inductive YErr where
  /-- `YAML::InvalidNode` -/
  | invalidNode
  /-- `YAML::TypedBadConversion<std::string>` -/
  | badConversion
  deriving DecidableEq, Repr

/-- `key.as<std::string>()`.  (Newer versions of yaml-cpp convert a null key to `"null"` instead
of throwing; only the "only if" part of C62 depends on this.) -/
def keyStr : Y → Option Str
  | .scalar s => some s
  | _ => none

mutual
/-- `PropertyTreeYAML::fillRecurse`, src/PropertyTreeYAML.cxx:58-98: the node afterwards, and the
exception if one was thrown. -/
def fill : Y → Node → Node × Option YErr
  | .null, n => (n, none)
  | .scalar s, n => (n.push (Node.new s true), none)
  | .seq [], n => (n, none)
  | .seq (_ :: _), n => (n, some .invalidNode)
  | .map es, n => fillEntries es n
/-- The loop over the entries, src/PropertyTreeYAML.cxx:68-97. -/
def fillEntries : List (Y × Y) → Node → Node × Option YErr
  | [], n => (n, none)
  | e :: es, n =>
    match fillEntry e n with
    | (n', some e) => (n', some e)
    | (n', none) => fillEntries es n'
/-- The body of the loop, src/PropertyTreeYAML.cxx:72-96.  The new node is attached before it is
filled, so what was filled in before an exception stays. -/
def fillEntry : Y × Y → Node → Node × Option YErr
  | (_, .null), n => (n, none)
  | (k, .map es), n =>
    match keyStr k with
    | none => (n, some .badConversion)
    | some ks =>
      match fillEntries es (Node.new [] false) with
      | (p, err) => (n.set ks p, err)
  | (k, .scalar s), n =>
    match keyStr k with
    | none => (n, some .badConversion)
    | some ks => (n.set ks (Node.new s true), none)
  | (_, .seq l), n => fillList l n
/-- The loop over the elements of a sequence, src/PropertyTreeYAML.cxx:93-95. -/
def fillList : List Y → Node → Node × Option YErr
  | [], n => (n, none)
  | y :: ys, n =>
    match fill y n with
    | (n', some e) => (n', some e)
    | (n', none) => fillList ys n'
end

/-- What `YAML::LoadFile` does. -/
inductive Load where
  | badFile (what : Str)
  | otherError
  | doc (y : Y)

/-- How `readFile` ends. -/
inductive ReadOut where
  | normal
  | fileNotFound (what : Str)
  | loadError
  | yaml (e : YErr)
  deriving DecidableEq, Repr

/-- `PropertyTreeYAML::readFile`, src/PropertyTreeYAML.cxx:44-56, on the root node. -/
def readFile (root : Node) : Load → Node × ReadOut
  | .badFile w => (root, .fileNotFound w)
  | .otherError => (root, .loadError)
  | .doc y =>
    match fill y root with
    | (r, none) => (r, .normal)
    | (r, some e) => (r, .yaml e)

/-! ### Lookup -/

/-- A pointer to a node: `above` are the `val_string`s of the nodes from the child of the root down
to this one (empty for the root). -/
structure Ref where
  above : List Str
  node : Node

/-- The root. -/
def Ref.root (n : Node) : Ref := ⟨[], n⟩

/-- A child of `r`. -/
def Ref.child (r : Ref) (n : Node) : Ref := ⟨r.above ++ [n.val], n⟩

/-- `PropNode::getPathName`, src/PropertyTree.cxx:40-47. -/
def Ref.getPathName (r : Ref) : Str := r.above.foldl (fun ret v => ret ++ ":".toList ++ v) []

/-- Exceptions of the property tree (src/PropertyTree.cxx:141-161). -/
inductive Err where
  | fileNotFound (str : Str)
  | notFound (path : Str)
  | badType (path type value : Str)
  deriving DecidableEq, Repr

/-- `PropNode::getPropRecursive`, src/PropertyTree.cxx:68-86; `none` is `nullptr`.  The recursive
call is on the same node. -/
def getPropRecursive (r : Ref) (orig : Str) (throwEx : Bool) : List Str → Res Err (Option Ref)
  | [] => .ok (some r)
  | k :: ks =>
    if (mapFind strLess k r.node.dict).isSome then getPropRecursive r orig throwEx ks
    else if throwEx then .throw (.notFound orig)
    else .ok none

/-- `PropNode::getProp`, src/PropertyTree.cxx:60-66. -/
def getProp (r : Ref) (pathname : Str) (throwEx : Bool := false) : Res Err (Option Ref) :=
  match split pathname ":".toList with
  | .ok pathlist => getPropRecursive r pathname throwEx pathlist
  | _ => .ub

/-- A type `T` with what `ss >> v` makes of a string (`none`: `ss.fail()`); `name` is
`typeid(v).name()`. -/
structure Ty (V : Type) where
  name : Str
  read : Str → Option V

/-- `PropNode::get<T>`, include/PropertyTree.hxx:168-178.  `some v` stands for `true` and the value
stored, `none` for `false`. -/
def Ref.get {V : Type} (T : Ty V) (r : Ref) (throwEx : Bool := false) : Res Err (Option V) :=
  match T.read r.node.val with
  | some v => .ok (some v)
  | none => if throwEx then .throw (.badType r.getPathName T.name r.node.val) else .ok none

/-- `PropertyTree::get<T>`, include/PropertyTree.hxx:130-140. -/
def get {V : Type} (T : Ty V) (root : Node) (pathname : Str) (throwEx : Bool := false) :
    Res Err (Option V) :=
  match getProp (Ref.root root) pathname throwEx with
  | .ok none => .throw (.notFound pathname)
  | .ok (some pn) => pn.get T throwEx
  | .throw e => .throw e
  | .ub => .ub

/-- `T = std::string`: `>>` skips white space and reads up to the next white space. -/
def strTy : Ty Str where
  name := "NSt7__cxx1112basic_stringIcSt11char_traitsIcESaIcEEE".toList
  read s :=
    let w := (s.dropWhile Opts.isSpace).takeWhile (fun c => !Opts.isSpace c)
    if w.isEmpty then none else some w

/-- `T = int`. -/
def intTy : Ty Int where
  name := "i".toList
  read s := match Opts.extractInt s with
    | .good v => some v
    | _ => none

/-- `what()` of the exceptions, src/PropertyTree.cxx:141-161. -/
def Err.what : Err → Res Fmt.BadFormat Str
  | .fileNotFound s => render "PropertyTree::PropNode::FileNotFound \"%0\"".toList [s]
  | .notFound p => render "PropertyTree::PropNode::PropertyNotFound \"%0\"".toList [p]
  | .badType p t v => render ("PropertyTree::PropNode::BadPropertyType at node name \"%0\" with " ++
      "value string \"%1\" which cannot be converted to type \"2\"").toList [p, v, t]
where
  /-- `SoDa::Format(fmt).addS(a).addS(b)….str()` -/
  render (fmt : Str) (args : List Str) : Res Fmt.BadFormat Str :=
    match (Fmt.mk' fmt).calls (args.map fun a => .addS a 0) with
    | .ok f => f.str false
    | _ => .ub

/-! ### Dump -/

mutual
/-- `PropNode::dump`, src/PropertyTree.cxx:105-139: the text written. -/
def Node.dump : Node → Str → Str
  | .mk val true _ _, indent => indent ++ val ++ "\n".toList
  | .mk _ false list dict, indent =>
    (if list.isEmpty then [] else "<<<PROPLIST>>>\n".toList ++ dumpList list indent) ++
    (if dict.isEmpty then [] else "<<<DICTIONARY>>>\n".toList ++ dumpDict dict indent)
/-- The loop over `prop_list`, src/PropertyTree.cxx:114-121. -/
def dumpList : List Node → Str → Str
  | [], _ => []
  | v :: vs, indent =>
    (if v.terminal then indent ++ v.val ++ "\n".toList else v.dump (indent ++ "  ".toList)) ++
      dumpList vs indent
/-- The loop over `dictionary`, src/PropertyTree.cxx:126-135. -/
def dumpDict : List (Str × Node) → Str → Str
  | [], _ => []
  | (k, v) :: vs, indent =>
    (indent ++ k ++ ":  ".toList ++
      (if v.terminal then v.val ++ "\n".toList
       else "\n".toList ++ v.dump (indent ++ "  ".toList))) ++ dumpDict vs indent
end

end SoDa.Prop
