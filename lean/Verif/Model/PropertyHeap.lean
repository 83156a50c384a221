import Verif.Model.PropertyTree
/-!
The property tree once more, with its pointers: `src/PropertyTree.cxx`, `src/PropertyTreeYAML.cxx`.

* The memory is the list of all `PropNode`s ever created with `new`, and a pointer is a position in that list.  There is no
  `delete` in the library, and the destructor of `PropertyTree` is the implicit one, so nothing is ever taken out of the list.
* Using a pointer at which there is no node is undefined (`none`); that this never happens is proved (C92).
* Tree objects are variables holding the pointer `root`.  `PropertyTreeYAML` has the implicit copy constructor and
  assignment, which copy that pointer.
* Documents are those of `Verif.Model.PropertyTree`.  The exceptions of `std::bad_alloc` are in
  `Verif.Model.PropertyAlloc`.
-/
namespace SoDa.PropMem
open SoDa.Prop

/-- A `PropNode *` that is not null. -/
scoped notation "Ptr" => Nat

/-- `PropertyTree::PropNode`, include/PropertyTree.hxx:143-155. -/
structure Cell where
  parent : Option Ptr
  val : Str
  terminal : Bool
  list : List Ptr
  dict : List (Str × Ptr)
  deriving DecidableEq, Repr

/-- All nodes created so far. -/
abbrev Mem := List Cell

/-- `new PropNode(parent, val_string, is_terminal)`, src/PropertyTree.cxx:50-56; the new node is at `m.length`. -/
def Mem.alloc (m : Mem) (parent : Option Ptr) (val : Str) (terminal : Bool) : Mem :=
  m ++ [{ parent, val, terminal, list := [], dict := [] }]

/-- `p->prop_list.push_back(q)`. -/
def Mem.push (m : Mem) (p q : Ptr) : Option Mem :=
  (m[p]?).map fun c => m.set p { c with list := c.list ++ [q] }

/-- `p->dictionary[key] = q`. -/
def Mem.setKey (m : Mem) (p : Ptr) (key : Str) (q : Ptr) : Option Mem :=
  (m[p]?).map fun c => m.set p { c with dict := mapSet strLess key q c.dict }

mutual
/-- `PropertyTreeYAML::fillRecurse(node, prop)`, src/PropertyTreeYAML.cxx:58-98: the memory afterwards, and the exception if
one was thrown. -/
def fill : Y → Ptr → Mem → Option (Mem × Option YErr)
  | .null, _, m => some (m, none)
  | .scalar s, p, m => ((m.alloc (some p) s true).push p m.length).map fun m => (m, none)
  | .seq [], _, m => some (m, none)
  | .seq (_ :: _), _, m => some (m, some .invalidNode)
  | .map es, p, m => fillEntries es p m
/-- The loop over the entries, src/PropertyTreeYAML.cxx:68-97. -/
def fillEntries : List (Y × Y) → Ptr → Mem → Option (Mem × Option YErr)
  | [], _, m => some (m, none)
  | e :: es, p, m =>
    match fillEntry e p m with
    | none => none
    | some (m', some e) => some (m', some e)
    | some (m', none) => fillEntries es p m'
/-- The body of the loop, src/PropertyTreeYAML.cxx:72-96.  The node is created before the key is converted, so it stays
behind, in no tree, if the conversion throws. -/
def fillEntry : Y × Y → Ptr → Mem → Option (Mem × Option YErr)
  | (_, .null), _, m => some (m, none)
  | (k, .map es), p, m =>
    match keyStr k with
    | none => some (m.alloc (some p) [] false, some .badConversion)
    | some ks =>
      match (m.alloc (some p) [] false).setKey p ks m.length with
      | none => none
      | some m' => fillEntries es m.length m'
  | (k, .scalar s), p, m =>
    match keyStr k with
    | none => some (m.alloc (some p) s true, some .badConversion)
    | some ks => ((m.alloc (some p) s true).setKey p ks m.length).map fun m => (m, none)
  | (_, .seq l), p, m => fillList l p m
/-- The loop over the elements of a sequence, src/PropertyTreeYAML.cxx:93-95. -/
def fillList : List Y → Ptr → Mem → Option (Mem × Option YErr)
  | [], _, m => some (m, none)
  | y :: ys, p, m =>
    match fill y p m with
    | none => none
    | some (m', some e) => some (m', some e)
    | some (m', none) => fillList ys p m'
end

/-- `PropertyTreeYAML::readFile`, src/PropertyTreeYAML.cxx:44-56, on the tree with the given root. -/
def readFile (root : Ptr) (m : Mem) : Load → Option (Mem × ReadOut)
  | .badFile w => some (m, .fileNotFound w)
  | .otherError => some (m, .loadError)
  | .doc y => (fill y root m).map fun
    | (m, none) => (m, .normal)
    | (m, some e) => (m, .yaml e)

/-- `PropNode::getPathName`, src/PropertyTree.cxx:40-47, in at most the given number of calls; `none` if they are not enough
or a pointer is bad. -/
def getPathName (m : Mem) : Nat → Ptr → Option Str
  | 0, _ => none
  | calls + 1, p =>
    match m[p]? with
    | none => none
    | some c => match c.parent with
      | none => some []
      | some q => (getPathName m calls q).map fun s => s ++ ":".toList ++ c.val

/-- `PropNode::getPropRecursive`, src/PropertyTree.cxx:68-86. -/
def getPropRecursive (m : Mem) (p : Ptr) (orig : Str) (throwEx : Bool) : List Str → Res Err (Option Ptr)
  | [] => .ok (some p)
  | k :: ks =>
    match m[p]? with
    | none => .ub
    | some c =>
      if (mapFind strLess k c.dict).isSome then getPropRecursive m p orig throwEx ks
      else if throwEx then .throw (.notFound orig)
      else .ok none

/-- `PropNode::getProp`, src/PropertyTree.cxx:60-66. -/
def getProp (m : Mem) (p : Ptr) (pathname : Str) (throwEx : Bool := false) : Res Err (Option Ptr) :=
  match split pathname ":".toList with
  | .ok pathlist => getPropRecursive m p pathname throwEx pathlist
  | _ => .ub

/-- `PropNode::get<T>`, include/PropertyTree.hxx:168-178; `calls` bounds the recursion of `getPathName`. -/
def nodeGet {V : Type} (T : Ty V) (calls : Nat) (m : Mem) (p : Ptr) (throwEx : Bool := false) : Res Err (Option V) :=
  match m[p]? with
  | none => .ub
  | some c => match T.read c.val with
    | some v => .ok (some v)
    | none =>
      if throwEx then match getPathName m calls p with
        | some path => .throw (.badType path T.name c.val)
        | none => .ub
      else .ok none

/-- `PropertyTree::get<T>`, include/PropertyTree.hxx:130-140. -/
def get {V : Type} (T : Ty V) (calls : Nat) (m : Mem) (root : Ptr) (pathname : Str) (throwEx : Bool := false) :
    Res Err (Option V) :=
  match getProp m root pathname throwEx with
  | .ok none => .throw (.notFound pathname)
  | .ok (some p) => nodeGet T calls m p throwEx
  | .throw e => .throw e
  | .ub => .ub

mutual
/-- `PropNode::dump`, src/PropertyTree.cxx:105-139, with calls nested at most that deep; `none` if that is not enough or a
pointer is bad. -/
def dump (m : Mem) : Nat → Ptr → Str → Option Str
  | 0, _, _ => none
  | calls + 1, p, indent =>
    match m[p]? with
    | none => none
    | some c =>
      if c.terminal then some (indent ++ c.val ++ "\n".toList)
      else do
        let l ← dumpList m calls c.list indent
        let d ← dumpDict m calls c.dict indent
        some ((if c.list.isEmpty then [] else "<<<PROPLIST>>>\n".toList ++ l) ++
          (if c.dict.isEmpty then [] else "<<<DICTIONARY>>>\n".toList ++ d))
/-- The loop over `prop_list`, src/PropertyTree.cxx:114-121. -/
def dumpList (m : Mem) : Nat → List Ptr → Str → Option Str
  | _, [], _ => some []
  | calls, v :: vs, indent =>
    match m[v]? with
    | none => none
    | some c => do
      let one ← if c.terminal then some (indent ++ c.val ++ "\n".toList) else dump m calls v (indent ++ "  ".toList)
      let rest ← dumpList m calls vs indent
      some (one ++ rest)
/-- The loop over `dictionary`, src/PropertyTree.cxx:126-135. -/
def dumpDict (m : Mem) : Nat → List (Str × Ptr) → Str → Option Str
  | _, [], _ => some []
  | calls, (k, v) :: vs, indent =>
    match m[v]? with
    | none => none
    | some c => do
      let one ← if c.terminal then some (c.val ++ "\n".toList)
        else (dump m calls v (indent ++ "  ".toList)).map fun s => "\n".toList ++ s
      let rest ← dumpDict m calls vs indent
      some ((indent ++ k ++ ":  ".toList ++ one) ++ rest)
end

/-! ### Programs with tree objects -/

/-- The memory, and the tree objects that exist, by the names of the variables. -/
structure St where
  mem : Mem
  root : Nat → Option Ptr

/-- The beginning of a program. -/
def St.init : St := { mem := [], root := fun _ => none }

def St.setRoot (s : St) (i : Nat) (r : Option Ptr) : St :=
  { s with root := fun j => if j = i then r else s.root j }

inductive Cmd where
  /-- `PropertyTreeYAML i;` -/
  | make (i : Nat)
  /-- `PropertyTreeYAML i(filename);` -/
  | load (i : Nat) (f : Load)
  /-- `PropertyTreeYAML i(j);` -/
  | copy (i j : Nat)
  /-- `i = j;` -/
  | assign (i j : Nat)
  /-- `i.readFile(filename);` -/
  | read (i : Nat) (f : Load)
  /-- The variable `i` goes out of scope. -/
  | destroy (i : Nat)

/-- One statement; `none` if it does not make sense (a variable that does not exist or exists already) or is undefined.
The constructors are src/PropertyTree.cxx:36-38 and src/PropertyTreeYAML.cxx:36-42; if `readFile` throws in a constructor,
there is no object afterwards. -/
def exec (s : St) : Cmd → Option (St × ReadOut)
  | .make i => if s.root i = none then
      some ({ s with mem := s.mem.alloc none "root".toList false }.setRoot i (some s.mem.length), .normal)
    else none
  | .load i f => if s.root i = none then
      match readFile s.mem.length (s.mem.alloc none "root".toList false) f with
      | none => none
      | some (m, .normal) => some ({ s with mem := m }.setRoot i (some s.mem.length), .normal)
      | some (m, out) => some ({ s with mem := m }, out)
    else none
  | .copy i j => match s.root i, s.root j with
    | none, some r => some (s.setRoot i (some r), .normal)
    | _, _ => none
  | .assign i j => match s.root i, s.root j with
    | some _, some r => some (s.setRoot i (some r), .normal)
    | _, _ => none
  | .read i f => match s.root i with
    | none => none
    | some r => (readFile r s.mem f).map fun (m, out) => ({ s with mem := m }, out)
  | .destroy i => match s.root i with
    | none => none
    | some _ => some (s.setRoot i none, .normal)

/-- The states a program can get into. -/
inductive Reach : List Cmd → St → Prop where
  | init : Reach [] St.init
  | snoc {cs s c s' out} (h : Reach cs s) (he : exec s c = some (s', out)) : Reach (cs ++ [c]) s'

end SoDa.PropMem
