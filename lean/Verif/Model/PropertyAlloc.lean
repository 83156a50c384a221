import Verif.Model.PropertyHeap
/-!
Reading files into property trees when memory can run out: `src/PropertyTreeYAML.cxx:36-98` with `std::bad_alloc`.

The nodes and pointers are those of `Verif.Model.PropertyHeap`.  A number `left` says how many more requests for memory are
granted; the next one throws `std::bad_alloc`.

* Requests that follow each other with nothing changed in between are counted as one: the string of a node and the node
  itself (`new PropNode(prop, node.as<std::string>(), true)`; if the constructor throws, the language gives the memory of the
  node back), and whatever yaml-cpp requests when the loops look for the next entry.
* `std::vector::push_back` and the insertion done by `std::map::operator[]` change nothing if they throw (the language says
  so).  In `dictionary[key] = pnp` nothing can throw between the insertion and the assignment.
* `YAML::LoadFile` running out of memory is `Load.otherError`.
-/
namespace SoDa.PropAlloc
open SoDa.Prop SoDa.PropMem

/-- What can be thrown while the tree is filled. -/
inductive Exn where
  | yaml (e : YErr)
  /-- `std::bad_alloc` -/
  | badAlloc
  deriving DecidableEq, Repr

/-- The memory afterwards, and the exception or how many requests are left; `none`: undefined. -/
abbrev Ret := Option (Mem × Except Exn Nat)

/-- A request for memory, when the nodes are `m`. -/
def ask (m : Mem) (left : Nat) (next : Nat → Ret) : Ret :=
  match left with
  | 0 => some (m, .error .badAlloc)
  | left + 1 => next left

mutual
/-- `PropertyTreeYAML::fillRecurse(node, prop)`, src/PropertyTreeYAML.cxx:58-98. -/
def fill : Y → Nat → Mem → Nat → Ret
  | .null, _, m, left => some (m, .ok left)
  | .scalar s, p, m, left =>
    ask m left fun left =>                            -- `new PropNode(prop, node.as<std::string>(), true)`
    ask (m.alloc (some p) s true) left fun left =>    -- `prop_list.push_back(pnp)`
    ((m.alloc (some p) s true).push p m.length).map fun m => (m, .ok left)
  | .seq [], _, m, left => some (m, .ok left)
  | .seq (_ :: _), _, m, _ => some (m, .error (.yaml .invalidNode))
  | .map es, p, m, left => fillEntries es p m left
/-- The loop over the entries, src/PropertyTreeYAML.cxx:68-97. -/
def fillEntries : List (Y × Y) → Nat → Mem → Nat → Ret
  | [], _, m, left => ask m left fun left => some (m, .ok left)
  | e :: es, p, m, left =>
    ask m left fun left =>
    match fillEntry e p m left with
    | none => none
    | some (m', .error e) => some (m', .error e)
    | some (m', .ok left) => fillEntries es p m' left
/-- The body of the loop, src/PropertyTreeYAML.cxx:72-96. -/
def fillEntry : Y × Y → Nat → Mem → Nat → Ret
  | (_, .null), _, m, left => some (m, .ok left)
  | (k, .map es), p, m, left =>
    ask m left fun left =>                            -- `new PropNode(prop, "", false)`
    ask (m.alloc (some p) [] false) left fun left =>  -- `it->first.as<std::string>()`
    match keyStr k with
    | none => some (m.alloc (some p) [] false, .error (.yaml .badConversion))
    | some ks =>
      ask (m.alloc (some p) [] false) left fun left =>  -- `prop->dictionary[…]`
      match (m.alloc (some p) [] false).setKey p ks m.length with
      | none => none
      | some m' => fillEntries es m.length m' left
  | (k, .scalar s), p, m, left =>
    ask m left fun left =>                            -- `new PropNode(prop, it->second.as<std::string>(), true)`
    ask (m.alloc (some p) s true) left fun left =>    -- `it->first.as<std::string>()`
    match keyStr k with
    | none => some (m.alloc (some p) s true, .error (.yaml .badConversion))
    | some ks =>
      ask (m.alloc (some p) s true) left fun left =>    -- `prop->dictionary[…]`
      ((m.alloc (some p) s true).setKey p ks m.length).map fun m => (m, .ok left)
  | (_, .seq l), p, m, left => fillList l p m left
/-- The loop over the elements of a sequence, src/PropertyTreeYAML.cxx:93-95. -/
def fillList : List Y → Nat → Mem → Nat → Ret
  | [], _, m, left => ask m left fun left => some (m, .ok left)
  | y :: ys, p, m, left =>
    ask m left fun left =>
    match fill y p m left with
    | none => none
    | some (m', .error e) => some (m', .error e)
    | some (m', .ok left) => fillList ys p m' left
end

/-- How a statement ends. -/
inductive Out where
  | done (o : ReadOut)
  /-- `std::bad_alloc` is thrown -/
  | badAlloc
  deriving DecidableEq, Repr

/-- `PropertyTreeYAML::readFile`, src/PropertyTreeYAML.cxx:44-56. -/
def readFile (root : Nat) (m : Mem) (left : Nat) : Load → Option (Mem × Out)
  | .badFile w => some (m, .done (.fileNotFound w))
  | .otherError => some (m, .done .loadError)
  | .doc y => (fill y root m left).map fun
    | (m, .ok _) => (m, .done .normal)
    | (m, .error (.yaml e)) => (m, .done (.yaml e))
    | (m, .error .badAlloc) => (m, .badAlloc)

/-- One statement of a program with tree objects, with `left` requests granted: as `PropMem.exec`.  Copying, assigning and
the end of a life request nothing. -/
def exec (s : St) (left : Nat) : Cmd → Option (St × Out)
  | .make i => if s.root i = none then
      match left with
      | 0 => some (s, .badAlloc)                      -- `root = new PropNode(nullptr, "root", false)`
      | _ + 1 => some ({ s with mem := s.mem.alloc none "root".toList false }.setRoot i (some s.mem.length), .done .normal)
    else none
  | .load i f => if s.root i = none then
      match left with
      | 0 => some (s, .badAlloc)
      | left + 1 =>
        match readFile s.mem.length (s.mem.alloc none "root".toList false) left f with
        | none => none
        | some (m, .done .normal) => some ({ s with mem := m }.setRoot i (some s.mem.length), .done .normal)
        | some (m, out) => some ({ s with mem := m }, out)
    else none
  | .read i f => match s.root i with
    | none => none
    | some r => (readFile r s.mem left f).map fun (m, out) => ({ s with mem := m }, out)
  | c => (PropMem.exec s c).map fun (s, out) => (s, .done out)

/-- The states a program can get into; each statement is given some number of requests. -/
inductive Reach : List (Cmd × Nat) → St → Prop where
  | init : Reach [] St.init
  | snoc {cs s c left s' out} (h : Reach cs s) (he : exec s left c = some (s', out)) : Reach (cs ++ [(c, left)]) s'

end SoDa.PropAlloc
