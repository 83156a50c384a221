import Verif.Model.PropertyTree
/-!
The recursive methods of `PropNode` with a limit for the number of nested calls, for the question how much stack they need.
`none` means that more calls than allowed would be nested.  (`fillRecurse` with a limit is in PropertyAlias.lean; `getPathName` is a loop.)
-/
namespace SoDa.Prop

/-- The loop over `prop_list`, src/PropertyTree.cxx:114-121; `call` is the nested call. -/
def listWithin (call : Node → Str → Option Str) : List Node → Str → Option Str
  | [], _ => some []
  | v :: vs, indent =>
    match if v.terminal then some (indent ++ v.val ++ "\n".toList) else call v (indent ++ "  ".toList) with
    | none => none
    | some a => (listWithin call vs indent).map (a ++ ·)

/-- The loop over `dictionary`, src/PropertyTree.cxx:126-135. -/
def dictWithin (call : Node → Str → Option Str) : List (Str × Node) → Str → Option Str
  | [], _ => some []
  | (k, v) :: vs, indent =>
    match if v.terminal then some (v.val ++ "\n".toList) else (call v (indent ++ "  ".toList)).map ("\n".toList ++ ·) with
    | none => none
    | some a => (dictWithin call vs indent).map ((indent ++ k ++ ":  ".toList ++ a) ++ ·)

/-- `PropNode::dump`, src/PropertyTree.cxx:105-139, with that many nested calls at most: the text written. -/
def dumpWithin : Nat → Node → Str → Option Str
  | 0, _, _ => none
  | calls + 1, n, indent =>
    if n.terminal then some (indent ++ n.val ++ "\n".toList)
    else
      match if n.list.isEmpty then some [] else (listWithin (dumpWithin calls) n.list indent).map ("<<<PROPLIST>>>\n".toList ++ ·) with
      | none => none
      | some a =>
        (if n.dict.isEmpty then some [] else (dictWithin (dumpWithin calls) n.dict indent).map ("<<<DICTIONARY>>>\n".toList ++ ·)).map (a ++ ·)

/-- `PropNode::getPropRecursive`, src/PropertyTree.cxx:68-86, with that many nested calls at most. -/
def lookWithin (r : Ref) (orig : Str) (throwEx : Bool) : Nat → List Str → Option (Res Err (Option Ref))
  | 0, _ => none
  | _ + 1, [] => some (.ok (some r))
  | calls + 1, k :: ks =>
    if (mapFind strLess k r.node.dict).isSome then lookWithin r orig throwEx calls ks
    else if throwEx then some (.throw (.notFound orig))
    else some (.ok none)

end SoDa.Prop
