import Verif.Model.Basic
/-!
Model of `src/Split.cxx` (functions `squashSpaces`, `split`, `splitVec`).
-/
namespace SoDa

/-- `std::string::find(c, pos)`: index of the first occurrence of `c` at or after `pos`
(used at src/Split.cxx:51).  `npos` is `none`. -/
def findChar (s : Str) (c : Char) (pos : Nat) : Option Nat :=
  ((s.drop pos).findIdx? (· == c)).map (· + pos)

/-- `std::string::find_first_of(delims, pos)` (used at src/Split.cxx:71). -/
def findFirstOf (s delims : Str) (pos : Nat) : Option Nat :=
  ((s.drop pos).findIdx? (fun c => delims.contains c)).map (· + pos)

theorem findIdx?_map_bounds {s : Str} {p : Char → Bool} {pos q : Nat}
    (h : ((s.drop pos).findIdx? p).map (· + pos) = some q) : pos ≤ q ∧ q < s.length := by
  cases hf : (s.drop pos).findIdx? p with
  | none => simp [hf] at h
  | some k =>
    simp [hf] at h
    have := (List.findIdx?_eq_some_iff_getElem.mp hf).1
    simp at this; omega

/-- src/Split.cxx:48: `while(ret.front() == ' ') ret.erase(0, 1);`
`front()` of an empty string is undefined behaviour. -/
def trimFront : Str → Res Empty Str
  | [] => .ub
  | c :: cs => if c = ' ' then trimFront cs else .ok (c :: cs)

/-- src/Split.cxx:49: `while(ret.back() == ' ') ret.pop_back();`
`back()` of an empty string is undefined behaviour. -/
def trimBack (s : Str) : Res Empty Str :=
  match _h : s.getLast? with
  | none => .ub
  | some c => if c = ' ' then trimBack s.dropLast else .ok s
termination_by s.length
decreasing_by
  have : s ≠ [] := by intro h0; simp [h0] at _h
  have := List.length_pos_iff.mpr this
  simp; omega

/-- src/Split.cxx:51-58: the loop that erases a space that is followed by another space.
`ret.length() - 1` cannot wrap here because a space has just been found. -/
def squashLoop (ret : Str) (pos : Nat) : Str :=
  match _h : findChar ret ' ' pos with
  | none => ret
  | some p =>
    if p < ret.length - 1 ∧ ret[p+1]? = some ' ' then squashLoop (ret.eraseIdx p) p
    else squashLoop ret (p + 1)
termination_by ret.length - pos
decreasing_by
  · have := findIdx?_map_bounds _h
    simp [List.length_eraseIdx, this.2]; omega
  · have := findIdx?_map_bounds _h
    omega

/-- `SoDa::squashSpaces`, src/Split.cxx:42-61. -/
def squashSpaces (str : Str) : Res Empty Str :=
  (trimFront str).bind fun ret => (trimBack ret).bind fun ret => .ok (squashLoop ret 0)

/-- The scanning loop of `SoDa::split` and the code after it, src/Split.cxx:70-87;
`acc` is the list `ret` built so far. -/
def splitLoop (wrk delims : Str) (noEmpty : Bool) (oldPos : Nat) (acc : List Str) : List Str :=
  match _h : findFirstOf wrk delims oldPos with
  | some pos =>
    let tkn := (wrk.drop oldPos).take (pos - oldPos)
    splitLoop wrk delims noEmpty (pos + 1)
      (if noEmpty && tkn.length == 0 then acc else acc ++ [tkn])
  | none => if oldPos < wrk.length then acc ++ [wrk.drop oldPos] else acc
termination_by wrk.length - oldPos
decreasing_by
  have := findIdx?_map_bounds _h
  omega

/-- `SoDa::split`, src/Split.cxx:63-88. -/
def split (str delims : Str) (noEmpty : Bool := false) : Res Empty (List Str) :=
  (squashSpaces str).bind fun wrk => .ok (splitLoop wrk delims noEmpty 0 [])

/-- The copying loop of `SoDa::splitVec`, src/Split.cxx:95-97 (list to vector). -/
def copyToVec (l : List Str) : Array Str := l.foldl Array.push #[]

/-- `SoDa::splitVec`, src/Split.cxx:90-100. -/
def splitVec (str delims : Str) (noEmpty : Bool := false) : Res Empty (Array Str) :=
  (split str delims noEmpty).bind fun tres => .ok (copyToVec tres)

end SoDa
