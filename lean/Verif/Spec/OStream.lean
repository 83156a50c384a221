import Verif.Model.OStream
/-!
What a stream makes of a text: a field of some width, and a device that takes only so many characters.
-/
namespace SoDa.Spec

/-- A text in a field of width `w`. -/
def padded (w : Nat) (fill : Char) (left : Bool) (t : Str) : Str :=
  if left then t ++ List.replicate (w - t.length) fill else List.replicate (w - t.length) fill ++ t

/-- As much of a text as the device takes. -/
def fitting (room : Option Nat) (t : Str) : Str :=
  match room with
  | none => t
  | some r => t.take r

/-- The device takes all of the text. -/
def Fits (room : Option Nat) (t : Str) : Prop := ∀ r, room = some r → t.length ≤ r

/-- No error bit is set. -/
def Healthy (s : OStream) : Prop := s.badbit = false ∧ s.failbit = false

/-- What an insertion or a sequence of insertions of the text `t` may have done to the stream, whatever the text and the exceptions. -/
structure Wrote (s s' : OStream) (t : Str) : Prop where
  /-- the device has got as much of the text as it takes -/
  out : s'.out = s.out ++ fitting s.room t
  /-- `badbit` is set exactly if that is not all -/
  bad : s'.badbit = true ↔ ¬ Fits s.room t
  /-- the rest of the format is as it was -/
  fill : s'.fill = s.fill
  left : s'.left = s.left
  masks : s'.excBad = s.excBad ∧ s'.excFail = s.excFail
  /-- the width has been used -/
  width : Fits s.room t → s'.width = 0
  room : s'.room = s.room.map (· - t.length)

end SoDa.Spec
