import Verif.Props.PropertyTree
/-!
C104: can the exceptions of the library be caught as `SoDa::Exception`?

include/Exception.hxx:43-47: "this makes for a simpler way to catch any SoDa generated exception. Or
an exception generated by a SoDa class."  The exceptions of `Format` (`BadFormat`), `Barrier`,
`MailBox` and of the lookups of `PropertyTree` are derived from it (include/Format.hxx:471,
include/Barrier.hxx:166, include/MailBox.hxx:174, include/PropertyTree.hxx:226-258), `Options` lets
no exception out (`Res Empty` in its model); what is left is `PropertyTreeYAML::readFile`.
-/
namespace SoDa.Prop
open Spec

/-- `readFile` returned, or what it threw is caught by `catch (SoDa::Exception & e)`:
`FileNotFound` is derived from it (include/PropertyTree.hxx:258), the exceptions of yaml-cpp are
derived from `std::runtime_error` only. -/
def Caught : ReadOut → Prop
  | .normal | .fileNotFound _ => True
  | .loadError | .yaml _ => False

/-- Whatever the file is, `catch (SoDa::Exception & e)` around `readFile` suffices. -/
def C104_claim : Prop := ∀ (root : Node) (f : Load), Caught (readFile root f).2

/-- Exactly when it does: the file cannot be opened, or it is a readable document. -/
theorem C104_exact (root : Node) (f : Load) :
    Caught (readFile root f).2 ↔ (∃ w, f = .badFile w) ∨ ∃ y, f = .doc y ∧ Readable y := by
  cases f with
  | badFile w => simp [readFile, Caught]
  | otherError => simp [readFile, Caught]
  | doc y =>
    simp only [Load.doc.injEq, exists_eq_left', reduceCtorEq, exists_false, false_or]
    rw [← C62_normal_iff root y]
    simp only [readFile]
    rcases fill y root with ⟨n, _ | e⟩ <;> simp [Caught]

/-- What is left of the claim: files that cannot be opened, and readable documents. -/
theorem C104_missing_or_readable_partial (root : Node) (f : Load)
    (h : (∃ w, f = .badFile w) ∨ ∃ y, f = .doc y ∧ Readable y) : Caught (readFile root f).2 :=
  (C104_exact root f).2 h

/-- A file that is not YAML, and one whose document is a sequence, end in exceptions of yaml-cpp. -/
theorem C104_refuted : ¬ C104_claim ∧ ¬ Caught (readFile newTree .otherError).2 ∧
    ¬ Caught (readFile newTree (.doc (.seq [.scalar "x".toList]))).2 := by
  have h : ¬ Caught (readFile newTree .otherError).2 := by simp [readFile, Caught]
  exact ⟨fun hc => h (hc _ _), h, by rw [C62_top_sequence]; simp [Caught]⟩

example : Readable mixedDoc → Caught (readFile newTree (.doc mixedDoc)).2 :=
  fun h => C104_missing_or_readable_partial _ _ (.inr ⟨_, rfl, h⟩)

end SoDa.Prop
