import Verif.Model.MailBoxBase
/-!
Properties of `MailBoxBase::convert`.
-/
namespace SoDa.MailBase
variable {Ty : Type}

/-- C70.  A pointer to a mailbox is converted to `T` exactly if the mailbox is a `T`, and the result is the same mailbox;
otherwise `BadConversion` is thrown; a null pointer is undefined. -/
theorem C70_convert (C : Classes Ty) (target : Ty) (p : Option (Obj Ty)) :
    (∀ o, convert C target p = .ok o ↔ p = some o ∧ C.derives o.cls target = true) ∧
    ((∃ e, convert C target p = .throw e) ↔ ∃ o, p = some o ∧ C.derives o.cls target = false) ∧
    (convert C target p = .ub ↔ p = none) := by
  cases p with
  | none => simp [convert, dynamicCast]
  | some o =>
    by_cases h : C.derives o.cls target = true
    · refine ⟨?_, ?_, ?_⟩
      · intro o'
        simp only [convert, dynamicCast, h, if_true, Res.ok.injEq, Option.some.injEq]
        constructor
        · rintro rfl; exact ⟨rfl, h⟩
        · exact fun h => h.1
      · simp [convert, dynamicCast, h]
      · simp [convert, dynamicCast, h]
    · refine ⟨?_, ?_, ?_⟩
      · intro o'
        simp only [convert, dynamicCast, h]
        constructor
        · intro h'; cases h'
        · rintro ⟨h1, h2⟩; cases h1; exact absurd h2 h
      · simp [convert, dynamicCast, h]
      · simp [convert, dynamicCast, h]

/-- Two message types and their mailboxes. -/
def twoBoxes : Classes (Fin 3) where
  base := 0
  derives c d := c == d || d == 0
  ptrName c := if c = 0 then "std::shared_ptr<SoDa::MailBoxBase>".toList
    else if c = 1 then "std::shared_ptr<SoDa::MailBox<int> >".toList
    else "std::shared_ptr<SoDa::MailBox<Query> >".toList

example : convert twoBoxes 1 (some ⟨7, "A".toList, 1⟩) = .ok ⟨7, "A".toList, 1⟩ ∧
    (∃ e, convert twoBoxes 1 (some ⟨7, "A".toList, 2⟩) = .throw e) ∧
    (convert twoBoxes 1 none = .ub) := ⟨rfl, ⟨_, rfl⟩, rfl⟩

/-! ## C71  the text of the exception -/

/-- The claim: the text of the exception names the mailbox, its type and the requested type. -/
def C71_claim (C : Classes Ty) : Prop :=
  ∀ target o e, convert C target (some o) = .throw e →
    ∃ a b c d, e.what = .ok (a ++ getName o ++ b ++ C.ptrName o.cls ++ c ++ C.ptrName target ++ d)

/-- C71, what holds: the text names the mailbox and the requested type, whatever characters the names consist of.
Missing: the type of the mailbox; the text always says `MailBoxBase`. -/
theorem C71_text_partial (C : Classes Ty) (target : Ty) (o : Obj Ty) (e : BadConversion)
    (h : convert C target (some o) = .throw e) :
    e.what = .ok ("SoDa::MailBox[".toList ++ getName o ++ "] MailBoxBase::convert attempted to promote from ".toList ++
      C.ptrName C.base ++ " to ".toList ++ C.ptrName target ++ ". That isn't right.\n".toList) := by
  have he : e = ⟨o.name, C.ptrName C.base, C.ptrName target⟩ := by
    simp only [convert, dynamicCast] at h
    split at h
    · cases h
    · simpa using h.symm
  have hf : Fmt.mk' "MailBoxBase::convert attempted to promote from %0 to %1. That isn't right.\n".toList =
      ⟨"MailBoxBase::convert attempted to promote from %0 to %1. That isn't right.\n".toList,
        [.lit "MailBoxBase::convert attempted to promote from ".toList, .fld 0, .lit " to ".toList, .fld 1,
          .lit ". That isn't right.\n".toList], 0⟩ := by decide
  rw [he]
  simp only [BadConversion.what, hf, getName]
  simp [Fmt.calls, Fmt.call, Fmt.addS, textS, Fmt.str, Fmt.insertField, Fmt.assemble, u32]

/-- The type of the mailbox is not named. -/
theorem C71_refuted : ¬ C71_claim twoBoxes := by
  intro h
  obtain ⟨a, b, c, d, hw⟩ := h 1 ⟨7, "A".toList, 2⟩ _ rfl
  rw [C71_text_partial twoBoxes 1 ⟨7, "A".toList, 2⟩ _ rfl] at hw
  simp only [Res.ok.injEq] at hw
  have hm : 'Q' ∈ a ++ getName (⟨7, "A".toList, 2⟩ : Obj (Fin 3)) ++ b ++ twoBoxes.ptrName 2 ++ c ++
      twoBoxes.ptrName 1 ++ d := by
    have : 'Q' ∈ twoBoxes.ptrName 2 := by decide
    simp [this]
  rw [← hw] at hm
  revert hm
  decide

end SoDa.MailBase
