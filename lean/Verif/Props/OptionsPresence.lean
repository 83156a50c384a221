import Verif.Proof.OptionsPresence
/-!
C103: which options the objects of a program report as present, copies included.
-/
namespace SoDa.Opts
open Spec

variable {V : Type}

/-- The story of an object without the times is its past. -/
theorem story_past (as : List (OptAct V)) (j : Nat) : past as j = (story as j).map fun y => (y.1, y.2.map (·.2)) := by
  induction as using List.reverseRecOn generalizing j with
  | nil => rfl
  | append_singleton as a ih =>
    rw [past_snoc, story_snoc]
    cases a with
    | new i k => simp only [pastStep, storyStep]; split <;> simp [ih]
    | copy i j' => simp only [pastStep, storyStep]; split <;> simp [ih]
    | assign i j' => simp only [pastStep, storyStep]; split <;> simp [ih]
    | destroy i => simp only [pastStep, storyStep]; split <;> simp [ih]
    | call i c =>
      simp only [pastStep, storyStep, ih]
      split
      · cases story as i <;> simp
      · rfl

/-- What is reported as present, exactly.  An object reports a name or a letter as present if and only if it has an
option with it, registered at time `t`, and at some moment of the program there was an object, the same or another
one, that had the same registration in its past and, living by itself, would have reported it as present. -/
theorem C103_presence (sc : Nat → V) (vec : Nat → List V) (as : List (OptAct V)) (w : World V) (j : Nat) (m : Members)
    (h : (World.start sc vec).acts as = .ok w) (hj : w.objs j = some m) :
    ∃ k cs, story as j = some (k, cs) ∧
      (∀ n, (w.view m).isPresent n = true ↔ ∃ t, LongAt cs n t ∧ Given sc vec as t) ∧
      ∀ c, (w.view m).isPresentAb c = true ↔ ∃ t, LetterAt cs c t ∧ Given sc vec as t := by
  have ht := Told.acts as w h
  obtain ⟨k, cs, o, h1, hk⟩ := ht.obj j m hj
  refine ⟨k, cs, h1, fun n => ?_, fun c => ?_⟩
  · rw [Options.isPresent, Options.findLong]
    rcases hk.agree.long.find (less := strLess) n with ⟨e1, e2⟩ | ⟨p, q, ⟨t, f1, f2⟩, e1, e2⟩
    · rw [e2]
      refine ⟨fun h => (by cases h), fun ⟨t, ht, _⟩ => ?_⟩
      obtain ⟨p, h2, -⟩ := (hk.names.long n t).1 ht
      rw [Options.findLong, e1] at h2
      cases h2
    · rw [e2]
      refine (ht.flag q t f2).trans ⟨fun h => ⟨t, (hk.names.long n t).2 ⟨p, e1, f1⟩, h⟩, fun ⟨t', h1, h2⟩ => ?_⟩
      obtain ⟨p', h3, h4⟩ := (hk.names.long n t').1 h1
      rw [Options.findLong, e1] at h3
      cases h3
      rw [f1] at h4
      cases h4
      exact h2
  · rw [Options.isPresentAb, Options.findAb]
    rcases hk.agree.ab.find (less := charLess) c with ⟨e1, e2⟩ | ⟨p, q, ⟨t, f1, f2⟩, e1, e2⟩
    · rw [e2]
      refine ⟨fun h => (by cases h), fun ⟨t, ht, _⟩ => ?_⟩
      obtain ⟨p, h2, -⟩ := (hk.names.letter c t).1 ht
      rw [Options.findAb, e1] at h2
      cases h2
    · rw [e2]
      refine (ht.flag q t f2).trans ⟨fun h => ⟨t, (hk.names.letter c t).2 ⟨p, e1, f1⟩, h⟩, fun ⟨t', h1, h2⟩ => ?_⟩
      obtain ⟨p', h3, h4⟩ := (hk.names.letter c t').1 h1
      rw [Options.findAb, e1] at h3
      cases h3
      rw [f1] at h4
      cases h4
      exact h2

/-- The copy of `copySample`: its option was registered at time 1 and was given to the original. -/
example : ∃ cs, story copySample 1 = some (false, cs) ∧ LongAt cs "all".toList 1 ∧
    Given (fun _ => Val.int 0) (fun _ => []) copySample 1 := by
  refine ⟨_, rfl, rfl, 4, Nat.le_refl _, 0, false,
    [(1, .addP (.bool false) (.bool true) 7 "all".toList 'a' []), (3, .parse ["--all".toList])], _, rfl,
    .snoc (cs := [_]) (b := true) (.snoc (cs := []) (b := true) (.nil _) rfl) rfl, .inl ⟨"all".toList, rfl, ?_⟩⟩
  decide

/-- The other object of `twoSample` has an option with the same name, registered at another time; nothing is given. -/
example : ∃ w m cs, (World.start (fun _ => Val.int 0) (fun _ => [])).acts twoSample = .ok w ∧ w.objs 2 = some m ∧
    story twoSample 2 = some (false, cs) ∧ LongAt cs "all".toList 2 ∧
    ¬ Given (fun _ => Val.int 0) (fun _ => []) twoSample 2 := by
  refine ⟨_, _, _, rfl, rfl, rfl, rfl, fun hg => ?_⟩
  obtain ⟨k, cs, h1, h2, -⟩ := C103_presence (fun _ => Val.int 0) (fun _ => []) twoSample _ 2 _ rfl rfl
  have hs : story twoSample 2 = some (false, [(2, .addP (.bool false) (.bool true) 5 "all".toList 'a' [])]) := rfl
  rw [hs] at h1
  cases h1
  have := (h2 "all".toList).2 ⟨2, rfl, hg⟩
  exact absurd this (by decide)

end SoDa.Opts
