import Verif.Proof.OStream
import Verif.Props.OptionsNum
import Verif.Props.PropertyTree
/-!
C132: printing help, trees, formats and the messages of `parse` into a stream that the program has prepared (`std::setw`, `std::setfill`,
`std::left`, `exceptions()`), and that may take no more than some number of characters.
-/
namespace SoDa
open Opts Spec OStream

variable {V : Type}

/-- Printing the help text or a tree into a stream does what inserting its text as one string does, as it is with `os << format`. -/
def C132_claim : Prop :=
  (∀ (o : Options Val) (text : Str) (s : OStream), Reachable o → o.printHelp = .ok text → Healthy s →
    printHelpOn o s = .ok (s.insert text)) ∧
  (∀ (n : Prop.Node) (s : OStream), Healthy s → Prop.dumpOn n s = s.insert (n.dump []))

/-- What stands before the documentation string in a line of the help. -/
def helpStart (isKvp : Bool) (d : Decl V) : Str :=
  if isKvp then "\t".toList
  else "   --".toList ++ (d.long ++ List.replicate (20 - d.long.length) ' ') ++ " -".toList ++ [d.ab] ++ "     ".toList

/-- What the help text begins with: the first information string, or else the name of the first option (with its letter), or the tab before
it; nothing if there is no help at all. -/
inductive HelpBegins (o : Options V) (text : Str) : Str → Prop
  | nothing : text = [] → HelpBegins o text []
  | info {i is} : o.info = i :: is → HelpBegins o text i
  | option {i d} : o.info = [] → IsLast o.decls (fun e => e.long = d.long) i d → helpLine o.isKvp d <+: text →
      HelpBegins o text (helpStart o.isKvp d)

/-- What the text of a tree begins with: the line that introduces a list or a dictionary; nothing for a scalar (the first insertion is
that of the empty indentation) and for an empty container. -/
inductive DumpBegins : Prop.Node → Str → Prop
  | scalar {val l d} : DumpBegins (.mk val true l d) []
  | empty {val} : DumpBegins (.mk val false [] []) []
  | list {val a l d} : DumpBegins (.mk val false (a :: l) d) "<<<PROPLIST>>>\n".toList
  | dict {val a d} : DumpBegins (.mk val false [] (a :: d)) "<<<DICTIONARY>>>\n".toList

/-! ### The pieces -/

/-- Nothing, or at least two pieces the last of which ends the line. -/
def LineEnds (ps : List Str) : Prop := ps = [] ∨ ∃ p q, ps = p :: (q ++ ["\n".toList])

theorem LineEnds.append {a b : List Str} (ha : LineEnds a) (hb : LineEnds b) : LineEnds (a ++ b) := by
  rcases ha with rfl | ⟨p, q, rfl⟩
  · simpa using hb
  · rcases hb with rfl | ⟨p', q', rfl⟩
    · right; exact ⟨p, q, by simp⟩
    · right; exact ⟨p, q ++ ["\n".toList] ++ p' :: q', by simp⟩

theorem helpHeadPieces_flatten (k : Bool) (d : Decl V) : (helpHeadPieces k d).map List.flatten = Options.helpHead k d := by
  cases k with
  | true => simp [helpHeadPieces, Options.helpHead]
  | false => simp only [helpHeadPieces, Bool.false_eq_true, if_false]; cases Options.helpHead false d <;> simp [Res.map]

theorem helpLoopPieces_flatten (o : Options V) (m : List (Str × Nat)) : (helpLoopPieces o m).map List.flatten = o.helpLoop m := by
  induction m with
  | nil => rfl
  | cons x m ih =>
    obtain ⟨n, p⟩ := x
    simp only [helpLoopPieces, Options.helpLoop]
    cases o.decls[p]? with
    | none => rfl
    | some d =>
      simp only
      rw [← ih, ← helpHeadPieces_flatten]
      cases helpHeadPieces o.isKvp d with
      | ok h => cases helpLoopPieces o m <;> simp [Res.map]
      | throw e => rfl
      | ub => rfl

theorem helpPieces_flatten (o : Options V) : (helpPieces o).map List.flatten = o.printHelp := by
  unfold helpPieces Options.printHelp
  rw [← helpLoopPieces_flatten]
  cases helpLoopPieces o o.longMap with
  | ok t =>
    simp only [Res.map, Res.bind_ok, List.flatten_append, Res.ok.injEq]
    congr 1
    induction o.info with
    | nil => rfl
    | cons i is ih => simp only [List.flatMap_cons, List.flatten_append, ih]; simp
  | throw e => rfl
  | ub => rfl

theorem helpPieces_ok {o : Options V} {text : Str} (h : o.printHelp = .ok text) : ∃ ps, helpPieces o = .ok ps ∧ ps.flatten = text := by
  rw [← helpPieces_flatten] at h
  cases hp : helpPieces o with
  | ok ps => rw [hp] at h; exact ⟨ps, rfl, by simpa using h⟩
  | throw e => rw [hp] at h; cases h
  | ub => rw [hp] at h; cases h

theorem LineEnds.pair (p : Str) : LineEnds [p, "\n".toList] := .inr ⟨p, [], rfl⟩

theorem helpHeadPieces_ne {k : Bool} {d : Decl V} {h : List Str} (hh : helpHeadPieces k d = .ok h) : ∃ a l, h = a :: l := by
  cases k with
  | true => simp only [helpHeadPieces, if_true, Res.ok.injEq] at hh; exact ⟨_, _, hh.symm⟩
  | false =>
    simp only [helpHeadPieces, Bool.false_eq_true, if_false] at hh
    cases he : Options.helpHead false d with
    | ok t => rw [he] at hh; simp only [Res.map_ok, Res.ok.injEq] at hh; exact ⟨_, _, hh.symm⟩
    | throw e => rw [he] at hh; cases hh
    | ub => rw [he] at hh; cases hh

theorem helpLoopPieces_ends (o : Options V) (m : List (Str × Nat)) {ps : List Str} (h : helpLoopPieces o m = .ok ps) : LineEnds ps := by
  induction m generalizing ps with
  | nil => cases h; exact .inl rfl
  | cons x m ih =>
    obtain ⟨n, p⟩ := x
    simp only [helpLoopPieces] at h
    cases hd : o.decls[p]? with
    | none => rw [hd] at h; cases h
    | some d =>
      rw [hd] at h
      simp only at h
      cases hh : helpHeadPieces o.isKvp d with
      | ok hp =>
        rw [hh] at h
        cases hr : helpLoopPieces o m with
        | ok r =>
          rw [hr] at h
          simp only [Res.bind_ok, Res.ok.injEq] at h
          subst h
          refine LineEnds.append ?_ (ih hr)
          obtain ⟨a, l, rfl⟩ := helpHeadPieces_ne hh
          exact .inr ⟨a, l ++ [d.doc], by simp⟩
        | throw e => rw [hr] at h; cases h
        | ub => rw [hr] at h; cases h
      | throw e => rw [hh] at h; cases h
      | ub => rw [hh] at h; cases h

theorem helpPieces_ends {o : Options V} {ps : List Str} (h : helpPieces o = .ok ps) : LineEnds ps := by
  unfold helpPieces at h
  cases hl : helpLoopPieces o o.longMap with
  | ok t =>
    rw [hl] at h
    simp only [Res.bind_ok, Res.ok.injEq] at h
    subst h
    refine LineEnds.append ?_ (helpLoopPieces_ends o _ hl)
    induction o.info with
    | nil => exact .inl rfl
    | cons i is ih => exact LineEnds.append (.pair i) ih
  | throw e => rw [hl] at h; cases h
  | ub => rw [hl] at h; cases h

theorem diagPieces_flatten (o : Options V) (d : Diag) : (diagPieces o d).map List.flatten = o.diagText d := by
  cases d with
  | help => exact helpPieces_flatten o
  | badName t => simp [diagPieces, Options.diagText]
  | badValue l v e => simp [diagPieces, Options.diagText]

theorem diagsPieces_flatten (o : Options V) (ds : List Diag) : (diagsPieces o ds).map List.flatten = o.diagTexts ds := by
  induction ds with
  | nil => rfl
  | cons d ds ih =>
    simp only [diagsPieces, Options.diagTexts]
    rw [← ih, ← diagPieces_flatten]
    cases diagPieces o d with
    | ok h => cases diagsPieces o ds <;> simp [Res.map]
    | throw e => rfl
    | ub => rfl

theorem diagsPieces_ends (o : Options V) (ds : List Diag) {ps : List Str} (h : diagsPieces o ds = .ok ps) : LineEnds ps := by
  induction ds generalizing ps with
  | nil => cases h; exact .inl rfl
  | cons d ds ih =>
    simp only [diagsPieces] at h
    cases hd : diagPieces o d with
    | ok a =>
      rw [hd] at h
      cases hr : diagsPieces o ds with
      | ok r =>
        rw [hr] at h
        simp only [Res.bind_ok, Res.ok.injEq] at h
        subst h
        refine LineEnds.append ?_ (ih hr)
        cases d with
        | help => exact helpPieces_ends hd
        | badName t => simp only [diagPieces, Res.ok.injEq] at hd; subst hd; exact .pair _
        | badValue l v e => simp only [diagPieces, Res.ok.injEq] at hd; subst hd; exact .pair _
      | throw e => rw [hr] at h; cases h
      | ub => rw [hr] at h; cases h
    | throw e => rw [hd] at h; cases h
    | ub => rw [hd] at h; cases h

mutual
theorem dumpPieces_flatten : ∀ (n : Prop.Node) (indent : Str), (Prop.dumpPieces n indent).flatten = n.dump indent
  | .mk val true l d, indent => by simp [Prop.dumpPieces, Prop.Node.dump]
  | .mk val false l d, indent => by
    have h1 := dumpListPieces_flatten l indent
    have h2 := dumpDictPieces_flatten d indent
    simp only [Prop.dumpPieces, Prop.Node.dump, List.flatten_append]
    congr 1
    · cases l <;> simp [← h1]
    · cases d <;> simp [← h2]
theorem dumpListPieces_flatten : ∀ (l : List Prop.Node) (indent : Str), (Prop.dumpListPieces l indent).flatten = Prop.dumpList l indent
  | [], indent => rfl
  | v :: vs, indent => by
    have h1 := dumpPieces_flatten v (indent ++ "  ".toList)
    have h2 := dumpListPieces_flatten vs indent
    simp only [Prop.dumpListPieces, Prop.dumpList, List.flatten_append, h2]
    congr 1
    cases v.terminal
    · simpa using h1
    · simp
theorem dumpDictPieces_flatten : ∀ (l : List (Str × Prop.Node)) (indent : Str),
    (Prop.dumpDictPieces l indent).flatten = Prop.dumpDict l indent
  | [], indent => rfl
  | (k, v) :: vs, indent => by
    have h1 := dumpPieces_flatten v (indent ++ "  ".toList)
    have h2 := dumpDictPieces_flatten vs indent
    simp only [Prop.dumpDictPieces, Prop.dumpDict, List.flatten_append, h2]
    congr 1
    cases v.terminal
    · simpa using h1
    · simp
end

/-! ### Help -/

theorem wrote_nil {s : OStream} (h : Healthy s) (hw : s.width = 0) : Wrote s s [] :=
  ⟨by cases s.room <;> simp [fitting], by simp [h.1, Fits], rfl, rfl, ⟨rfl, rfl⟩, fun _ => hw, by cases s.room <;> simp⟩

theorem insertAll_ends {s : OStream} (h : Healthy s) (hw : s.width = 0) {ps : List Str} (he : LineEnds ps) :
    Wrote s (s.insertAll ps).1 ps.flatten ∧
    ((s.insertAll ps).1.failbit = true ↔ s.excBad = false ∧ ¬ Fits s.room ps.flatten.dropLast) ∧
    ((s.insertAll ps).2 = true ↔ ¬ Fits s.room ps.flatten ∧ (s.excBad = true ∨ s.excFail = true ∧ ¬ Fits s.room ps.flatten.dropLast)) ∧
    (ps = [] → s.insertAll ps = (s, false)) := by
  rcases he with rfl | ⟨p, q, rfl⟩
  · refine ⟨wrote_nil h hw, ?_, ?_, fun _ => rfl⟩ <;> simp [insertAll, h.2, Fits]
  · obtain ⟨i1, i2, i3⟩ := insertAll_eq h p (q ++ ["\n".toList])
    rw [hw, padded_of_le (Nat.zero_le _)] at i1 i2 i3
    have e : (p :: (q ++ ["\n".toList])).flatten.dropLast = p ++ (q ++ ["\n".toList]).dropLast.flatten := by
      rw [List.dropLast_concat, List.flatten_cons, List.flatten_append, ← List.append_assoc]
      simp
    rw [e]
    refine ⟨i1, ?_, ?_, by simp⟩
    · rw [i2]; simp
    · rw [i3]; simp

/-- Help in a stream without errors and without a pending width: the device gets as much of the text as it takes; `badbit` is set exactly if
that is not all; if it is not all, `std::ios_base::failure` is thrown exactly if the program asked for it with `badbit`, or with `failbit`
when more than the last newline is missing; a stream that gets all of it is otherwise as before.  Missing: a pending width. -/
theorem C132_help_partial (o : Options V) (text : Str) (ht : o.printHelp = .ok text) (s : OStream) (h : Healthy s) (hw : s.width = 0) :
    ∃ s' thrown, printHelpOn o s = .ok (s', thrown) ∧ Wrote s s' text ∧
      (s'.failbit = true ↔ s.excBad = false ∧ ¬ Fits s.room text.dropLast) ∧
      (thrown = true ↔ ¬ Fits s.room text ∧ (s.excBad = true ∨ s.excFail = true ∧ ¬ Fits s.room text.dropLast)) ∧
      (s.room = none → s' = { s with out := s.out ++ text } ∧ thrown = false) := by
  obtain ⟨ps, hp, rfl⟩ := helpPieces_ok ht
  obtain ⟨i1, i2, i3, -⟩ := insertAll_ends h hw (helpPieces_ends hp)
  refine ⟨(s.insertAll ps).1, (s.insertAll ps).2, by simp [printHelpOn, hp], i1, i2, i3, fun hr => ?_⟩
  have hf : ∀ t, Fits s.room t := fun t => by rw [hr]; exact fits_none t
  refine ⟨?_, ?_⟩
  · have b1 := i1.bad
    have b2 := i1.out
    have b3 := i1.room
    have b4 := i1.width (hf _)
    have b5 := i1.fill
    have b6 := i1.left
    obtain ⟨b7, b8⟩ := i1.masks
    revert b1 b2 b3 b4 b5 b6 b7 b8 i2
    obtain ⟨w, fill, left, bad, fail, eb, ef, room, out⟩ := s
    generalize (OStream.insertAll _ ps).1 = s'
    obtain ⟨w', fill', left', bad', fail', eb', ef', room', out'⟩ := s'
    simp only [hf] at *
    obtain ⟨h1, h2⟩ := h
    simp only at h1 h2 hr hw
    subst h1 h2 hr hw
    intro i2 b1 b2 b3 b4 b5 b6 b7 b8
    simp_all [fitting]
  · rw [← Bool.not_eq_true, i3]; simp [hf]

/-- Any width: what the text begins with is padded to the width, what follows is not. -/
theorem C132_help_width (o : Options V) (ho : Reachable o) (hlen : ∀ d ∈ o.decls, d.long.length < 2 ^ 31) (text : Str)
    (ht : o.printHelp = .ok text) (s : OStream) (h : Healthy s) :
    ∃ first rest s' thrown, HelpBegins o text first ∧ text = first ++ rest ∧ printHelpOn o s = .ok (s', thrown) ∧
      (text ≠ [] → rest ≠ [] ∧ Wrote s s' (padded s.width s.fill s.left first ++ rest)) ∧ (text = [] → s' = s ∧ thrown = false) := by
  obtain ⟨ps, hp, rfl⟩ := helpPieces_ok ht
  suffices hs : (ps = []) ∨ ∃ first q, ps = first :: (q ++ ["\n".toList]) ∧ HelpBegins o ps.flatten first by
    rcases hs with rfl | ⟨first, q, rfl, hb⟩
    · exact ⟨[], [], s, false, .nothing rfl, rfl, by simp [printHelpOn, hp, insertAll], by simp, by simp⟩
    · refine ⟨first, (q ++ ["\n".toList]).flatten, _, _, hb, rfl, by rw [printHelpOn, hp]; rfl, fun _ => ⟨by simp, ?_⟩, by simp⟩
      exact (insertAll_eq h first (q ++ ["\n".toList])).1
  unfold helpPieces at hp
  cases hl : helpLoopPieces o o.longMap with
  | throw e => rw [hl] at hp; cases hp
  | ub => rw [hl] at hp; cases hp
  | ok t =>
    rw [hl] at hp
    simp only [Res.bind_ok, Res.ok.injEq] at hp
    cases hi : o.info with
    | cons i is =>
      rw [hi] at hp
      right
      have he : LineEnds ps := by
        refine helpPieces_ends (o := o) ?_
        simp only [helpPieces, hl, Res.bind_ok, hi, hp]
      rcases he with rfl | ⟨p, q, rfl⟩
      · simp at hp
      · refine ⟨p, q, rfl, ?_⟩
        have : i = p := by
          simp only [List.flatMap_cons, List.cons_append, List.cons.injEq] at hp
          exact hp.1
        subst this
        exact .info hi
    | nil =>
      rw [hi] at hp
      simp only [List.flatMap_nil, List.nil_append] at hp
      subst hp
      rcases helpLoopPieces_ends o _ hl with rfl | ⟨p, q, rfl⟩
      · exact .inl rfl
      · refine .inr ⟨p, q, rfl, ?_⟩
        have hwf := ho.wf
        cases hm : o.longMap with
        | nil => rw [hm] at hl; simp [helpLoopPieces] at hl
        | cons x m =>
          obtain ⟨n, i⟩ := x
          have hfind := (mapFind_mem strLess_order n i o.longMap hwf.sorted).2 (by rw [hm]; simp)
          obtain ⟨d, hd⟩ := (hwf.long n i).1 hfind
          have hn : d.long = n := hd.2.1
          rw [hm] at hl
          simp only [helpLoopPieces, hd.1] at hl
          cases hr : helpLoopPieces o m with
          | throw e => rw [hr] at hl; cases hh : helpHeadPieces o.isKvp d <;> rw [hh] at hl <;> cases hl
          | ub => rw [hr] at hl; cases hh : helpHeadPieces o.isKvp d <;> rw [hh] at hl <;> cases hl
          | ok r =>
            have hpre : p = helpStart o.isKvp d ∧ ∃ r', (p :: (q ++ ["\n".toList])).flatten = helpLine o.isKvp d ++ r' := by
              cases hk : o.isKvp with
              | true =>
                rw [hr, hk] at hl
                simp only [helpHeadPieces, if_true, Res.bind_ok, Res.ok.injEq] at hl
                rw [← hl]
                simp only [List.cons_append, List.cons.injEq] at hl
                refine ⟨by rw [← hl.1]; rfl, r.flatten, by simp [helpLine]⟩
              | false =>
                rw [hr, hk] at hl
                simp only [helpHeadPieces, Bool.false_eq_true, if_false] at hl
                rw [helpHead_text d (hlen d (List.mem_of_getElem? hd.1))] at hl
                simp only [Res.map_ok, Res.bind_ok, Res.ok.injEq] at hl
                rw [← hl]
                simp only [List.cons_append, List.cons.injEq] at hl
                refine ⟨by rw [← hl.1]; rfl, r.flatten, by simp [helpLine]⟩
            obtain ⟨rfl, r', hr'⟩ := hpre
            exact .option hi (by rw [hn]; exact hd) ⟨r', hr'.symm⟩

/-! ### Trees -/

theorem dumpPieces_begins (n : Prop.Node) : ∃ first, DumpBegins n first ∧
    (Prop.dumpPieces n [] = [] ∧ n.dump [] = [] ∨ ∃ ps, Prop.dumpPieces n [] = first :: ps) := by
  obtain ⟨val, t, l, d⟩ := n
  cases t with
  | true => exact ⟨_, .scalar, .inr ⟨_, by rw [Prop.dumpPieces]⟩⟩
  | false =>
    cases l with
    | cons a l => exact ⟨_, .list, .inr ⟨_, by rw [Prop.dumpPieces]; simp only [List.isEmpty_cons, Bool.false_eq_true, if_false, List.cons_append]; rfl⟩⟩
    | nil =>
      cases d with
      | cons a d => exact ⟨_, .dict, .inr ⟨_, by
          rw [Prop.dumpPieces]
          simp only [List.isEmpty_nil, List.isEmpty_cons, if_true, Bool.false_eq_true, if_false, List.nil_append]; rfl⟩⟩
      | nil => exact ⟨_, .empty, .inl ⟨by simp [Prop.dumpPieces], by simp [Prop.Node.dump]⟩⟩

/-- A tree in a stream without errors: what its text begins with is padded to the width, what follows is not; the device gets as much as it
takes; with exceptions asked for `badbit` alone, or not at all, `std::ios_base::failure` is thrown exactly if something is missing and they
were asked for.  An empty container leaves the stream as it is, a pending width included. -/
theorem C132_dump (n : Prop.Node) (s : OStream) (h : Healthy s) :
    ∃ first rest, DumpBegins n first ∧ n.dump [] = first ++ rest ∧
      (n.dump [] ≠ [] → Wrote s (Prop.dumpOn n s).1 (padded s.width s.fill s.left first ++ rest) ∧
        (s.excBad = true ∨ s.excFail = false → ((Prop.dumpOn n s).2 = true ↔
          s.excBad = true ∧ ¬ Fits s.room (padded s.width s.fill s.left first ++ rest)))) ∧
      (n.dump [] = [] → Prop.dumpOn n s = (s, false)) := by
  obtain ⟨first, hb, hd⟩ := dumpPieces_begins n
  have hfl := dumpPieces_flatten n []
  rcases hd with ⟨h1, h2⟩ | ⟨ps, h1⟩
  · refine ⟨first, [], hb, ?_, fun hn => absurd h2 hn, fun _ => by rw [Prop.dumpOn, h1]; rfl⟩
    cases hb with
    | scalar => rw [Prop.dumpPieces] at h1; cases h1
    | empty => exact h2
    | list => rw [Prop.dumpPieces] at h1; cases h1
    | dict => rw [Prop.dumpPieces] at h1; cases h1
  · refine ⟨first, ps.flatten, hb, by rw [← hfl, h1]; rfl, fun _ => ?_, fun he => ?_⟩
    · obtain ⟨i1, i2, i3⟩ := insertAll_eq h first ps
      unfold Prop.dumpOn
      rw [h1]
      refine ⟨i1, fun hx => ?_⟩
      rw [i3]
      rcases hx with hx | hx <;> simp [hx, and_comm]
    · exfalso
      rw [← hfl, h1] at he
      cases hb with
      | scalar =>
        rw [Prop.dumpPieces, List.cons.injEq] at h1
        rw [← h1.2] at he
        exact absurd (congrArg List.length he) (by simp)
      | empty => simp [Prop.dumpPieces] at h1
      | list => exact absurd (List.append_eq_nil_iff.1 he).1 (by decide)
      | dict => exact absurd (List.append_eq_nil_iff.1 he).1 (by decide)

/-- A tree in a stream without errors, without a pending width and with a device that takes everything: exactly the text, nothing else.  Missing: a pending
width, small devices (see `C132_dump`). -/
theorem C132_dump_plain_partial (n : Prop.Node) (s : OStream) (h : Healthy s) (hw : s.width = 0) (hr : s.room = none) :
    (Prop.dumpOn n s).1.out = s.out ++ n.dump [] ∧ Healthy (Prop.dumpOn n s).1 ∧ (Prop.dumpOn n s).2 = false ∧
      (Prop.dumpOn n s).1.width = 0 := by
  unfold Prop.dumpOn
  rw [← dumpPieces_flatten]
  cases Prop.dumpPieces n [] with
  | nil => exact ⟨by simp [insertAll], h, rfl, hw⟩
  | cons p ps =>
    obtain ⟨i1, i2, i3⟩ := insertAll_eq h p ps
    rw [hw, padded_of_le (Nat.zero_le _)] at i1 i2 i3
    have hf : ∀ t, Fits s.room t := fun t => by rw [hr]; exact fits_none t
    refine ⟨?_, ⟨?_, ?_⟩, ?_, i1.width (hf _)⟩
    · rw [i1.out, fitting_of_fits (hf _)]; rfl
    · rw [← Bool.not_eq_true, i1.bad]; simp [hf]
    · rw [← Bool.not_eq_true, i2]; simp [hf]
    · rw [← Bool.not_eq_true, i3]; simp [hf]

/-! ### Formats -/

/-- `os << format`: the whole text is one field of the pending width. -/
theorem C132_format (f : Fmt) (text : Str) (hf : f.stream = .ok text) (s : OStream) (h : Healthy s) :
    ∃ s' thrown, f.insertOn s = .ok (s', thrown) ∧ Wrote s s' (padded s.width s.fill s.left text) ∧ s'.failbit = false ∧
      (thrown = true ↔ s.excBad = true ∧ ¬ Fits s.room (padded s.width s.fill s.left text)) := by
  obtain ⟨i1, i2, i3⟩ := insertAll_eq h text []
  have hx : s.insertAll [text] = s.insert text := by
    unfold insertAll
    rcases s.insert text with ⟨s', _ | _⟩ <;> rfl
  rw [hx] at i1 i2 i3
  simp only [List.flatten_nil, List.append_nil] at i1 i2 i3
  unfold Fmt.stream at hf
  refine ⟨(s.insert text).1, (s.insert text).2, by rw [Fmt.insertOn, hf]; rfl, i1, ?_, ?_⟩
  · rw [← Bool.not_eq_true, i2]; simp
  · rw [i3]; simp [and_comm]

/-! ### Streams with errors -/

/-- In a stream with an error nothing of a help text, a tree or a format arrives; at most `failbit` is added, and `std::ios_base::failure`
thrown if the program asked for that. -/
theorem C132_not_good (s : OStream) (h : ¬ Healthy s) :
    (∀ (o : Options V) s' thrown, printHelpOn o s = .ok (s', thrown) →
      (s' = s ∨ s' = { s with failbit := true }) ∧ (thrown = true → s.excBad = true ∨ s.excFail = true)) ∧
    (∀ n : Prop.Node, ((Prop.dumpOn n s).1 = s ∨ (Prop.dumpOn n s).1 = { s with failbit := true }) ∧
      ((Prop.dumpOn n s).2 = true → s.excBad = true ∨ s.excFail = true)) ∧
    (∀ (f : Fmt) s' thrown, f.insertOn s = .ok (s', thrown) → s' = { s with failbit := true } ∧
      (thrown = true → s.excBad = true ∨ s.excFail = true)) := by
  have key : ∀ ps, ((s.insertAll ps).1 = s ∨ (s.insertAll ps).1 = { s with failbit := true }) ∧
      ((s.insertAll ps).2 = true → s.excBad = true ∨ s.excFail = true) := by
    intro ps
    obtain ⟨j1, j2⟩ := insertAll_not_healthy h ps
    refine ⟨?_, fun ht => ?_⟩
    · rw [j1]
      by_cases hp : ps = []
      · left; simp [hp]
      · right; simp [hp]
    · have := (j2.1 ht).2
      simp only [throws, Bool.or_eq_true, Bool.and_eq_true] at this
      rcases this with ⟨h, _⟩ | ⟨h, _⟩
      · exact .inl h
      · exact .inr h
  refine ⟨fun o s' thrown hp => ?_, fun n => key _, fun f s' thrown hp => ?_⟩
  · unfold printHelpOn at hp
    cases hh : helpPieces o with
    | ok ps =>
      rw [hh] at hp
      simp only [Res.map_ok, Res.ok.injEq] at hp
      have := key ps
      rw [hp] at this
      exact this
    | throw e => rw [hh] at hp; cases hp
    | ub => rw [hh] at hp; cases hp
  · unfold Fmt.insertOn at hp
    cases hh : f.str false with
    | ok t =>
      rw [hh] at hp
      simp only [Res.map_ok, Res.ok.injEq] at hp
      obtain ⟨j1, j2⟩ := insertAll_not_healthy h [t]
      have hx : s.insertAll [t] = s.insert t := by
        unfold insertAll
        rcases s.insert t with ⟨s', _ | _⟩ <;> rfl
      rw [hx, hp] at j1 j2
      refine ⟨by simpa using j1, fun ht => ?_⟩
      have := (j2.1 ht).2
      simp only [throws, Bool.or_eq_true, Bool.and_eq_true] at this
      rcases this with ⟨h, _⟩ | ⟨h, _⟩
      · exact .inl h
      · exact .inr h
    | throw e => rw [hh] at hp; cases hp
    | ub => rw [hh] at hp; cases hp

/-! ### Exactly when the claim holds -/

theorem padded_append (w : Nat) (fill : Char) (left : Bool) (a b : Str) (hb : b ≠ []) :
    padded w fill left a ++ b = padded w fill left (a ++ b) ↔ w ≤ a.length := by
  constructor
  · intro h
    have := congrArg List.length h
    rw [List.length_append, padded_length, padded_length, List.length_append] at this
    have : 0 < b.length := List.length_pos_iff.2 hb
    omega
  · intro h
    rw [padded_of_le h, padded_of_le (by simp; omega)]

/-- Exactly when help and trees look like one string to the stream (device without limit): the pending width is not more than the length of
what the text begins with; or the tree is nothing but the line that introduces it. -/
theorem C132_exact (s : OStream) (h : Healthy s) (hr : s.room = none) :
    (∀ (o : Options V) (text : Str), Reachable o → (∀ d ∈ o.decls, d.long.length < 2 ^ 31) → o.printHelp = .ok text →
      ∃ first s' thrown, HelpBegins o text first ∧ printHelpOn o s = .ok (s', thrown) ∧
        (s'.out = (s.insert text).1.out ↔ s.width ≤ first.length)) ∧
    (∀ n : Prop.Node, ∃ first, DumpBegins n first ∧
      ((Prop.dumpOn n s).1.out = (s.insert (n.dump [])).1.out ↔ s.width ≤ first.length ∨ first ≠ [] ∧ n.dump [] = first)) := by
  have hf : ∀ t, Fits s.room t := fun t => by rw [hr]; exact fits_none t
  have hins : ∀ t, (s.insert t).1.out = s.out ++ padded s.width s.fill s.left t := by
    intro t
    rw [insert_eq h, if_pos (hf _)]
  have hnil : s.out = s.out ++ padded s.width s.fill s.left [] ↔ s.width ≤ ([] : Str).length := by
    constructor
    · intro e
      have := congrArg List.length e
      rw [List.length_append, padded_length] at this
      simp at this ⊢
      omega
    · intro e
      rw [padded_of_le e, List.append_nil]
  constructor
  · intro o text ho hlen ht
    obtain ⟨first, rest, s', thrown, h1, h2, h3, h4, h5⟩ := C132_help_width o ho hlen text ht s h
    refine ⟨first, s', thrown, h1, h3, ?_⟩
    rw [hins]
    by_cases hn : text = []
    · obtain ⟨rfl, -⟩ := h5 hn
      obtain ⟨rfl, rfl⟩ := List.append_eq_nil_iff.1 (hn ▸ h2).symm
      rw [hn]
      exact hnil
    · obtain ⟨h6, h7⟩ := h4 hn
      rw [h7.out, fitting_of_fits (hf _), List.append_cancel_left_eq, h2]
      exact padded_append _ _ _ _ _ h6
  · intro n
    obtain ⟨first, rest, h1, h2, h3, h4⟩ := C132_dump n s h
    refine ⟨first, h1, ?_⟩
    rw [hins]
    by_cases hn : n.dump [] = []
    · rw [h4 hn, hn]
      obtain ⟨rfl, rfl⟩ := List.append_eq_nil_iff.1 (hn ▸ h2).symm
      simpa using hnil
    · rw [(h3 hn).1.out, fitting_of_fits (hf _), List.append_cancel_left_eq, h2]
      by_cases hrest : rest = []
      · subst hrest
        have : first ≠ [] := by rintro rfl; exact hn (by simpa using h2)
        simp [this]
      · rw [padded_append _ _ _ _ _ hrest]
        constructor
        · exact .inl
        · rintro (h | ⟨-, h⟩)
          · exact h
          · exact absurd (by simpa using h) hrest

/-! ### The messages of `parse` -/

/-- `parse` with `std::cerr` as it is: the object is changed in the same way whatever becomes of the messages; a line that is read to its end
leaves `std::cerr` alone; otherwise it gets as much of the message as its device takes, and `parse` does not return but throws
`std::ios_base::failure` exactly if something is missing and the program asked for exceptions (for `failbit` alone: if more than the last
newline is missing). -/
theorem C132_parse (o : Options V) (ho : Ready o) (ts : List Str) (its : List (LineItem V)) (e : Ending V)
    (h : Reads o.decls ts its e) (help : Str) (hhelp : o.printHelp = .ok help)
    (hn1 : ∀ t ∈ ts, nul ∉ t) (hn2 : ∀ d ∈ o.decls, nul ∉ d.long ∧ nul ∉ d.err) (s : OStream) (hs : Healthy s) (hw : s.width = 0) :
    ∃ text s' ret, Complaint help e text ∧ parseOn o ts s = .ok ((o.parse ts).1, s', ret) ∧ Wrote s s' text ∧
      (text = [] → s' = s) ∧
      (ret = none ↔ ¬ Fits s.room text ∧ (s.excBad = true ∨ s.excFail = true ∧ ¬ Fits s.room text.dropLast)) ∧
      (∀ b, ret = some b → b = (o.parse ts).2) := by
  obtain ⟨o', ds, text, h1, h2, h3, h4⟩ := C78_diagnostics o ho ts its e h help hhelp hn1 hn2
  have hd : (o.parse ts).1.cerr.drop o.cerr.length = ds := by rw [h1, h2]; simp
  have ho' : (o.parse ts).1 = o' := by rw [h1]
  rw [← diagsPieces_flatten] at h3
  cases hp : diagsPieces o' ds with
  | throw e => rw [hp] at h3; cases h3
  | ub => rw [hp] at h3; cases h3
  | ok ps =>
    rw [hp] at h3
    simp only [Res.map_ok, Res.ok.injEq] at h3
    subst h3
    obtain ⟨i1, i2, i3, i4⟩ := insertAll_ends hs hw (diagsPieces_ends o' ds hp)
    refine ⟨ps.flatten, (s.insertAll ps).1, if (s.insertAll ps).2 = true then none else some (o.parse ts).2, h4, ?_, i1, ?_, ?_, ?_⟩
    · unfold parseOn
      simp only
      rw [hd, ho', hp, Res.map_ok]
      rcases s.insertAll ps with ⟨s', _ | _⟩ <;> simp
    · intro he
      have : ps = [] := by
        rcases diagsPieces_ends o' ds hp with rfl | ⟨p, q, rfl⟩
        · rfl
        · simp at he
      rw [i4 this]
    · rw [← i3]
      split <;> simp_all
    · intro b hb
      split at hb
      · cases hb
      · simpa using hb.symm

/-! ### Examples -/

/-- `std::setw(8)` with `std::setfill('*')` pending. -/
def wideStream : OStream := ⟨8, '*', false, false, false, false, false, none, []⟩

/-- A device that takes twelve characters, with exceptions asked for `failbit` only. -/
def smallStream : OStream := ⟨0, ' ', false, false, false, false, true, some 12, []⟩

/-- An object with an information string and two options. -/
def streamSample : Options Val :=
  ((Options.new false (fun _ => .int 0) (fun _ => [])).addInfo "prog".toList).add intTy 0 "num".toList 'n' "a number".toList

theorem streamSample_ready : Ready streamSample := .add _ _ _ _ _ _ _ (.addInfo _ (.new _ _ _))

def streamHelp : Str := "prog\n   --num                  -n     a number\n".toList

theorem streamSample_help : streamSample.printHelp = .ok streamHelp := by decide +kernel

/-- The string "v". -/
def scalarNode : Prop.Node := .mk "v".toList true [] []

/-- The list with the one element "v". -/
def listNode : Prop.Node := .mk [] false [scalarNode] []

/-- Help after `std::setw(8)`: the first information string is padded, the rest is not; a scalar is preceded by padding whatever the
adjustment; an empty container leaves the width for what the program inserts next. -/
theorem C132_refuted : ¬ C132_claim ∧
    (printHelpOn streamSample wideStream).map (·.1.out) = .ok ("****".toList ++ streamHelp) ∧
    (wideStream.insert streamHelp).1.out = streamHelp ∧
    (Prop.dumpOn scalarNode wideStream).1.out = "********v\n".toList ∧
    (Prop.dumpOn scalarNode { wideStream with left := true }).1.out = "********v\n".toList ∧
    (wideStream.insert (scalarNode.dump [])).1.out = "******v\n".toList ∧
    (Prop.dumpOn listNode wideStream).1.out = "<<<PROPLIST>>>\nv\n".toList ∧
    (Prop.dumpOn (.mk [] false [] []) wideStream).1.width = 8 := by
  have a : (printHelpOn streamSample wideStream).map (·.1.out) = .ok ("****".toList ++ streamHelp) := by decide +kernel
  have b : (wideStream.insert streamHelp).1.out = streamHelp := by decide +kernel
  refine ⟨fun h => ?_, a, b, by decide +kernel, by decide +kernel, by decide +kernel, by decide +kernel, by decide +kernel⟩
  have := h.1 streamSample streamHelp wideStream streamSample_ready.reachable streamSample_help ⟨rfl, rfl⟩
  rw [this] at a
  simp only [Res.map_ok, Res.ok.injEq, b] at a
  exact absurd a (by decide +kernel)

/-- The conditions of `C132_help_partial` for a device that is too small: twelve characters arrive, and `std::ios_base::failure` is thrown. -/
example : ∃ s', printHelpOn streamSample smallStream = .ok (s', true) ∧ s'.out = "prog\n   --nu".toList ∧ s'.badbit = true := by
  obtain ⟨s', thrown, h1, h2, -, h4, -⟩ := C132_help_partial streamSample streamHelp streamSample_help smallStream ⟨rfl, rfl⟩ rfl
  have hf : ¬ Fits smallStream.room streamHelp := by decide +kernel
  have hf' : ¬ Fits smallStream.room streamHelp.dropLast := by decide +kernel
  rw [h4.2 ⟨hf, .inr ⟨rfl, hf'⟩⟩] at h1
  refine ⟨s', h1, ?_, h2.bad.2 hf⟩
  rw [h2.out]
  decide +kernel

/-- The conditions of `C132_parse` for a refused line: `parse` does not return, the object is as after `parse`. -/
example : ∃ s', parseOn streamSample ["a".toList, "--zz".toList] smallStream =
      .ok ((streamSample.parse ["a".toList, "--zz".toList]).1, s', none) ∧ s'.out = "Command opti".toList := by
  have hno : ∀ i d, ¬ Denotes streamSample.decls "--zz".toList i d := by
    intro i d h
    generalize ht : "--zz".toList = t at h
    rw [show "--zz".toList = ['-', '-', 'z', 'z'] from rfl] at ht
    cases h with
    | @long n _ _ _ hl =>
      have hm := List.mem_of_getElem? hl.1
      have h2 := hl.2.1
      simp only [List.cons.injEq, true_and] at ht
      subst ht
      have : ∀ e ∈ streamSample.decls, e.long ≠ ['z', 'z'] := by decide +kernel
      exact this d hm h2
    | short hc hl =>
      simp only [List.cons.injEq, true_and] at ht
      exact hc (by rw [← ht.1])
  have hr : Reads streamSample.decls ["a".toList, "--zz".toList] [.word "a".toList] (.unknown "--zz".toList) :=
    .word (not_switchLike (by decide)) (.unknown (.inr ⟨"zz".toList, rfl, by decide⟩) (not_help (by decide) (by decide)) hno)
  obtain ⟨text, s', ret, h1, h2, h3, -, h5, -⟩ := C132_parse streamSample streamSample_ready _ _ _ hr streamHelp streamSample_help
    (by decide) (by decide +kernel) smallStream ⟨rfl, rfl⟩ rfl
  simp only [Complaint] at h1
  subst h1
  rw [h5.2 ⟨by decide +kernel, .inr ⟨rfl, by decide +kernel⟩⟩] at h2
  refine ⟨s', h2, ?_⟩
  rw [h3.out]
  decide +kernel

/-- A width that does no harm: "prog" fills the field. -/
example : ∃ first s' thrown, HelpBegins streamSample streamHelp first ∧
    printHelpOn streamSample { wideStream with width := 4 } = .ok (s', thrown) ∧
    (s'.out = (OStream.insert { wideStream with width := 4 } streamHelp).1.out ↔ 4 ≤ first.length) :=
  (C132_exact (V := Val) { wideStream with width := 4 } ⟨rfl, rfl⟩ rfl).1 streamSample streamHelp streamSample_ready.reachable
    (by decide +kernel) streamSample_help

example : (printHelpOn streamSample { wideStream with width := 4 }).map (·.1.out) = .ok streamHelp := by decide +kernel

/-- `os << std::setw(8) << format` -/
example : ∃ s' thrown, (Fmt.mk' "a%%b".toList).insertOn wideStream = .ok (s', thrown) ∧
    Wrote wideStream s' (padded 8 '*' false "a%b".toList) ∧ s'.failbit = false ∧
    (thrown = true ↔ false = true ∧ ¬ Fits none (padded 8 '*' false "a%b".toList)) :=
  C132_format (Fmt.mk' "a%%b".toList) "a%b".toList (by decide +kernel) wideStream ⟨rfl, rfl⟩

/-- A stream on which an earlier insertion has failed. -/
example : ¬ Healthy { smallStream with badbit := true } := by simp [Healthy]

end SoDa
