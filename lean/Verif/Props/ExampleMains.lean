import Verif.Model.ExampleMains
import Verif.Spec.ExampleMains
import Verif.Props.Options
import Verif.Props.PropertyTree
/-!
The example programs for all command lines (C108: OptionsExample, C109: PropertyTreeYAML_Test).
-/
namespace SoDa.Examples
open Opts Spec

/-! ### OptionsExample: lemmas -/

theorem ready (sc : Nat → Val) : Ready (options sc) :=
  .addInfo _ (.addInfo _ (.add _ _ _ _ _ _ _ (.addV _ _ _ _ _ _ _ (.addDef _ _ _ _ _ _ _ _ (.addDef _ _ _ _ _ _ _ _
    (.addP _ _ _ _ _ _ (.new _ _ _)))))))

/-- The options do not depend on the memory. -/
def exDecls : List (Decl Val) := (options fun _ => .int 0).decls

theorem decls_eq (sc : Nat → Val) : (options sc).decls = exDecls := rfl

/-- The state of the parser and the settings say the same. -/
structure Agrees (o : Options Val) (s : Settings) : Prop where
  int : o.sc 3 = .int s.int
  bool : o.sc 1 = .bool s.bool
  pres : o.sc 0 = .bool s.pres
  str : o.sc 2 = .str s.str
  vec : o.vec 0 = s.vec.map .str
  words : o.pos = s.words
  given : o.pres 4 = s.intGiven

theorem agrees_options (sc : Nat → Val) : Agrees (options sc) {} :=
  ⟨rfl, rfl, rfl, rfl, rfl, rfl, rfl⟩

theorem denotes_get {sw : Str} {i : Nat} {d : Decl Val} (h : Denotes exDecls sw i d) : exDecls[i]? = some d := by
  cases h with
  | long _ h => exact h.1
  | short _ h => exact h.1

theorem five {i : Nat} {d : Decl Val} (h : exDecls[i]? = some d) : i < 5 := by
  apply Classical.byContradiction
  intro hn
  rw [List.getElem?_eq_none (by show 5 ≤ i; omega)] at h
  cases h

theorem agrees_items {regs : List (Decl Val)} {ts its e} (hr : Reads regs ts its e) (hre : regs = exDecls) :
    ∀ (o : Options Val) (s : Settings), Agrees o s → Agrees (its.foldl applyItem o) (its.foldl Settings.afterItem s) := by
  subst hre
  induction hr with
  | done => intro o s h; exact h
  | word _ _ ih =>
    intro o s h
    refine ih _ _ ⟨h.int, h.bool, h.pres, h.str, h.vec, ?_, h.given⟩
    show o.pos ++ _ = s.words ++ _
    rw [h.words]
  | @flag sw i d ts its e hd _ hk _ ih =>
    intro o s h
    have hg := denotes_get hd
    have hi := five hg
    refine ih _ _ ?_
    rcases i with _ | _ | _ | _ | _ | i
    · simp only [exDecls, options] at hg
      cases hg
      exact ⟨h.int, h.bool, rfl, h.str, h.vec, h.words, h.given⟩
    · cases hg; cases hk
    · cases hg; cases hk
    · cases hg; cases hk
    · cases hg; cases hk
    · omega
  | @value sw i d txt v ts its e hd _ hk _ ha _ ih =>
    intro o s h
    have hg := denotes_get hd
    have hi := five hg
    refine ih _ _ ?_
    obtain ⟨hv, -⟩ := ha
    rcases i with _ | _ | _ | _ | _ | i
    · cases hg; exact absurd rfl hk
    · cases hg
      have : ∃ b, v = .bool b := by
        replace hv : (readBool txt).map Val.bool = some v := hv
        cases hq : readBool txt with
        | none => rw [hq] at hv; cases hv
        | some b => rw [hq] at hv; cases hv; exact ⟨b, rfl⟩
      obtain ⟨b, rfl⟩ := this
      exact ⟨h.int, rfl, h.pres, h.str, h.vec, h.words, h.given⟩
    · cases hg
      replace hv : some (Val.str txt) = some v := hv
      cases hv
      exact ⟨h.int, h.bool, h.pres, rfl, h.vec, h.words, h.given⟩
    · cases hg
      replace hv : some (Val.str txt) = some v := hv
      cases hv
      refine ⟨h.int, h.bool, h.pres, h.str, ?_, h.words, h.given⟩
      show o.vec 0 ++ [_] = (s.vec ++ [_]).map _
      rw [h.vec, List.map_append]; rfl
    · cases hg
      have : ∃ n, v = .int n := by
        replace hv : (match extractInt txt with | .good v => some (Val.int v) | _ => none) = some v := hv
        cases hq : extractInt txt with
        | good n => rw [hq] at hv; cases hv; exact ⟨n, rfl⟩
        | blank => rw [hq] at hv; cases hv
        | bad => rw [hq] at hv; cases hv
        | over => rw [hq] at hv; cases hv
      obtain ⟨n, rfl⟩ := this
      exact ⟨rfl, h.bool, h.pres, h.str, h.vec, h.words, rfl⟩
    · omega
  | @bare sw i d t ts its e hd _ hk hg' _ _ ih =>
    intro o s h
    have hg := denotes_get hd
    have hi := five hg
    refine ih _ _ ?_
    rcases i with _ | _ | _ | _ | _ | i
    · cases hg; exact absurd rfl hk
    · cases hg; exact ⟨h.int, h.bool, h.pres, h.str, h.vec, h.words, h.given⟩
    · cases hg; exact ⟨h.int, h.bool, h.pres, h.str, h.vec, h.words, h.given⟩
    · cases hg; exact ⟨h.int, h.bool, h.pres, h.str, h.vec, h.words, h.given⟩
    · cases hg; exact absurd (.inl rfl) hg'
    · omega
  | dangling => intro o s h; exact h
  | unknown => intro o s h; exact h
  | help => intro o s h; exact h
  | rejected => intro o s h; exact h

theorem showInt_eq (n : Int) : showInt n = (toString n).toList := by
  cases n with
  | ofNat n => simp [showInt, toString, Int.repr, Nat.repr]
  | negSucc n => simp [showInt, toString, Int.repr, Nat.repr]

theorem digits_eq (n : Nat) : Nat.toDigits 10 n = (toString n).toList := by
  simp [toString, Nat.repr]

theorem block_eq {o : Options Val} {s : Settings} (h : Agrees o s) : block o = s.shown := by
  unfold block Settings.shown
  rw [h.int, h.bool, h.pres, h.str]
  simp only [showVal, showInt_eq]
  cases s.bool <;> cases s.pres <;> simp [List.append_assoc]

theorem vecLoop_eq (l : List Str) : vecLoop (l.map .str) = l.flatMap fun t => "\t[".toList ++ t ++ "]\n".toList := by
  induction l with
  | nil => rfl
  | cons a l ih => rw [List.map_cons, vecLoop, ih]; rfl

theorem argLoop_eq (l : List Str) (i : Nat) : argLoop i l = ((l.mapIdx fun k => fun a => "ARG[".toList ++
    (toString (k + i)).toList ++ "] = [".toList ++ a ++ "]\n".toList)).flatten := by
  induction l generalizing i with
  | nil => rfl
  | cons a l ih =>
    rw [List.mapIdx_cons, List.flatten_cons, argLoop, ih, digits_eq, Nat.zero_add]
    simp only [Nat.add_right_comm _ 1 i, Nat.add_assoc]

theorem getPosArg_eq {o : Options Val} {i : Nat} (hl : o.pos.length < 2147483648) (h : i < o.pos.length) :
    o.getPosArg i = .ok o.pos[i] := by
  have := C36_getPosArg_partial o hl i
  unfold Options.getPosArg
  have hu : ((i : Int) % 18446744073709551616).toNat = i := by omega
  simp only [hu]
  rw [if_neg (by omega), List.getElem?_eq_getElem h]

theorem posLoop_eq (o : Options Val) (hl : o.pos.length < 2147483648) : ∀ (l pre : List Str), o.pos = pre ++ l →
    posLoop o l.length pre.length = .ok ((l.mapIdx fun k => fun w => ['\t'] ++ (toString (k + pre.length)).toList ++ ['\t'] ++ w ++
      ['\n'])).flatten := by
  intro l
  induction l with
  | nil => intro pre _; rfl
  | cons a l ih =>
    intro pre hp
    have h1 : o.getPosArg (pre.length : Nat) = .ok a := by
      rw [getPosArg_eq hl (by rw [hp]; simp)]
      simp [hp]
    have h2 := ih (pre ++ [a]) (by rw [hp]; simp)
    rw [List.length_append, List.length_singleton] at h2
    rw [List.length_cons, posLoop, h1]
    simp only [Res.bind]
    rw [h2]
    simp only [List.mapIdx_cons, List.flatten_cons, digits_eq, Nat.zero_add, Nat.add_right_comm _ 1 pre.length,
      Nat.add_assoc]
    rfl

theorem words_length {regs : List (Decl Val)} {ts its e} (hr : Reads regs ts its e) : (words' its).length ≤ ts.length := by
  induction hr with
  | done => exact Nat.le_refl _
  | word _ _ ih => exact Nat.succ_le_succ ih
  | flag _ _ _ _ ih => exact Nat.le_succ_of_le ih
  | value _ _ _ _ _ _ ih => exact Nat.le_succ_of_le (Nat.le_succ_of_le ih)
  | bare _ _ _ _ _ _ ih => exact Nat.le_succ_of_le ih
  | dangling => exact Nat.zero_le _
  | unknown => exact Nat.zero_le _
  | help => exact Nat.zero_le _
  | rejected => exact Nat.zero_le _

theorem longMap_eq (sc : Nat → Val) : (options sc).longMap = (options fun _ => .int 0).longMap := rfl

theorem find_intarg : mapFind strLess "intarg".toList (options fun _ => .int 0).longMap = some 4 := by decide

theorem tokens_second : tokensString "-i 3 -s \"this is a test\"".toList =
    ["-i".toList, "3".toList, "-s".toList, "this is a test".toList] := by decide

theorem afterLoop_ok (out err t : Str) (o : Options Val) : afterLoop out err o (.ok t) = secondPart (out ++ t) err o := rfl

/-- The first part of the program. -/
theorem afterParse_eq (sc : Nat → Val) (version gitId prog : Str) (ts : List Str) (o : Options Val) (s : Settings)
    (ht : ts.length < 2147483648) (hk2 : o.longMap = (options sc).longMap)
    (ha : Agrees o s) (hw : s.words.length ≤ ts.length) :
    afterParse version gitId (prog :: ts) o =
      secondPart (s.firstPart (prog :: ts)) (errText version gitId s.intGiven) o := by
  have hpres : o.isPresent "intarg".toList = s.intGiven := by
    have : o.findLong "intarg".toList = some 4 := by
      show mapFind strLess "intarg".toList o.longMap = some 4
      rw [hk2, longMap_eq]
      exact find_intarg
    unfold Options.isPresent
    rw [this]; exact ha.given
  have hlen : o.pos.length < 2147483648 := by rw [ha.words]; omega
  have hnum : o.numPosArgs.toNat = s.words.length := by
    unfold Options.numPosArgs toI32
    have := congrArg List.length ha.words
    omega
  have hpl := posLoop_eq o hlen s.words [] ha.words
  rw [List.length_nil] at hpl
  have hfp : block o ++ vecLoop (o.vec 0) ++ argLoop 0 (prog :: ts) ++ "posargs = \n".toList ++
      ((s.words.mapIdx fun k => fun w => ['\t'] ++ (toString (k + 0)).toList ++ ['\t'] ++ w ++
        ['\n'])).flatten = s.firstPart (prog :: ts) := by
    rw [block_eq ha, ha.vec, vecLoop_eq, argLoop_eq]
    unfold Settings.firstPart numbered
    simp only [Nat.add_zero]
  unfold afterParse
  rw [hnum, hpl, hpres, ← hfp]
  exact afterLoop_ok _ _ _ _

theorem main_true (sc : Nat → Val) (version gitId prog : Str) (ts : List Str) (o : Options Val) (s : Settings)
    (ht : ts.length < 2147483648)
    (hp : (options sc).parse ts = (o, true)) (ha : Agrees o s) (hw : s.words.length ≤ ts.length) :
    optionsMain sc version gitId (prog :: ts) =
      secondPart (s.firstPart (prog :: ts)) (errText version gitId s.intGiven) o := by
  have hk := parse_keep (ready sc).wf ts
  rw [hp] at hk
  rw [← afterParse_eq sc version gitId prog ts o s ht hk.2.1 ha hw]
  unfold optionsMain
  rw [C37_argv _ rfl, hp]

theorem secondPart_eq (out err : Str) (o : Options Val) (hk : o.isKvp = false) : secondPart out err o =
    match o.parse ["-i".toList, "3".toList, "-s".toList, "this is a test".toList] with
    | (o', true) => ⟨.exit 0, out ++ block o', err, o'.cerr⟩
    | (o', false) => ⟨.exit (-1), out, err, o'.cerr⟩ := by
  have hps : o.parseString "-i 3 -s \"this is a test\"".toList =
      .ok (o.parse ["-i".toList, "3".toList, "-s".toList, "this is a test".toList]) := by
    unfold Options.parseString
    rw [hk, tokens_second]; rfl
  unfold secondPart
  rw [hps]
  rcases o.parse ["-i".toList, "3".toList, "-s".toList, "this is a test".toList] with ⟨o', _ | _⟩ <;> rfl

theorem denotes_i : Denotes exDecls "-i".toList 4 exDecls[4] :=
  .short (c := 'i') (r := []) (by decide) (isLast_of_findAb (ready fun _ => .int 0).wf (by decide) rfl)

theorem denotes_s : Denotes exDecls "-s".toList 2 exDecls[2] :=
  .short (c := 's') (r := []) (by decide) (isLast_of_findAb (ready fun _ => .int 0).wf (by decide) rfl)

/-- The items of the second line. -/
def secondItems : List (LineItem Val) :=
  [.value "-i".toList 4 exDecls[4] "3".toList (.int 3),
   .value "-s".toList 2 exDecls[2] "this is a test".toList (.str "this is a test".toList)]

theorem reads_second : Reads exDecls ["-i".toList, "3".toList, "-s".toList, "this is a test".toList] secondItems .done :=
  .value denotes_i (not_help (by decide) (by decide)) (by decide) (.inl (.inl rfl)) ⟨by decide, by decide⟩
    (.value denotes_s (not_help (by decide) (by decide)) (by decide) (.inr (not_switchLike (by decide))) ⟨rfl, rfl⟩ .done)

theorem errText_eq (version gitId : Str) (b : Bool) : errText version gitId b = exampleErr version gitId b := by
  unfold errText exampleErr
  cases b <;> simp [List.append_assoc]

theorem agrees_second {o : Options Val} {s : Settings} (h : Agrees o s) :
    Agrees (secondItems.foldl applyItem o) { s.second with intGiven := true } :=
  ⟨rfl, h.bool, h.pres, rfl, h.vec, h.words, rfl⟩

theorem shown_given (s : Settings) (b : Bool) : { s with intGiven := b }.shown = s.shown := rfl

theorem words_fold (its : List (LineItem Val)) : ∀ s : Settings,
    (its.foldl Settings.afterItem s).words = s.words ++ words' its := by
  induction its with
  | nil => intro s; simp [words']
  | cons it its ih =>
    intro s
    rw [List.foldl_cons, ih]
    cases it with
    | word w => simp [Settings.afterItem, words']
    | flag => simp [Settings.afterItem, words']
    | bare => simp [Settings.afterItem, words']
    | value sw i d t v =>
      have : (s.afterItem (.value sw i d t v)).words = s.words := by
        unfold Settings.afterItem
        split <;> first | rfl | (rename_i h; cases h)
      rw [this]; simp [words']

/-! ## C108  OptionsExample for every command line -/

/-- The registered names are those listed in the specification. -/
theorem C108_names (sc : Nat → Val) : (options sc).decls.map (fun d => (d.long, d.ab)) = exampleNames := rfl

/-- The intention: when the first command line has been accepted, the program shows what it says, and then, after the line
`-i 3 -s "this is a test"`, the same with these two values changed. -/
def C108_claim : Prop := ∀ sc version gitId prog ts,
  (optionsMain sc version gitId (prog :: ts)).fin = .exit (-1) ∨
  ∃ s : Settings, optionsMain sc version gitId (prog :: ts) =
    ⟨.exit 0, s.firstPart (prog :: ts) ++ s.second.shown, exampleErr version gitId s.intGiven, []⟩

/-- What holds: this is so for lines that do not end with a lone `-i` or `--intarg`, and the settings are what the items of
the line say.  Missing: lines that end within that option, see `C108_lone_int`. -/
theorem C108_shows_partial (sc : Nat → Val) (version gitId prog : Str) (ts : List Str) (its : List (LineItem Val))
    (e : Ending Val) (ht : ts.length < 2147483648) (hr : Reads (options sc).decls ts its e)
    (he : e = .done ∨ ∃ sw i d, e = .dangling sw i d ∧ d.isSigned = false) :
    optionsMain sc version gitId (prog :: ts) =
      ⟨.exit 0, (its.foldl Settings.afterItem {}).firstPart (prog :: ts) ++ (its.foldl Settings.afterItem {}).second.shown,
        exampleErr version gitId (its.foldl Settings.afterItem {}).intGiven, []⟩ := by
  have hp := parse_reads (ready sc).wf (ready sc).waiting hr
  have ha := agrees_items hr (decls_eq sc) (options sc) {} (agrees_options sc)
  have hw : (its.foldl Settings.afterItem {}).words.length ≤ ts.length := by
    rw [words_fold]; exact words_length hr
  generalize its.foldl Settings.afterItem {} = s at ha hw ⊢
  have hk := items_keep its (options sc)
  have : ∃ o, (options sc).parse ts = (o, true) ∧ Ready o ∧ Agrees o s ∧ o.decls = exDecls ∧ o.isKvp = false ∧ o.cerr = [] := by
    have hready : Ready ((options sc).parse ts).1 := by
      refine .parse (ready sc) hr ?_ ?_
      · rintro sw i d rfl
        rcases he with he | ⟨sw', i', d', he, hs⟩
        · cases he
        · cases he; exact hs
      · rintro sw i d txt rfl
        rcases he with he | ⟨sw', i', d', he, hs⟩ <;> cases he
    rcases he with rfl | ⟨sw', i', d', rfl, hs⟩
    · rw [hp] at hready
      exact ⟨_, hp, hready, ha, hk.1, hk.2.2.2.2.2.1, hk.2.2.2.2.2.2⟩
    · rw [hp] at hready
      exact ⟨_, hp, hready, ⟨ha.int, ha.bool, ha.pres, ha.str, ha.vec, ha.words, ha.given⟩, hk.1, hk.2.2.2.2.2.1,
        hk.2.2.2.2.2.2⟩
  obtain ⟨o, h1, h2, h3, h4, h5, h6⟩ := this
  rw [main_true sc version gitId prog ts o s ht h1 h3 hw, secondPart_eq _ _ _ h5]
  have hr2 : Reads o.decls ["-i".toList, "3".toList, "-s".toList, "this is a test".toList] secondItems .done := by
    rw [h4]; exact reads_second
  rw [parse_reads h2.wf h2.waiting hr2]
  have h7 : (secondItems.foldl applyItem o).cerr = [] := by
    rw [(items_keep secondItems o).2.2.2.2.2.2, h6]
  show (⟨.exit 0, _ ++ block (secondItems.foldl applyItem o), _, (secondItems.foldl applyItem o).cerr⟩ : Outcome) = _
  rw [block_eq (agrees_second h3), h7, errText_eq, shown_given]

/-- A line that ends with a lone `-i` or `--intarg`: accepted, and the second line is not recognised — the settings are shown
again as they were. -/
theorem C108_lone_int (sc : Nat → Val) (version gitId prog : Str) (ts : List Str) (its : List (LineItem Val))
    (sw : Str) (i : Nat) (d : Decl Val) (ht : ts.length < 2147483648)
    (hr : Reads (options sc).decls ts its (.dangling sw i d)) (hs : d.isSigned = true) :
    optionsMain sc version gitId (prog :: ts) =
      ⟨.exit 0, (its.foldl Settings.afterItem {}).firstPart (prog :: ts) ++ (its.foldl Settings.afterItem {}).shown,
        exampleErr version gitId (its.foldl Settings.afterItem {}).intGiven, []⟩ := by
  have hp := parse_reads (ready sc).wf (ready sc).waiting hr
  have ha := agrees_items hr (decls_eq sc) (options sc) {} (agrees_options sc)
  have hw : (its.foldl Settings.afterItem {}).words.length ≤ ts.length := by
    rw [words_fold]; exact words_length hr
  generalize its.foldl Settings.afterItem {} = s at ha hw ⊢
  have hk := items_keep its (options sc)
  have hfor := C32_refuted_forever (options sc) (ready sc) ts its sw i d hr hs
    ["-i".toList, "3".toList, "-s".toList, "this is a test".toList]
  obtain ⟨o, h1, h3, h5, h6⟩ : ∃ o, (options sc).parse ts = (o, true) ∧ Agrees o s ∧ o.isKvp = false ∧ o.cerr = [] :=
    ⟨_, hp, ⟨ha.int, ha.bool, ha.pres, ha.str, ha.vec, ha.words, ha.given⟩, hk.2.2.2.2.2.1, hk.2.2.2.2.2.2⟩
  rw [h1] at hfor
  dsimp only at hfor
  rw [main_true sc version gitId prog ts o s ht h1 h3 hw, secondPart_eq _ _ _ h5, hfor]
  have hb : ∀ pos, block { o with pos := pos } = s.shown := fun pos => (block_eq h3 : block o = s.shown)
  dsimp only
  rw [hb, h6, errText_eq]

/-- All other lines: status -1 and no output but the complaints of the parser. -/
theorem C108_refuses (sc : Nat → Val) (version gitId prog : Str) (ts : List Str) (its : List (LineItem Val))
    (e : Ending Val) (hr : Reads (options sc).decls ts its e)
    (he : (∃ sw, e = .unknown sw) ∨ (∃ sw, e = .help sw) ∨ ∃ sw i d txt, e = .rejected sw i d txt) :
    ∃ ds, ds ≠ [] ∧ optionsMain sc version gitId (prog :: ts) = ⟨.exit (-1), [], [], ds⟩ := by
  have hp := parse_reads (ready sc).wf (ready sc).waiting hr
  have key : ∀ o : Options Val, (options sc).parse ts = (o, false) →
      optionsMain sc version gitId (prog :: ts) = ⟨.exit (-1), [], [], o.cerr⟩ := by
    intro o ho
    unfold optionsMain
    rw [C37_argv _ rfl, ho]
  rcases he with ⟨sw, rfl⟩ | ⟨sw, rfl⟩ | ⟨sw, i, d, txt, rfl⟩
  · exact ⟨_, by simp, key _ hp⟩
  · exact ⟨_, by simp, key _ hp⟩
  · exact ⟨_, by simp, key _ hp⟩

/-- What an argument is to the parser. -/
def toItem : ExArg → LineItem Val
  | .presarg l => .flag (if l then "--presarg".toList else "-p".toList) 0 exDecls[0]
  | .boolarg l t b => .value (if l then "--boolarg".toList else "-b".toList) 1 exDecls[1] t (.bool b)
  | .strarg l s => .value (if l then "--strarg".toList else "-s".toList) 2 exDecls[2] s (.str s)
  | .strvecarg l s => .value (if l then "--strvecarg".toList else "-l".toList) 3 exDecls[3] s (.str s)
  | .intarg l t n => .value (if l then "--intarg".toList else "-i".toList) 4 exDecls[4] t (.int n)
  | .word w => .word w

theorem denotes_long {n : Str} {i : Nat} {d : Decl Val} (hn : n ≠ [])
    (hf : (options fun _ => .int 0).findLong n = some i) (hd : exDecls[i]? = some d) :
    Denotes exDecls ('-' :: '-' :: n) i d := .long hn (isLast_of_findLong (ready _).wf hf hd)

theorem denotes_short {c : Char} {i : Nat} {d : Decl Val} (hc : c ≠ '-')
    (hf : (options fun _ => .int 0).findAb c = some i) (hd : exDecls[i]? = some d) :
    Denotes exDecls ['-', c] i d := .short hc (isLast_of_findAb (ready _).wf hf hd)

theorem toItem_wf (a : ExArg) (h : a.Proper) : (toItem a).WellFormed exDecls := by
  cases a with
  | presarg l =>
    cases l
    · exact ⟨denotes_short (c := 'p') (by decide) (by decide) rfl, not_help (by decide) (by decide), rfl⟩
    · exact ⟨denotes_long (n := "presarg".toList) (by decide) (by decide) rfl, not_help (by decide) (by decide), rfl⟩
  | boolarg l t b =>
    obtain ⟨c, r, rfl, hb⟩ := h
    have hr : readBool (c :: r) = some b := by
      rw [readBool_iff]
      rcases hb with ⟨rfl, rfl | rfl⟩ | ⟨rfl, rfl | rfl⟩ <;> simp
    have hs : ¬ SwitchLike (c :: r) := by
      refine not_switchLike ?_
      rcases hb with ⟨rfl, rfl | rfl⟩ | ⟨rfl, rfl | rfl⟩ <;> simp
    have ha : Accepts exDecls[1] (c :: r) (.bool b) := by
      refine ⟨?_, rfl⟩
      show (readBool (c :: r)).map Val.bool = _
      rw [hr]; rfl
    cases l
    · exact ⟨denotes_short (c := 'b') (by decide) (by decide) rfl, not_help (by decide) (by decide), by decide, .inr hs, ha⟩
    · exact ⟨denotes_long (n := "boolarg".toList) (by decide) (by decide) rfl, not_help (by decide) (by decide), by decide,
        .inr hs, ha⟩
  | strarg l s =>
    cases l
    · exact ⟨denotes_short (c := 's') (by decide) (by decide) rfl, not_help (by decide) (by decide), by decide, .inr h, rfl,
        rfl⟩
    · exact ⟨denotes_long (n := "strarg".toList) (by decide) (by decide) rfl, not_help (by decide) (by decide), by decide,
        .inr h, rfl, rfl⟩
  | strvecarg l s =>
    cases l
    · exact ⟨denotes_short (c := 'l') (by decide) (by decide) rfl, not_help (by decide) (by decide), by decide, .inr h, rfl,
        rfl⟩
    · exact ⟨denotes_long (n := "strvecarg".toList) (by decide) (by decide) rfl, not_help (by decide) (by decide), by decide,
        .inr h, rfl, rfl⟩
  | intarg l t n =>
    obtain ⟨h1, h2, h3⟩ := h
    have ha : Accepts exDecls[4] t (.int n) := by
      constructor
      · show (match extractInt t with | .good v => some (Val.int v) | _ => none) = _
        rw [(extractInt_good_iff t n).2 ⟨h1, by omega, by omega⟩]
      · show (decide (n ≥ -5) && decide (n ≤ 5)) = true
        simp [h2, h3]
    cases l
    · exact ⟨denotes_i, not_help (by decide) (by decide), by decide, .inl (.inl rfl), ha⟩
    · exact ⟨denotes_long (n := "intarg".toList) (by decide) (by decide) rfl, not_help (by decide) (by decide), by decide,
        .inl (.inl rfl), ha⟩
  | word w => exact h

theorem toItem_tokens (as : List ExArg) : (as.map toItem).flatMap LineItem.tokens = as.flatMap ExArg.tokens := by
  induction as with
  | nil => rfl
  | cons a as ih =>
    rw [List.map_cons, List.flatMap_cons, List.flatMap_cons, ih]
    cases a <;> rfl

theorem toItem_after (as : List ExArg) : ∀ s : Settings,
    (as.map toItem).foldl Settings.afterItem s = as.foldl Settings.after s := by
  induction as with
  | nil => intro s; rfl
  | cons a as ih =>
    intro s
    rw [List.map_cons, List.foldl_cons, List.foldl_cons, ih]
    cases a <;> rfl

theorem reads_args (as : List ExArg) (h : ∀ a ∈ as, a.Proper) :
    Reads exDecls (as.flatMap ExArg.tokens) (as.map toItem) .done := by
  rw [← toItem_tokens]
  refine reads_wellFormed _ ?_
  intro it hit
  obtain ⟨a, ha, rfl⟩ := List.mem_map.1 hit
  exact toItem_wf a (h a ha)

/-- In the user's terms: options and words in any number and order. -/
theorem C108_user (sc : Nat → Val) (version gitId prog : Str) (as : List ExArg) (h : ∀ a ∈ as, a.Proper)
    (ht : (as.flatMap ExArg.tokens).length < 2147483648) :
    optionsMain sc version gitId (prog :: as.flatMap ExArg.tokens) =
      ⟨.exit 0, (as.foldl Settings.after {}).firstPart (prog :: as.flatMap ExArg.tokens) ++
        (as.foldl Settings.after {}).second.shown, exampleErr version gitId (as.foldl Settings.after {}).intGiven, []⟩ := by
  have := C108_shows_partial sc version gitId prog _ _ .done ht (reads_args as h) (.inl rfl)
  rwa [toItem_after] at this

/-- The same with a lone `-i` at the end. -/
theorem C108_user_lone (sc : Nat → Val) (version gitId prog : Str) (as : List ExArg) (h : ∀ a ∈ as, a.Proper)
    (ht : (as.flatMap ExArg.tokens ++ ["-i".toList]).length < 2147483648) :
    optionsMain sc version gitId (prog :: (as.flatMap ExArg.tokens ++ ["-i".toList])) =
      ⟨.exit 0, (as.foldl Settings.after {}).firstPart (prog :: (as.flatMap ExArg.tokens ++ ["-i".toList])) ++
        (as.foldl Settings.after {}).shown, exampleErr version gitId (as.foldl Settings.after {}).intGiven, []⟩ := by
  have h2 := reads_append_done (reads_args as h) rfl
    (.dangling denotes_i (not_help (by decide) (by decide)) (by decide))
  rw [List.append_nil] at h2
  have := C108_lone_int sc version gitId prog _ _ _ _ _ ht h2 rfl
  rwa [toItem_after] at this

theorem begins_minus_four : BeginsWithInt "-4".toList (-4) :=
  ((extractInt_good_iff _ _).1 (by decide)).1

/-- `OptionsExample -i -4 w --boolarg T -p`. -/
example (sc : Nat → Val) : optionsMain sc "1".toList "2".toList (["x", "-i", "-4", "w", "--boolarg", "T", "-p"].map (·.toList)) =
    ⟨.exit 0, ("intarg = -4\nboolarg = 1\npres_arg = 1\nstr_arg = []\nstrvecarg s = \nARG[0] = [x]\nARG[1] = [-i]\n" ++
      "ARG[2] = [-4]\nARG[3] = [w]\nARG[4] = [--boolarg]\nARG[5] = [T]\nARG[6] = [-p]\nposargs = \n\t0\tw\n" ++
      "intarg = 3\nboolarg = 1\npres_arg = 1\nstr_arg = [this is a test]\nstrvecarg s = \n").toList,
      "SoDaUtils version [1]\nSoDaUtils git id [2]\nAn intarg option was present\n".toList, []⟩ := by
  have := C108_user sc "1".toList "2".toList "x".toList
    [.intarg false "-4".toList (-4), .word "w".toList, .boolarg true "T".toList true, .presarg false] (by
      intro a ha
      simp only [List.mem_cons, List.not_mem_nil, or_false] at ha
      rcases ha with rfl | rfl | rfl | rfl
      · exact ⟨begins_minus_four, by decide, by decide⟩
      · exact not_switchLike (by decide)
      · exact ⟨'T', [], rfl, .inl ⟨rfl, .inr rfl⟩⟩
      · trivial) (by decide)
  refine this.trans ?_
  decide +kernel

/-- The end of the output in the intended case. -/
theorem second_suffix (pre : Str) (s : Settings) : "this is a test]\nstrvecarg s = \n".toList <:+ pre ++ s.second.shown := by
  refine ⟨pre ++ ("intarg = ".toList ++ (toString s.second.int).toList ++ ['\n'] ++
    "boolarg = ".toList ++ [if s.second.bool then '1' else '0', '\n'] ++
    "pres_arg = ".toList ++ [if s.second.pres then '1' else '0', '\n'] ++ "str_arg = [".toList), ?_⟩
  have h : "this is a test]\nstrvecarg s = \n".toList = s.second.str ++ [']', '\n'] ++ "strvecarg s = \n".toList :=
    (by decide : "this is a test]\nstrvecarg s = \n".toList =
      "this is a test".toList ++ [']', '\n'] ++ "strvecarg s = \n".toList)
  rw [h]
  unfold Settings.shown
  simp only [List.append_assoc]

/-- `OptionsExample -i`: the second time, too, 0 is shown instead of 3. -/
theorem C108_refuted : ¬ C108_claim := by
  intro h
  have h1 : optionsMain (fun _ => .int 0) [] [] ([] :: ["-i".toList]) =
      ⟨.exit 0, Settings.firstPart {} ([] :: ["-i".toList]) ++ Settings.shown {}, exampleErr [] [] false, []⟩ :=
    C108_user_lone (fun _ => .int 0) [] [] [] [] (by simp) (by decide)
  rcases h (fun _ => .int 0) [] [] [] ["-i".toList] with h3 | ⟨s, h3⟩
  · rw [h1] at h3; cases h3
  · rw [h1] at h3
    have h4 : Settings.firstPart {} ([] :: ["-i".toList]) ++ Settings.shown {} =
        s.firstPart ([] :: ["-i".toList]) ++ s.second.shown := congrArg Outcome.out h3
    have h5 := second_suffix (s.firstPart ([] :: ["-i".toList])) s
    rw [← h4] at h5
    revert h5
    decide +kernel

/-! ## C109  PropertyTreeYAML_Test for every command line and all files -/

theorem reads_none {ts : List Str} : Reads ([] : List (Decl Val)) ts (ts.map .word) .done ↔ ∀ t ∈ ts, ¬ SwitchLike t := by
  induction ts with
  | nil => exact ⟨fun _ => by simp, fun _ => .done⟩
  | cons t ts ih =>
    constructor
    · intro h
      cases h with
      | word h1 h2 => simpa [h1] using ih.1 h2
    · intro h
      exact .word (h t (by simp)) (ih.2 fun x hx => h x (by simp [hx]))

theorem words_map (ts : List Str) : words' (ts.map (LineItem.word (V := Val))) = ts := by
  induction ts with
  | nil => rfl
  | cons t ts ih => simp [words', ih]

/-- Without registered options a line with a switch fails. -/
theorem parse_none_switch (ts : List Str) (h : ∃ t ∈ ts, SwitchLike t) :
    ((Options.new (V := Val) false (fun _ => .int 0) (fun _ => [])).parse ts).2 = false := by
  apply Classical.byContradiction
  intro hn
  obtain ⟨its, hr⟩ := C25_true_only _ (.new false _ _) ts (by simpa using hn)
  have key : ∀ (regs : List (Decl Val)) ts its e, Reads regs ts its e → regs = [] → (∃ t ∈ ts, SwitchLike t) →
      e ≠ .done ∧ ∀ sw i d, e ≠ .dangling sw i d := by
    intro regs ts its e hr hre
    subst hre
    have hno : ∀ sw i (d : Decl Val), ¬ Denotes [] sw i d := by
      intro sw i d hd
      cases hd with
      | long _ hl => simp [IsLast] at hl
      | short _ hl => simp [IsLast] at hl
    induction hr with
    | done => simp
    | word hw _ ih =>
      rintro ⟨t, ht, hs⟩
      simp only [List.mem_cons] at ht
      rcases ht with rfl | ht
      · exact absurd hs hw
      · exact ih ⟨t, ht, hs⟩
    | flag hd => exact absurd hd (hno _ _ _)
    | value hd => exact absurd hd (hno _ _ _)
    | bare hd => exact absurd hd (hno _ _ _)
    | dangling hd => exact absurd hd (hno _ _ _)
    | unknown => intro _; simp
    | help => intro _; simp
    | rejected hd => exact absurd hd (hno _ _ _)
  rcases hr with hr | ⟨sw, i, d, hr⟩
  · exact (key _ _ _ _ hr rfl h).1 rfl
  · exact (key _ _ _ _ hr rfl h).2 sw i d rfl

theorem yamlMain_words (load : Str → Prop.Load) (prog : Str) (ts : List Str) (ht : ts.length < 2147483648)
    (h : ∀ t ∈ ts, ¬ SwitchLike t) :
    yamlMain load (prog :: ts) =
      match ts with
      | [] => ⟨.exit (-1), [], "Missing input file name.\n".toList, []⟩
      | f :: _ =>
        match Prop.readFile Prop.newTree (load f) with
        | (r, .normal) => ⟨.exit 0, r.dump [], "\n\n\nREADY?\n\n\n".toList, []⟩
        | _ => ⟨.terminate, [], [], []⟩ := by
  obtain ⟨o, h1, -, -, h4, h5⟩ := C25_complete_line (Options.new (V := Val) false (fun _ => .int 0) (fun _ => []))
    (.new false _ _) ts _ (reads_none.2 h)
  rw [words_map] at h4
  replace h4 : o.pos = ts := h4
  replace h5 : o.cerr = [] := h5
  unfold yamlMain
  rw [C37_argv _ rfl, h1]
  have hnum : o.numPosArgs = ts.length := by
    unfold Options.numPosArgs toI32
    rw [h4]; omega
  cases ts with
  | nil => simp [hnum, h5]
  | cons f rest =>
    have hg : o.getPosArg 0 = .ok f := by
      have := getPosArg_eq (o := o) (i := 0) (by rw [h4]; exact ht) (by rw [h4]; simp)
      simpa [h4] using this
    have hne : ¬ o.numPosArgs = 0 := by rw [hnum, List.length_cons]; omega
    simp only [hg, h5, hne, Bool.not_true, decide_false, Bool.or_self, Bool.false_eq_true, if_false]
    rcases Prop.readFile Prop.newTree (load f) with ⟨r, _ | _ | _ | _⟩ <;> rfl

theorem yamlMain_switch (load : Str → Prop.Load) (prog : Str) (ts : List Str) (h : ∃ t ∈ ts, SwitchLike t) :
    ∃ ds, yamlMain load (prog :: ts) = ⟨.exit (-1), [], "Missing input file name.\n".toList, ds⟩ := by
  have h1 := parse_none_switch ts h
  unfold yamlMain
  rw [C37_argv _ rfl]
  rcases hq : (Options.new (V := Val) false (fun _ => .int 0) (fun _ => [])).parse ts with ⟨o, b⟩
  rw [hq] at h1
  subst h1
  exact ⟨o.cerr, by simp⟩

/-- The program ends with status 0 exactly if all arguments are words and the first one is the name of a file whose document
can be read into a tree (C62); what it writes then is the dump of that tree. -/
theorem C109_status_zero (load : Str → Prop.Load) (prog : Str) (ts : List Str) (ht : ts.length < 2147483648) :
    (yamlMain load (prog :: ts)).fin = .exit 0 ↔
      (∀ t ∈ ts, ¬ SwitchLike t) ∧ ∃ f rest y, ts = f :: rest ∧ load f = .doc y ∧ Readable y := by
  constructor
  · intro h
    have hs : ∀ t ∈ ts, ¬ SwitchLike t := by
      intro t ht hsl
      obtain ⟨ds, hd⟩ := yamlMain_switch load prog ts ⟨t, ht, hsl⟩
      rw [hd] at h
      cases h
    refine ⟨hs, ?_⟩
    rw [yamlMain_words load prog ts ht hs] at h
    cases ts with
    | nil => cases h
    | cons f rest =>
      refine ⟨f, rest, ?_⟩
      cases hl : load f with
      | badFile w => simp [hl, Prop.readFile] at h
      | otherError => simp [hl, Prop.readFile] at h
      | doc y =>
        refine ⟨y, rfl, rfl, ?_⟩
        apply (Prop.C62_normal_iff Prop.newTree y).1
        dsimp only at h
        rw [hl] at h
        rcases hq : Prop.readFile Prop.newTree (.doc y) with ⟨r, _ | _ | _ | _⟩
        · rfl
        all_goals rw [hq] at h; cases h
  · rintro ⟨hs, f, rest, y, rfl, hl, hy⟩
    obtain ⟨root, h1, -⟩ := Prop.C62_tree y hy
    rw [yamlMain_words load prog _ ht hs]
    dsimp only
    rw [hl, h1]

/-- Every scalar that the document has at a path of keys is on a line of the output, after its key, and every scalar of a
sequence is on a line by itself; indented by the depth. -/
theorem C109_lines (load : Str → Prop.Load) (prog f : Str) (rest : List Str) (y : Prop.Y)
    (ht : (f :: rest).length < 2147483648) (hs : ∀ t ∈ f :: rest, ¬ SwitchLike t) (hl : load f = .doc y) (hy : Readable y) :
    (∀ p k s, valueAt y (p ++ [k]) = some (.scalar s) →
      HasLine (yamlMain load (prog :: f :: rest)).out (List.replicate (2 * p.length) ' ' ++ k ++ ":  ".toList ++ s)) ∧
    (∀ p es s, valueAt y p = some (.map es) → Contrib.item s ∈ contents (.map es) →
      HasLine (yamlMain load (prog :: f :: rest)).out (List.replicate (2 * p.length) ' ' ++ s)) := by
  obtain ⟨root, h1, -⟩ := Prop.C62_tree y hy
  have ho : (yamlMain load (prog :: f :: rest)).out = (Prop.readFile Prop.newTree (.doc y)).1.dump [] := by
    rw [yamlMain_words load prog _ ht hs]
    dsimp only
    rw [hl, h1]
  rw [ho]
  exact ⟨fun p k s h => Prop.C63_key_lines y hy p k s h, fun p es s h hc => Prop.C63_item_lines y hy p es s h hc⟩

/-- In all other cases: without a file name, or with something that looks like a switch anywhere on the line, the status is
-1; otherwise an exception ends the program.  Nothing is written to `std::cout` then. -/
theorem C109_otherwise (load : Str → Prop.Load) (prog : Str) (ts : List Str) (ht : ts.length < 2147483648)
    (h : (yamlMain load (prog :: ts)).fin ≠ .exit 0) :
    (yamlMain load (prog :: ts)).out = [] ∧
    ((yamlMain load (prog :: ts)).fin = .exit (-1) ↔ ts = [] ∨ ∃ t ∈ ts, SwitchLike t) ∧
    ((yamlMain load (prog :: ts)).fin ≠ .exit (-1) → (yamlMain load (prog :: ts)).fin = .terminate) := by
  by_cases hs : ∃ t ∈ ts, SwitchLike t
  · obtain ⟨ds, hd⟩ := yamlMain_switch load prog ts hs
    rw [hd]
    exact ⟨rfl, ⟨fun _ => .inr hs, fun _ => rfl⟩, fun hn => absurd rfl hn⟩
  · have hs' : ∀ t ∈ ts, ¬ SwitchLike t := fun t ht hsl => hs ⟨t, ht, hsl⟩
    rw [yamlMain_words load prog ts ht hs'] at h ⊢
    cases ts with
    | nil => exact ⟨rfl, ⟨fun _ => .inl rfl, fun _ => rfl⟩, fun hn => absurd rfl hn⟩
    | cons f rest =>
      dsimp only at h ⊢
      rcases hq : Prop.readFile Prop.newTree (load f) with ⟨r, _ | _ | _ | _⟩
      · rw [hq] at h; exact absurd rfl h
      all_goals
        refine ⟨rfl, ⟨fun hn => (by cases hn), ?_⟩, fun _ => rfl⟩
        rintro (hn | hn)
        · cases hn
        · exact absurd hn hs

/-- test/test1.yaml; the key `NUMBERS` is not shown (C55). -/
example : (yamlMain (fun f => if f = "test1.yaml".toList then .doc (.map Prop.test1) else .badFile f)
    (["t", "test1.yaml"].map (·.toList))).fin = .exit 0 := by decide +kernel

/-- A switch after the file name. -/
example : (yamlMain (fun _ => .doc .null) (["t", "test1.yaml", "-v"].map (·.toList))).fin = .exit (-1) := by
  obtain ⟨ds, h⟩ := yamlMain_switch (fun _ => .doc .null) "t".toList ["test1.yaml".toList, "-v".toList]
    ⟨"-v".toList, by simp, .inl ⟨'v', [], rfl, by decide⟩⟩
  exact congrArg Outcome.fin h

/-- A sequence at the top: the exception of yaml-cpp ends the program. -/
example : (yamlMain (fun _ => .doc (.seq [.null])) (["t", "f"].map (·.toList))).fin = .terminate := by decide +kernel

end SoDa.Examples
