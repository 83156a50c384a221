import Verif.Proof.OptionsText
import Verif.Props.Format
/-!
Property theorems about `SoDa::Options` (C25–C39).

`Reachable o`: the object after any sequence of public calls.  `Ready o`: the same, where no
earlier line ended within an option of a signed type (`C32_refuted` shows what happens otherwise).
-/
namespace SoDa.Opts
open Spec

variable {V : Type}

/-! ### A sample object for the examples -/

/-- An object with an `int` option `--num -n` (default 7) at address 0, a string option `--out -o`
(default "-") at address 1, a presence option `--verbose -v` at address 2, a vector of integers
`--list -l` at address 0, and a mandatory-value string option `--name -m` at address 3. -/
def sample : Options Val :=
  ((((Options.new false (fun _ => .int 0) (fun _ => [])).addDef intTy 0 "num".toList 'n' (.int 7)).addDef
    strTy 1 "out".toList 'o' (.str "-".toList)).addP (.bool false) (.bool true) 2 "verbose".toList 'v').addV
    intTy 0 "list".toList 'l' |>.add strTy 3 "name".toList 'm'

theorem sample_ready : Ready sample :=
  .add _ _ _ _ _ _ _ (.addV _ _ _ _ _ _ _ (.addP _ _ _ _ _ _ (.addDef _ _ _ _ _ _ _ _
    (.addDef _ _ _ _ _ _ _ _ (.new _ _ _)))))

/-! ## C25  a well-formed command line does what it says -/

/-- What a complete line leaves behind. -/
theorem C25_complete_line (o : Options V) (ho : Ready o) (ts : List Str) (its : List (LineItem V))
    (h : Reads o.decls ts its .done) :
    ∃ o', o.parse ts = (o', true) ∧
      (∀ a, o'.sc a = (scalarValues a its).getLast?.getD (o.sc a)) ∧
      (∀ a, o'.vec a = o.vec a ++ vectorValues a its) ∧
      o'.getPosArgs = o.getPosArgs ++ words' its ∧ o'.cerr = o.cerr := by
  refine ⟨_, parse_reads ho.wf ho.waiting h, ?_, ?_, ?_, ?_⟩
  · intro a; exact items_sc h a o
  · intro a; exact items_vec its a o
  · exact items_pos its o
  · exact (items_keep its o).2.2.2.2.2.2

/-- Every list of well-formed items, in any order, written one after the other. -/
theorem C25_well_formed (o : Options V) (ho : Ready o) (its : List (LineItem V))
    (h : ∀ it ∈ its, it.WellFormed o.decls) :
    ∃ o', o.parse (its.flatMap LineItem.tokens) = (o', true) ∧
      (∀ a, o'.sc a = (scalarValues a its).getLast?.getD (o.sc a)) ∧
      (∀ a, o'.vec a = o.vec a ++ vectorValues a its) ∧
      o'.getPosArgs = o.getPosArgs ++ words' its ∧ o'.cerr = o.cerr :=
  C25_complete_line o ho _ its (reads_wellFormed its h)

/-- Conversely: `parse` returns true only for lines that are complete, or complete except for the
value of the very last switch. -/
theorem C25_true_only (o : Options V) (ho : Ready o) (ts : List Str) (h : (o.parse ts).2 = true) :
    ∃ its, Reads o.decls ts its .done ∨ ∃ sw i d, Reads o.decls ts its (.dangling sw i d) := by
  obtain ⟨its, e, hr⟩ := reads_total o.decls _ ts (Nat.le_refl _)
  refine ⟨its, ?_⟩
  rw [parse_reads ho.wf ho.waiting hr] at h
  cases e with
  | done => exact .inl hr
  | dangling sw i d => exact .inr ⟨sw, i, d, hr⟩
  | unknown => simp [finish] at h
  | help => simp [finish] at h
  | rejected => simp [finish] at h

/-- Every line reads in exactly one way, so the statements of this file cover all lines. -/
theorem C25_reading_unique (regs : List (Decl V)) (ts : List Str) :
    ∃ its e, Reads regs ts its e ∧ ∀ its' e', Reads regs ts its' e' → its' = its ∧ e' = e := by
  obtain ⟨its, e, hr⟩ := reads_total regs _ ts (Nat.le_refl _)
  exact ⟨its, e, hr, fun _ _ h => reads_unique hr h⟩

/-- The items of the line `a -v --list 3 -n -5 --list 4`, for the sample object. -/
def sampleItems : List (LineItem Val) :=
  [.word "a".toList, .flag "-v".toList 2 sample.decls[2],
   .value "--list".toList 3 sample.decls[3] "3".toList (.int 3),
   .value "-n".toList 0 sample.decls[0] "-5".toList (.int (-5)),
   .value "--list".toList 3 sample.decls[3] "4".toList (.int 4)]

theorem not_switchLike {t : Str} (h : t.head? ≠ some '-') : ¬ SwitchLike t := by
  rintro (⟨c, r, rfl, _⟩ | ⟨n, rfl, _⟩) <;> simp at h

theorem not_help {t : Str} (h1 : t ≠ "--help".toList) (h2 : t[1]? ≠ some 'h') : ¬ HelpSwitch t := by
  rintro (h | ⟨r, rfl⟩)
  · exact h1 h
  · simp at h2

theorem sampleItems_wf : ∀ it ∈ sampleItems, it.WellFormed sample.decls := by
  have l3 : Denotes sample.decls "--list".toList 3 sample.decls[3] :=
    .long (n := "list".toList) (by simp) (isLast_of_findLong sample_ready.wf (by decide) rfl)
  intro it hit
  simp only [sampleItems, List.mem_cons, List.not_mem_nil, or_false] at hit
  rcases hit with rfl | rfl | rfl | rfl | rfl
  · exact not_switchLike (by decide)
  · exact ⟨.short (c := 'v') (r := []) (by decide) (isLast_of_findAb sample_ready.wf (by decide) rfl),
      not_help (by decide) (by decide), rfl⟩
  · exact ⟨l3, not_help (by decide) (by decide), by decide, .inr (not_switchLike (by decide)), rfl, rfl⟩
  · exact ⟨.short (c := 'n') (r := []) (by decide) (isLast_of_findAb sample_ready.wf (by decide) rfl),
      not_help (by decide) (by decide), by decide, .inl (.inl rfl), rfl, rfl⟩
  · exact ⟨l3, not_help (by decide) (by decide), by decide, .inr (not_switchLike (by decide)), rfl, rfl⟩

example : ∃ o', sample.parse (["a", "-v", "--list", "3", "-n", "-5", "--list", "4"].map (·.toList)) =
    (o', true) ∧ o'.sc 0 = .int (-5) ∧ o'.sc 2 = .bool true ∧ o'.sc 1 = .str "-".toList ∧
    o'.vec 0 = [.int 3, .int 4] ∧ o'.getPosArgs = ["a".toList] := by
  obtain ⟨o', h1, h2, h3, h4, _⟩ := C25_well_formed sample sample_ready sampleItems sampleItems_wf
  exact ⟨o', h1, h2 0, h2 2, h2 1, h3 0, h4⟩

/-! ## C26  isPresent -/

theorem C26_isPresent (o : Options V) (ho : Ready o) (ts : List Str) (its : List (LineItem V))
    (h : Reads o.decls ts its .done) (i : Nat) (d : Decl V) :
    (∀ n, IsLast o.decls (fun d => d.long = n) i d →
      ((o.parse ts).1.isPresent n = true ↔ o.isPresent n = true ∨ Appears i its)) ∧
    (∀ c, IsLast o.decls (fun d => d.ab = c) i d →
      ((o.parse ts).1.isPresentAb c = true ↔ o.isPresentAb c = true ∨ Appears i its)) := by
  have hp := items_pres i its o
  have hwf := ho.wf
  have hwf' := hwf.parse ts
  have hd := (parse_keep hwf ts).1
  rw [parse_reads hwf ho.waiting h] at *
  constructor
  · intro n hn
    have h1 := (hwf.long n i).2 ⟨d, hn⟩
    have h2 := (hwf'.long n i).2 ⟨d, by rw [hd]; exact hn⟩
    simp only [Options.isPresent, h1, h2]
    exact hp
  · intro c hc
    have h1 := (hwf.ab c i).2 ⟨d, hc⟩
    have h2 := (hwf'.ab c i).2 ⟨d, by rw [hd]; exact hc⟩
    simp only [Options.isPresentAb, h1, h2]
    exact hp

/-- Under a name that no option has, `isPresent` is false. -/
theorem C26_isPresent_unregistered (o : Options V) (ho : Reachable o) :
    (∀ n, (∀ d ∈ o.decls, d.long ≠ n) → o.isPresent n = false) ∧
    (∀ c, (∀ d ∈ o.decls, d.ab ≠ c) → o.isPresentAb c = false) := by
  constructor
  · intro n h
    have := findLong_none ho.wf (n := n) fun i d hd => h d (List.mem_of_getElem? hd.1) hd.2.1
    simp [Options.isPresent, this]
  · intro c h
    have := findAb_none ho.wf (c := c) fun i d hd => h d (List.mem_of_getElem? hd.1) hd.2.1
    simp [Options.isPresentAb, this]

/-- A new registration is not present until it appears on a line. -/
theorem C26_registered_absent (o : Options V) (d : Decl V) :
    (o.registerOpt d).isPresent d.long = false ∧ (o.registerOpt d).isPresentAb d.ab = false := by
  have h1 : (o.registerOpt d).findLong d.long = some o.decls.length := by
    simp [Options.registerOpt, Options.findLong, mapFind_mapSet strLess_order]
  have h2 : (o.registerOpt d).findAb d.ab = some o.decls.length := by
    simp [Options.registerOpt, Options.findAb, mapFind_mapSet charLess_order]
  constructor
  · simp only [Options.isPresent, h1]; simp [Options.registerOpt, update]
  · simp only [Options.isPresentAb, h2]; simp [Options.registerOpt, update]

example : (sample.parse (["a", "-v", "--list", "3", "-n", "-5", "--list", "4"].map (·.toList))).1.isPresent
    "verbose".toList = true ∧
    (sample.parse (["a", "-v", "--list", "3", "-n", "-5", "--list", "4"].map (·.toList))).1.isPresentAb
    'o' = false := by
  decide

/-! ## C27  options that are not mentioned -/

/-- Option number `i` keeps its presence flag if no token names it. -/
theorem C27_presence_kept (o : Options V) (ho : Reachable o) (ts : List Str) (i : Nat)
    (h : ∀ t ∈ ts, ∀ d, ¬ Denotes o.decls t i d) : (o.parse ts).1.pres i = o.pres i := by
  cases hw : o.waiting with
  | true => rw [parse_waiting hw]
  | false =>
    obtain ⟨its, e, hr⟩ := reads_total o.decls _ ts (Nat.le_refl _)
    rw [parse_reads ho.wf hw hr]
    have hn : ¬ Appears i its := by
      rintro ⟨it, hit, (⟨sw, d, rfl⟩ | ⟨sw, d, txt, v, rfl⟩ | ⟨sw, d, rfl⟩)⟩
      · have := (denotes_of_item hr).1 _ hit sw i d (.inl rfl); exact h sw this.1 d this.2
      · have := (denotes_of_item hr).1 _ hit sw i d (.inr (.inl ⟨_, _, rfl⟩)); exact h sw this.1 d this.2
      · have := (denotes_of_item hr).1 _ hit sw i d (.inr (.inr rfl)); exact h sw this.1 d this.2
    have hp := items_pres i its o
    simp only [hn, or_false] at hp
    have : (finish (its.foldl applyItem o) e).1.pres = (its.foldl applyItem o).pres := by
      cases e <;> rfl
    rw [this]
    exact Bool.eq_iff_iff.mpr hp

/-- A target keeps its value if no token names an option with this target. -/
theorem C27_targets_kept (o : Options V) (ho : Reachable o) (ts : List Str) (a : Nat) :
    ((∀ t ∈ ts, ∀ i d, Denotes o.decls t i d → d.kind = .vector ∨ d.target ≠ a) →
      (o.parse ts).1.sc a = o.sc a) ∧
    ((∀ t ∈ ts, ∀ i d, Denotes o.decls t i d → d.kind ≠ .vector ∨ d.target ≠ a) →
      (o.parse ts).1.vec a = o.vec a) := by
  cases hw : o.waiting with
  | true => rw [parse_waiting hw]; simp
  | false =>
    obtain ⟨its, e, hr⟩ := reads_total o.decls _ ts (Nat.le_refl _)
    rw [parse_reads ho.wf hw hr]
    have hden := denotes_of_item hr
    constructor
    · intro h
      have h1 : scalarValues a its = [] := by
        have hk := hden.1
        have hfl : ∀ it ∈ its, ∀ sw i d, it = .flag sw i d → d.kind = .presence := by
          clear hk hden
          induction hr with
          | done => simp
          | word _ _ ih =>
            intro it hit
            rcases List.mem_cons.mp hit with rfl | hit
            · simp
            · exact ih (fun t ht => h t (List.mem_cons_of_mem _ ht)) it hit
          | flag _ _ hk _ ih =>
            intro it hit
            rcases List.mem_cons.mp hit with rfl | hit
            · intro sw i d hh; simp at hh; rw [← hh.2.2]; exact hk
            · exact ih (fun t ht => h t (List.mem_cons_of_mem _ ht)) it hit
          | value _ _ _ _ _ _ ih =>
            intro it hit
            rcases List.mem_cons.mp hit with rfl | hit
            · simp
            · exact ih (fun t ht => h t (List.mem_cons_of_mem _ (List.mem_cons_of_mem _ ht))) it hit
          | bare _ _ _ _ _ _ ih =>
            intro it hit
            rcases List.mem_cons.mp hit with rfl | hit
            · simp
            · exact ih (fun t ht => h t (List.mem_cons_of_mem _ ht)) it hit
          | dangling => simp
          | unknown => simp
          | help => simp
          | rejected => simp
        clear hden hr
        induction its with
        | nil => rfl
        | cons it its ih =>
          have ih' := ih (fun x hx => hk x (by simp [hx])) (fun x hx => hfl x (by simp [hx]))
          cases it with
          | word w => exact ih'
          | bare => exact ih'
          | flag sw i d =>
            have hd := hk _ (by simp) sw i d (.inl rfl)
            have hp := hfl _ (by simp) sw i d rfl
            rcases h sw hd.1 i d hd.2 with h' | h'
            · rw [hp] at h'; simp at h'
            · simp [scalarValues, h', ih']
          | value sw i d txt v =>
            have hd := hk _ (by simp) sw i d (.inr (.inl ⟨txt, v, rfl⟩))
            rcases h sw hd.1 i d hd.2 with h' | h'
            · simp [scalarValues, h', ih']
            · simp [scalarValues, h', ih']
      have h2 : (its.foldl applyItem o).sc a = o.sc a := by rw [items_sc hr a o, h1]; rfl
      cases e with
      | done => exact h2
      | dangling => exact h2
      | unknown => exact h2
      | help => exact h2
      | rejected sw i d txt =>
        have hd := hden.2.2 sw i d txt rfl
        simp only [finish, rejectVal]
        by_cases hk : d.kind = .scalar
        · rcases h sw hd.1 i d hd.2 with h' | h'
          · rw [hk] at h'; simp at h'
          · simp [hk, update, Ne.symm h', h2]
        · simp [hk, h2]
    · intro h
      have h1 : vectorValues a its = [] := by
        have hk := hden.1
        clear hden hr
        induction its with
        | nil => rfl
        | cons it its ih =>
          have ih' := ih (fun x hx => hk x (by simp [hx]))
          cases it with
          | word w => exact ih'
          | bare => exact ih'
          | flag => exact ih'
          | value sw i d txt v =>
            have hd := hk _ (by simp) sw i d (.inr (.inl ⟨txt, v, rfl⟩))
            rcases h sw hd.1 i d hd.2 with h' | h'
            · simp [vectorValues, h', ih']
            · simp [vectorValues, h', ih']
      have h2 : (its.foldl applyItem o).vec a = o.vec a := by rw [items_vec its a o, h1]; simp
      cases e <;> exact h2

example : (sample.parse (["-n", "x", "--out", "y"].map (·.toList))).1.sc 1 = .str "-".toList ∧
    (sample.parse (["-n", "x", "--out", "y"].map (·.toList))).2 = false ∧
    (sample.parse (["-v", "-n", "3"].map (·.toList))).1.sc 1 = .str "-".toList := by decide

/-! ## C28–C30  lines that fail -/

/-- The parser is at a place where it looks for switches: everything before is complete, or lacks
only a value that may be left out.  `pend` is that option. -/
def AtSwitch (regs : List (Decl V)) (pre : List Str) (pend : Option Nat) : Prop :=
  (∃ its, Reads regs pre its .done ∧ pend = none) ∨
  (∃ its sw i d, Reads regs pre its (.dangling sw i d) ∧ ¬ Greedy d ∧ pend = some i)

/-- `o1` is the state after the first part of the line; `o2` has the same targets and positionals,
and the same presence flags except that the option waiting for an optional value now counts as
present. -/
def SameBut (o1 o2 : Options V) (pend : Option Nat) : Prop :=
  o2.sc = o1.sc ∧ o2.vec = o1.vec ∧ o2.pos = o1.pos ∧
  ∀ i, o2.pres i = if pend = some i then true else o1.pres i

theorem atSwitch_parse {o : Options V} (ho : Ready o) {pre : List Str} {pend : Option Nat}
    (h : AtSwitch o.decls pre pend) {t : Str} {ts : List Str} {e : Ending V} (hs : SwitchLike t)
    (hr : Reads o.decls (t :: ts) [] e) :
    ∃ o1 o2, o.parse pre = (o1, true) ∧ SameBut o1 o2 pend ∧ o2.cerr = o.cerr ∧
      o.parse (pre ++ t :: ts) = finish o2 e := by
  rcases h with ⟨its, h, rfl⟩ | ⟨its, sw, i, d, h, hg, rfl⟩
  · refine ⟨_, its.foldl applyItem o, parse_reads ho.wf ho.waiting h, ⟨rfl, rfl, rfl, by simp⟩,
      (items_keep its o).2.2.2.2.2.2, ?_⟩
    have := (reads_append h hs hr).1 rfl
    rw [List.append_nil] at this
    exact parse_reads ho.wf ho.waiting this
  · refine ⟨_, (its ++ [LineItem.bare sw i d]).foldl applyItem o, parse_reads ho.wf ho.waiting h, ?_,
      (items_keep _ o).2.2.2.2.2.2, ?_⟩
    · have hk : d.kind ≠ .presence := by
        generalize he : Ending.dangling sw i d = e' at h
        clear hg
        induction h with
        | done => simp at he
        | word _ _ ih => exact ih he
        | flag _ _ _ _ ih => exact ih he
        | value _ _ _ _ _ _ ih => exact ih he
        | bare _ _ _ _ _ _ ih => exact ih he
        | dangling _ _ hk => simp at he; rw [he.2.2]; exact hk
        | unknown => simp at he
        | help => simp at he
        | rejected => simp at he
      rw [List.foldl_append]
      simp only [List.foldl_cons, List.foldl_nil, applyItem, Options.setPresent, hk, if_false,
        SameBut, Option.some.injEq, update, true_and, eq_comm (a := i)]
      intro j; trivial
    · have := (reads_append h hs hr).2 sw i d rfl hg
      exact parse_reads ho.wf ho.waiting this

/-- An unknown switch: `parse` returns false; what precedes it has been processed, nothing after. -/
theorem C28_unknown_switch (o : Options V) (ho : Ready o) (pre suf : List Str) (pend : Option Nat)
    (hpre : AtSwitch o.decls pre pend) (sw : Str) (hs : SwitchLike sw) (hh : ¬ HelpSwitch sw)
    (hno : ∀ i d, ¬ Denotes o.decls sw i d) :
    ∃ o1 o2, o.parse pre = (o1, true) ∧ o.parse (pre ++ sw :: suf) = (o2, false) ∧
      SameBut o1 o2 pend ∧ o2.cerr = o.cerr ++ [.badName sw, .help] := by
  obtain ⟨o1, o2, h1, h2, h3, h4⟩ := atSwitch_parse ho hpre hs (.unknown (ts := suf) hs hh hno)
  exact ⟨o1, _, h1, h4, h2, by simp [h3]⟩

/-- A rejected value: `parse` returns false; vectors, positionals and presence flags are as they
were before the switch, and so are all scalars except the target of the option. -/
theorem C29_rejected_value (o : Options V) (ho : Ready o) (pre suf : List Str) (pend : Option Nat)
    (hpre : AtSwitch o.decls pre pend) (sw txt : Str) (i : Nat) (d : Decl V)
    (hd : Denotes o.decls sw i d) (hh : ¬ HelpSwitch sw) (hk : d.kind ≠ .presence)
    (hg : Greedy d ∨ ¬ SwitchLike txt) (hrej : ∀ v, ¬ Accepts d txt v) :
    ∃ o1 o2, o.parse pre = (o1, true) ∧ o.parse (pre ++ sw :: txt :: suf) = (o2, false) ∧
      o2.vec = o1.vec ∧ o2.pos = o1.pos ∧
      (∀ j, o2.pres j = if pend = some j then true else o1.pres j) ∧
      (∀ a, (d.kind = .vector ∨ a ≠ d.target) → o2.sc a = o1.sc a) ∧
      o2.cerr = o.cerr ++ [.badValue d.long txt d.err] := by
  obtain ⟨o1, o2, h1, ⟨s1, s2, s3, s4⟩, h3, h4⟩ :=
    atSwitch_parse ho hpre (Denotes.switchLike hd) (.rejected (ts := suf) hd hh hk hg hrej)
  refine ⟨o1, _, h1, h4, s2, s3, s4, ?_, by simp [h3]⟩
  intro a ha
  simp only [rejectVal, s1]
  by_cases hsc : d.kind = .scalar
  · rcases ha with ha | ha
    · rw [hsc] at ha; simp at ha
    · simp [hsc, update, ha]
  · simp [hsc]

/-- Help: printed, nothing after is processed; whether an option named `h` or `help` exists does
not matter. -/
theorem C30_help (o : Options V) (ho : Ready o) (pre suf : List Str) (pend : Option Nat)
    (hpre : AtSwitch o.decls pre pend) (sw : Str) (hh : HelpSwitch sw) :
    ∃ o1 o2, o.parse pre = (o1, true) ∧ o.parse (pre ++ sw :: suf) = (o2, false) ∧
      SameBut o1 o2 pend ∧ o2.cerr = o.cerr ++ [.help] := by
  obtain ⟨o1, o2, h1, h2, h3, h4⟩ :=
    atSwitch_parse ho hpre (HelpSwitch.switchLike hh) (.help (ts := suf) hh)
  exact ⟨o1, _, h1, h4, h2, by simp [h3]⟩

/-- A place reached by the sample line above, and one with a pending `--out`. -/
theorem sample_atSwitch : AtSwitch sample.decls (sampleItems.flatMap LineItem.tokens) none :=
  .inl ⟨_, reads_wellFormed _ sampleItems_wf, rfl⟩

theorem sample_pending : AtSwitch sample.decls ["w".toList, "--out".toList] (some 1) := by
  have hd : Denotes sample.decls "--out".toList 1 sample.decls[1] :=
    .long (n := "out".toList) (by simp) (isLast_of_findLong sample_ready.wf (by decide) rfl)
  refine .inr ⟨[.word "w".toList], "--out".toList, 1, sample.decls[1],
    .word (not_switchLike (by decide)) (.dangling hd (not_help (by decide) (by decide)) (by decide)), ?_, rfl⟩
  rintro (h | h) <;> revert h <;> decide

example : ∃ o1 o2, sample.parse ["w".toList, "--out".toList] = (o1, true) ∧
    sample.parse (["w", "--out", "--zzz", "more"].map (·.toList)) = (o2, false) ∧
    SameBut o1 o2 (some 1) ∧ o2.cerr = [.badName "--zzz".toList, .help] := by
  refine C28_unknown_switch sample sample_ready _ ["more".toList] _ sample_pending "--zzz".toList
    (.inr ⟨_, rfl, by simp⟩) (not_help (by decide) (by decide)) ?_
  intro i d h
  generalize ht : "--zzz".toList = t at h
  cases h with
  | @long n i d hn hl =>
    obtain rfl : n = "zzz".toList := by simp at ht; simp [← ht]
    have := (sample_ready.wf.long _ _).2 ⟨d, hl⟩
    rw [show sample.findLong "zzz".toList = none by decide] at this
    simp at this
  | @short c r i d hc hl => simp at ht; exact hc ht.1.symm

example : ∃ o1 o2, sample.parse ["w".toList, "--out".toList] = (o1, true) ∧
    sample.parse (["w", "--out", "-hello", "more"].map (·.toList)) = (o2, false) ∧
    SameBut o1 o2 (some 1) ∧ o2.cerr = [.help] :=
  C30_help sample sample_ready _ ["more".toList] _ sample_pending "-hello".toList (.inr ⟨_, rfl⟩)

example : (sample.parse (["--list", "1", "--list", "x", "tail"].map (·.toList))).2 = false ∧
    (sample.parse (["--list", "1", "--list", "x", "tail"].map (·.toList))).1.vec 0 = [.int 1] ∧
    (sample.parse (["--list", "1", "--list", "x", "tail"].map (·.toList))).1.pos = [] := by decide

/-! ## C31  a switch without a value at the end of the line -/

/-- The documented behaviour: the option counts as present and keeps its default. -/
def C31_claim (o : Options V) : Prop :=
  ∀ pre its sw i d, Reads o.decls pre its .done → Denotes o.decls sw i d → ¬ HelpSwitch sw →
    d.kind ≠ .presence → d.hasDefault = true →
    ∃ o1 o2, o.parse pre = (o1, true) ∧ o.parse (pre ++ [sw]) = (o2, true) ∧
      o2.sc = o1.sc ∧ o2.vec = o1.vec ∧ o2.pos = o1.pos ∧ o2.pres i = true

/-- What holds: `parse` returns true and all targets and positionals keep their values.  Missing:
the option is not marked present. -/
theorem C31_dangling_partial (o : Options V) (ho : Ready o) (pre : List Str) (its : List (LineItem V))
    (sw : Str) (i : Nat) (d : Decl V) (hr : Reads o.decls pre its .done)
    (hd : Denotes o.decls sw i d) (hh : ¬ HelpSwitch sw) (hk : d.kind ≠ .presence) :
    ∃ o1 o2, o.parse pre = (o1, true) ∧ o.parse (pre ++ [sw]) = (o2, true) ∧
      o2.sc = o1.sc ∧ o2.vec = o1.vec ∧ o2.pos = o1.pos ∧ o2.pres = o1.pres ∧ o2.cerr = o1.cerr := by
  have h2 := reads_append_done hr rfl (.dangling hd hh hk)
  rw [List.append_nil] at h2
  exact ⟨_, _, parse_reads ho.wf ho.waiting hr, parse_reads ho.wf ho.waiting h2, rfl, rfl, rfl, rfl, rfl⟩

/-- `--out` at the end of the line: `isPresent("out")` is false. -/
theorem C31_refuted : ¬ C31_claim sample ∧
    (sample.parse ["--out".toList]).2 = true ∧
    (sample.parse ["--out".toList]).1.isPresent "out".toList = false := by
  refine ⟨?_, by decide, by decide⟩
  intro h
  have hd : Denotes sample.decls "--out".toList 1 sample.decls[1] :=
    .long (n := "out".toList) (by simp) (isLast_of_findLong sample_ready.wf (by decide) rfl)
  obtain ⟨o1, o2, _, h2, _, _, _, h3⟩ :=
    h [] [] _ _ _ .done hd (not_help (by decide) (by decide)) (by decide) (by decide)
  rw [List.nil_append] at h2
  have : (sample.parse ["--out".toList]).1.pres 1 = false := by decide
  rw [h2] at this
  rw [this] at h3; simp at h3

/-- With a further switch behind it, the same option does count as present. -/
example : (sample.parse ["--out".toList, "-v".toList]).1.isPresent "out".toList = true := by decide

/-! ## C32  parsing again -/

/-- Two objects with the same registrations treat a token list in the same way: the same result,
the same words appended, the same elements appended to vectors, the same effect on scalars and on
presence flags. -/
def SameReading (o1 o2 : Options V) (ts : List Str) : Prop :=
  (o1.parse ts).2 = (o2.parse ts).2 ∧
  (∃ ws, (o1.parse ts).1.pos = o1.pos ++ ws ∧ (o2.parse ts).1.pos = o2.pos ++ ws) ∧
  (∀ a, ∃ vs, (o1.parse ts).1.vec a = o1.vec a ++ vs ∧ (o2.parse ts).1.vec a = o2.vec a ++ vs) ∧
  (∀ a, ∃ f : V → V, (o1.parse ts).1.sc a = f (o1.sc a) ∧ (o2.parse ts).1.sc a = f (o2.sc a)) ∧
  (∀ i, ∃ b, (o1.parse ts).1.pres i = (o1.pres i || b) ∧ (o2.parse ts).1.pres i = (o2.pres i || b))

/-- The full claim: whatever was parsed before. -/
def C32_claim (o : Options V) : Prop := ∀ before ts, SameReading (o.parse before).1 o ts

theorem sameReading_ready {o1 o2 : Options V} (h1 : Ready o1) (h2 : Ready o2)
    (hd : o1.decls = o2.decls) (ts : List Str) : SameReading o1 o2 ts := by
  obtain ⟨its, e, hr⟩ := reads_total o1.decls _ ts (Nat.le_refl _)
  have e1 := parse_reads h1.wf h1.waiting hr
  have e2 := parse_reads h2.wf h2.waiting (hd ▸ hr)
  unfold SameReading
  rw [e1, e2]
  refine ⟨by cases e <;> rfl, ⟨words' its, ?_, ?_⟩, fun a => ⟨vectorValues a its, ?_, ?_⟩, ?_, ?_⟩
  · rw [← items_pos its o1]; cases e <;> rfl
  · rw [← items_pos its o2]; cases e <;> rfl
  · rw [← items_vec its a o1]; cases e <;> rfl
  · rw [← items_vec its a o2]; cases e <;> rfl
  · intro a
    have s1 := items_sc hr a o1
    have s2 := items_sc hr a o2
    cases e with
    | done => exact ⟨fun x => (scalarValues a its).getLast?.getD x, s1, s2⟩
    | dangling => exact ⟨fun x => (scalarValues a its).getLast?.getD x, s1, s2⟩
    | unknown => exact ⟨fun x => (scalarValues a its).getLast?.getD x, s1, s2⟩
    | help => exact ⟨fun x => (scalarValues a its).getLast?.getD x, s1, s2⟩
    | rejected sw i d txt =>
      by_cases hc : d.kind = .scalar ∧ a = d.target
      · obtain ⟨hk, rfl⟩ := hc
        refine ⟨fun x => match d.read txt with
          | some v => v
          | none => d.readFail txt ((scalarValues d.target its).getLast?.getD x), ?_, ?_⟩
        · simp only [finish, rejectVal, hk, if_true, update, s1]; cases d.read txt <;> rfl
        · simp only [finish, rejectVal, hk, if_true, update, s2]; cases d.read txt <;> rfl
      · refine ⟨fun x => (scalarValues a its).getLast?.getD x, ?_, ?_⟩
        · show _ = (scalarValues a its).getLast?.getD (o1.sc a)
          rw [← s1]; simp only [finish, rejectVal]
          by_cases hk : d.kind = .scalar
          · simp only [hk, if_true, update]; rw [if_neg fun h => hc ⟨hk, h⟩]
          · simp [hk]
        · show _ = (scalarValues a its).getLast?.getD (o2.sc a)
          rw [← s2]; simp only [finish, rejectVal]
          by_cases hk : d.kind = .scalar
          · simp only [hk, if_true, update]; rw [if_neg fun h => hc ⟨hk, h⟩]
          · simp [hk]
  · intro i
    classical
    refine ⟨decide (Appears i its), ?_, ?_⟩
    · have : (finish (its.foldl applyItem o1) e).1.pres = (its.foldl applyItem o1).pres := by
        cases e <;> rfl
      rw [this, Bool.eq_iff_iff, items_pres]; simp
    · have : (finish (its.foldl applyItem o2) e).1.pres = (its.foldl applyItem o2).pres := by
        cases e <;> rfl
      rw [this, Bool.eq_iff_iff, items_pres]; simp

/-- What holds: if the earlier line did not end within an option of a signed type, the next line
is read as if it were the first.  Missing: the other case, which is `C32_refuted`. -/
theorem C32_reparse_partial (o : Options V) (ho : Ready o) (before : List Str)
    (its : List (LineItem V)) (e : Ending V) (hr : Reads o.decls before its e)
    (h1 : ∀ sw i d, e = .dangling sw i d → d.isSigned = false)
    (h2 : ∀ sw i d txt, e = .rejected sw i d txt → d.isSigned = false) (ts : List Str) :
    SameReading (o.parse before).1 o ts :=
  sameReading_ready (.parse ho hr h1 h2) ho (parse_keep ho.wf before).1 ts

/-- `-n` without its value, then the line `-n 3`: both tokens are taken as positionals and the
option keeps its default. -/
theorem C32_refuted : ¬ C32_claim sample ∧
    ((sample.parse ["-n".toList]).1.parse ["-n".toList, "3".toList]).1.pos =
      ["-n".toList, "3".toList] ∧
    ((sample.parse ["-n".toList]).1.parse ["-n".toList, "3".toList]).1.sc 0 = .int 7 ∧
    (sample.parse ["-n".toList, "3".toList]).1.pos = [] ∧
    (sample.parse ["-n".toList, "3".toList]).1.sc 0 = .int 3 := by
  have a1 : ((sample.parse ["-n".toList]).1.parse ["-n".toList, "3".toList]).1.pos =
      ["-n".toList, "3".toList] := by decide
  have a2 : (sample.parse ["-n".toList, "3".toList]).1.pos = [] := by decide
  refine ⟨?_, a1, by decide, a2, by decide⟩
  intro h
  obtain ⟨_, ⟨ws, h1, h2⟩, _⟩ := h ["-n".toList] ["-n".toList, "3".toList]
  rw [a1] at h1
  rw [a2] at h2
  have h3 : ws = [] := by
    have := (List.append_eq_nil_iff.mp h2.symm).2; exact this
  rw [h3] at h1
  have h4 : (sample.parse ["-n".toList]).1.pos = [] := by decide
  rw [h4] at h1; simp at h1

/-- In fact after such a line nothing is recognised any more: every token becomes positional. -/
theorem C32_refuted_forever (o : Options V) (ho : Ready o) (before : List Str)
    (its : List (LineItem V)) (sw : Str) (i : Nat) (d : Decl V)
    (hr : Reads o.decls before its (.dangling sw i d)) (hs : d.isSigned = true) (ts : List Str) :
    (o.parse before).1.parse ts =
      ({ (o.parse before).1 with pos := (o.parse before).1.pos ++ ts }, true) := by
  apply parse_waiting
  rw [parse_reads ho.wf ho.waiting hr]; exact hs

/-! ## C33  negative numbers -/

/-- The full claim for one option: negative numbers reach the target. -/
def C33_claim (o : Options Val) (sw : Str) (d : Decl Val) : Prop :=
  ∀ n : Int, -2147483648 ≤ n → n < 0 → ∃ o', o.parse [sw, showInt n] = (o', true) ∧
    (d.kind = .scalar → o'.sc d.target = .int n) ∧
    (d.kind = .vector → o'.vec d.target = o.vec d.target ++ [.int n])

theorem begins_showInt (n : Int) : BeginsWithInt (showInt n) n := by
  cases n with
  | ofNat k =>
    refine ⟨[], [], Nat.toDigits 10 k, [], k, by simp [showInt], by simp, .inl rfl,
      numeral_toDigits 10 (by omega) (by omega) k, by simp, by simp⟩
  | negSucc k =>
    refine ⟨[], ['-'], Nat.toDigits 10 (k + 1), [], k + 1, by simp [showInt], by simp, .inr (.inr rfl),
      numeral_toDigits 10 (by omega) (by omega) (k + 1), by simp, by simp [Int.negSucc_eq]⟩

/-- One option with one value. -/
theorem parse_pair (o : Options V) (ho : Ready o) {sw txt : Str} {i : Nat} {d : Decl V} {v : V}
    (hd : Denotes o.decls sw i d) (hh : ¬ HelpSwitch sw) (hk : d.kind ≠ .presence)
    (hg : Greedy d ∨ ¬ SwitchLike txt) (ha : Accepts d txt v) :
    ∃ o', o.parse [sw, txt] = (o', true) ∧ (d.kind = .scalar → o'.sc d.target = v) ∧
      (d.kind = .vector → o'.vec d.target = o.vec d.target ++ [v]) := by
  obtain ⟨o', h1, h2, h3, _⟩ := C25_complete_line o ho [sw, txt] _ (.value hd hh hk hg ha .done)
  refine ⟨o', h1, ?_, ?_⟩
  · intro hs; rw [h2]; simp [scalarValues, hs]
  · intro hs; rw [h3]; simp [vectorValues, hs]

/-- For scalars of any signed type: whatever the text looks like, also if it begins with a minus
sign, it is the value of the option.  Missing: vectors. -/
theorem C33_signed_scalar_partial (o : Options V) (ho : Ready o) (sw txt : Str) (i : Nat) (d : Decl V)
    (v : V) (hd : Denotes o.decls sw i d) (hh : ¬ HelpSwitch sw) (hk : d.kind = .scalar)
    (hs : d.isSigned = true) (ha : Accepts d txt v) :
    ∃ o', o.parse [sw, txt] = (o', true) ∧ o'.sc d.target = v := by
  obtain ⟨o', h1, h2, _⟩ := parse_pair o ho hd hh (by simp [hk]) (.inl (.inl hs)) ha
  exact ⟨o', h1, h2 hk⟩

/-- For `int` scalars without a test function the claim holds. -/
theorem C33_int_partial (o : Options Val) (ho : Ready o) (sw : Str) (i : Nat) (d : Decl Val)
    (hd : Denotes o.decls sw i d) (hh : ¬ HelpSwitch sw) (hk : d.kind = .scalar)
    (hr : d.read = intTy.read) (hs : d.isSigned = true) (ht : ∀ v, d.test v = true) :
    C33_claim o sw d := by
  intro n h1 h2
  have ha : Accepts d (showInt n) (.int n) :=
    ⟨by rw [hr]; exact (intTy_read_iff _ _).2 ⟨n, rfl, begins_showInt n, h1, by omega⟩, ht _⟩
  obtain ⟨o', e1, e2⟩ := C33_signed_scalar_partial o ho sw _ i d _ hd hh hk hs ha
  exact ⟨o', e1, fun _ => e2, fun hv => by rw [hk] at hv; simp at hv⟩

/-- For a vector of integers the claim fails for every negative number with a first digit that is
not a registered short name: the token is taken for a switch. -/
theorem C33_refuted : ¬ C33_claim sample "--list".toList sample.decls[3] ∧
    (sample.parse ["--list".toList, "-3".toList]).2 = false ∧
    (sample.parse ["--list".toList, "-3".toList]).1.vec 0 = [] := by
  refine ⟨?_, by decide, by decide⟩
  intro h
  obtain ⟨o', h1, _⟩ := h (-3) (by decide) (by decide)
  have : (sample.parse ["--list".toList, showInt (-3)]).2 = false := by decide
  rw [h1] at this; simp at this

theorem sample_n : Denotes sample.decls "-n".toList 0 sample.decls[0] :=
  .short (c := 'n') (r := []) (by decide) (isLast_of_findAb sample_ready.wf (by decide) rfl)

example : C33_claim sample "-n".toList sample.decls[0] :=
  C33_int_partial sample sample_ready _ 0 _ sample_n (not_help (by decide) (by decide)) rfl rfl rfl
    fun _ => rfl

/-! ## C34  integer values -/

/-- A rejected pair. -/
theorem parse_pair_rejected (o : Options V) (ho : Ready o) {sw txt : Str} {i : Nat} {d : Decl V}
    (hd : Denotes o.decls sw i d) (hh : ¬ HelpSwitch sw) (hk : d.kind ≠ .presence)
    (hg : Greedy d ∨ ¬ SwitchLike txt) (ha : ∀ v, ¬ Accepts d txt v) : (o.parse [sw, txt]).2 = false := by
  rw [parse_reads ho.wf ho.waiting (.rejected hd hh hk hg ha)]; rfl

/-- An `int` option accepts exactly the texts that begin (after white space) with an optional sign
and digits denoting a 32-bit integer, and stores that integer. -/
theorem C34_int_values (o : Options Val) (ho : Ready o) (sw txt : Str) (i : Nat) (d : Decl Val)
    (hd : Denotes o.decls sw i d) (hh : ¬ HelpSwitch sw) (hk : d.kind = .scalar)
    (hr : d.read = intTy.read) (hs : d.isSigned = true) (ht : ∀ v, d.test v = true) :
    (∀ n : Int, BeginsWithInt txt n → -2147483648 ≤ n → n ≤ 2147483647 →
      ∃ o', o.parse [sw, txt] = (o', true) ∧ o'.sc d.target = .int n) ∧
    ((¬ ∃ n : Int, BeginsWithInt txt n ∧ -2147483648 ≤ n ∧ n ≤ 2147483647) →
      (o.parse [sw, txt]).2 = false) := by
  constructor
  · intro n h1 h2 h3
    exact C33_signed_scalar_partial o ho sw txt i d _ hd hh hk hs
      ⟨by rw [hr]; exact (intTy_read_iff _ _).2 ⟨n, rfl, h1, h2, h3⟩, ht _⟩
  · intro h
    refine parse_pair_rejected o ho hd hh (by simp [hk]) (.inl (.inl hs)) ?_
    rintro v ⟨ha, _⟩
    rw [hr] at ha
    obtain ⟨n, _, hn⟩ := (intTy_read_iff _ _).1 ha
    exact h ⟨n, hn⟩

/-- Every 32-bit integer written in decimal is read back. -/
theorem C34_int_roundtrip (o : Options Val) (ho : Ready o) (sw : Str) (i : Nat) (d : Decl Val)
    (hd : Denotes o.decls sw i d) (hh : ¬ HelpSwitch sw) (hk : d.kind = .scalar)
    (hr : d.read = intTy.read) (hs : d.isSigned = true) (ht : ∀ v, d.test v = true)
    (n : Int) (h1 : -2147483648 ≤ n) (h2 : n ≤ 2147483647) :
    ∃ o', o.parse [sw, showInt n] = (o', true) ∧ o'.sc d.target = .int n :=
  (C34_int_values o ho sw _ i d hd hh hk hr hs ht).1 n (begins_showInt n) h1 h2

/-- The value a text begins with is unique, so the first part of `C34_int_values` is unambiguous. -/
theorem C34_begins_unique (s : Str) (m n : Int) (hm : BeginsWithInt s m) (hn : BeginsWithInt s n)
    (h1 : -2147483648 ≤ m) (h2 : m ≤ 2147483647) : m = n := by
  have a := (extractInt_good_iff s m).2 ⟨hm, h1, h2⟩
  have b := extractInt_begins hn
  rw [a] at b
  split at b
  · simp at b
  · split at b
    · simp at b
    · simpa using b

example : ∃ o', sample.parse ["-n".toList, "-2147483648".toList] = (o', true) ∧
    o'.sc 0 = .int (-2147483648) := by
  have := C34_int_roundtrip sample sample_ready "-n".toList 0 _ sample_n
    (not_help (by decide) (by decide)) rfl rfl rfl (fun _ => rfl) (-2147483648) (by decide) (by decide)
  exact this

example : (sample.parse ["-n".toList, "2147483648".toList]).2 = false ∧
    (sample.parse ["-n".toList, " +12abc".toList]).1.sc 0 = .int 12 := by decide

/-! ## C35  boolean values -/

theorem C35_bool_values (o : Options Val) (ho : Ready o) (sw txt : Str) (i : Nat) (d : Decl Val)
    (hd : Denotes o.decls sw i d) (hh : ¬ HelpSwitch sw) (hk : d.kind = .scalar)
    (hr : d.read = boolTy.read) (ht : ∀ v, d.test v = true) (hg : Greedy d ∨ ¬ SwitchLike txt) :
    ((txt.head? = some 'T' ∨ txt.head? = some 't') →
      ∃ o', o.parse [sw, txt] = (o', true) ∧ o'.sc d.target = .bool true) ∧
    ((txt.head? = some 'F' ∨ txt.head? = some 'f') →
      ∃ o', o.parse [sw, txt] = (o', true) ∧ o'.sc d.target = .bool false) ∧
    (∀ n : Int, BeginsWithInt txt n → -2147483648 ≤ n → n ≤ 2147483647 →
      ∃ o', o.parse [sw, txt] = (o', true) ∧ o'.sc d.target = .bool (decide (n ≠ 0))) ∧
    (¬ (txt.head? = some 'T' ∨ txt.head? = some 't' ∨ txt.head? = some 'F' ∨ txt.head? = some 'f' ∨
        ∃ n : Int, BeginsWithInt txt n ∧ -2147483648 ≤ n ∧ n ≤ 2147483647) →
      (o.parse [sw, txt]).2 = false) := by
  have acc : ∀ b, readBool txt = some b →
      ∃ o', o.parse [sw, txt] = (o', true) ∧ o'.sc d.target = .bool b := by
    intro b hb
    obtain ⟨o', h1, h2, _⟩ := parse_pair o ho (v := .bool b) hd hh (by simp [hk]) hg
      ⟨by rw [hr]; simp [boolTy, hb], ht _⟩
    exact ⟨o', h1, h2 hk⟩
  refine ⟨fun h => acc _ ((readBool_iff _ _).2 (.inl ⟨h, rfl⟩)),
    fun h => acc _ ((readBool_iff _ _).2 (.inr (.inl ⟨h, rfl⟩))),
    fun n h1 h2 h3 => acc _ ((readBool_iff _ _).2 (.inr (.inr ⟨n, h1, h2, h3, rfl⟩))), ?_⟩
  intro h
  refine parse_pair_rejected o ho hd hh (by simp [hk]) hg ?_
  rintro v ⟨ha, _⟩
  rw [hr] at ha
  simp only [boolTy, Option.map_eq_some_iff] at ha
  obtain ⟨b, hb, _⟩ := ha
  apply h
  rcases (readBool_iff _ _).1 hb with ⟨h' | h', _⟩ | ⟨h' | h', _⟩ | ⟨n, h1, h2, h3, _⟩
  · exact .inl h'
  · exact .inr (.inl h')
  · exact .inr (.inr (.inl h'))
  · exact .inr (.inr (.inr (.inl h')))
  · exact .inr (.inr (.inr (.inr ⟨n, h1, h2, h3⟩)))

/-- An object with one `bool` option `--b` without default. -/
def boolSample : Options Val :=
  (Options.new false (fun _ => .int 0) (fun _ => [])).add boolTy 0 "b".toList 'b'

example : ∃ o', boolSample.parse ["-b".toList, "trust".toList] = (o', true) ∧ o'.sc 0 = .bool true :=
  (C35_bool_values boolSample (.add _ _ _ _ _ _ _ (.new _ _ _)) "-b".toList "trust".toList 0
    boolSample.decls[0]
    (.short (c := 'b') (r := []) (by decide) (isLast_of_findAb
      (Ready.wf (.add _ _ _ _ _ _ _ (.new _ _ _))) (by decide) rfl))
    (not_help (by decide) (by decide)) rfl rfl (fun _ => rfl) (.inl (.inr rfl))).1 (.inr rfl)

example : (boolSample.parse ["-b".toList, "yes".toList]).2 = false ∧
    (boolSample.parse ["-b".toList, "".toList]).2 = false ∧
    (boolSample.parse ["-b".toList, "0x".toList]).1.sc 0 = .bool false ∧
    (boolSample.parse ["-b".toList, "-3".toList]).1.sc 0 = .bool true := by decide

/-! ## C36  getPosArg -/

/-- The documented behaviour. -/
def C36_claim (o : Options V) : Prop :=
  ∀ idx : Int, -2147483648 ≤ idx → idx ≤ 2147483647 →
    o.getPosArg idx = .ok (if 0 ≤ idx ∧ idx < o.numPosArgs then (o.getPosArgs[idx.toNat]?).getD [] else [])

/-- What holds: the claim for every index except `numPosArgs()` itself. -/
theorem C36_getPosArg_partial (o : Options V) (hsz : o.getPosArgs.length < 2147483648) (idx : Int)
    (h1 : -2147483648 ≤ idx) (h2 : idx ≤ 2147483647) (hne : idx ≠ o.numPosArgs) :
    o.getPosArg idx =
      .ok (if 0 ≤ idx ∧ idx < o.numPosArgs then (o.getPosArgs[idx.toNat]?).getD [] else []) := by
  have hn : o.numPosArgs = o.pos.length := by
    unfold Options.numPosArgs toI32
    have hsz' : o.pos.length < 2147483648 := hsz
    rw [Int.emod_eq_of_lt (by omega) (by omega)]; omega
  rw [hn] at hne ⊢
  have hsz' : o.pos.length < 2147483648 := hsz
  unfold Options.getPosArg
  by_cases h0 : 0 ≤ idx
  · have hmod : idx % 18446744073709551616 = idx := Int.emod_eq_of_lt h0 (by omega)
    simp only [hmod]
    by_cases hlt : idx < o.pos.length
    · have hlt' : idx.toNat < o.pos.length := by omega
      rw [if_neg (by omega), if_pos ⟨h0, hlt⟩]
      simp [Options.getPosArgs, List.getElem?_eq_getElem hlt']
    · rw [if_pos (by omega), if_neg (by omega)]
  · have hmod : idx % 18446744073709551616 = idx + 18446744073709551616 := by
      rw [← Int.add_emod_right]; exact Int.emod_eq_of_lt (by omega) (by omega)
    simp only [hmod]
    rw [if_pos (by omega), if_neg (by omega)]

/-- At `idx == numPosArgs()` the vector is read outside its bounds, for every object with fewer
than 2^31 positionals. -/
theorem C36_refuted (o : Options V) (hsz : o.getPosArgs.length < 2147483647) :
    o.getPosArg o.numPosArgs = .ub ∧ ¬ C36_claim o := by
  have hsz' : o.pos.length < 2147483647 := hsz
  have hn : o.numPosArgs = o.pos.length := by
    unfold Options.numPosArgs toI32
    rw [Int.emod_eq_of_lt (by omega) (by omega)]; omega
  have hub : o.getPosArg o.numPosArgs = .ub := by
    rw [hn]
    unfold Options.getPosArg
    have hmod : (o.pos.length : Int) % 18446744073709551616 = o.pos.length :=
      Int.emod_eq_of_lt (by omega) (by omega)
    simp only [hmod, Int.toNat_natCast, gt_iff_lt, Nat.lt_irrefl, if_false]
    rw [List.getElem?_eq_none (Nat.le_refl _)]
  refine ⟨hub, fun h => ?_⟩
  have := h o.numPosArgs (by omega) (by omega)
  rw [hub] at this; simp at this

example : (sample.parse ["x".toList, "y".toList]).1.getPosArg 1 = .ok "y".toList ∧
    (sample.parse ["x".toList, "y".toList]).1.getPosArg 3 = .ok [] ∧
    (sample.parse ["x".toList, "y".toList]).1.getPosArg (-1) = .ok [] ∧
    (sample.parse ["x".toList, "y".toList]).1.getPosArg 2 = .ub := by decide

/-! ## C37  string command lines -/

theorem C37_string_line (o : Options V) (hk : o.isKvp = false) (s : Str) (ws : List Written)
    (h : WrittenLine s ws) : o.parseString s = .ok (o.parse (ws.map Written.token)) := by
  have := tokensString_written h []
  rw [List.nil_append] at this
  simp only [Options.parseString, hk, Bool.false_eq_true, if_false, tokensString, this]

/-- Quoting every token. -/
theorem C37_quote_all (o : Options V) (hk : o.isKvp = false) (ts : List Str)
    (h : ∀ t ∈ ts, '"' ∉ t) :
    o.parseString (join [' '] (ts.map fun t => '"' :: t ++ ['"'])) = .ok (o.parse ts) := by
  have key : ∀ ts : List Str, (∀ t ∈ ts, '"' ∉ t) →
      WrittenLine (join [' '] (ts.map fun t => '"' :: t ++ ['"'])) (ts.map Written.quoted) := by
    intro ts
    induction ts with
    | nil => intro _; exact .nil (by simp)
    | cons t ts ih =>
      intro h
      have ih' := ih fun x hx => h x (by simp [hx])
      cases ts with
      | nil =>
        have := WrittenLine.one (g := []) (w := .quoted t) (g' := []) (by simp) (by simp)
          (h t (by simp))
        simpa [Written.text] using this
      | cons u us =>
        have := WrittenLine.cons (g := []) (w := .quoted t) (g' := [' ']) (by simp) (by simp)
          (by simp [White]) (h t (by simp)) (by simp) ih'
        simpa [Written.text, join] using this
  rw [C37_string_line o hk _ _ (key ts h), List.map_map]
  have : ts.map (Written.token ∘ Written.quoted) = ts := by
    have : Written.token ∘ Written.quoted = id := rfl
    rw [this, List.map_id]
  rw [this]

/-- `argv` command lines: the program name is skipped. -/
theorem C37_argv (o : Options V) (hk : o.isKvp = false) (prog : Str) (ts : List Str) :
    o.parseArgv (prog :: ts) = .ok (o.parse ts) := by
  simp only [Options.parseArgv, hk, Bool.false_eq_true, if_false, tokensArgv]
  cases ts with
  | nil => simp
  | cons a l => rw [if_neg (by simp)]; rfl

example : tokensString "  -n 5 \"two words\"\t\"\"\n".toList =
    ["-n".toList, "5".toList, "two words".toList, []] := by decide

example : sample.parseString "--out \"a b\" w".toList =
    .ok (sample.parse ["--out".toList, "a b".toList, "w".toList]) := by
  refine C37_string_line sample rfl _ [.plain "--out".toList, .quoted "a b".toList, .plain "w".toList] ?_
  have v1 : Written.Valid (.plain "--out".toList) := ⟨by simp, by decide, by intro c hc; revert hc; simp [White]; rintro (rfl|rfl|rfl|rfl) <;> decide⟩
  have v2 : Written.Valid (.plain "w".toList) := ⟨by simp, by decide, by intro c hc; revert hc; simp [White]; rintro rfl; decide⟩
  have := WrittenLine.cons (g := []) (g' := [' ']) (by simp) (by simp) (by simp [White]) v1 (by simp)
    (.cons (g := []) (g' := [' ']) (w := .quoted "a b".toList) (by simp) (by simp) (by simp [White])
      (by simp [Written.Valid]) (by simp) (.one (g := []) (g' := []) (by simp) (by simp) v2))
  exact this

/-! ## C38  key=value lists -/

theorem C38_keyValue (o : Options V) (ps : List Pair) (hne : ps ≠ []) (hp : ∀ p ∈ ps, p.Clean) :
    o.parseKeyValue (join [','] (ps.map Pair.text)) =
      .ok (o.parse (ps.flatMap fun p => ["--".toList ++ p.key, p.value])) := by
  obtain ⟨fs, h1, h2, h3⟩ := split_pairs ps hne hp
  have hlen : (join [','] (ps.map Pair.text)).length ≠ 0 := by
    intro h
    rw [List.length_eq_zero_iff.mp h] at h1
    simp [split, squashSpaces, trimFront] at h1
  unfold Options.parseKeyValue
  rw [if_neg hlen, h1, Res.bind_ok, if_neg (by simpa using h3)]
  rw [Options.parseKeyValueList, kvTokens_pairs ps fs hp h2]
  rfl

/-- The list form (one pair per list element), also used by `parse(argc, argv)` of an object in
key=value mode. -/
theorem C38_keyValue_list (o : Options V) (ps : List Pair) (hp : ∀ p ∈ ps, p.Clean) :
    o.parseKeyValueList (ps.map Pair.text) =
      .ok (o.parse (ps.flatMap fun p => ["--".toList ++ p.key, p.value])) ∧
    (o.isKvp = true → ∀ prog, o.parseArgv (prog :: ps.map Pair.text) =
      .ok (o.parse (ps.flatMap fun p => ["--".toList ++ p.key, p.value]))) := by
  have h : o.parseKeyValueList (ps.map Pair.text) =
      .ok (o.parse (ps.flatMap fun p => ["--".toList ++ p.key, p.value])) := by
    rw [Options.parseKeyValueList, kvTokens_pairs ps (ps.map Pair.text) hp (by simp)]
    rfl
  refine ⟨h, fun hk prog => ?_⟩
  have ht : tokensArgv (prog :: ps.map Pair.text) = ps.map Pair.text := by
    unfold tokensArgv
    cases ps <;> simp
  simp only [Options.parseArgv, hk, if_true, ht]
  exact h

/-- An object in key=value mode sends its strings to `parseKeyValue`. -/
theorem C38_kvp_string (o : Options V) (hk : o.isKvp = true) (s : Str) :
    o.parseString s = o.parseKeyValue s := by
  simp [Options.parseString, hk]

example : sample.parseKeyValue " num=5,  out=a b ,num=-6".toList =
    .ok (sample.parse (["--num", "5", "--out", "a b", "--num", "-6"].map (·.toList))) := by
  refine C38_keyValue sample [⟨1, "num".toList, "5".toList, 0⟩, ⟨2, "out".toList, "a b".toList, 1⟩,
    ⟨0, "num".toList, "-6".toList, 0⟩] (by simp) ?_
  have nd : ∀ t : Str, (t = "num".toList ∨ t = "5".toList ∨ t = "out".toList ∨ t = "a b".toList ∨ t = "-6".toList) →
      ¬ ∃ a b, t = a ++ ' ' :: ' ' :: b := by
    rintro t ht ⟨a, b, h⟩
    have hc : t.count ' ' ≥ 2 := by rw [h]; simp [List.count_append]; omega
    rcases ht with rfl | rfl | rfl | rfl | rfl <;> revert hc <;> decide
  intro p hp
  simp only [List.mem_cons, List.not_mem_nil, or_false] at hp
  rcases hp with rfl | rfl | rfl <;> refine ⟨by simp, ?_⟩ <;> intro t ht <;>
    simp only [List.mem_cons, List.not_mem_nil, or_false] at ht <;> rcases ht with rfl | rfl <;>
    exact ⟨by decide, by decide, by decide, by decide, nd _ (by simp)⟩

/-! ## C39  names -/

/-- A long or short name denotes the option registered last under it (seen through `isPresent`:
it reports the flag of that option). -/
theorem C39_names (o : Options V) (ho : Reachable o) (i : Nat) (d : Decl V) :
    (∀ n, IsLast o.decls (fun d => d.long = n) i d → o.isPresent n = o.pres i) ∧
    (∀ c, IsLast o.decls (fun d => d.ab = c) i d → o.isPresentAb c = o.pres i) := by
  constructor
  · intro n h; simp [Options.isPresent, (ho.wf.long n i).2 ⟨d, h⟩]
  · intro c h; simp [Options.isPresentAb, (ho.wf.ab c i).2 ⟨d, h⟩]

/-- The text of one line of the help. -/
def helpLine (isKvp : Bool) (d : Decl V) : Str :=
  if isKvp then "\t".toList ++ d.long ++ "\t".toList ++ d.doc ++ "\n".toList
  else "   --".toList ++ (d.long ++ List.replicate (20 - d.long.length) ' ') ++ " -".toList ++ [d.ab] ++
    "     ".toList ++ d.doc ++ "\n".toList

theorem helpLoop_text (o : Options V) (ho : o.Wf) (hlen : ∀ d ∈ o.decls, d.long.length < 2 ^ 31) :
    ∀ m : List (Str × Nat), (∀ x ∈ m, o.findLong x.1 = some x.2) →
    ∃ ds : List (Decl V), o.helpLoop m = .ok (ds.flatMap (helpLine o.isKvp)) ∧
      ds.map (·.long) = m.map (·.1) ∧ ∀ d ∈ ds, ∃ i, IsLast o.decls (fun e => e.long = d.long) i d := by
  intro m
  induction m with
  | nil => intro _; exact ⟨[], rfl, rfl, by simp⟩
  | cons x m ih =>
    intro h
    obtain ⟨n, i⟩ := x
    obtain ⟨ds, h1, h2, h3⟩ := ih fun y hy => h y (by simp [hy])
    obtain ⟨d, hd⟩ := (ho.long n i).1 (h (n, i) (by simp))
    have hn : d.long = n := hd.2.1
    refine ⟨d :: ds, ?_, by simp [h2, hn], ?_⟩
    · simp only [Options.helpLoop, hd.1, h1, List.flatMap_cons]
      cases hk : o.isKvp with
      | true => simp [Options.helpHead, helpLine]
      | false =>
        rw [helpHead_text d (hlen d (List.mem_of_getElem? hd.1))]
        simp [helpLine]
    · intro e he
      rcases List.mem_cons.mp he with rfl | he
      · exact ⟨i, by rw [hn]; exact hd⟩
      · exact h3 e he

/-- Help prints the information lines, then one line for each registered long name, in ascending
order of the names, each describing the option registered last under that name. -/
theorem C39_help (o : Options V) (ho : Reachable o) (hlen : ∀ d ∈ o.decls, d.long.length < 2 ^ 31) :
    ∃ ds : List (Decl V),
      o.printHelp = .ok (o.info.flatMap (· ++ "\n".toList) ++ ds.flatMap (helpLine o.isKvp)) ∧
      ds.Pairwise (fun a b => a.long < b.long) ∧
      (∀ n, (∃ d ∈ ds, d.long = n) ↔ ∃ d ∈ o.decls, d.long = n) ∧
      (∀ d ∈ ds, ∃ i, IsLast o.decls (fun e => e.long = d.long) i d) := by
  have hwf := ho.wf
  obtain ⟨ds, h1, h2, h3⟩ := helpLoop_text o hwf hlen o.longMap fun x hx => by
    exact (mapFind_mem strLess_order x.1 x.2 o.longMap hwf.sorted).2 hx
  refine ⟨ds, by simp [Options.printHelp, h1], ?_, ?_, h3⟩
  · have := hwf.sorted
    have h4 : (o.longMap.map (·.1)).Pairwise (fun a b => strLess a b = true) := by
      rw [List.pairwise_map]; exact this
    rw [← h2, List.pairwise_map] at h4
    exact h4.imp fun h => (strLess_iff _ _).1 h
  · intro n
    constructor
    · rintro ⟨d, hd, rfl⟩
      obtain ⟨i, hi⟩ := h3 d hd
      exact ⟨d, List.mem_of_getElem? hi.1, rfl⟩
    · rintro ⟨d, hd, rfl⟩
      have : ∃ i e, IsLast o.decls (fun e => e.long = d.long) i e := by
        clear h1 h2 h3 hlen hwf ho
        generalize o.decls = l at hd
        have key : ∀ l : List (Decl V), (∃ e ∈ l, e.long = d.long) →
            ∃ i e, IsLast l (fun e => e.long = d.long) i e := by
          intro l
          induction l using List.reverseRecOn with
          | nil => simp
          | append_singleton l x ih =>
            rintro ⟨e, he, hel⟩
            by_cases hx : x.long = d.long
            · exact ⟨l.length, x, (isLast_append l x _ _ _).2 (.inl ⟨hx, rfl, rfl⟩)⟩
            · rcases List.mem_append.mp he with he | he
              · obtain ⟨i, e', h'⟩ := ih ⟨e, he, hel⟩
                exact ⟨i, e', (isLast_append l x _ _ _).2 (.inr ⟨hx, h'⟩)⟩
              · rw [List.mem_singleton.mp he] at hel; exact absurd hel hx
        exact key l ⟨d, hd, rfl⟩
      obtain ⟨i, e, hi⟩ := this
      have hm := (mapFind_mem strLess_order d.long i o.longMap hwf.sorted).1 ((hwf.long _ i).2 ⟨e, hi⟩)
      have : d.long ∈ ds.map (·.long) := by rw [h2]; exact List.mem_map.mpr ⟨_, hm, rfl⟩
      obtain ⟨x, hx, hxl⟩ := List.mem_map.mp this
      exact ⟨x, hx, hxl⟩

/-- Registering `num` again hides the first option under that name. -/
example : ((sample.addP (.bool false) (.bool true) 9 "num".toList 'q').parse ["--num".toList]).1.sc 9 =
    .bool true ∧
    ((sample.addP (.bool false) (.bool true) 9 "num".toList 'q').parse ["-n".toList, "4".toList]).1.sc 0 =
    .int 4 := by decide

example : ((Options.new false (fun _ => Val.int 0) (fun _ => [])).addDef intTy 0 "num".toList 'n' (.int 7)
    "a number".toList |>.addP (.bool false) (.bool true) 1 "all".toList 'a').printHelp =
    .ok "   --all                  -a     \n   --num                  -n     a number\n".toList := by
  decide

end SoDa.Opts
