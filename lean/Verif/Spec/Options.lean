import Verif.Model.Options
import Verif.Spec.Format
import Mathlib.Algebra.Order.Field.Rat
/-!
Specification vocabulary for command lines.  From the model only the description of a registered
option (`Decl`: names, kind, target, value reader, test function) is used; nothing here mentions
the parser, its maps or its state.
-/
namespace SoDa.Spec
open Opts

variable {V : Type}

/-- A token that can be taken for a switch: `-c…` or `--n…` with something after the dashes. -/
def SwitchLike (t : Str) : Prop :=
  (∃ c r, t = '-' :: c :: r ∧ c ≠ '-') ∨ (∃ n, t = '-' :: '-' :: n ∧ n ≠ [])

/-- A request for help: `--help`, or any short switch beginning with `h`. -/
def HelpSwitch (t : Str) : Prop := t = "--help".toList ∨ ∃ r, t = '-' :: 'h' :: r

/-- `d` is the last element of `l` with property `p`, and `i` is its index. -/
def IsLast {A : Type} (l : List A) (p : A → Prop) (i : Nat) (d : A) : Prop :=
  l[i]? = some d ∧ p d ∧ ∀ j e, i < j → l[j]? = some e → ¬ p e

/-- The switch `t` names the option `d`, the `i`-th one registered. -/
inductive Denotes (regs : List (Decl V)) : Str → Nat → Decl V → Prop
  | long {n i d} : n ≠ [] → IsLast regs (fun d => d.long = n) i d → Denotes regs ('-' :: '-' :: n) i d
  | short {c r i d} : c ≠ '-' → IsLast regs (fun d => d.ab = c) i d → Denotes regs ('-' :: c :: r) i d

/-- The option takes the token after its switch whatever it looks like. -/
def Greedy (d : Decl V) : Prop := d.isSigned = true ∨ d.hasDefault = false

/-- The option accepts the text as the value `v`: it can be converted and the test function agrees. -/
def Accepts (d : Decl V) (txt : Str) (v : V) : Prop := d.read txt = some v ∧ d.test v = true

/-- One item of a command line. -/
inductive LineItem (V : Type) where
  /-- a positional word -/
  | word (w : Str)
  /-- a presence switch -/
  | flag (sw : Str) (i : Nat) (d : Decl V)
  /-- an option with its value `txt`, meaning `v` -/
  | value (sw : Str) (i : Nat) (d : Decl V) (txt : Str) (v : V)
  /-- an option with a default whose value is left out, because another switch follows -/
  | bare (sw : Str) (i : Nat) (d : Decl V)

/-- How the reading of a command line ends. -/
inductive Ending (V : Type) where
  /-- all tokens are used -/
  | done
  /-- the last token is a switch that lacks its value -/
  | dangling (sw : Str) (i : Nat) (d : Decl V)
  /-- a switch that is not registered -/
  | unknown (sw : Str)
  /-- a request for help -/
  | help (sw : Str)
  /-- a value that is not accepted -/
  | rejected (sw : Str) (i : Nat) (d : Decl V) (txt : Str)

/-- How a command line reads: its items and the way it ends (after an ending other than `done`
and `dangling` there may be any tokens). -/
inductive Reads (regs : List (Decl V)) : List Str → List (LineItem V) → Ending V → Prop
  | done : Reads regs [] [] .done
  | word {w ts its e} : ¬ SwitchLike w → Reads regs ts its e →
      Reads regs (w :: ts) (.word w :: its) e
  | flag {sw i d ts its e} : Denotes regs sw i d → ¬ HelpSwitch sw → d.kind = .presence →
      Reads regs ts its e → Reads regs (sw :: ts) (.flag sw i d :: its) e
  | value {sw i d txt v ts its e} : Denotes regs sw i d → ¬ HelpSwitch sw → d.kind ≠ .presence →
      Greedy d ∨ ¬ SwitchLike txt → Accepts d txt v → Reads regs ts its e →
      Reads regs (sw :: txt :: ts) (.value sw i d txt v :: its) e
  | bare {sw i d t ts its e} : Denotes regs sw i d → ¬ HelpSwitch sw → d.kind ≠ .presence →
      ¬ Greedy d → SwitchLike t → Reads regs (t :: ts) its e →
      Reads regs (sw :: t :: ts) (.bare sw i d :: its) e
  | dangling {sw i d} : Denotes regs sw i d → ¬ HelpSwitch sw → d.kind ≠ .presence →
      Reads regs [sw] [] (.dangling sw i d)
  | unknown {sw ts} : SwitchLike sw → ¬ HelpSwitch sw → (∀ i d, ¬ Denotes regs sw i d) →
      Reads regs (sw :: ts) [] (.unknown sw)
  | help {sw ts} : HelpSwitch sw → Reads regs (sw :: ts) [] (.help sw)
  | rejected {sw i d txt ts} : Denotes regs sw i d → ¬ HelpSwitch sw → d.kind ≠ .presence →
      Greedy d ∨ ¬ SwitchLike txt → (∀ v, ¬ Accepts d txt v) →
      Reads regs (sw :: txt :: ts) [] (.rejected sw i d txt)

/-- The positional words of a line. -/
def words' : List (LineItem V) → List Str
  | [] => []
  | .word w :: its => w :: words' its
  | _ :: its => words' its

/-- The values a line gives to the scalar at address `a`, in order (a presence switch gives
`true` to its target). -/
def scalarValues (a : Nat) : List (LineItem V) → List V
  | [] => []
  | .flag _ _ d :: its => (if d.target = a then [d.mark] else []) ++ scalarValues a its
  | .value _ _ d _ v :: its =>
    (if d.kind = .scalar ∧ d.target = a then [v] else []) ++ scalarValues a its
  | _ :: its => scalarValues a its

/-- The values a line gives to the vector at address `a`, in order. -/
def vectorValues (a : Nat) : List (LineItem V) → List V
  | [] => []
  | .value _ _ d _ v :: its =>
    (if d.kind = .vector ∧ d.target = a then [v] else []) ++ vectorValues a its
  | _ :: its => vectorValues a its

/-- Option number `i` appears on the line: as a presence switch, with a value, or as a switch
followed by another switch. -/
def Appears (i : Nat) (its : List (LineItem V)) : Prop :=
  ∃ it ∈ its, (∃ sw d, it = .flag sw i d) ∨ (∃ sw d txt v, it = .value sw i d txt v) ∨
    (∃ sw d, it = .bare sw i d)

/-- The tokens of an item. -/
def LineItem.tokens : LineItem V → List Str
  | .word w => [w]
  | .flag sw _ _ => [sw]
  | .value sw _ _ txt _ => [sw, txt]
  | .bare sw _ _ => [sw]

/-- An item of a well-formed line, taken by itself. -/
def LineItem.WellFormed (regs : List (Decl V)) : LineItem V → Prop
  | .word w => ¬ SwitchLike w
  | .flag sw i d => Denotes regs sw i d ∧ ¬ HelpSwitch sw ∧ d.kind = .presence
  | .value sw i d txt v => Denotes regs sw i d ∧ ¬ HelpSwitch sw ∧ d.kind ≠ .presence ∧
      (Greedy d ∨ ¬ SwitchLike txt) ∧ Accepts d txt v
  | .bare _ _ _ => False

/-! ### String command lines -/

/-- A token written into a command string: in double quotes, or as it is. -/
inductive Written where
  | quoted (t : Str)
  | plain (t : Str)

def Written.token : Written → Str
  | .quoted t => t
  | .plain t => t

def Written.text : Written → Str
  | .quoted t => '"' :: t ++ ['"']
  | .plain t => t

/-- White space of the "C" locale. -/
def White (c : Char) : Prop := c ∈ [' ', '\t', '\n', '\x0b', '\x0c', '\r']

/-- Quoted tokens contain no quote; plain tokens are not empty and contain neither quote nor white
space. -/
def Written.Valid : Written → Prop
  | .quoted t => '"' ∉ t
  | .plain t => t ≠ [] ∧ '"' ∉ t ∧ ∀ c ∈ t, ¬ White c

/-- `s` consists of the given tokens, with white space between neighbours and possibly at the
ends. -/
inductive WrittenLine : Str → List Written → Prop
  | nil {g} : (∀ c ∈ g, White c) → WrittenLine g []
  | one {g w g'} : (∀ c ∈ g, White c) → (∀ c ∈ g', White c) → w.Valid →
      WrittenLine (g ++ w.text ++ g') [w]
  | cons {g w g' s ws} : (∀ c ∈ g, White c) → g' ≠ [] → (∀ c ∈ g', White c) → w.Valid → ws ≠ [] →
      WrittenLine s ws → WrittenLine (g ++ w.text ++ g' ++ s) (w :: ws)

/-! ### Key=value lists -/

/-- One `key=value` item with spaces around it. -/
structure Pair where
  before : Nat
  key : Str
  value : Str
  after : Nat

def Pair.text (p : Pair) : Str :=
  List.replicate p.before ' ' ++ (p.key ++ '=' :: p.value) ++ List.replicate p.after ' '

/-- The value is not empty; key and value contain no `,` and no `=`, no leading, trailing or
doubled spaces. -/
def Pair.Clean (p : Pair) : Prop :=
  p.value ≠ [] ∧ ∀ t ∈ [p.key, p.value], ',' ∉ t ∧ '=' ∉ t ∧
    t.head? ≠ some ' ' ∧ t.getLast? ≠ some ' ' ∧ ¬ ∃ a b, t = a ++ ' ' :: ' ' :: b

/-! ### Numbers -/

/-- `s` begins (after white space) with an integer numeral of value `n`: optional sign, the longest
run of digits. -/
def BeginsWithInt (s : Str) (n : Int) : Prop :=
  ∃ (ws sg ds rest : Str) (m : Nat), s = ws ++ sg ++ ds ++ rest ∧ (∀ c ∈ ws, White c) ∧
    (sg = [] ∨ sg = ['+'] ∨ sg = ['-']) ∧ numeral 10 ds = some m ∧
    (∀ c, rest.head? = some c → ¬ ('0' ≤ c ∧ c ≤ '9')) ∧
    n = if sg = ['-'] then -(m : Int) else (m : Int)

/-- `ex` is an exponent of value `x`: an `e` or `E`, optional sign, digits. -/
def Exponent (ex : Str) (x : Int) : Prop :=
  ∃ (c : Char) (sg es : Str) (k : Nat), ex = c :: (sg ++ es) ∧ (c = 'e' ∨ c = 'E') ∧
    (sg = [] ∨ sg = ['+'] ∨ sg = ['-']) ∧ numeral 10 es = some k ∧ x = if sg = ['-'] then -(k : Int) else (k : Int)

/-- `s` begins (after white space) with a decimal number of magnitude `q`, negative if `neg`: optional sign, digits with
at most one point, optional exponent; the number is as long as possible, and an `e` after it must be the beginning of an
exponent. -/
def BeginsWithReal (s : Str) (neg : Bool) (q : ℚ) : Prop :=
  ∃ (ws sg ip pt ex rest : Str) (fp : Str) (n : Nat) (x : Int),
    s = ws ++ sg ++ ip ++ pt ++ ex ++ rest ∧ (∀ c ∈ ws, White c) ∧
    (sg = [] ∨ sg = ['+'] ∨ sg = ['-']) ∧ neg = decide (sg = ['-']) ∧
    (pt = [] ∧ fp = [] ∨ pt = '.' :: fp) ∧ numeral 10 (ip ++ fp) = some n ∧
    (Exponent ex x ∨ ex = [] ∧ x = 0 ∧ rest.head? ≠ some 'e' ∧ rest.head? ≠ some 'E' ∧
      (pt = [] → rest.head? ≠ some '.')) ∧
    (∀ c, rest.head? = some c → ¬ ('0' ≤ c ∧ c ≤ '9')) ∧
    q = (n : ℚ) / 10 ^ fp.length * 10 ^ x

end SoDa.Spec
