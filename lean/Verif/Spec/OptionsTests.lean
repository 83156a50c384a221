import Verif.Model.OptionsTests
import Verif.Spec.Options
/-!
What a command line does when the test functions look at the variables, change them, or throw.
-/
namespace SoDa.Spec
open Opts

variable {V E : Type}

/-- What a line changes: the variables, the positional words, and which options have appeared. -/
structure LineState (V : Type) where
  sc : Nat → V
  vec : Nat → List V
  words : List Str
  present : Nat → Bool

/-- How a line ends. -/
inductive Ended (V E : Type) where
  /-- all tokens are used -/
  | done
  /-- the last token is a switch that lacks its value -/
  | dangling (d : Decl V)
  /-- a switch that is not registered -/
  | unknown (sw : Str)
  /-- a request for help -/
  | help
  /-- the value `txt` is not taken -/
  | stopped (d : Decl V) (txt : Str) (why : Verdict E)

def LineState.see (s : LineState V) (i : Nat) : LineState V :=
  { s with present := fun j => if j = i then true else s.present j }

def LineState.put (s : LineState V) (a : Nat) (v : V) : LineState V :=
  { s with sc := fun b => if b = a then v else s.sc b }

def LineState.push (s : LineState V) (a : Nat) (v : V) : LineState V :=
  { s with vec := fun b => if b = a then s.vec a ++ [v] else s.vec b }

/-- The variables when the test function is called with `v`: a scalar already holds it. -/
def LineState.tried (s : LineState V) (d : Decl V) (v : V) : LineState V :=
  if d.kind = .scalar then s.put d.target v else s

/-- When the test function has changed the variables. -/
def LineState.after (s : LineState V) (r : Verdict E × (Nat → V) × (Nat → List V)) : LineState V :=
  { s with sc := r.2.1, vec := r.2.2 }

/-- When it has accepted the value: a vector has it as its last element. -/
def LineState.taken (s : LineState V) (i : Nat) (d : Decl V) (v : V) : LineState V :=
  (if d.kind = .scalar then s else s.push d.target v).see i

/-- When the text cannot be converted. -/
def LineState.spoilt (s : LineState V) (d : Decl V) (txt : Str) : LineState V :=
  if d.kind = .scalar then s.put d.target (d.readFail txt (s.sc d.target)) else s

/-- What the test function of option `i` says to `v`, and the variables afterwards. -/
def ask (T : Tests V E) (s : LineState V) (i : Nat) (d : Decl V) (v : V) : Verdict E × (Nat → V) × (Nat → List V) :=
  T i v (s.tried d v).sc (s.tried d v).vec

/-- The line takes `s` to `s'` and ends like that. -/
inductive LineRuns (regs : List (Decl V)) (T : Tests V E) : LineState V → List Str → LineState V → Ended V E → Prop
  | done {s} : LineRuns regs T s [] s .done
  | word {s w ts s' e} : ¬ SwitchLike w → LineRuns regs T { s with words := s.words ++ [w] } ts s' e → LineRuns regs T s (w :: ts) s' e
  | flag {s sw i d ts s' e} : Denotes regs sw i d → ¬ HelpSwitch sw → d.kind = .presence →
      LineRuns regs T ((s.put d.target d.mark).see i) ts s' e → LineRuns regs T s (sw :: ts) s' e
  | value {s sw i d txt v ts s' e} : Denotes regs sw i d → ¬ HelpSwitch sw → d.kind ≠ .presence →
      Greedy d ∨ ¬ SwitchLike txt → d.read txt = some v → (ask T s i d v).1 = .accept →
      LineRuns regs T (((s.tried d v).after (ask T s i d v)).taken i d v) ts s' e → LineRuns regs T s (sw :: txt :: ts) s' e
  | bare {s sw i d t ts s' e} : Denotes regs sw i d → ¬ HelpSwitch sw → d.kind ≠ .presence → ¬ Greedy d → SwitchLike t →
      LineRuns regs T (s.see i) (t :: ts) s' e → LineRuns regs T s (sw :: t :: ts) s' e
  | dangling {s sw i d} : Denotes regs sw i d → ¬ HelpSwitch sw → d.kind ≠ .presence → LineRuns regs T s [sw] s (.dangling d)
  | unknown {s sw ts} : SwitchLike sw → ¬ HelpSwitch sw → (∀ i d, ¬ Denotes regs sw i d) → LineRuns regs T s (sw :: ts) s (.unknown sw)
  | help {s sw ts} : HelpSwitch sw → LineRuns regs T s (sw :: ts) s .help
  | unread {s sw i d txt ts} : Denotes regs sw i d → ¬ HelpSwitch sw → d.kind ≠ .presence →
      Greedy d ∨ ¬ SwitchLike txt → d.read txt = none → LineRuns regs T s (sw :: txt :: ts) (s.spoilt d txt) (.stopped d txt .refuse)
  | stopped {s sw i d txt v ts} : Denotes regs sw i d → ¬ HelpSwitch sw → d.kind ≠ .presence →
      Greedy d ∨ ¬ SwitchLike txt → d.read txt = some v → (ask T s i d v).1 ≠ .accept →
      LineRuns regs T s (sw :: txt :: ts) ((s.tried d v).after (ask T s i d v)) (.stopped d txt (ask T s i d v).1)

/-- What `parse` does then: returns, or lets the exception out. -/
def Ended.result : Ended V E → Ret E
  | .done => .returned true
  | .dangling _ => .returned true
  | .stopped _ _ (.throws e) => .thrown e
  | _ => .returned false

/-- The messages. -/
def Ended.says : Ended V E → List Diag
  | .unknown sw => [.badName sw, .help]
  | .help => [.help]
  | .stopped d txt .refuse => [.badValue d.long txt d.err]
  | .stopped _ _ (.badValue l t e) => [.badValue l t e]
  | .stopped _ _ (.badName t) => [.badName t, .help]
  | _ => []

/-- The line ends within the option `d`. -/
def Ended.within : Ended V E → Option (Decl V)
  | .dangling d => some d
  | .stopped d _ _ => some d
  | _ => none

/-- Several lines, one after the other, each read from the state the one before has left. -/
inductive LinesRun (regs : List (Decl V)) (T : Tests V E) : LineState V → List (List Str) → LineState V → List (Ended V E) → Prop
  | nil {s} : LinesRun regs T s [] s []
  | cons {s ts s' e lines s'' es} : LineRuns regs T s ts s' e → LinesRun regs T s' lines s'' es →
      LinesRun regs T s (ts :: lines) s'' (e :: es)

end SoDa.Spec
