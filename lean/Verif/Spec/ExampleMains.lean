import Verif.Spec.Options
/-!
Specification vocabulary for the example programs: what a user writes on the command line of OptionsExample, and what the
program shows for it.
-/
namespace SoDa.Spec
open Opts

/-- The options OptionsExample registers, in order. -/
def exampleNames : List (Str × Char) :=
  [("presarg", 'p'), ("boolarg", 'b'), ("strarg", 's'), ("strvecarg", 'l'), ("intarg", 'i')].map fun e => (e.1.toList, e.2)

/-- What a user may write: an option by its long or short name, with its value, or a positional word. -/
inductive ExArg where
  | presarg (long : Bool)
  | boolarg (long : Bool) (txt : Str) (b : Bool)
  | strarg (long : Bool) (s : Str)
  | strvecarg (long : Bool) (s : Str)
  | intarg (long : Bool) (txt : Str) (n : Int)
  | word (w : Str)

/-- The tokens. -/
def ExArg.tokens : ExArg → List Str
  | .presarg l => [if l then "--presarg".toList else "-p".toList]
  | .boolarg l t _ => [if l then "--boolarg".toList else "-b".toList, t]
  | .strarg l s => [if l then "--strarg".toList else "-s".toList, s]
  | .strvecarg l s => [if l then "--strvecarg".toList else "-l".toList, s]
  | .intarg l t _ => [if l then "--intarg".toList else "-i".toList, t]
  | .word w => [w]

/-- Numbers are from -5 to 5; truth values begin with T, t, F or f; words and string values do not look like switches. -/
def ExArg.Proper : ExArg → Prop
  | .presarg _ => True
  | .boolarg _ t b => (∃ c r, t = c :: r ∧ (b = true ∧ (c = 't' ∨ c = 'T') ∨ b = false ∧ (c = 'f' ∨ c = 'F')))
  | .strarg _ s => ¬ SwitchLike s
  | .strvecarg _ s => ¬ SwitchLike s
  | .intarg _ t n => BeginsWithInt t n ∧ -5 ≤ n ∧ n ≤ 5
  | .word w => ¬ SwitchLike w

/-- What the options are set to. -/
structure Settings where
  int : Int := 0
  bool : Bool := false
  pres : Bool := false
  str : Str := []
  vec : List Str := []
  words : List Str := []
  intGiven : Bool := false

/-- The effect of one argument: the last value counts, vectors collect. -/
def Settings.after (s : Settings) : ExArg → Settings
  | .presarg _ => { s with pres := true }
  | .boolarg _ _ b => { s with bool := b }
  | .strarg _ t => { s with str := t }
  | .strvecarg _ t => { s with vec := s.vec ++ [t] }
  | .intarg _ _ n => { s with int := n, intGiven := true }
  | .word w => { s with words := s.words ++ [w] }

/-- The same for the items of a line in general. -/
def Settings.afterItem (s : Settings) : LineItem Val → Settings
  | .flag _ _ _ => { s with pres := true }
  | .value _ 1 _ _ (.bool b) => { s with bool := b }
  | .value _ 2 _ _ (.str t) => { s with str := t }
  | .value _ 3 _ _ (.str t) => { s with vec := s.vec ++ [t] }
  | .value _ 4 _ _ (.int n) => { s with int := n, intGiven := true }
  | .word w => { s with words := s.words ++ [w] }
  | _ => s

/-- The five lines that show the settings. -/
def Settings.shown (s : Settings) : Str :=
  "intarg = ".toList ++ (toString s.int).toList ++ ['\n'] ++
  "boolarg = ".toList ++ [if s.bool then '1' else '0', '\n'] ++
  "pres_arg = ".toList ++ [if s.pres then '1' else '0', '\n'] ++
  "str_arg = [".toList ++ s.str ++ [']', '\n'] ++
  "strvecarg s = \n".toList

/-- Lines numbered from 0: the line for the `i`-th element is `line i x`. -/
def numbered (line : Nat → Str → Str) (l : List Str) : Str := (l.mapIdx line).flatten

/-- Everything up to the second parse. -/
def Settings.firstPart (s : Settings) (argv : List Str) : Str :=
  s.shown ++ (s.vec.flatMap fun t => "\t[".toList ++ t ++ "]\n".toList) ++
  numbered (fun i a => "ARG[".toList ++ (toString i).toList ++ "] = [".toList ++ a ++ "]\n".toList) argv ++
  "posargs = \n".toList ++
  numbered (fun i w => ['\t'] ++ (toString i).toList ++ ['\t'] ++ w ++ ['\n']) s.words

/-- The settings after `-i 3 -s "this is a test"`. -/
def Settings.second (s : Settings) : Settings := { s with int := 3, str := "this is a test".toList }

/-- What is written to `std::cerr`. -/
def exampleErr (version gitId : Str) (given : Bool) : Str :=
  "SoDaUtils version [".toList ++ version ++ "]\n".toList ++ "SoDaUtils git id [".toList ++ gitId ++ "]\n".toList ++
  (if given then "An intarg option was present\n".toList else "No intarg option was present\n".toList)

end SoDa.Spec
