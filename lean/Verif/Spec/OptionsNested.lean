import Verif.Model.OptionsNested
import Verif.Spec.OptionsTests
/-!
What a command line does when the test functions use the object that reads it.  From the model only the description of test functions
(`Body`, `View`) is used.
-/
namespace SoDa.Spec
open Opts

variable {V E : Type}

open Classical in
/-- What a test function sees when the items before it have left `s`. -/
noncomputable def shown (regs : List (Decl V)) (s : LineState V) : View V where
  posArgs := s.words
  isPresent n := decide (∃ i d, IsLast regs (fun d => d.long = n) i d ∧ s.present i = true)
  isPresentAb c := decide (∃ i d, IsLast regs (fun d => d.ab = c) i d ∧ s.present i = true)
  sc := s.sc
  vec := s.vec

/-- What a test function does, from `s` to `s'`, with the messages `ms` written meanwhile.  `w`: a value of a signed type is expected.
`P w`: what lines do. -/
inductive Does (regs : List (Decl V)) (P : Bool → LineState V → List Str → LineState V → Bool → List Diag → Ret E → Prop) :
    Bool → LineState V → Body V E → LineState V → Bool → List Diag → Verdict E → Prop
  | done {w s x} : Does regs P w s (.done x) s w [] x
  | look {w s k s' w' ms x} : Does regs P w s (k (shown regs s)) s' w' ms x → Does regs P w s (.look k) s' w' ms x
  | write {w s sc vec k s' w' ms x} : Does regs P w { s with sc := sc, vec := vec } k s' w' ms x → Does regs P w s (.write sc vec k) s' w' ms x
  | line {w s ts k s1 w1 m1 r s' w' ms x} : P w s ts s1 w1 m1 r → Does regs P w1 s1 (k r) s' w' ms x →
      Does regs P w s (.parse ts k) s' w' (m1 ++ ms) x

/-- What a line does, from `s` to `s'`, with the messages `ms` and the result `r`; `w`: a value of a signed type is expected at the end.
`A i v`: what the test function of option `i` does when called with `v`. -/
inductive LineDoes (regs : List (Decl V)) (A : Nat → V → Bool → LineState V → LineState V → Bool → List Diag → Verdict E → Prop) :
    LineState V → List Str → LineState V → Bool → List Diag → Ret E → Prop
  | done {s} : LineDoes regs A s [] s false [] (.returned true)
  | word {s t ts s' w ms r} : ¬ SwitchLike t → LineDoes regs A { s with words := s.words ++ [t] } ts s' w ms r →
      LineDoes regs A s (t :: ts) s' w ms r
  | flag {s sw i d ts s' w ms r} : Denotes regs sw i d → ¬ HelpSwitch sw → d.kind = .presence →
      LineDoes regs A ((s.put d.target d.mark).see i) ts s' w ms r → LineDoes regs A s (sw :: ts) s' w ms r
  | value {s sw i d txt v s1 w1 m1 ts s' w ms r} : Denotes regs sw i d → ¬ HelpSwitch sw → d.kind ≠ .presence →
      Greedy d ∨ ¬ SwitchLike txt → d.read txt = some v → A i v d.isSigned (s.tried d v) s1 w1 m1 .accept →
      LineDoes regs A (s1.taken i d v) ts s' w ms r → LineDoes regs A s (sw :: txt :: ts) s' w (m1 ++ ms) r
  | bare {s sw i d t ts s' w ms r} : Denotes regs sw i d → ¬ HelpSwitch sw → d.kind ≠ .presence → ¬ Greedy d → SwitchLike t →
      LineDoes regs A (s.see i) (t :: ts) s' w ms r → LineDoes regs A s (sw :: t :: ts) s' w ms r
  | dangling {s sw i d} : Denotes regs sw i d → ¬ HelpSwitch sw → d.kind ≠ .presence →
      LineDoes regs A s [sw] s d.isSigned [] (.returned true)
  | unknown {s sw ts} : SwitchLike sw → ¬ HelpSwitch sw → (∀ i d, ¬ Denotes regs sw i d) →
      LineDoes regs A s (sw :: ts) s false [.badName sw, .help] (.returned false)
  | help {s sw ts} : HelpSwitch sw → LineDoes regs A s (sw :: ts) s false [.help] (.returned false)
  | unread {s sw i d txt ts} : Denotes regs sw i d → ¬ HelpSwitch sw → d.kind ≠ .presence →
      Greedy d ∨ ¬ SwitchLike txt → d.read txt = none →
      LineDoes regs A s (sw :: txt :: ts) (s.spoilt d txt) d.isSigned [.badValue d.long txt d.err] (.returned false)
  | stopped {s sw i d txt v s1 w1 m1 x ts} : Denotes regs sw i d → ¬ HelpSwitch sw → d.kind ≠ .presence →
      Greedy d ∨ ¬ SwitchLike txt → d.read txt = some v → A i v d.isSigned (s.tried d v) s1 w1 m1 x → x ≠ .accept →
      LineDoes regs A s (sw :: txt :: ts) s1 w1 (m1 ++ (Ended.stopped d txt x).says) (Ended.stopped d txt x).result

/-- What a line does when calls of `parse` are nested at most `n` deep.  If a value of a signed type is expected every token is a
positional word. -/
def NestedLine (regs : List (Decl V)) (T : Nat → V → Body V E) :
    Nat → Bool → LineState V → List Str → LineState V → Bool → List Diag → Ret E → Prop
  | 0, _ => fun _ _ _ _ _ _ => False
  | _ + 1, true => fun s ts s' w' ms r => s' = { s with words := s.words ++ ts } ∧ w' = true ∧ ms = [] ∧ r = .returned true
  | n + 1, false => LineDoes regs fun i v w s s' w' ms x => Does regs (NestedLine regs T n) w s (T i v) s' w' ms x

/-- What a line ought to do: a line that a test function parses is read like any other line. -/
def PlainLine (regs : List (Decl V)) (T : Nat → V → Body V E) :
    Nat → LineState V → List Str → LineState V → Bool → List Diag → Ret E → Prop
  | 0 => fun _ _ _ _ _ _ => False
  | n + 1 => LineDoes regs fun i v w s s' w' ms x => Does regs (fun _ => PlainLine regs T n) w s (T i v) s' w' ms x

/-- The test function parses at most `k` lines. -/
def AtMost : Nat → Body V E → Prop
  | _, .done _ => True
  | k, .look f => ∀ v, AtMost k (f v)
  | k, .write _ _ b => AtMost k b
  | 0, .parse _ _ => False
  | k + 1, .parse _ f => ∀ r, AtMost k (f r)

end SoDa.Spec
