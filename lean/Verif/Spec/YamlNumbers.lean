import Verif.Spec.Options
/-!
How YAML 1.2 (core schema) writes numbers.
-/
namespace SoDa.Spec

/-- An integer in decimal: optional sign, digits. -/
def YamlDecimal (s : Str) (n : Int) : Prop :=
  ∃ (sg ds : Str) (m : Nat), s = sg ++ ds ∧ (sg = [] ∨ sg = ['+'] ∨ sg = ['-']) ∧ numeral 10 ds = some m ∧
    n = if sg = ['-'] then -(m : Int) else (m : Int)

/-- An integer in octal (`0o17`) or hexadecimal (`0x1F`); these have no sign. -/
def YamlBased (s : Str) (n : Int) : Prop :=
  ∃ (ds : Str) (m : Nat), n = m ∧ (s = '0' :: 'o' :: ds ∧ numeral 8 ds = some m ∨ s = '0' :: 'x' :: ds ∧ numeral 16 ds = some m)

/-- An integer. -/
def YamlInt (s : Str) (n : Int) : Prop := YamlDecimal s n ∨ YamlBased s n

/-- A number of magnitude `q`, negative if `neg`: optional sign, the digits `ip`, perhaps a point and the digits `fp` (`ip` and `fp` are not both
empty), perhaps an exponent. -/
def YamlFloat (s : Str) (ip fp : Str) (neg : Bool) (q : ℚ) : Prop :=
  ∃ (sg pt ex : Str) (n : Nat) (x : Int), s = sg ++ ip ++ pt ++ ex ∧ (sg = [] ∨ sg = ['+'] ∨ sg = ['-']) ∧ neg = decide (sg = ['-']) ∧
    (pt = [] ∧ fp = [] ∨ pt = '.' :: fp) ∧ numeral 10 (ip ++ fp) = some n ∧ (Exponent ex x ∨ ex = [] ∧ x = 0) ∧
    q = (n : ℚ) / 10 ^ fp.length * 10 ^ x

/-- The words for infinities, for "not a number", for nothing and for the truth values. -/
def yamlWords : List Str :=
  [".inf", ".Inf", ".INF", "+.inf", "+.Inf", "+.INF", "-.inf", "-.Inf", "-.INF", ".nan", ".NaN", ".NAN",
   "null", "Null", "NULL", "~", "", "true", "True", "TRUE", "false", "False", "FALSE"].map String.toList

end SoDa.Spec
