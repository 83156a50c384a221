import Verif.Props.OptionsFloat
import Verif.Model.ExampleMains
/-!
The repository's own tests, run against the model: a check of the model, not of the library.  Each theorem below is what a
test program of `/repo/test` (or an example of `/repo/examples` whose output is stated) expects, with the model in place of
the library.  The tests that use random numbers (test/FormatTest.cxx:44-87, see C88) or threads (test/MailBoxTest.cxx, see
C87, and test/BarrierTest.cxx, see C90) are not here.
-/
namespace SoDa.RepoTests
open Opts

/-- The text of `Format("%0").addU(v, fmt, w, sep).str()`, test/FormatHexTest.cxx:7. -/
def hexText (v w : Nat) (fmt sep : Char) : Res Fmt.BadFormat Str := ((Fmt.mk' "%0".toList).addU v fmt w sep).str

/-- `hex_check_map`, test/FormatHexTest.cxx:24-32, 62-64. -/
theorem formatHex : ∀ e ∈ [("0x0", 0, 0), ("0x000", 0, 3), ("0x0000", 0, 4), ("0x100", 0x100, 0), ("0x0100", 0x100, 4),
      ("0x00000100", 0x100, 8), ("0x0000000000000100", 0x100, 16)],
    hexText e.2.1 e.2.2 'X' nul = .ok e.1.toList := by decide +kernel

/-- `under_check_map`, test/FormatHexTest.cxx:52-59, 65-67. -/
theorem formatUnder : ∀ e ∈ [("0x0", 0, 0), ("0x000", 0, 3), ("0x100", 0x100, 0), ("0x0100", 0x100, 4),
      ("0x0000_0100", 0x100, 8), ("0x0000_0000_0000_0100", 0x100, 16)],
    hexText e.2.1 e.2.2 'X' '_' = .ok e.1.toList := by decide +kernel

/-- `dec_check_map`, test/FormatHexTest.cxx:34-41, 68-70. -/
theorem formatDec : ∀ e ∈ [("0", 0, 0), ("  0", 0, 3), ("100", 100, 0), (" 100", 100, 4), ("     100", 100, 8),
      ("             100", 100, 16)],
    hexText e.2.1 e.2.2 nul nul = .ok e.1.toList := by decide +kernel

/-- `oct_check_map`, test/FormatHexTest.cxx:42-49, 71-73. -/
theorem formatOct : ∀ e ∈ [("0", 0, 0), ("000", 0, 3), ("0137", 0o137, 0), ("0137", 0o137, 4), ("00000137", 0o137, 8),
      ("0000000000000137", 0o137, 16)],
    hexText e.2.1 e.2.2 'o' nul = .ok e.1.toList := by decide +kernel

/-- test/FormatTest.cxx:97-106. -/
theorem formatBool : ((Fmt.mk' "%0".toList).addB true).str = .ok "T".toList ∧
    ((Fmt.mk' "%0".toList).addB false).str = .ok "F".toList := by decide +kernel

/-- test/FormatTest.cxx:108-110. -/
theorem formatAdjacent :
    (((Fmt.mk' "Testing adjacent markers [%0%1] should be [foobar]\n".toList).addS "foo".toList).bind fun f =>
      (f.addS "bar".toList).map Fmt.stream) =
      .ok (.ok "Testing adjacent markers [foobar] should be [foobar]\n".toList) := by decide +kernel

/-- test/FormatTest.cxx:112-123. -/
theorem formatFill :
    (((((Fmt.mk' "%0 %1 %2 %3".toList).addI 33 5 nul '0').addI 44444 7 ',' '0').addI 55555 7 ',').addI 66666 7).str =
      .ok "00033 044,444  55,555   66666".toList := by decide +kernel

/-- test/FormatNaN.cxx:12-21.  The engineering loops are not entered, so no fuel is needed. -/
theorem formatNaN :
    (((Fmt.mk' "ok %0 inf %1 nan %2".toList).addF binary64 0 '.' (.fin false 1) 'f' 6).bind fun r =>
      match r with
      | .ok f => (f.addF binary64 0 '.' (.inf false) 'f' 4).bind fun r =>
        match r with
        | .ok f => (f.addF binary64 0 '.' .nan 'f' 4).bind fun r =>
          match r with
          | .ok f => some f.str
          | _ => none
        | _ => none
      | _ => none) = some (.ok "ok 1.000000 inf inf  nan nan ".toList) := by decide +kernel

/-- test/SplitTest.cxx:4-37. -/
theorem splitComma :
    splitVec "this,that,the other thing".toList ",".toList =
      .ok #["this".toList, "that".toList, "the other thing".toList] ∧
    split "this,that,the other thing".toList ",".toList =
      .ok ["this".toList, "that".toList, "the other thing".toList] := by decide +kernel

/-- The values of the variables of test/OptionsTest.cxx: `int`, `bool` and `std::string`, or `float`. -/
abbrev TVal := Val ⊕ Dbl

/-- A type of `Val` values among the variables of the test. -/
def lift (T : Ty Val) : Ty TVal where
  signed := T.signed
  zero := .inl T.zero
  read s := (T.read s).map .inl
  readFail s old := match old with
    | .inl v => .inl (T.readFail s v)
    | .inr x => .inr x

/-- The options of test/OptionsTest.cxx:106-115; the variables have the addresses 0 to 7, the vectors 0 and 1. -/
def optionsTest : Options TVal :=
  ((((((((((Options.new false (fun _ => .inl (.int 0)) (fun _ => [])).addP (.inl (.bool false)) (.inl (.bool true)) 0
    "pres".toList 'p').add (lift boolTy) 1 "boo".toList 'b').add (lift intTy) 2 "sint".toList 'I').add (lift intTy) 3
    "uint".toList 'U').add (floatTy .inr) 4 "fva0".toList 'f').add (floatTy .inr) 5 "fva1".toList 'F').add (lift strTy) 6
    "sva".toList 's').add (lift strTy) 7 "s-ind".toList 'c').addV (lift strTy) 0 "sla".toList 'l').addV (lift intTy) 1
    "ala".toList 'L'

/-- `std::list::merge` as libstdc++ does it (test/OptionsTest.cxx:34): an element of the second list is moved before the
first element of the first list that is greater.  (The lists are not sorted, as the standard demands; all elements of the
first list are less than those of the second, so that the second is appended.) -/
def merge (as : List Str) : List Str → List Str := as.rec (fun bs => bs) fun a _ ih bs =>
  bs.takeWhile (strLess · a) ++ a :: ih (bs.dropWhile (strLess · a))

/-- The argument list of test/OptionsTest.cxx:19-34. -/
def optionsArgs : List Str :=
  merge (["--sint", "-3", "--uint", "3", "--fva0", "-1.1", "--fva1", "1.1", "--sva", "\"--this is a test\"", "--s-ind",
    "'--args=\"type=b200,serial=c00ld00d\"'"].map String.toList) (["po0", "po1", "po2"].map String.toList)

/-- A stored `float` is within `1e-6` of `x` (`std::fabs(f0_val - x) > 1e-6` is an error, test/OptionsTest.cxx:51, 55). -/
def near (v : TVal) (x : ℚ) : Bool :=
  match v with
  | .inr (.fin neg q) => decide (|(if neg then -q else q) - x| ≤ 1 / 10 ^ 6)
  | _ => false

/-- test/OptionsTest.cxx:36-99 (the comparison of the positional arguments in 80-97 is over an empty list there,
`merge` having emptied it; here they are compared). -/
theorem optionsPosArgs :
    (optionsTest.parse optionsArgs).2 = true ∧
    (optionsTest.parse optionsArgs).1.sc 2 = .inl (.int (-3)) ∧
    (optionsTest.parse optionsArgs).1.sc 3 = .inl (.int 3) ∧
    near ((optionsTest.parse optionsArgs).1.sc 4) (-11 / 10) = true ∧
    near ((optionsTest.parse optionsArgs).1.sc 5) (11 / 10) = true ∧
    (optionsTest.parse optionsArgs).1.sc 7 = .inl (.str "'--args=\"type=b200,serial=c00ld00d\"'".toList) ∧
    (optionsTest.parse optionsArgs).1.sc 6 = .inl (.str "\"--this is a test\"".toList) ∧
    (optionsTest.parse optionsArgs).1.numPosArgs = 3 ∧
    (optionsTest.parse optionsArgs).1.pos = ["po0", "po1", "po2"].map String.toList ∧
    (optionsTest.parse optionsArgs).1.getPosArg 1 = .ok "po1".toList := by
  decide +kernel

/-- examples/Format_Test.cxx:103-113: "Last call is supposed to throw a BadFormat exception that complains about too many
arguments".  It does not: the second argument is ignored. -/
theorem tooManyArguments : (((Fmt.mk' "%0\n".toList).addI 3).addI 4).stream = .ok "3\n".toList := by decide +kernel

/-- examples/Format_Test.cxx:53-72: Avogadro's number (the double nearest to 6.02214076e23).  The output shown in
include/Format.hxx:136-137 is `6.022e+23` and ` 602.214e21`; the precision and the sign of the exponent are those of
another version. -/
theorem avogadro :
    binary64.rnd (602214076 * 10 ^ 15) = some 602214075999999987023872 ∧
    ((Fmt.mk' "Avogadro's number: %0\n".toList).addF binary64 100 '.' (.fin false 602214075999999987023872) 's').map
      (·.map Fmt.str) = some (.ok (.ok "Avogadro's number: 6.022141e+23\n".toList)) ∧
    ((Fmt.mk' "Avogadro's number: %0\n".toList).addF binary64 100 '.' (.fin false 602214075999999987023872) 'e').map
      (·.map Fmt.str) = some (.ok (.ok "Avogadro's number:  602.214e+21\n".toList)) := by decide +kernel

/-- examples/FormatExample.cxx:52-61. -/
theorem bigNumbers :
    (((Fmt.mk' "Two ways to see a big number [%0] and [%1]\n".toList).addI 123456789 8).addI 123456789 14 ',').stream =
      .ok "Two ways to see a big number [123456789] and [   123,456,789]\n".toList ∧
    (((Fmt.mk' "Hard to read [%0], easy to read [%1]\n".toList).addU 0xfedcba9876543210 'x' 30).addU
      0xfedcba9876543210 'X' 28 '_' 4).stream =
      .ok "Hard to read [0x00000000000000fedcba9876543210], easy to read [0x0000_0000_0000_FEDC_BA98_7654_3210]\n".toList := by decide +kernel

/-- examples/UtilsExample.cxx:44-61. -/
theorem utils :
    squashSpaces "This is a  twospace   threespace test   ".toList = .ok "This is a twospace threespace test".toList ∧
    split "This, is a,test,one,two,,three ".toList " ,".toList true =
      .ok (["This", "is", "a", "test", "one", "two", "three"].map String.toList) := by decide +kernel

/-- examples/OptionsExample.cxx:93. -/
theorem optionsString :
    (match (Examples.options fun _ => .int 0).parseString "-i 3 -s \"this is a test\"".toList with
      | .ok (o, b) => b && decide (o.sc 3 = .int 3) && decide (o.sc 2 = .str "this is a test".toList)
      | _ => false) = true := by decide +kernel

open _root_.SoDa.Prop in
/-- test/test1.yaml = examples/test1.yaml. -/
def test1 : Y :=
  let s (t : String) : Y := .scalar t.toList
  .map [(s "FLINTSTONE", .map [(s "FRED", s "guy"), (s "WILMA", s "gal"), (s "PEBBLES", s "girl")]),
    (s "RUBBLE", .map [(s "BARNEY", s "guy"), (s "BETTY", s "gal"), (s "BAMBAM", s "boy")]),
    (s "NUMBERS", .seq [s "1", s "2", s "3"])]

/-- The program on that file.  The key `NUMBERS` is lost (C55). -/
theorem yamlTest :
    Examples.yamlMain (fun f => if f = "test1.yaml".toList then .doc test1 else .badFile f)
      (["PropertyTreeYAML_Test", "test1.yaml"].map String.toList) =
      ⟨.exit 0, ("<<<PROPLIST>>>\n1\n2\n3\n<<<DICTIONARY>>>\nFLINTSTONE:  \n<<<DICTIONARY>>>\n  FRED:  guy\n  PEBBLES:  girl\n" ++
        "  WILMA:  gal\nRUBBLE:  \n<<<DICTIONARY>>>\n  BAMBAM:  boy\n  BARNEY:  guy\n  BETTY:  gal\n").toList,
        "\n\n\nREADY?\n\n\n".toList, []⟩ := by
  decide +kernel

/-- Without a file name, and with one that cannot be opened. -/
theorem yamlTestErrors :
    (Examples.yamlMain (fun f => .badFile f) ["PropertyTreeYAML_Test".toList]).fin = .exit (-1) ∧
    (Examples.yamlMain (fun f => .badFile f) (["PropertyTreeYAML_Test", "none.yaml"].map String.toList)).fin = .terminate := by
  decide +kernel

end SoDa.RepoTests
