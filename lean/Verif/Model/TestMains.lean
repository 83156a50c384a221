import Verif.Model.CTest
import Verif.Model.StdMap
/-!
The programs test/SplitTest.cxx, test/FormatHexTest.cxx, test/FormatNaN.cxx, test/FormatTest.cxx and test/OptionsTest.cxx, with the
answers of the library as parameters: what they conclude from *any* answers.  (With the library as it is: Props/RepoTests.lean.)

* Everything a program writes to `std::cout` and `std::cerr` is one text, which CTest reads; the order of the two streams does not
  matter below.
* `none`: an element outside of a vector is read.
-/
namespace SoDa.CTest

/-- test/CMakeLists.txt:79-82 -/
def splitTest : Test := ⟨none, some "FAIL".toList⟩
/-- FastFormatTest, FormatHexTest, FormatNaN and OptionsTestSimple, test/CMakeLists.txt:60-71 -/
def plainTest : Test := ⟨none, none⟩

/-! ### test/SplitTest.cxx -/

/-- test/SplitTest.cxx:4 -/
def commaTest : Str := "this,that,the other thing".toList
/-- test/SplitTest.cxx:5 -/
def commaRef : List Str := ["this", "that", "the other thing"].map String.toList

/-- test/SplitTest.cxx:18 and 25 -/
def splitMsg (fn : String) (got : Str) (i : Nat) (ref : Str) : Str :=
  fn.toList ++ " [".toList ++ commaTest ++ "] got [".toList ++ got ++ "] for arg ".toList ++ Nat.toDigits 10 i ++
    " should have been [".toList ++ ref ++ "]\n".toList

/-- The first loop, test/SplitTest.cxx:16-21, from `i` on: what is written and `pass`. -/
def vecLoop (sv : List Str) : Nat → List Str → Option (Str × Bool)
  | _, [] => some ([], true)
  | i, ref :: refs =>
    match sv[i]? with
    | none => none
    | some got => (vecLoop sv (i + 1) refs).map fun (out, pass) =>
      if got ≠ ref then (splitMsg "splitVec" got i ref ++ out, false) else (out, pass)

/-- The second loop, test/SplitTest.cxx:22-29. -/
def listLoop : Nat → List Str → Option (Str × Bool)
  | _, [] => some ([], true)
  | i, got :: sl =>
    match commaRef[i]? with
    | none => none
    | some ref => (listLoop (i + 1) sl).map fun (out, pass) =>
      if got ≠ ref then (splitMsg "Split" got i ref ++ out, false) else (out, pass)

/-- `main` of test/SplitTest.cxx:8-37: what it writes, when `splitVec` has returned `sv` and `split` has returned `sl`.  It always
returns 0. -/
def splitMain (sv sl : List Str) : Option Str :=
  match vecLoop sv 0 commaRef, listLoop 0 sl with
  | some (out1, pass1), some (out2, pass2) =>
    some (out1 ++ out2 ++ if pass1 && pass2 then "PASS\n".toList else "FAIL\n".toList)
  | _, _ => none

/-! ### test/FormatHexTest.cxx -/

/-- A `std::map` constructed from a list of pairs: of two pairs with the same key, the first one counts. -/
def initMap {W : Type} (l : List (Str × W)) : List (Str × W) :=
  l.foldl (fun m e => match mapFind strLess e.1 m with
    | some _ => m
    | none => mapSet strLess e.1 e.2 m) []

/-- The four lists, test/FormatHexTest.cxx:24-59; patterns with a value and a width. -/
def hexList : List (Str × Nat × Nat) :=
  [("0x0".toList, 0, 0), ("0x000".toList, 0, 3), ("0x0000".toList, 0, 4), ("0x100".toList, 0x100, 0), ("0x0100".toList, 0x100, 4),
    ("0x00000100".toList, 0x100, 8), ("0x0000000000000100".toList, 0x100, 16)]
def decList : List (Str × Nat × Nat) :=
  [("0".toList, 0, 0), ("  0".toList, 0, 3), ("100".toList, 100, 0), (" 100".toList, 100, 4), ("     100".toList, 100, 8),
    ("             100".toList, 100, 16)]
def octList : List (Str × Nat × Nat) :=
  [("0".toList, 0, 0), ("000".toList, 0, 3), ("0137".toList, 0o137, 0), ("0137".toList, 0o137, 4), ("00000137".toList, 0o137, 8),
    ("0000000000000137".toList, 0o137, 16)]
def underList : List (Str × Nat × Nat) :=
  [("0x0".toList, 0, 0), ("0x000".toList, 0, 3), ("0x100".toList, 0x100, 0), ("0x0100".toList, 0x100, 4),
    ("0x0000_0100".toList, 0x100, 8), ("0x0000_0000_0000_0100".toList, 0x100, 16)]

/-- A loop of test/FormatHexTest.cxx:62-73; `lib v w fmt sep` is the text of `Format("%0").addU(v, fmt, w, sep)`.  Once `all_ok` is
false, `testFmt` is not called any more. -/
def hexLoop (lib : Nat → Nat → Char → Char → Str) (fmt sep : Char) (m : List (Str × Nat × Nat)) (all_ok : Bool) : Bool :=
  m.foldl (fun ok e => ok && (lib e.2.1 e.2.2 fmt sep == e.1)) all_ok

/-- `main` of test/FormatHexTest.cxx:21-77: the exit code. -/
def hexMain (lib : Nat → Nat → Char → Char → Str) : Int :=
  let ok := hexLoop lib 'X' nul (initMap hexList) true
  let ok := hexLoop lib 'X' '_' (initMap underList) ok
  let ok := hexLoop lib nul nul (initMap decList) ok
  let ok := hexLoop lib 'o' nul (initMap octList) ok
  if ok then 0 else -1

/-! ### test/FormatNaN.cxx and test/FormatTest.cxx -/

/-- `main` of test/FormatNaN.cxx:8-24: the exit code. -/
def nanMain (foo : Str) : Int := if foo ≠ "ok 1.000000 inf inf  nan nan ".toList then -1 else 0

/-- `main` of test/FormatTest.cxx:89-139 without arguments: the exit code.  `big`: what `runBigTest` returns, `none` if it throws a
`SoDa::Exception`. -/
def formatMain (true_str false_str check_str : Str) (big : Option Int) : Int :=
  let bool_test := true_str == "T".toList
  let bool_test := bool_test && false_str == "F".toList
  if !bool_test then -1
  else if "00033 044,444  55,555   66666".toList ≠ check_str then -1
  else match big with
    | none => -1
    | some rval => if rval > 0 then -1 else 0

/-! ### test/OptionsTest.cxx -/

/-- The answers of the library in `testPosArgs`: what `parse` returned, the variables, and the positional arguments. -/
structure OptAnswers where
  parsed : Bool
  si_val : Int
  u_val : Int
  /-- The variables differ from -1.1 and 1.1 by more than 1e-6. -/
  f0_bad : Bool
  f1_bad : Bool
  sind_val : Str
  s_val : Str
  numPosArgs : Nat
  posArgs : List Str

/-- `testPosArgs`, test/OptionsTest.cxx:17-100: what it writes and returns.  `arglist.merge(poslist)` empties `poslist`, so the
loop in 80-97 is not entered. -/
def testPosArgs (a : OptAnswers) : Str × Bool :=
  let out : List (Bool × Str) := [
    (!a.parsed, "testPosArgs bad parse\n".toList),
    (a.si_val != -3, "testPosArgs bad si_val\n".toList),
    (a.u_val != 3, "testPosArgs bad u_val\n".toList),
    (a.f0_bad, "testPosArgs bad f0_val\n".toList),
    (a.f1_bad, "testPosArgs bad f1_val\n".toList),
    (a.sind_val != "'--args=\"type=b200,serial=c00ld00d\"'".toList,
      "testPosArgs bad value for s-ind : [".toList ++ a.sind_val ++ "]\n".toList),
    (a.s_val != "\"--this is a test\"".toList, "testPosArgs bad value for sva : [".toList ++ a.s_val ++ "]\n".toList),
    (a.numPosArgs != 3, "testPosArgs got bad arg count\n".toList),
    (a.posArgs.length != 3, "testPosArgs got bad arglist count\n".toList)]
  (((out.filter (·.1)).map (·.2)).flatten, !out.any (·.1))

/-- `main` of test/OptionsTest.cxx:102-132 without arguments: what it writes.  It always returns 0. -/
def optionsMain (a : OptAnswers) : Str :=
  "argc = 1\n".toList ++ "We are in here.\n".toList ++ (testPosArgs a).1 ++
    if (testPosArgs a).2 then "PASS\n".toList else "FAIL\n".toList

end SoDa.CTest
