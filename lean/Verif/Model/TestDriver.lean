import Verif.Model.TestTools
import Verif.Model.TestReader

/-!
# Model of the parser test driver (test/parser/parser_test.go:69-172)

`updateTestsOnParser` writes reference files, `performTestsOnParser` runs the test cases against them.
Simplified: the parser is given by what its `Parse` answers to each input (a call that does not return has no model
here); creating and writing files never fails; the messages passed to `t.Errorf` are left out, only the mark "failed"
is kept; an `error` is its message (the driver compares messages whenever two errors are not the same object).
-/

namespace LL1
namespace TestTools

/-- `ParserTestCase` with its `ParserTestCaseOutput` — parser_test.go:68-77.  `err` is the message of the expected
error. -/
structure ParserTestCase where
  input : Str
  parseTreeFile : Str
  namingMapFile : Str
  err : Option Str

/-- The file system: the content of every file that exists. -/
abbrev Files := Str → Option Str

/-- `os.Create`: the file is there and empty. -/
def Files.create (fs : Files) (path : Str) : Files := fun q => if q = path then some [] else fs q

/-- A write at the start of an open file: it covers the front of what is there. -/
def Files.write (fs : Files) (path text : Str) : Files :=
  fun q => if q = path then (fs q).map fun old => text ++ old.drop text.length else fs q

/-- How a driver ends: it came to its end (`failed`: the test is marked), or `Parse` panicked. -/
inductive DriverEnd where
  | finished (failed : Bool)
  | panicked (p : PPanic)

/-- `updateTestsOnParser` — parser_test.go:81-117. -/
def updateTestsOnParser (parse : Str → Outcome) : List ParserTestCase → Files → Files × DriverEnd
  | [], fs => (fs, .finished false)
  | test :: tests, fs =>
    if test.err ≠ none then updateTestsOnParser parse tests fs
    else
      let fs := (fs.create test.parseTreeFile).create test.namingMapFile
      match parse test.input with
      | .panic p => (fs, .panicked p)
      | .err _ => (fs, .finished true)
      | .ok rest resnt =>
        updateTestsOnParser parse tests
          ((fs.write test.parseTreeFile (fmtNode rest)).write test.namingMapFile (fmtNames resnt))

/-- `tc.ReaderContentMustBeEqual(t, file, &sb)` for a file and a buffer with these contents: is the test marked? —
testcommon.go:69-101; the fuel covers both contents. -/
def contentFails (ref res : Str) : Bool :=
  readerContentMustBeEqual contentReader contentReader (ref.length + res.length + 1) ref res ≠ some true

/-- `performTestsOnParser` — parser_test.go:119-172; `failed`: the mark so far. -/
def performTestsOnParser (parse : Str → Outcome) (fs : Files) : List ParserTestCase → Bool → DriverEnd
  | [], failed => .finished failed
  | test :: tests, failed =>
    match test.err with
    | none =>
      match fs test.parseTreeFile, fs test.namingMapFile with
      | some reft, some refnt =>
        match parse test.input with
        | .panic p => .panicked p
        | .err _ => .finished true
        | .ok rest resnt =>
          performTestsOnParser parse fs tests
            (failed || contentFails reft (fmtNode rest) || contentFails refnt (fmtNames resnt))
      | _, _ => .finished true
    | some msg =>
      match parse test.input with
      | .panic p => .panicked p
      | .ok _ _ => .finished true
      | .err e => if e.render ≠ msg then .finished true else performTestsOnParser parse fs tests failed

end TestTools
end LL1
