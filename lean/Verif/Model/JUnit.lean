import Verif.Model.Format

/-! # JUnit report (src/junit.cpp) -/

namespace Joque

/-- constructor of `xml_node` (src/junit.cpp:25-35) -/
def xmlOpen (name : Str) (args : List Str) : Str :=
  ['<'] ++ name ++ args.flatMap (fun a => [' '] ++ a) ++ ['>', '\n']

/-- destructor of `xml_node` (src/junit.cpp:37-40) -/
def xmlClose (name : Str) : Str := ['<', '/'] ++ name ++ ['>', '\n']

/-- `attr` (src/junit.cpp:43-48): the value is inserted as it is -/
def attr (name value : Str) : Str := name ++ ['=', '"'] ++ value ++ ['"']

/-- the element of one task (src/junit.cpp:81-94); `secs` shows a duration as a number of seconds -/
def junitCase (secs : RunRecord → Str) (r : RunRecord) : Str :=
  xmlOpen "testcase".toList [attr "name".toList r.name, attr "time".toList (secs r)]
    ++ (if r.retcode ≠ 0 then "<failure message=\"task failed\"/>\n".toList else [])
    ++ xmlClose "testcase".toList

/-- `generate_junit_xml` (src/junit.cpp:60-95); `stamp` is the time of the call.  `none`: undefined
behaviour in `runtime_sum`.  `{}` shows `std::chrono::seconds` with the unit. -/
def junitXml (clock : Nat → Int) (secs : RunRecord → Str) (stamp tsName : Str) (er : ExecRecord) :
    Option Str :=
  (runtimeSum clock er).map fun t =>
    "<?xml version=\"1.0\" encoding=\"UTF-8\"?>\n".toList
      ++ xmlOpen "testsuite".toList
        [attr "name".toList tsName, attr "tests".toList (showNat er.runs.length),
          attr "failures".toList (showNat (er.stats.get .fail)),
          attr "time".toList (showInt t ++ ['s']), attr "timestamp".toList stamp]
      ++ er.runs.flatMap (junitCase secs) ++ xmlClose "testsuite".toList

end Joque
