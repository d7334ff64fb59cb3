import Verif.Spec.Xml

/-! # What a reader of a JUnit report sees -/

namespace Joque

/-- the name of a test and whether it is marked as failed -/
def Xml.testcase : Xml → Option (Str × Bool)
  | .elem tag attrs children =>
    if tag = "testcase".toList then
      (attrs.lookup "name".toList).map fun n => (n, children.any fun
        | .elem tag _ _ => tag = "failure".toList)
    else none

/-- The tests of a report, in order; `none`: not a report. -/
def readReport (doc : Str) : Option (List (Str × Bool)) :=
  match parseXml doc with
  | some (.elem tag _ children) =>
    if tag = "testsuite".toList then children.mapM Xml.testcase else none
  | none => none

end Joque
