import Verif.Model.Json
import Verif.Spec.Verdict

/-! # What a reader of the JSON export sees -/

namespace Joque

/-- the value of a key -/
def Json.at (j : Json) (k : String) : Option Json :=
  match j with
  | .obj l => (l.find? fun p => p.1 = k.toList).map Prod.snd
  | _ => none

/-- a text -/
def Json.text : Json → Option Str
  | .str s => some s
  | _ => none

/-- a number -/
def Json.int : Json → Option Int
  | .num i => some i
  | _ => none

/-- a list -/
def Json.list : Json → Option (List Json)
  | .arr l => some l
  | _ => none

/-- the status with a number (include/joque/records.hpp:18-24: OK, SKIP, DEPF, FAIL) -/
def statusOf (i : Int) : Option Status :=
  if i = 0 then some .ok else if i = 1 then some .skip else if i = 2 then some .depf
  else if i = 3 then some .fail else none

/-- the kind of output with a number (include/joque/run_result.hpp:15-19: ERROR, STANDARD) -/
def chunkTypeOf (i : Int) : Option ChunkType :=
  if i = 0 then some .error else if i = 1 then some .standard else none

/-- a piece of output -/
def Json.chunk (j : Json) : Option Chunk := do
  let t ← (← j.at "type").int
  let d ← (← j.at "data").text
  let t ← chunkTypeOf t
  pure { data := d, type := t }

/-- a task: its name, its result, and when it started and ended -/
def Json.run (j : Json) : Option (Str × Verdict × Str × Str) := do
  let n ← (← j.at "name").text
  let s ← (← j.at "status").int
  let s ← statusOf s
  let c ← (← j.at "retcode").int
  let o ← (← j.at "output").list
  let o ← o.mapM Json.chunk
  let a ← (← j.at "start").text
  let e ← (← j.at "end").text
  pure (n, ⟨s, c, o⟩, a, e)

/-- what the export says about an execution -/
structure JsonReport where
  ok : Int
  skip : Int
  depf : Int
  fail : Int
  total : Int
  runs : List (Str × Verdict × Str × Str)
deriving DecidableEq

/-- Read the export; `none`: something is missing or of the wrong kind. -/
def readJson (j : Json) : Option JsonReport := do
  let a ← (← j.at "OK").int
  let b ← (← j.at "SKIP").int
  let c ← (← j.at "DEPF").int
  let d ← (← j.at "FAIL").int
  let t ← (← j.at "total_count").int
  let rs ← (← j.at "runs").list
  let rs ← rs.mapM Json.run
  pure ⟨a, b, c, d, t, rs⟩

end Joque
