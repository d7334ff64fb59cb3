import Verif.Model.Format

/-!
# JSON export (src/json.cpp)

`nlohmann::json` is a library; a value is modelled as a tree.  An object keeps its members in the order of
first assignment (the library sorts by key, which makes no difference to looking them up).
-/

namespace Joque

/-- `nlohmann::json` (src/json.cpp:6-31), as far as joque uses it. -/
inductive Json where
  | null
  | num (i : Int)
  | str (s : Str)
  | arr (l : List Json)
  | obj (l : List (Str × Json))

/-- Assign the member `k` in a list of members (`j[key] = …`, src/json.cpp:6-31). -/
def setMember (k : Str) (v : Json) : List (Str × Json) → List (Str × Json)
  | [] => [(k, v)]
  | (k', v') :: l => if k' = k then (k, v) :: l else (k', v') :: setMember k v l

/-- `j[k] = v` (src/json.cpp:6-31): a null value becomes an object (any other kind throws: not modelled, it
cannot occur). -/
def Json.set (j : Json) (k : Str) (v : Json) : Json :=
  match j with
  | .obj l => .obj (setMember k v l)
  | _ => .obj [(k, v)]

/-- the `type_e` enumerators (include/joque/run_result.hpp:15-19) as the library stores enums -/
def ChunkType.toInt : ChunkType → Int
  | .error => 0
  | .standard => 1

/-- `run_status` (include/joque/records.hpp:18-24) as the library stores enums -/
def Status.toInt : Status → Int
  | .ok => 0
  | .skip => 1
  | .depf => 2
  | .fail => 3

/-- `to_json(output_chunk)` (src/json.cpp:6-11, include/joque/run_result.hpp:24-28) -/
def Chunk.toJson (c : Chunk) : Json :=
  (Json.null.set "type".toList (.num c.type.toInt)).set "data".toList (.str c.data)

/-- `to_json(run_record)` (src/json.cpp:13-24, include/joque/records.hpp:55-64); `fmt` shows a time point
with `{}`, `clock` gives the readings -/
def RunRecord.toJson (fmt : Int → Str) (clock : Nat → Int) (r : RunRecord) : Json :=
  (((((Json.null.set "name".toList (.str r.name)).set "status".toList (.num r.status.toInt)).set
    "retcode".toList (.num r.retcode)).set "start".toList (.str (fmt (clock r.start)))).set
    "end".toList (.str (fmt (clock r.end)))).set "output".toList (.arr (r.output.map Chunk.toJson))

/-- `to_json(exec_record)` (src/json.cpp:26-31, include/joque/records.hpp:84-90) -/
def ExecRecord.toJson (fmt : Int → Str) (clock : Nat → Int) (er : ExecRecord) : Json :=
  (((((Json.null.set (Status.name .ok) (.num er.stats.ok)).set (Status.name .skip) (.num er.stats.skip)).set
    (Status.name .depf) (.num er.stats.depf)).set (Status.name .fail) (.num er.stats.fail)).set
    "total_count".toList (.num er.totalCount)).set
    "runs".toList (.arr (er.runs.map (RunRecord.toJson fmt clock)))

end Joque
