import Verif.Model.Json
import Verif.Spec.Utf8

/-!
# JSON as text

JSON text is UTF-8 (RFC 8259, 8.1).  `nlohmann::json::dump` throws `type_error` 316 if a string of the
value is not well-formed UTF-8.
-/

namespace Joque

/-- `s` is one of the strings of the value, or a name of a member. -/
inductive StrOf (s : Str) : Json → Prop
  | here : StrOf s (.str s)
  | arr {l : List Json} {j : Json} : j ∈ l → StrOf s j → StrOf s (.arr l)
  | key {l : List (Str × Json)} {j : Json} : (s, j) ∈ l → StrOf s (.obj l)
  | member {l : List (Str × Json)} {k : Str} {j : Json} : (k, j) ∈ l → StrOf s j → StrOf s (.obj l)

/-- `dump()` gives a text. -/
def Json.Printable (j : Json) : Prop := ∀ s, StrOf s j → IsUtf8 s

end Joque
