import Verif.Model.Basic

/-!
# UTF-8

A `Str` as the bytes of a text: a character stands for the byte that is its number.
-/

namespace Joque

/-- the bytes of one character, by the definition that comes with Lean -/
def utf8 (c : Char) : List Nat := (String.utf8EncodeChar c).map UInt8.toNat

/-- the bytes of a text -/
def encodeUtf8 (t : List Char) : List Nat := t.flatMap utf8

/-- These are the bytes of the text `t`. -/
def Encodes (s : Str) (t : List Char) : Prop := s.map Char.toNat = encodeUtf8 t

/-- These are the bytes of some text: well-formed UTF-8. -/
def IsUtf8 (s : Str) : Prop := ∃ t, Encodes s t

/-- a byte that is not the first of its character -/
def ContByte (c : Char) : Prop := 0x80 ≤ c.toNat ∧ c.toNat < 0xC0

end Joque
