import Verif.Spec.Utf8
import Mathlib.Data.List.Infix
import Mathlib.Tactic.Linarith

/-! # UTF-8: characters are found again in their bytes -/

namespace Joque

def contNat (n : Nat) : Prop := 0x80 ≤ n ∧ n < 0xC0

theorem utf8_toNat_lt (c : Char) : c.toNat < 0x110000 := by
  have := c.valid
  simp only [UInt32.isValidChar, Nat.isValidChar] at this
  show c.val.toNat < _
  omega

theorem utf8_eq (c : Char) : utf8 c =
    if c.toNat < 0x80 then [c.toNat]
    else if c.toNat < 0x800 then [c.toNat / 64 + 0xC0, c.toNat % 64 + 0x80]
    else if c.toNat < 0x10000 then [c.toNat / 4096 + 0xE0, c.toNat / 64 % 64 + 0x80, c.toNat % 64 + 0x80]
    else [c.toNat / 262144 + 0xF0, c.toNat / 4096 % 64 + 0x80, c.toNat / 64 % 64 + 0x80,
      c.toNat % 64 + 0x80] := by
  have hv := utf8_toNat_lt c
  have hn : c.val.toNat = c.toNat := rfl
  unfold utf8 String.utf8EncodeChar
  simp only [hn]
  generalize c.toNat = n at *
  have e1 : (n ≤ 0x7f) = (n < 0x80) := by simp; omega
  have e2 : (n ≤ 0x7ff) = (n < 0x800) := by simp; omega
  have e3 : (n ≤ 0xffff) = (n < 0x10000) := by simp; omega
  simp only [e1, e2, e3]
  split
  · simp; omega
  · split
    · simp; omega
    · split
      · simp; omega
      · simp; omega

/-- a first byte and continuation bytes -/
theorem utf8_shape (c : Char) : ∃ h t, utf8 c = h :: t ∧ ¬ contNat h ∧ (∀ x ∈ t, contNat x) ∧
    (h < 0x80 → t = [] ∧ h = c.toNat) := by
  rw [utf8_eq]
  have hv := utf8_toNat_lt c
  unfold contNat
  split
  · exact ⟨_, _, rfl, by omega, by simp, fun _ => ⟨rfl, rfl⟩⟩
  · split
    · exact ⟨_, _, rfl, by omega, by simp; omega, by omega⟩
    · split
      · exact ⟨_, _, rfl, by omega, by simp; omega, by omega⟩
      · exact ⟨_, _, rfl, by omega, by simp; omega, by omega⟩

theorem utf8_inj {c d : Char} (h : utf8 c = utf8 d) : c = d := by
  have : c.toNat = d.toNat := by
    rw [utf8_eq, utf8_eq] at h
    split at h <;> split at h <;> (try split at h) <;> (try split at h) <;> (try split at h) <;>
      (try split at h) <;> simp at h <;> omega
  exact Char.toNat_inj.1 this

/-- no character's bytes begin another's -/
theorem utf8_prefix {c d : Char} {z : List Nat} (h : utf8 d = utf8 c ++ z) : z = [] := by
  have hc := utf8_toNat_lt c
  have hd := utf8_toNat_lt d
  have hl : (utf8 d).length = (utf8 c).length := by
    rw [utf8_eq, utf8_eq] at h ⊢
    split at h <;> split at h <;> (try split at h) <;> (try split at h) <;> (try split at h) <;>
      (try split at h) <;> simp at h <;> first | omega | simp [*]
  rw [h, List.length_append] at hl
  exact List.length_eq_zero_iff.1 (by omega)

theorem encode_append (a b : List Char) : encodeUtf8 (a ++ b) = encodeUtf8 a ++ encodeUtf8 b := by
  simp [encodeUtf8]

theorem encode_cons (c : Char) (b : List Char) : encodeUtf8 (c :: b) = utf8 c ++ encodeUtf8 b := by
  simp [encodeUtf8]

theorem encode_head {t : List Char} {n : Nat} {l : List Nat} (h : encodeUtf8 t = n :: l) : ¬ contNat n := by
  cases t with
  | nil => simp [encodeUtf8] at h
  | cons c t =>
    obtain ⟨x, y, h1, h2, _⟩ := utf8_shape c
    rw [encode_cons, h1] at h
    simp at h
    rw [← h.1]; exact h2

/-- cutting before a byte that is not a continuation byte cuts between two characters -/
theorem encode_cut {t : List Char} {x y : List Nat} (h : encodeUtf8 t = x ++ y)
    (hy : ∀ n l, y = n :: l → ¬ contNat n) : ∃ a b, t = a ++ b ∧ x = encodeUtf8 a ∧ y = encodeUtf8 b := by
  induction t generalizing x with
  | nil =>
    simp [encodeUtf8] at h
    exact ⟨[], [], rfl, by simp [h, encodeUtf8], by simp [h, encodeUtf8]⟩
  | cons c t ih =>
    cases x with
    | nil => exact ⟨[], c :: t, rfl, rfl, h.symm⟩
    | cons n x =>
      rw [encode_cons] at h
      rcases List.append_eq_append_iff.1 h with ⟨x', h1, h2⟩ | ⟨z, h1, h2⟩
      · obtain ⟨a, b, rfl, h3, h4⟩ := ih h2
        exact ⟨c :: a, b, rfl, by rw [h1, encode_cons, h3], h4⟩
      · cases z with
        | nil =>
          rw [List.append_nil] at h1
          rw [List.nil_append] at h2
          exact ⟨[c], t, rfl, by rw [← h1]; simp [encodeUtf8], h2⟩
        | cons m z =>
          obtain ⟨hh, tt, h3, _, h4, _⟩ := utf8_shape c
          rw [h3] at h1
          simp at h1
          exact absurd (h4 m (by rw [h1.2]; simp)) (hy m _ h2)

/-- a text that begins with the bytes of another begins with the other -/
theorem encode_prefix {b f : List Char} {y : List Nat} (h : encodeUtf8 b = encodeUtf8 f ++ y) :
    ∃ e, b = f ++ e ∧ y = encodeUtf8 e := by
  induction f generalizing b with
  | nil => exact ⟨b, rfl, by simpa [encodeUtf8] using h.symm⟩
  | cons c f ih =>
    cases b with
    | nil =>
      obtain ⟨x, z, h1, _⟩ := utf8_shape c
      rw [encode_cons, h1] at h
      simp [encodeUtf8] at h
    | cons d b =>
      rw [encode_cons, encode_cons, List.append_assoc] at h
      have hz : utf8 c = utf8 d ∧ encodeUtf8 b = encodeUtf8 f ++ y := by
        rcases List.append_eq_append_iff.1 h with ⟨z, h1, h2⟩ | ⟨z, h1, h2⟩
        · have := utf8_prefix h1
          subst this
          exact ⟨by simpa using h1, by simpa using h2⟩
        · have := utf8_prefix h1
          subst this
          exact ⟨by simpa using h1.symm, by simpa using h2.symm⟩
      obtain ⟨e, rfl, h3⟩ := ih hz.2
      exact ⟨e, by rw [utf8_inj hz.1, List.cons_append], h3⟩

theorem encode_inj {a b : List Char} (h : encodeUtf8 a = encodeUtf8 b) : a = b := by
  obtain ⟨e, rfl, h1⟩ := encode_prefix (b := a) (f := b) (y := []) (by simpa using h)
  cases e with
  | nil => simp
  | cons d e =>
    obtain ⟨x, y, h2, _⟩ := utf8_shape d
    rw [encode_cons, h2] at h1
    simp at h1

/-- a text is found among the bytes of another exactly where it is found among its characters -/
theorem encode_infix {f t : List Char} : encodeUtf8 f <:+: encodeUtf8 t ↔ f <:+: t := by
  constructor
  · rintro ⟨x, y, h⟩
    cases f with
    | nil => exact List.nil_infix
    | cons c f =>
      obtain ⟨hh, tt, h1, h2, _⟩ := utf8_shape c
      have hlead : ∀ n l, encodeUtf8 (c :: f) ++ y = n :: l → ¬ contNat n := by
        intro n l h3
        rw [encode_cons, h1] at h3
        simp at h3
        rw [← h3.1]; exact h2
      obtain ⟨a, b, rfl, h3, h4⟩ := encode_cut (x := x) (y := encodeUtf8 (c :: f) ++ y)
        (by rw [← h, List.append_assoc]) hlead
      obtain ⟨e, rfl, _⟩ := encode_prefix h4.symm
      exact ⟨a, e, by simp⟩
  · rintro ⟨x, y, rfl⟩
    exact ⟨encodeUtf8 x, encodeUtf8 y, by simp [encode_append]⟩

/-! ## Strings of bytes -/

theorem Encodes.inj {s : Str} {t t' : List Char} (h : Encodes s t) (h' : Encodes s t') : t = t' :=
  encode_inj (h.symm.trans h')

theorem Encodes.bytes_inj {s s' : Str} {t : List Char} (h : Encodes s t) (h' : Encodes s' t) : s = s' :=
  (List.map_injective_iff.2 fun _ _ h => Char.toNat_inj.1 h) (h.trans h'.symm)

theorem Encodes.append {x y : Str} {t u : List Char} (hx : Encodes x t) (hy : Encodes y u) :
    Encodes (x ++ y) (t ++ u) := by
  unfold Encodes at *
  rw [List.map_append, encode_append, hx, hy]

theorem isUtf8_nil : IsUtf8 [] := ⟨[], rfl⟩

theorem IsUtf8.append {x y : Str} (hx : IsUtf8 x) (hy : IsUtf8 y) : IsUtf8 (x ++ y) := by
  obtain ⟨t, ht⟩ := hx
  obtain ⟨u, hu⟩ := hy
  exact ⟨_, ht.append hu⟩

theorem isUtf8_singleton {c : Char} (hc : c.toNat < 0x80) : IsUtf8 [c] := by
  refine ⟨[c], ?_⟩
  simp [Encodes, encodeUtf8, utf8_eq, hc]

/-- cutting before a byte that is not a continuation byte -/
theorem isUtf8_cut {x y : Str} (h : IsUtf8 (x ++ y)) (hy : ∀ c l, y = c :: l → ¬ ContByte c) :
    IsUtf8 x ∧ IsUtf8 y := by
  obtain ⟨t, ht⟩ := h
  unfold Encodes at ht
  rw [List.map_append] at ht
  obtain ⟨a, b, rfl, h1, h2⟩ := encode_cut ht.symm (by
    intro n l hn
    cases y with
    | nil => simp at hn
    | cons c y =>
      simp at hn
      rw [← hn.1]
      exact hy c y rfl)
  exact ⟨⟨a, h1⟩, ⟨b, h2⟩⟩

theorem isUtf8_head {c : Char} {y : Str} (h : IsUtf8 (c :: y)) : ¬ ContByte c := by
  obtain ⟨t, ht⟩ := h
  exact encode_head ht.symm

/-- where a text can be cut: not before a continuation byte -/
theorem isUtf8_cut_iff {x y : Str} (h : IsUtf8 (x ++ y)) :
    IsUtf8 x ↔ ∀ c l, y = c :: l → ¬ ContByte c := by
  constructor
  · rintro ⟨u, hu⟩ c l rfl
    obtain ⟨t, ht⟩ := h
    unfold Encodes at ht hu
    rw [List.map_append, hu] at ht
    obtain ⟨e, rfl, h3⟩ := encode_prefix ht.symm
    exact isUtf8_head ⟨e, h3⟩
  · intro hy
    exact (isUtf8_cut h hy).1

/-- an ASCII byte is a character, wherever it is -/
theorem isUtf8_ascii_iff {x y : Str} {c : Char} (hc : c.toNat < 0x80) :
    IsUtf8 (x ++ c :: y) ↔ IsUtf8 x ∧ IsUtf8 y := by
  constructor
  · intro h
    obtain ⟨h1, h2⟩ := isUtf8_cut h (by
      intro d l hd
      simp at hd
      rw [← hd.1]; unfold ContByte; omega)
    refine ⟨h1, ?_⟩
    obtain ⟨t, ht⟩ := h2
    cases t with
    | nil => simp [Encodes, encodeUtf8] at ht
    | cons d t =>
      obtain ⟨hh, tt, h3, _, _, h4⟩ := utf8_shape d
      unfold Encodes at ht
      rw [encode_cons, h3] at ht
      simp at ht
      have := h4 (by omega)
      rw [this.1, List.nil_append] at ht
      exact ⟨t, ht.2⟩
  · rintro ⟨h1, h2⟩
    exact h1.append ((isUtf8_singleton hc).append h2)

theorem isUtf8_cons_iff {y : Str} {c : Char} (hc : c.toNat < 0x80) : IsUtf8 (c :: y) ↔ IsUtf8 y := by
  have := isUtf8_ascii_iff (x := []) (y := y) hc
  simpa [isUtf8_nil] using this

def Ascii (s : Str) : Prop := ∀ c ∈ s, c.toNat < 0x80

theorem isUtf8_ascii_append {a y : Str} (ha : Ascii a) : IsUtf8 (a ++ y) ↔ IsUtf8 y := by
  induction a with
  | nil => rfl
  | cons c a ih =>
    rw [List.cons_append, isUtf8_cons_iff (ha c (by simp)), ih fun d hd => ha d (by simp [hd])]

theorem isUtf8_mid {x a y : Str} (ha : Ascii a) (hne : a ≠ []) :
    IsUtf8 (x ++ (a ++ y)) ↔ IsUtf8 x ∧ IsUtf8 y := by
  cases a with
  | nil => exact absurd rfl hne
  | cons c a =>
    rw [List.cons_append, isUtf8_ascii_iff (ha c (by simp)),
      isUtf8_ascii_append fun d hd => ha d (by simp [hd])]

theorem isUtf8_append_ascii {x a : Str} (ha : Ascii a) : IsUtf8 (x ++ a) ↔ IsUtf8 x := by
  by_cases hne : a = []
  · subst hne; simp
  · have := isUtf8_mid (x := x) (y := []) ha hne
    simpa [isUtf8_nil] using this

theorem Ascii.isUtf8 {a : Str} (ha : Ascii a) : IsUtf8 a := by
  have := (isUtf8_append_ascii (x := []) ha).2 isUtf8_nil
  simpa using this

/-- replacing ASCII characters by ASCII text -/
theorem isUtf8_replace {f : Char → Str}
    (hf : ∀ c, f c = [c] ∨ (c.toNat < 0x80 ∧ Ascii (f c) ∧ f c ≠ [])) (p s : Str) :
    IsUtf8 (p ++ s.flatMap f) ↔ IsUtf8 (p ++ s) := by
  induction s generalizing p with
  | nil => simp
  | cons c s ih =>
    rw [List.flatMap_cons]
    rcases hf c with h | ⟨h1, h2, h3⟩
    · rw [h]
      have := ih (p ++ [c])
      simpa using this
    · rw [isUtf8_mid h2 h3, isUtf8_ascii_iff h1]
      have := ih []
      rw [List.nil_append, List.nil_append] at this
      rw [this]

end Joque
