import Verif.Model.ListPtr

/-! # C30: the tagged pointer remembers what it was made from -/

namespace Joque

/-- a valid address of an object with `alignof > 1` (the `static_assert`s at list_ptr.hpp:47-48) -/
def Aligned (a : Word) : Prop := a ≠ 0 ∧ a.toNat % 2 = 0

theorem low_even {a : Word} : a.toNat % 2 = 0 ↔ a.getLsbD 0 = false := by
  rw [BitVec.getLsbD, Nat.testBit_zero]; simp

theorem and_one (a : Word) : a &&& 1 = if a.getLsbD 0 then 1 else 0 := by
  apply BitVec.eq_of_getLsbD_eq
  intro i hi
  rw [BitVec.getLsbD_and]
  cases i with
  | zero => cases h : a.getLsbD 0 <;> simp
  | succ i => cases h : a.getLsbD 0 <;> simp

theorem ctlbit_ne {p : ListPtr} : p.ctlbit ≠ 0 ↔ p.raw.getLsbD 0 = true := by
  unfold ListPtr.ctlbit
  rw [and_one]
  cases h : p.raw.getLsbD 0 <;> simp

theorem not_one_low (i : Nat) (hi : i < 64) : (~~~ (1 : Word)).getLsbD i = decide (i ≠ 0) := by
  rw [BitVec.getLsbD_not]
  cases i with
  | zero => simp
  | succ i => simp [hi]

theorem pure_node {a : Word} (h : a.getLsbD 0 = false) : a &&& ~~~ 1 = a := by
  apply BitVec.eq_of_getLsbD_eq
  intro i hi
  rw [BitVec.getLsbD_and, not_one_low i hi]
  cases i with
  | zero => rw [h]; simp
  | succ i => simp

theorem pure_header {a : Word} (h : a.getLsbD 0 = false) : (a ||| 1) &&& ~~~ 1 = a := by
  apply BitVec.eq_of_getLsbD_eq
  intro i hi
  rw [BitVec.getLsbD_and, not_one_low i hi]
  cases i with
  | zero => rw [h]; simp
  | succ i => simp

theorem or_one_low (a : Word) : (a ||| 1).getLsbD 0 = true := by simp

theorem or_one_ne (a : Word) : a ||| 1 ≠ 0 := by
  intro h
  have := or_one_low a
  rw [h] at this
  simp at this

/-- **C30**, nodes. -/
theorem C30_node (a : Word) (h : Aligned a) (acc : Word → Word) :
    (ListPtr.ofNode a).type = .nodeType ∧ (ListPtr.ofNode a).getNode = a ∧
    (ListPtr.ofNode a).getHeader = 0 ∧ (ListPtr.ofNode a).findHeader acc = acc a ∧
    (ListPtr.ofNode a).match' = .tf a ∧ (ListPtr.ofNode a).isNull = false := by
  have hl := low_even.1 h.2
  have ht : (ListPtr.ofNode a).type = .nodeType := by
    unfold ListPtr.type
    rw [if_neg (show (ListPtr.ofNode a).raw ≠ 0 from h.1),
      if_neg (by rw [ctlbit_ne]; show ¬ a.getLsbD 0 = true; rw [hl]; simp)]
  have hn : (ListPtr.ofNode a).getNode = a := by
    unfold ListPtr.getNode; rw [if_pos ht]; exact pure_node hl
  have hh : (ListPtr.ofNode a).getHeader = 0 := by
    unfold ListPtr.getHeader; rw [if_neg (by rw [ht]; simp)]
  refine ⟨ht, hn, hh, ?_, ?_, ?_⟩
  · unfold ListPtr.findHeader; rw [hh, hn, if_neg (by simp), if_pos h.1]
  · unfold ListPtr.match'; rw [hh, hn, if_neg (by simp), if_pos h.1]
  · unfold ListPtr.isNull; exact decide_eq_false h.1

/-- **C30**, headers. -/
theorem C30_header (a : Word) (h : Aligned a) (acc : Word → Word) :
    (ListPtr.ofHeader a).type = .headerType ∧ (ListPtr.ofHeader a).getHeader = a ∧
    (ListPtr.ofHeader a).getNode = 0 ∧ (ListPtr.ofHeader a).findHeader acc = a ∧
    (ListPtr.ofHeader a).match' = .uf a ∧ (ListPtr.ofHeader a).isNull = false := by
  have hl := low_even.1 h.2
  have he : ListPtr.ofHeader a = ⟨a ||| 1⟩ := by unfold ListPtr.ofHeader; rw [if_pos h.1]
  rw [he]
  have ht : (ListPtr.mk (a ||| 1)).type = .headerType := by
    unfold ListPtr.type
    rw [if_neg (or_one_ne a), if_pos (by rw [ctlbit_ne]; exact or_one_low a)]
  have hh : (ListPtr.mk (a ||| 1)).getHeader = a := by
    unfold ListPtr.getHeader; rw [if_pos ht]; exact pure_header hl
  have hn : (ListPtr.mk (a ||| 1)).getNode = 0 := by
    unfold ListPtr.getNode; rw [if_neg (by rw [ht]; simp)]
  refine ⟨ht, hh, hn, ?_, ?_, ?_⟩
  · unfold ListPtr.findHeader; rw [hh, if_pos h.1]
  · unfold ListPtr.match'; rw [hh, if_pos h.1]
  · unfold ListPtr.isNull; exact decide_eq_false (or_one_ne a)

/-- **C30**, null, made in any of the three ways. -/
theorem C30_null (p : ListPtr)
    (h : p = .ofNull ∨ p = .ofNode 0 ∨ p = .ofHeader 0) (acc : Word → Word) :
    p.type = .nullType ∧ p.getNode = 0 ∧ p.getHeader = 0 ∧ p.findHeader acc = 0 ∧
    p.match' = .nothing ∧ p.isNull = true := by
  have : p = ⟨0⟩ := by
    rcases h with rfl | rfl | rfl
    · rfl
    · rfl
    · unfold ListPtr.ofHeader; simp
  subst this
  simp [ListPtr.type, ListPtr.getNode, ListPtr.getHeader, ListPtr.findHeader, ListPtr.match',
    ListPtr.isNull]

/-- **C30**, no confusion: pointers made from different things differ. -/
theorem C30_distinct (a b : Word) (ha : Aligned a) (hb : Aligned b) :
    ListPtr.ofNode a ≠ ListPtr.ofHeader b ∧
    (ListPtr.ofNode a = ListPtr.ofNode b → a = b) ∧
    (ListPtr.ofHeader a = ListPtr.ofHeader b → a = b) ∧
    ListPtr.ofNode a ≠ ListPtr.ofNull ∧ ListPtr.ofHeader a ≠ ListPtr.ofNull := by
  have hna := C30_node a ha id
  have hnb := C30_node b hb id
  have hha := C30_header a ha id
  have hhb := C30_header b hb id
  have h0 := C30_null .ofNull (.inl rfl) id
  refine ⟨fun h => ?_, fun h => ?_, fun h => ?_, fun h => ?_, fun h => ?_⟩
  · have := hna.1; rw [h, hhb.1] at this; cases this
  · have := hna.2.1; rw [h, hnb.2.1] at this; exact this.symm
  · have := hha.2.1; rw [h, hhb.2.1] at this; exact this.symm
  · have := hna.1; rw [h, h0.1] at this; cases this
  · have := hha.1; rw [h, h0.1] at this; cases this

theorem or_one_toNat {a : Word} (h : a.toNat % 2 = 0) : (a ||| 1).toNat = a.toNat + 1 := by
  rw [BitVec.toNat_or]
  show a.toNat ||| 1 = a.toNat + 1
  obtain ⟨k, hk⟩ : ∃ k, a.toNat = 2 * k := ⟨a.toNat / 2, by omega⟩
  rw [hk]
  have := Nat.two_pow_add_eq_or_of_lt (i := 1) (b := 1) (by omega) k
  rw [Nat.pow_one] at this
  exact this.symm

theorem header_raw {a : Word} (h : Aligned a) : (ListPtr.ofHeader a).raw.toNat = a.toNat + 1 := by
  have he : ListPtr.ofHeader a = ⟨a ||| 1⟩ := by unfold ListPtr.ofHeader; rw [if_pos h.1]
  rw [he]
  exact or_one_toNat h.2

/-- **C30**, comparison: `==` is equality of what the pointers were made from, `<=>` orders by
address and puts the node before the header when the header lies at the address of its node; the
null pointer is the least. -/
theorem C30_order (a b : Word) (ha : Aligned a) (hb : Aligned b) :
    ((ListPtr.ofNode a).eq (.ofNode b) = true ↔ a = b) ∧
    ((ListPtr.ofHeader a).eq (.ofHeader b) = true ↔ a = b) ∧
    (ListPtr.ofNode a).eq (.ofHeader b) = false ∧
    (ListPtr.ofNode a).spaceship (.ofNode b) = compare a.toNat b.toNat ∧
    (ListPtr.ofHeader a).spaceship (.ofHeader b) = compare a.toNat b.toNat ∧
    (ListPtr.ofNode a).spaceship (.ofHeader b) = (if a.toNat ≤ b.toNat then .lt else .gt) ∧
    ListPtr.ofNull.spaceship (.ofNode a) = .lt ∧ ListPtr.ofNull.spaceship (.ofHeader a) = .lt := by
  have hra := header_raw ha
  have hrb := header_raw hb
  have ha0 : 0 < a.toNat := Nat.pos_of_ne_zero fun h => ha.1 (BitVec.eq_of_toNat_eq h)
  have heq : ∀ p q : ListPtr, p.eq q = true ↔ p = q := by
    intro p q
    unfold ListPtr.eq
    rw [beq_iff_eq]
    exact ⟨fun h => by cases p; cases q; cases h; rfl, fun h => by rw [h]⟩
  have hd := C30_distinct a b ha hb
  have h2a := ha.2
  have h2b := hb.2
  refine ⟨⟨fun h => hd.2.1 ((heq _ _).1 h), fun h => (heq _ _).2 (by rw [h])⟩,
    ⟨fun h => hd.2.2.1 ((heq _ _).1 h), fun h => (heq _ _).2 (by rw [h])⟩, ?_, rfl, ?_, ?_, ?_, ?_⟩
  · cases h : (ListPtr.ofNode a).eq (.ofHeader b) with
    | false => rfl
    | true => exact absurd ((heq _ _).1 h) hd.1
  · unfold ListPtr.spaceship
    rw [hra, hrb, Nat.compare_eq_ite_lt, Nat.compare_eq_ite_lt]
    simp only [Nat.add_lt_add_iff_right]
  · unfold ListPtr.spaceship
    rw [hrb]
    show compare a.toNat (b.toNat + 1) = _
    by_cases h : a.toNat ≤ b.toNat
    · rw [if_pos h]; exact Nat.compare_eq_lt.2 (by omega)
    · rw [if_neg h]; exact Nat.compare_eq_gt.2 (by omega)
  · exact Nat.compare_eq_lt.2 ha0
  · unfold ListPtr.spaceship
    rw [hra]
    exact Nat.compare_eq_lt.2 (Nat.succ_pos _)

example : Aligned 0x7ffe10 ∧ (ListPtr.ofHeader 0x7ffe10).raw = 0x7ffe11 ∧
    (ListPtr.ofHeader 0x7ffe10).getHeader = 0x7ffe10 := by
  refine ⟨⟨by decide, by decide⟩, by decide +kernel, by decide +kernel⟩

/-- alignment is needed: an odd node address would be taken for a header -/
example : (ListPtr.ofNode 0x7ffe11).type = .headerType := by decide +kernel

end Joque
