import Mathlib.Tactic.Tauto
import Verif.Model.Basic
import Verif.Spec.Graph

/-! Lemmas about the address-ordered sets. -/

namespace Joque

@[simp] theorem mem_sinsert {x y : Nat} {l : List Nat} : y ∈ sinsert x l ↔ y = x ∨ y ∈ l := by
  induction l with
  | nil => simp [sinsert]
  | cons z zs ih =>
    unfold sinsert
    split
    · simp
    · split
      · rename_i h; subst h; simp
      · simp [ih]; tauto

theorem sinsert_sorted {x : Nat} {l : List Nat} (h : l.Pairwise (· < ·)) :
    (sinsert x l).Pairwise (· < ·) := by
  induction l with
  | nil => simp [sinsert]
  | cons z zs ih =>
    rw [List.pairwise_cons] at h
    unfold sinsert
    split
    · rename_i hlt
      rw [List.pairwise_cons, List.pairwise_cons]
      refine ⟨?_, h⟩
      intro a ha
      rcases List.mem_cons.1 ha with rfl | ha
      · exact hlt
      · exact Nat.lt_trans hlt (h.1 a ha)
    · split
      · rw [List.pairwise_cons]; exact h
      · rename_i h1 h2
        rw [List.pairwise_cons]
        refine ⟨?_, ih h.2⟩
        intro a ha
        rcases mem_sinsert.1 ha with rfl | ha
        · omega
        · exact h.1 a ha

theorem sorted_nodup {l : List Nat} (h : l.Pairwise (· < ·)) : l.Nodup :=
  h.imp (fun h => Nat.ne_of_lt h)

@[simp] theorem mem_serase {x y : Nat} {l : List Nat} : y ∈ serase x l ↔ y ∈ l ∧ y ≠ x := by
  simp [serase]

theorem serase_sorted {x : Nat} {l : List Nat} (h : l.Pairwise (· < ·)) :
    (serase x l).Pairwise (· < ·) := h.filter _

theorem foldl_sinsert_spec (ns : List Node) :
    ∀ tp : List Node, tp.Pairwise (· < ·) →
      (ns.foldl (fun tp n => sinsert n tp) tp).Pairwise (· < ·) ∧
      ∀ x, x ∈ ns.foldl (fun tp n => sinsert n tp) tp ↔ x ∈ ns ∨ x ∈ tp := by
  induction ns with
  | nil => intro tp h; simp [h]
  | cons n ns ih =>
    intro tp h
    have := ih (sinsert n tp) (sinsert_sorted h)
    refine ⟨this.1, fun x => ?_⟩
    rw [List.foldl_cons, this.2 x]
    simp
    tauto

end Joque
