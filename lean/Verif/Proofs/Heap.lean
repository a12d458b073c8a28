import Mathlib.Order.Lattice
import Verif.Model.Heap

/-! Heaps. -/

namespace NoGraphs

variable {W X : Type} [LinearOrder W]

theorem HEntry.le_trans {a b c : HEntry W X} (h1 : a.le b) (h2 : b.le c) : a.le c := by
  unfold HEntry.le at *
  rcases h1 with h1 | ⟨h1, h1'⟩ <;> rcases h2 with h2 | ⟨h2, h2'⟩
  · exact .inl (h1.trans h2)
  · exact .inl (h2 ▸ h1)
  · exact .inl (h1 ▸ h2)
  · exact .inr ⟨h1.trans h2, by omega⟩

theorem HEntry.le_total (a b : HEntry W X) : a.le b ∨ b.le a := by
  unfold HEntry.le
  rcases lt_trichotomy a.key b.key with h | h | h
  · exact .inl (.inl h)
  · rcases Int.le_total a.no b.no with h' | h'
    · exact .inl (.inr ⟨h, h'⟩)
    · exact .inr (.inr ⟨h.symm, h'⟩)
  · exact .inr (.inl h)

theorem HEntry.le.key_le {a b : HEntry W X} (h : a.le b) : a.key ≤ b.key := by
  rcases h with h | h
  · exact h.le
  · exact h.1.le

theorem heapPush_perm (l : List (HEntry W X)) (e : HEntry W X) : (heapPush l e).Perm (e :: l) := by
  induction l with
  | nil => exact .refl _
  | cons a r ih =>
    unfold heapPush
    split
    · exact .refl _
    · exact (ih.cons a).trans (.swap _ _ _)

@[simp] theorem mem_heapPush {l : List (HEntry W X)} {e f : HEntry W X} :
    f ∈ heapPush l e ↔ f = e ∨ f ∈ l := by
  rw [(heapPush_perm l e).mem_iff, List.mem_cons]

@[simp] theorem length_heapPush (l : List (HEntry W X)) (e : HEntry W X) :
    (heapPush l e).length = l.length + 1 := (heapPush_perm l e).length_eq

theorem heapPush_sorted {l : List (HEntry W X)} (e : HEntry W X) (h : l.Pairwise HEntry.le) :
    (heapPush l e).Pairwise HEntry.le := by
  induction l with
  | nil => simp [heapPush]
  | cons a r ih =>
    rw [List.pairwise_cons] at h
    unfold heapPush
    split
    · rename_i hle
      refine List.pairwise_cons.2 ⟨fun b hb => ?_, List.pairwise_cons.2 h⟩
      rcases List.mem_cons.1 hb with rfl | hb
      · exact hle
      · exact HEntry.le_trans hle (h.1 b hb)
    · rename_i hle
      refine List.pairwise_cons.2 ⟨fun b hb => ?_, ih h.2⟩
      rcases mem_heapPush.1 hb with rfl | hb
      · exact (HEntry.le_total a b).resolve_right hle
      · exact h.1 b hb

theorem heapify_perm (l : List (HEntry W X)) : (heapify l).Perm l := by
  have key : ∀ (l acc : List (HEntry W X)), (l.foldl heapPush acc).Perm (acc ++ l) := by
    intro l
    induction l with
    | nil => intro acc; simp
    | cons a r ih =>
      intro acc
      rw [List.foldl_cons]
      refine (ih _).trans ?_
      refine ((heapPush_perm acc a).append_right r).trans ?_
      exact (List.perm_middle (l₁ := acc) (l₂ := r) (a := a)).symm
  simpa [heapify] using key l []

@[simp] theorem mem_heapify {l : List (HEntry W X)} {e : HEntry W X} : e ∈ heapify l ↔ e ∈ l :=
  (heapify_perm l).mem_iff

theorem heapify_sorted (l : List (HEntry W X)) : (heapify l).Pairwise HEntry.le := by
  have key : ∀ (l acc : List (HEntry W X)), acc.Pairwise HEntry.le →
      (l.foldl heapPush acc).Pairwise HEntry.le := by
    intro l
    induction l with
    | nil => intro acc h; simpa using h
    | cons a r ih => intro acc h; exact ih _ (heapPush_sorted a h)
  exact key l [] List.Pairwise.nil

end NoGraphs
