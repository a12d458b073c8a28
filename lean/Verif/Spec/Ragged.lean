import Verif.Spec.Arrays

/-! # Specification: nested sequences that are not necessarily rectangular -/

namespace NoGraphs.Spec

/-- The sizes per dimension, as seen when always following the first element. -/
def FirstSizes {α : Type} : (n : Nat) → ArrContent α n → List Nat → Prop
  | 0, _, dims => dims = []
  | n + 1, a, dims => ∃ x ds, (Arr.rows a).head? = some x ∧ dims = (Arr.rows a).length :: ds ∧ FirstSizes n x ds

/-- At this position (coordinates not negative), there is a cell with this content. -/
def HasCell {α : Type} : (n : Nat) → ArrContent α n → List Int → α → Prop
  | 0, a, p, x => p = [] ∧ Arr.cell a = x
  | n + 1, a, p, x => ∃ (i : Nat) (q : List Int) (r : ArrContent α n), p = (i : Int) :: q ∧ (Arr.rows a)[i]? = some r ∧
      HasCell n r q x

end NoGraphs.Spec
