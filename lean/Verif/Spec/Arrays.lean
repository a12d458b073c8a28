import Verif.Model.MatrixGadgets
import Verif.Spec.Grid

/-! # Specification: rectangular arrays (nested sequences) -/

namespace NoGraphs.Spec

/-- The nested sequences form a rectangular array with these sizes per dimension. -/
def Rect {α : Type} : (n : Nat) → ArrContent α n → List Nat → Prop
  | 0, _, dims => dims = []
  | n + 1, a, dims => ∃ d ds, dims = d :: ds ∧ ds.length = n ∧ (Arr.rows a).length = d ∧
      ∀ x ∈ (Arr.rows a), Rect n x ds

/-- The limits of an array with these sizes. -/
def dimLimits (dims : List Nat) : List (Int × Int) := dims.map (fun d : Nat => ((0 : Int), (d : Int)))

end NoGraphs.Spec
