import Verif.Spec.Weighted

/-! # Heuristic functions that overestimate by a bounded amount -/

namespace NoGraphs

namespace Spec

/-- The estimates do not exceed `φ w`, for each walk of weight `w` to a goal. (With `φ w = w`: admissible.) -/
def EstimatesUpTo {V L W : Type} [Add W] [Zero W] [LE W] (next : V → List (V × W × L)) (heur : V → W) (goal : V → Prop)
    (φ : W → W) : Prop := ∀ u w v, WalkW next (· = u) w v → goal v → heur u ≤ φ w

end Spec

end NoGraphs
