import Verif.Spec.Graph

/-! # Specification: the order "neighbors first, then depth" -/

namespace NoGraphs.Spec

variable {V K : Type} [DecidableEq K]

/-- The vertices of a list whose ids are new: not in `seen`, and not the id of an earlier one of the list. -/
def newOnes (vid : V → K) : List K → List V → List V
  | _, [] => []
  | seen, v :: vs => if vid v ∈ seen then newOnes vid seen vs else v :: newOnes vid (vid v :: seen) vs

/-- `NeighborsThenDepth nb vid complete d seen vs reports seen'`: exploring the vertices `vs`, that are at depth `d`,
one after the other. Exploring a vertex means: report its new neighbors in the order in which they are given, at depth
`d + 1`; then explore these neighbors, starting with the one reported last. The ids in `seen` are not new; `seen'` are
the ids that are not new afterwards. `complete` is `false` if the exploration has been stopped at some moment. -/
inductive NeighborsThenDepth (nb : V → List V) (vid : V → K) :
    Bool → Nat → List K → List V → List (V × Nat) → List K → Prop
  | nothing {d seen} : NeighborsThenDepth nb vid true d seen [] [] seen
  | explore {b d seen seen1 seen2 v vs sub rest} :
      NeighborsThenDepth nb vid true (d + 1) ((newOnes vid seen (nb v)).map vid ++ seen)
        (newOnes vid seen (nb v)).reverse sub seen1 →
      NeighborsThenDepth nb vid b d seen1 vs rest seen2 →
      NeighborsThenDepth nb vid b d seen (v :: vs)
        ((newOnes vid seen (nb v)).map (fun w => (w, d + 1)) ++ sub ++ rest) seen2
  | stoppedInNeighbors {d seen v vs reports} :
      reports <+: (newOnes vid seen (nb v)).map (fun w => (w, d + 1)) →
      NeighborsThenDepth nb vid false d seen (v :: vs) reports seen
  | stoppedInDepth {d seen seen1 v vs sub} :
      NeighborsThenDepth nb vid false (d + 1) ((newOnes vid seen (nb v)).map vid ++ seen)
        (newOnes vid seen (nb v)).reverse sub seen1 →
      NeighborsThenDepth nb vid false d seen (v :: vs)
        ((newOnes vid seen (nb v)).map (fun w => (w, d + 1)) ++ sub) seen1

end NoGraphs.Spec
