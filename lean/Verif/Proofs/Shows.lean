import Verif.Proofs.BfsPaths

/-! What a user sees of a stored path. -/

set_option linter.unusedSectionVars false

namespace NoGraphs

open Spec

variable {V K L S M ML : Type} [DecidableEq V] [DecidableEq K]

/-- The `Paths` object contains `v`, and all its iteration methods show the path `p` for `v`
(with enough fuel, i.e., they end). -/
def ShowsPath (paths : PathsView V K L) (v : V) (p : SPath V L) : Prop :=
  paths.contains (paths.vid v) = true ∧ ∀ fuel, p.steps.length < fuel →
    paths.iterVerticesFromStart fuel v = (p.verts, .done) ∧
    paths.iterVerticesToStart fuel v = (p.verts.reverse, .done) ∧
    paths.iterEdgesFromStart fuel v = (p.edges.map (fun e => (e.1, e.2.1)), .done) ∧
    paths.iterEdgesToStart fuel v = ((p.edges.map (fun e => (e.1, e.2.1))).reverse, .done) ∧
    paths.iterLabeledEdgesFromStart fuel v = (p.edges, .done) ∧
    paths.iterLabeledEdgesToStart fuel v = (p.edges.reverse, .done)

theorem StoredPath.shows {mo : MapOps M K V} {lo : MapOps ML K L} {validV : V → Prop} {validL : L → Prop}
    (hm : mo.Lawful validV) (hl : lo.Lawful validL) {vid : V → K} {pr : M} {la : ML} {v : V} {p : SPath V L}
    (h : StoredPath (mo.get? pr) (lo.get? la) vid v p) :
    ShowsPath (pathsView mo lo vid pr la) v p := by
  refine ⟨h.1.get_isSome, fun fuel hf => ?_⟩
  have := stored_observations (pathsView mo lo vid pr la) (mo.get? pr) (lo.get? la) (fun _ => rfl)
    (fun k x h => hm.raw_of_get _ _ _ h) (fun k x h => hl.raw_of_get _ _ _ h) h fuel hf
  exact ⟨this.2.1, this.1, this.2.2.2.1, this.2.2.1, this.2.2.2.2.2, this.2.2.2.2.1⟩

end NoGraphs
