import Verif.Model.NoneLabels
import Verif.Props.Paths
import Verif.Props.Bfs

/-! # Labels can be any object: C85 -/

set_option linter.unusedSectionVars false

namespace NoGraphs

open Spec

variable {V K Y M ML : Type} [DecidableEq V] [DecidableEq K]

theorem iterPathEdges_none (p : PathsView V K (Option Y)) (raws : List (V × V × K)) (e : Ending)
    (l : List (V × V × Option Y)) (h : p.iterPathEdges raws e = (l, .done)) :
    e = .done ∧ p.noneLabels.iterPathEdges raws e = (l.takeWhile (fun x => x.2.2.isSome),
      if l.all (fun x => x.2.2.isSome) then .done else .raised .assertionError) := by
  induction raws generalizing l with
  | nil =>
    simp only [PathsView.iterPathEdges, Prod.mk.injEq] at h
    obtain ⟨rfl, rfl⟩ := h
    exact ⟨rfl, rfl⟩
  | cons x raws ih =>
    obtain ⟨u, v, k⟩ := x
    unfold PathsView.iterPathEdges at h
    cases hr : p.rawLabel k with
    | none => simp [hr] at h
    | some o =>
      cases o with
      | none => simp [hr] at h
      | some l0 =>
        simp only [hr, Prod.mk.injEq] at h
        obtain ⟨h1, h2⟩ := h
        obtain ⟨ih1, ih2⟩ := ih (p.iterPathEdges raws e).1 (by rw [← h2])
        refine ⟨ih1, ?_⟩
        subst h1
        cases l0 with
        | none =>
          have key : p.noneLabels.rawLabel k = some none := by simp [PathsView.noneLabels, hr]
          rw [PathsView.iterPathEdges]
          simp [key]
        | some y =>
          have key : p.noneLabels.rawLabel k = some (some (some y)) := by simp [PathsView.noneLabels, hr]
          rw [PathsView.iterPathEdges]
          simp only [key, ih2, List.takeWhile_cons, Option.isSome_some, if_true, List.all_cons, Bool.true_and]

theorem iterRawEdges_none (p : PathsView V K (Option Y)) (fuel : Nat) (v : V) :
    p.noneLabels.iterRawEdgesToStart fuel v = p.iterRawEdgesToStart fuel v := by
  have : ∀ fuel v, iterRawLoop p.noneLabels fuel v = iterRawLoop p fuel v := by
    intro fuel
    induction fuel with
    | zero => intro v; rfl
    | succ fuel ih => intro v; simp only [iterRawLoop, ih]; rfl
  simp only [PathsView.iterRawEdgesToStart, this]; rfl

theorem iterVertices_none (p : PathsView V K (Option Y)) (fuel : Nat) (v : V) :
    p.noneLabels.iterVerticesToStart fuel v = p.iterVerticesToStart fuel v := by
  have : ∀ fuel v, iterVertsLoop p.noneLabels fuel v = iterVertsLoop p fuel v := by
    intro fuel
    induction fuel with
    | zero => intro v; rfl
    | succ fuel ih => intro v; simp only [iterVertsLoop, ih]; rfl
  simp only [PathsView.iterVerticesToStart, this]; rfl

/-- **C85, with the restriction that is in the code.** A `Paths` container of any gear, filled by any legal history, where labels
may be any objects, also `None`: for a vertex with stored path `p`, all iterations of vertices and edges without
labels give the vertices and edges of `p`. The iterations of labeled edges give the edges before the first one with label
`None`, and then raise an `AssertionError`. If no label is `None`, they give all edges, with their labels.

Missing for the full claim: the labeled edges of paths with label `None`, where the claim is wrong
(`C85_counterexample`). -/
theorem C85_labels_partial (mo : MapOps M K V) (lo : MapOps ML K (Option Y)) (vid : V → K)
    (hm : mo.Lawful (fun _ => True)) (hl : lo.Lawful (fun _ => True))
    (hinj : Function.Injective vid) (starts : List V) (hist : List (V × V × Option Y))
    (hleg : (Store.ofStarts starts).Legal hist) (v : V) (p : SPath V (Option Y))
    (hp : (Store.ofStarts starts).run hist v = some p) (fuel : Nat) (hf : p.steps.length < fuel) :
    let c := fillPaths mo lo vid starts hist
    let paths := (pathsView mo lo vid c.1 c.2).noneLabels
    paths.contains (vid v) = true ∧
    paths.iterVerticesFromStart fuel v = (p.verts, .done) ∧
    paths.iterVerticesToStart fuel v = (p.verts.reverse, .done) ∧
    paths.iterEdgesFromStart fuel v = (p.edges.map (fun e => (e.1, e.2.1)), .done) ∧
    paths.iterEdgesToStart fuel v = ((p.edges.map (fun e => (e.1, e.2.1))).reverse, .done) ∧
    paths.iterLabeledEdgesFromStart fuel v = (p.edges.takeWhile (fun e => e.2.2.isSome),
      if p.edges.all (fun e => e.2.2.isSome) then .done else .raised .assertionError) ∧
    paths.iterLabeledEdgesToStart fuel v = (p.edges.reverse.takeWhile (fun e => e.2.2.isSome),
      if p.edges.all (fun e => e.2.2.isSome) then .done else .raised .assertionError) := by
  intro c paths
  have h := C33_paths_container mo lo vid hm hl hinj starts hist (fun _ _ => trivial) (fun _ _ => trivial)
    (fun _ _ => trivial) hleg v
  simp only [hp] at h
  obtain ⟨h1, -, h2⟩ := h
  obtain ⟨h3, h4, h5, h6, h7, h8⟩ := h2 fuel hf
  have hall : p.edges.reverse.all (fun e => e.2.2.isSome) = p.edges.all (fun e => e.2.2.isSome) := List.all_reverse
  refine ⟨h1, ?_, ?_, ?_, ?_, ?_, ?_⟩
  · rw [← h3]; simp only [paths, PathsView.iterVerticesFromStart, iterVertices_none]; rfl
  · rw [← h4]; exact iterVertices_none _ _ _
  · rw [← h5]; simp only [paths, PathsView.iterEdgesFromStart, PathsView.iterEdgesToStart, iterRawEdges_none]; rfl
  · rw [← h6]; simp only [paths, PathsView.iterEdgesToStart, iterRawEdges_none]; rfl
  · simp only [paths, PathsView.iterLabeledEdgesFromStart, iterRawEdges_none] at h7 ⊢
    generalize (pathsView mo lo vid c.1 c.2).iterRawEdgesToStart fuel v = re at h7
    obtain ⟨raws, e⟩ := re
    cases e with
    | done => exact (iterPathEdges_none _ _ _ _ h7).2
    | outOfFuel => simp at h7
    | raised => simp at h7
  · rw [← hall]
    exact (by rw [show paths.iterLabeledEdgesToStart fuel v = (pathsView mo lo vid c.1 c.2).noneLabels.iterPathEdges
        ((pathsView mo lo vid c.1 c.2).iterRawEdgesToStart fuel v).1
        ((pathsView mo lo vid c.1 c.2).iterRawEdgesToStart fuel v).2 by
          simp only [paths, PathsView.iterLabeledEdgesToStart, iterRawEdges_none]]
              exact (iterPathEdges_none _ _ _ _ h8).2)

/-- The hypotheses hold for a path with the labels 'a', `None`, 'b', and the iterations give the first resp. the last edge. -/
example : (Store.ofStarts [0] : Store Nat (Option Char)).Legal [(0, 1, some 'a'), (1, 2, none), (2, 3, some 'b')] ∧
    (pathsView (dictMap (K := Nat) (X := Nat)) (dictMap (X := Option Char)) id
      (fillPaths dictMap (dictMap (X := Option Char)) id [0] [(0, 1, some 'a'), (1, 2, none), (2, 3, some 'b')]).1
      (fillPaths dictMap (dictMap (X := Option Char)) id [0]
        [(0, 1, some 'a'), (1, 2, none), (2, 3, some 'b')]).2).noneLabels.iterLabeledEdgesFromStart 9 3
      = ([(0, 1, some 'a')], .raised .assertionError) := by
  constructor
  · simp [Store.Legal, Store.ofStarts, Store.append]
  · decide

/-- **C85 is wrong for the label `None`**: a graph with the edge `0 → 1` with label `None`. Breadth-first search with
`build_paths` reports vertex 1; the path to it can be iterated without labels, but the iteration with labels raises an
`AssertionError`. -/
theorem C85_counterexample :
    let g : TravGear Nat Nat (Option Char) _ _ _ := ⟨hashSet, dictMap, dictMap⟩
    let next : Nat → List (Nat × Option Char) := fun v => if v = 0 then [(1, none)] else []
    (bfsRun g ⟨next, id, false, true⟩ [] [0] none 50).reports.map (fun r : BfsReport Nat (List Nat) (Nat → Option Nat)
        (Nat → Option (Option Char)) =>
      let paths := (pathsView g.mo g.lo id r.preds r.labels).noneLabels
      (r.vertex, paths.iterEdgesFromStart 9 r.vertex, paths.iterLabeledEdgesFromStart 9 r.vertex)) =
      [(1, ([(0, 1)], .done), ([], .raised .assertionError))] := rfl

end NoGraphs
