import Verif.Proofs.AStarTree
import Verif.Proofs.TraceTree
import Verif.Props.AStar
import Verif.Props.DepthFirstTrace

/-! # C52 for A* and for depth-first search with trace, C57 for trees -/

set_option linter.unusedSectionVars false

namespace NoGraphs

open Spec

/-! ## A* -/

section

variable {V K L W M ML D : Type} [DecidableEq V] [DecidableEq K] [AddCommMonoid W] [LinearOrder W]
  [IsOrderedCancelAddMonoid W]
variable {g : WGear V K L W M ML D} {c : AStarCfg V K L W}

/-- **C52 for A*.** If the reachable part of the graph is a forest rooted at the start vertices, then with `is_tree=True`
the traversal makes the same reports (vertex, path length, depth, content of the distances, and stored paths) as with
`is_tree=False`, and ends in the same way: for every heuristic function. -/
theorem C52_astar_tree (ht : c.isTree = false) (hd : g.dd.Lawful c.inf) (starts : List V)
    (hf : IsForest (unweighted c.next) c.vid starts) (limit : Option Int) (fuel : Nat) :
    let general := aRun g c none none starts limit fuel
    let tree := aRun g { c with isTree := true } none none starts limit fuel
    tree.reports.map (fun r => (r.vertex, r.pathLength, r.depth, r.preds, r.labels, g.dd.get r.dist)) =
      general.reports.map (fun r => (r.vertex, r.pathLength, r.depth, r.preds, r.labels, g.dd.get r.dist)) ∧
    tree.ending = general.ending := by
  intro general tree
  obtain ⟨h1, h2⟩ := a_tree_sim (M := M) (ML := ML) ht hd hf fuel (prepareLimit limit)
  refine ⟨forall₂_map_eq (repsOf_forall₂ h1) (fun a b h => ?_), h2⟩
  rw [h.1, h.2.1, h.2.2.1, h.2.2.2.2.1, h.2.2.2.2.2, funext h.2.2.2.1]

end

/-! ## Depth-first search with trace -/

section

variable {V K L S M ML : Type} [DecidableEq V] [DecidableEq K]
variable {g : TravGear V K L S M ML} {c : TraceCfg V K L}

theorem TraceCfg.Accepted.walks_on {given : Bool} (h : c.Accepted given) (ht : c.isTree = false) :
    c.mode = .allWalks → c.computeOnTrace = false :=
  fun hm => h.ok.walks_on (by simp [TraceCfg.rule, ht, hm])

/-- **C52 for depth-first search with trace.** If the reachable part of the graph is a forest rooted at the start
vertices, then with `is_tree=True` (that does not allow for `compute_on_trace`) the traversal makes the same reports
(vertex, event, depth, trace, labels on the trace, indices, and stored paths) as with `is_tree=False`, and ends in the
same way. This holds for all three modes, and whatever mode is given together with `is_tree=True`, and also if the
consumer skips the expansion of vertices. -/
theorem C52_dfs_trace_tree {given : Bool} (hg : g.so.Lawful) (ht : c.isTree = false) (hacc : c.Accepted given)
    (starts : List V) (hf : IsForest c.next c.vid starts) (mode : DfsMode) (limit : Option Int) (fuel : Nat) :
    let general := trRun g c g.so.empty starts limit fuel
    let tree := trRun g { c with isTree := true, computeOnTrace := false, mode := mode } g.so.empty starts limit fuel
    tree.reports.map (fun r => (r.vertex, r.event, r.depth, r.trace, r.traceLabels, r.index, r.preds, r.labels)) =
      general.reports.map (fun r => (r.vertex, r.event, r.depth, r.trace, r.traceLabels, r.index, r.preds, r.labels)) ∧
    tree.ending = general.ending := by
  intro general tree
  obtain ⟨h1, h2⟩ := tr_tree_sim (M := M) (ML := ML) (m := mode) hg ht (hacc.walks_on ht) hf fuel (prepareLimit limit)
  refine ⟨forall₂_map_eq (repsOf_forall₂ h1) (fun a b h => ?_), h2⟩
  unfold TrTreeRep at h
  rw [h]

/-- Options that are accepted with `is_tree=True` are accepted without it. -/
theorem TraceCfg.Accepted.general {given : Bool} (h : c.Accepted given) (ht : c.isTree = true) :
    ({ c with isTree := false, mode := .dfsTree } : TraceCfg V K L).Accepted given ∧ c.computeOnTrace = false := by
  obtain ⟨o, o', h1, h0, e1, e2, e3, e4, e5, e6, e7⟩ := h
  unfold dfsOptions at h1
  dsimp only at h1
  split at h1
  · cases h1
  split at h1
  · cases h1
  split at h1
  · cases h1
  split at h1
  · cases h1
  split at h1
  · cases h1
  split at h1
  · cases h1
  split at h1
  · cases h1
  rename_i n1 n2 n3 n4 n5 n6 n7
  simp only [Option.some.injEq] at h1
  subst h1
  simp only at e1 e2 e3 e4 e5 e6
  rw [ht] at e1
  simp only [← e1, Bool.true_or, Bool.and_true, Bool.not_true, Bool.false_and, Bool.or_false, Bool.not_eq_true] at n3 n4 n7
  have hnt : o.nonTree = false := by
    cases hh : o.nonTree <;> simp [hh] at n3 ⊢
  have hso : o.report .someNonTreeEdge = false := by
    cases hh : o.report .someNonTreeEdge <;> simp [hh] at n3 ⊢
  have hfc : o.report .forwardOrCrossEdge = false := by
    cases hh : o.report .forwardOrCrossEdge <;> simp [hh] at n3 ⊢
  have h3 : o.report .forwardEdge = false ∧ o.report .backEdge = false ∧ o.report .crossEdge = false := by
    unfold DfsOptions.nonTree at hnt
    simpa [and_assoc] using hnt
  refine ⟨⟨{ o with isTree := false, mode := .dfsTree, computeTrace := true },
    { o with isTree := false, mode := .dfsTree, computeTrace := true, computeOnTrace := false },
    ?_, ?_, rfl, rfl, e3, e4, ?_, ?_, e7⟩, ?_⟩
  · have hd : (DfsMode.dfsTree == DfsMode.allWalks) = false := by decide
    have hd' : (DfsMode.dfsTree == DfsMode.allPaths) = false := by decide
    simp only [dfsOptions, DfsOptions.nonTree, h3.1, h3.2.1, h3.2.2, hso, hfc, n4, hd, hd']
    simpa using n7
  · rfl
  · simp only [e5, n4, ← e1]; rfl
  · simp only [e6, ← e1, Bool.not_true, Bool.false_and, Bool.or_false]
  · simp only [e5, n4, ← e1]; rfl

/-- **C57 for trees, with one restriction.** With `is_tree=True`, `build_paths` and labeled edges, on a forest: whenever a
vertex is entered or left, the `Paths` object gives for this vertex exactly the trace, with exactly the labels in
`trace_labels`, in all its methods.

Restriction: The predecessor collection is not array based. -/
theorem C57_dfs_paths_tree_partial {given : Bool} (hso : g.so.Lawful) (hgr : g.so.Grows)
    (hacc : c.Accepted given) (hlab : c.labeled = true)
    (hb : c.buildPaths = true) (ht : c.isTree = true) (starts : List V) (hf : IsForest c.next c.vid starts)
    {validV : V → Prop} {validL : L → Prop}
    (hst : Storable g c.toTravCfg starts validV validL) (hfa : g.mo.Faithful) (limit : Option Int) (fuel : Nat) :
    ∀ r ∈ (trRun g c g.so.empty starts limit fuel).reports, (r.event.isEntering || r.event.isLeaving) = true →
      ∃ p : SPath V L, p.verts = r.trace ∧ p.steps.map Prod.snd = r.traceLabels ∧
        ShowsPath (pathsView g.mo g.lo c.vid r.preds r.labels) r.vertex p := by
  intro r hr hev
  obtain ⟨hacc', hot⟩ := hacc.general ht
  have hsim := (C52_dfs_trace_tree (g := g) (c := { c with isTree := false, mode := .dfsTree }) hso rfl hacc' starts hf
    c.mode limit fuel).1
  have hc : ({ c with isTree := true, computeOnTrace := false } : TraceCfg V K L) = c := by
    rw [← ht, ← hot]
  dsimp only at hsim
  rw [hc] at hsim
  have hmem := List.mem_map_of_mem
    (f := fun r => (r.vertex, r.event, r.depth, r.trace, r.traceLabels, r.index, r.preds, r.labels)) hr
  rw [hsim] at hmem
  obtain ⟨r', hr', e⟩ := List.mem_map.1 hmem
  simp only [Prod.mk.injEq] at e
  obtain ⟨q1, q2, -, q4, q5, -, q7, q8⟩ := e
  have := C57_dfs_paths_partial g { c with isTree := false, mode := .dfsTree } (already := g.so.empty) hso hgr hacc'
    ⟨fun _ => rfl, fun _ k hk => by rw [hso.contains_empty] at hk; simp at hk⟩ hlab hb rfl starts (.inl rfl)
    ⟨hst.mo, hst.lo, hst.verts, hst.labs, hst.distinct⟩ hfa limit fuel r' hr' (by rw [q2]; exact hev)
  rw [q1, q4, q5, q7, q8] at this
  exact this

end

/-! ## Non-vacuity -/

/-- The weighted binary tree, with estimates that are neither admissible nor consistent. The order of the reports differs
from that of the shortest paths traversal. -/
example : IsForest (unweighted exWTree) (id : Nat → Nat) [0] ∧
    (aRun exWHash ⟨exWTree, id, true, true, 1000, fun v => if v = 2 then 30 else 0⟩ none none [0] none 100).reports.map
      (fun r => (r.vertex, r.pathLength, r.depth)) = [(1, 9, 1), (4, 15, 2), (3, 16, 2), (2, 8, 1), (5, 13, 2)] := by
  refine ⟨?_, by decide +kernel⟩
  have : unweighted exWTree = exTree := by
    funext v
    simp [unweighted, exWTree, Function.comp_def]
  rw [this]; exact exTree_forest

/-- Options with `is_tree=True`. -/
def exTreeOptions : DfsOptions := ⟨true, .dfsTree, exInOut, true, true, false, false, false⟩

/-- Depth-first search with trace on the binary tree. -/
example : IsForest exTree (id : Nat → Nat) [0] ∧
    (exTraceCfg ⟨exTree, id, false, true⟩ (exOptions .allPaths exInOut)).Accepted false ∧
    (exTraceCfg ⟨exTree, id, true, true⟩ exTreeOptions).Accepted false ∧
    (exTraceCfg ⟨exTree, id, true, true⟩ exTreeOptions).isTree = true :=
  ⟨exTree_forest, exTraceCfg_accepted _ _ (by decide) (by decide), exTraceCfg_accepted _ _ (by decide) (by decide), rfl⟩

/-- (For the wrong labels of vertices 1 and 3 see `C15_counterexample`.) -/
example : (trRun exHash (exTraceCfg ⟨exTree, id, true, true⟩ exTreeOptions) [] [0] none 100).reports.map
      (fun r => (r.vertex, r.event.isEntering, r.trace, r.traceLabels)) =
    [(0, true, [0], []), (2, true, [0, 2], ['b']), (5, true, [0, 2, 5], ['b', 'e']), (5, false, [0, 2, 5], ['b', 'e']),
      (2, false, [0, 2], ['b']), (1, true, [0, 1], ['e']), (4, true, [0, 1, 4], ['e', 'd']),
      (4, false, [0, 1, 4], ['e', 'd']), (3, true, [0, 1, 3], ['e', 'd']), (3, false, [0, 1, 3], ['e', 'd']),
      (1, false, [0, 1], ['e']), (0, false, [0], [])] := by decide +kernel

end NoGraphs
