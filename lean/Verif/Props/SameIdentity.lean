import Verif.Proofs.SameIdentity

/-! # C92: only which vertices have the same id matters, not the ids themselves

`vertex_to_id` says which vertices are to be regarded as the same. Two functions that identify the same vertices
(`Spec.SameIdentity`) lead to the same traversal, whatever ids they compute, and with whatever gear for these ids: the same
reports in the same order, and for each vertex the same answer whether it is visited, and the same predecessor, label and
distance. In particular, with an injective `vertex_to_id`, the result is as if the vertices themselves had been used as ids.

`c.withId vid'` is the traversal object `c`, but created with `vid'` as `vertex_to_id`. `Storable`, `WStorable`,
`SetOps.Lawful`, `DistOps.Lawful`: the collections of the gear can store what is to be stored (C35 - C38). -/

set_option linter.unusedSectionVars false

namespace NoGraphs

open Spec

variable {V K K' L : Type} [DecidableEq V] [DecidableEq K] [DecidableEq K']

section unweighted

variable {S M ML S' M' ML' : Type} (g : TravGear V K L S M ML) (g' : TravGear V K' L S' M' ML')

/-- **C92 for breadth-first search.** -/
theorem C92_bfs (c : TravCfg V K L) (vid' : V → K') (hsame : SameIdentity c.vid vid')
    (hg : g.so.Lawful) (hg' : g'.so.Lawful) {validV validV' : V → Prop} {validL validL' : L → Prop} (starts : List V)
    (hst : Storable g c starts validV validL) (hst' : Storable g' (c.withId vid') starts validV' validL')
    (already : S) (already' : S') (ha : ∀ v, g.so.contains already (c.vid v) = g'.so.contains already' (vid' v))
    (limit : Option Int) (fuel : Nat) :
    let run := bfsRun g c already starts limit fuel
    let run' := bfsRun g' (c.withId vid') already' starts limit fuel
    run.reports.map (fun r => (r.vertex, r.depth)) = run'.reports.map (fun r => (r.vertex, r.depth)) ∧
    List.Forall₂ (fun r r' => ∀ v, g.so.contains r.visited (c.vid v) = g'.so.contains r'.visited (vid' v) ∧
      g.mo.get? r.preds (c.vid v) = g'.mo.get? r'.preds (vid' v) ∧
      g.lo.get? r.labels (c.vid v) = g'.lo.get? r'.labels (vid' v)) run.reports run'.reports ∧
    run.ending = run'.ending := by
  obtain ⟨Q, iQ, q, f, f', hf, hf', hsur, hq, hq'⟩ := hsame.common
  intro run run'
  have h := C39_bfs_gear_independent (g.pull f) (g'.pull f') (c.withId q) (hg.pull hf) (hg'.pull hf') starts
    (hst.pull hf hq) (hst'.pull (c := c.withId vid') hf' hq') already already' (fun k => by
      obtain ⟨v, rfl⟩ := hsur k
      have := ha v
      rw [hq, hq'] at this
      exact this) limit fuel
  rw [bfsRun_pull g c hq, show c.withId q = (c.withId vid').withId q from rfl, bfsRun_pull g' (c.withId vid') hq'] at h
  refine ⟨h.1, h.2.1.imp fun r r' h v => ?_, h.2.2⟩
  rw [hq, hq']
  exact h (q v)

/-- **C92 for neighbors-then-depth search.** -/
theorem C92_ntd (c : NtdCfg V K L) (vid' : V → K') (hsame : SameIdentity c.vid vid')
    (hg : g.so.Lawful) (hg' : g'.so.Lawful) {validV validV' : V → Prop} {validL validL' : L → Prop} (starts : List V)
    (hst : Storable g c.toTravCfg starts validV validL)
    (hst' : Storable g' (c.withId vid').toTravCfg starts validV' validL')
    (already : S) (already' : S') (ha : ∀ v, g.so.contains already (c.vid v) = g'.so.contains already' (vid' v))
    (limit : Option Int) (fuel : Nat) :
    let run := ntdRun g c already starts limit fuel
    let run' := ntdRun g' (c.withId vid') already' starts limit fuel
    run.reports.map (fun r => (r.vertex, r.depth)) = run'.reports.map (fun r => (r.vertex, r.depth)) ∧
    List.Forall₂ (fun r r' => ∀ v, g.so.contains r.visited (c.vid v) = g'.so.contains r'.visited (vid' v) ∧
      g.mo.get? r.preds (c.vid v) = g'.mo.get? r'.preds (vid' v) ∧
      g.lo.get? r.labels (c.vid v) = g'.lo.get? r'.labels (vid' v)) run.reports run'.reports ∧
    run.ending = run'.ending := by
  obtain ⟨Q, iQ, q, f, f', hf, hf', hsur, hq, hq'⟩ := hsame.common
  intro run run'
  have h := C39_ntd_gear_independent (g := g.pull f) (c := c.withId q) (g'.pull f') (hg.pull hf) (hg'.pull hf') starts
    (hst.pull (c := c.toTravCfg) hf hq) (hst'.pull (c := (c.withId vid').toTravCfg) hf' hq') already already' (fun k => by
      obtain ⟨v, rfl⟩ := hsur k
      have := ha v
      rw [hq, hq'] at this
      exact this) limit fuel
  rw [ntdRun_pull g c hq, show c.withId q = (c.withId vid').withId q from rfl, ntdRun_pull g' (c.withId vid') hq'] at h
  refine ⟨h.1, h.2.1.imp fun r r' h v => ?_, h.2.2⟩
  rw [hq, hq']
  exact h (q v)

/-- **C92 for depth-first search without trace.** -/
theorem C92_dfs (c : DfsCfg V K L) (vid' : V → K') (hsame : SameIdentity c.vid vid')
    (hg : g.so.Lawful) (hg' : g'.so.Lawful) {validV validV' : V → Prop} {validL validL' : L → Prop} (starts : List V)
    (hp : c.buildPaths = true → Storable g c.toTravCfg starts validV validL ∧
      Storable g' (c.withId vid').toTravCfg starts validV' validL' ∧ g.mo.Faithful ∧ g'.mo.Faithful)
    (already : S) (already' : S') (ha : ∀ v, g.so.contains already (c.vid v) = g'.so.contains already' (vid' v))
    (limit : Option Int) (fuel : Nat) :
    let run := dfsRun g c already starts limit fuel
    let run' := dfsRun g' (c.withId vid') already' starts limit fuel
    run.reports.map (fun r => (r.vertex, r.depth, r.event)) = run'.reports.map (fun r => (r.vertex, r.depth, r.event)) ∧
    List.Forall₂ (fun r r' => ∀ v, g.so.contains r.visited (c.vid v) = g'.so.contains r'.visited (vid' v) ∧
      (c.buildPaths = true → g.mo.get? r.preds (c.vid v) = g'.mo.get? r'.preds (vid' v) ∧
        g.lo.get? r.labels (c.vid v) = g'.lo.get? r'.labels (vid' v))) run.reports run'.reports ∧
    run.ending = run'.ending := by
  obtain ⟨Q, iQ, q, f, f', hf, hf', hsur, hq, hq'⟩ := hsame.common
  intro run run'
  have h := C39_dfs_gear_independent (g := g.pull f) (c := c.withId q) (g'.pull f') (hg.pull hf) (hg'.pull hf') starts
    (fun hb => ⟨(hp hb).1.pull (c := c.toTravCfg) hf hq, (hp hb).2.1.pull (c := (c.withId vid').toTravCfg) hf' hq',
      (hp hb).2.2.1.pull, (hp hb).2.2.2.pull⟩) already already' (fun k => by
      obtain ⟨v, rfl⟩ := hsur k
      have := ha v
      rw [hq, hq'] at this
      exact this) limit fuel
  rw [dfsRun_pull g c hq, show c.withId q = (c.withId vid').withId q from rfl, dfsRun_pull g' (c.withId vid') hq'] at h
  refine ⟨h.1, h.2.1.imp fun r r' h v => ?_, h.2.2⟩
  rw [hq, hq']
  exact h (q v)

/-- **C92 for topological sorting.** As in C74, the case is excluded that the traversal ends with an `AssertionError`: whether
the bookkeeping of the trace does this depends on the gear. -/
theorem C92_topo_partial (c : TravCfg V K L) (vid' : V → K') (hsame : SameIdentity c.vid vid')
    (hg : g.so.Lawful) (hg' : g'.so.Lawful) {validV validV' : V → Prop} {validL validL' : L → Prop} (starts : List V)
    (hst : Storable g c starts validV validL) (hst' : Storable g' (c.withId vid') starts validV' validL')
    (already : S) (already' : S') (ha : ∀ v, g.so.contains already (c.vid v) = g'.so.contains already' (vid' v))
    (limit : Option Int) (fuel : Nat) :
    let run := topoRun g c already starts limit fuel
    let run' := topoRun g' (c.withId vid') already' starts limit fuel
    run.ending = .raised .assertionError ∨ run'.ending = .raised .assertionError ∨
    (run.reports.map (fun r => (r.vertex, r.depth)) = run'.reports.map (fun r => (r.vertex, r.depth)) ∧
     List.Forall₂ (fun r r' => ∀ v, g.so.contains r.visited (c.vid v) = g'.so.contains r'.visited (vid' v) ∧
       (c.buildPaths = true → g.mo.get? r.preds (c.vid v) = g'.mo.get? r'.preds (vid' v) ∧
         g.lo.get? r.labels (c.vid v) = g'.lo.get? r'.labels (vid' v))) run.reports run'.reports ∧
     run.ending = run'.ending ∧ run.final.cycleFromStart = run'.final.cycleFromStart) := by
  obtain ⟨Q, iQ, q, f, f', hf, hf', hsur, hq, hq'⟩ := hsame.common
  intro run run'
  have h := C74_topo_gear_independent_partial (g.pull f) (g'.pull f') (c.withId q) (hg.pull hf) (hg'.pull hf') starts
    (hst.pull hf hq) (hst'.pull (c := c.withId vid') hf' hq') already already' (fun k => by
      obtain ⟨v, rfl⟩ := hsur k
      have := ha v
      rw [hq, hq'] at this
      exact this) limit fuel
  rw [topoRun_pull g c hq, show c.withId q = (c.withId vid').withId q from rfl, topoRun_pull g' (c.withId vid') hq'] at h
  refine h.imp_right (·.imp_right fun h => ⟨h.1, h.2.1.imp fun r r' h v => ?_, h.2.2⟩)
  rw [hq, hq']
  exact h (q v)

/-- **C92 for topological sorting from one start vertex**, without restriction. -/
theorem C92_topo_single_start (c : TravCfg V K L) (vid' : V → K') (hsame : SameIdentity c.vid vid')
    (hg : g.so.Lawful) (hgr : g.so.Grows) (hg' : g'.so.Lawful) (hgr' : g'.so.Grows) (ht : c.isTree = false) (start : V)
    {validV validV' : V → Prop} {validL validL' : L → Prop}
    (hst : Storable g c [start] validV validL) (hst' : Storable g' (c.withId vid') [start] validV' validL')
    (limit : Option Int) (fuel : Nat) :
    let run := topoRun g c g.so.empty [start] limit fuel
    let run' := topoRun g' (c.withId vid') g'.so.empty [start] limit fuel
    run.reports.map (fun r => (r.vertex, r.depth)) = run'.reports.map (fun r => (r.vertex, r.depth)) ∧
    List.Forall₂ (fun r r' => ∀ v, g.so.contains r.visited (c.vid v) = g'.so.contains r'.visited (vid' v) ∧
      (c.buildPaths = true → g.mo.get? r.preds (c.vid v) = g'.mo.get? r'.preds (vid' v) ∧
        g.lo.get? r.labels (c.vid v) = g'.lo.get? r'.labels (vid' v))) run.reports run'.reports ∧
    run.ending = run'.ending ∧ run.final.cycleFromStart = run'.final.cycleFromStart := by
  obtain ⟨Q, iQ, q, f, f', hf, hf', hsur, hq, hq'⟩ := hsame.common
  intro run run'
  have h := C74_topo_single_start (g.pull f) (g'.pull f') (c.withId q) (hg.pull hf) hgr.pull (hg'.pull hf') hgr'.pull ht start
    (hst.pull hf hq) (hst'.pull (c := c.withId vid') hf' hq') limit fuel
  rw [topoRun_pull g c hq, show c.withId q = (c.withId vid').withId q from rfl, topoRun_pull g' (c.withId vid') hq'] at h
  refine ⟨h.1, h.2.1.imp fun r r' h v => ?_, h.2.2⟩
  rw [hq, hq']
  exact h (q v)

/-- **C92 for depth-first search with trace.** Also the numbers of the vertices (`index`) are the same. (For `TraceAlready`,
see C74: with already visited vertices and the event `BACK_EDGE`, there is an `AssertionError` for some gears.) -/
theorem C92_dfs_trace_partial (c : TraceCfg V K L) (vid' : V → K') (hsame : SameIdentity c.vid vid')
    {given : Bool} {already : S} {already' : S'} (hg : g.so.Lawful) (hgr : g.so.Grows)
    (hg' : g'.so.Lawful) (hgr' : g'.so.Grows) (hacc : c.Accepted given)
    (hal : TraceAlready g c given already) (hal' : TraceAlready g' (c.withId vid') given already')
    (ha : ∀ v, g.so.contains already (c.vid v) = g'.so.contains already' (vid' v)) (starts : List V)
    {validV validV' : V → Prop} {validL validL' : L → Prop}
    (hst : c.buildPaths = true → Storable g c.toTravCfg starts validV validL ∧
      Storable g' (c.withId vid').toTravCfg starts validV' validL' ∧ g.mo.Faithful ∧ g'.mo.Faithful)
    (limit : Option Int) (fuel : Nat) :
    let run := trRun g c already starts limit fuel
    let run' := trRun g' (c.withId vid') already' starts limit fuel
    run.reports.map (fun r => (r.vertex, r.depth, r.event, r.trace, r.traceLabels)) =
      run'.reports.map (fun r => (r.vertex, r.depth, r.event, r.trace, r.traceLabels)) ∧
    List.Forall₂ (fun r r' => ∀ v, g.so.contains r.visited (c.vid v) = g'.so.contains r'.visited (vid' v) ∧
      g.so.contains r.onTrace (c.vid v) = g'.so.contains r'.onTrace (vid' v) ∧
      r.index (c.vid v) = r'.index (vid' v) ∧
      (c.buildPaths = true → g.mo.get? r.preds (c.vid v) = g'.mo.get? r'.preds (vid' v) ∧
        g.lo.get? r.labels (c.vid v) = g'.lo.get? r'.labels (vid' v))) run.reports run'.reports ∧
    run.ending = run'.ending := by
  obtain ⟨Q, iQ, q, f, f', hf, hf', hsur, hq, hq'⟩ := hsame.common
  intro run run'
  have h := C74_dfs_trace_gear_independent_partial (g.pull f) (g'.pull f') (c.withId q) (given := given)
    (already := already) (already' := already') (hg.pull hf) hgr.pull (hg'.pull hf') hgr'.pull
    hacc ⟨hal.notGiven, fun h k hk => hal.range h (f k) hk⟩ ⟨hal'.notGiven, fun h k hk => hal'.range h (f' k) hk⟩ (fun k => by
      obtain ⟨v, rfl⟩ := hsur k
      have := ha v
      rw [hq, hq'] at this
      exact this) starts
    (fun hb => ⟨(hst hb).1.pull (c := c.toTravCfg) hf hq, (hst hb).2.1.pull (c := (c.withId vid').toTravCfg) hf' hq',
      (hst hb).2.2.1.pull, (hst hb).2.2.2.pull⟩) limit fuel
  obtain ⟨h1, h2, h3⟩ := h
  obtain ⟨a1, a2⟩ := trRun_pull g c hf hq already starts limit fuel
  obtain ⟨b1, b2⟩ := trRun_pull g' (c.withId vid') hf' hq' already' starts limit fuel
  change List.Forall₂ _ _ (trRun (g'.pull f') (c.withId q) already' starts limit fuel).reports at b1
  change _ = (trRun (g'.pull f') (c.withId q) already' starts limit fuel).ending at b2
  have key : List.Forall₂ (fun r r' => (r.vertex, r.depth, r.event, r.trace, r.traceLabels) =
      (r'.vertex, r'.depth, r'.event, r'.trace, r'.traceLabels) ∧
      ∀ v, g.so.contains r.visited (c.vid v) = g'.so.contains r'.visited (vid' v) ∧
      g.so.contains r.onTrace (c.vid v) = g'.so.contains r'.onTrace (vid' v) ∧
      r.index (c.vid v) = r'.index (vid' v) ∧
      (c.buildPaths = true → g.mo.get? r.preds (c.vid v) = g'.mo.get? r'.preds (vid' v) ∧
        g.lo.get? r.labels (c.vid v) = g'.lo.get? r'.labels (vid' v))) run.reports run'.reports := by
    rw [hq, hq']
    change List.Forall₂ _ run.reports (trRun (g.pull f) (c.withId q) already starts limit fuel).reports at a1
    change List.Forall₂ _ run'.reports (trRun (g'.pull f') (c.withId q) already' starts limit fuel).reports at b1
    generalize run.reports = l1 at *
    generalize run'.reports = l2 at *
    generalize (trRun (g.pull f) (c.withId q) already starts limit fuel).reports = l3 at *
    generalize (trRun (g'.pull f') (c.withId q) already' starts limit fuel).reports = l4 at *
    clear a2 b2 h3
    induction h2 generalizing l1 l2 with
    | nil => cases a1; cases b1; exact .nil
    | cons hr _ ih =>
      cases a1 with
      | cons e1 a1 =>
        cases b1 with
        | cons e2 b1 =>
          subst e1 e2
          simp only [List.map_cons, List.cons.injEq, Prod.mk.injEq] at h1
          refine .cons ⟨?_, fun v => ⟨(hr (q v)).1, (hr (q v)).2.1, ?_, (hr (q v)).2.2⟩⟩ (by first | exact ih _ _ h1.2 a1 b1 | exact ih _ a1 _ b1 h1.2 | exact ih _ _ a1 h1.2 b1 | exact ih _ _ a1 b1 h1.2 | exact ih _ a1 _ h1.2 b1)
          · obtain ⟨⟨e1, e2, e3, e4, e5, -⟩, -⟩ := h1
            simp only [Prod.mk.injEq]
            exact ⟨e1, e2, e3, e4, e5⟩
          · exact congrFun h1.1.2.2.2.2.2 (q v)
  exact ⟨forall₂_map_eq key (fun a b h => h.1), key.imp (fun a b h => h.2), a2.trans (h3.trans b2.symm)⟩

end unweighted

/-- **C92 for minimum spanning trees.** -/
theorem C92_mst {W S M ML S' M' ML' : Type} [LinearOrder W] (g : TravGear V K L S M ML) (g' : TravGear V K' L S' M' ML')
    (c : MstCfg V K L W) (vid' : V → K') (hsame : SameIdentity c.vid vid') (hg : g.so.Lawful) (hg' : g'.so.Lawful)
    {validV validV' : V → Prop} {validL validL' : L → Prop} (starts : List V)
    (hp : c.buildPaths = true →
      MstStorable g c starts validV validL ∧ MstStorable g' (c.withId vid') starts validV' validL')
    (limit : Option Int) (fuel : Nat) :
    let run := mstRun g c starts limit fuel
    let run' := mstRun g' (c.withId vid') starts limit fuel
    run.reports.map (fun r => (r.vertex, r.edge)) = run'.reports.map (fun r => (r.vertex, r.edge)) ∧
    (c.buildPaths = true → List.Forall₂ (fun r r' => ∀ v, g.mo.get? r.preds (c.vid v) = g'.mo.get? r'.preds (vid' v) ∧
      g.lo.get? r.labels (c.vid v) = g'.lo.get? r'.labels (vid' v)) run.reports run'.reports) ∧
    run.ending = run'.ending := by
  obtain ⟨Q, iQ, q, f, f', hf, hf', hsur, hq, hq'⟩ := hsame.common
  intro run run'
  have h := C39_mst_gear_independent (g := g.pull f) (c := c.withId q) (g'.pull f') (hg.pull hf) (hg'.pull hf') starts
    (fun hb => ⟨(hp hb).1.pull hf hq, (hp hb).2.pull (c := c.withId vid') hf' hq'⟩) limit fuel
  rw [mstRun_pull g c hq, show c.withId q = (c.withId vid').withId q from rfl, mstRun_pull g' (c.withId vid') hq'] at h
  refine ⟨h.1, fun hb => (h.2.1 hb).imp fun r r' h v => ?_, h.2.2⟩
  rw [hq, hq']
  exact h (q v)

/-- **C92 for shortest paths.** -/
theorem C92_sp {W M ML D M' ML' D' : Type} [Add W] [Zero W] [LinearOrder W] [WeightLaws W] (g : WGear V K L W M ML D)
    (g' : WGear V K' L W M' ML' D') (c : WCfg V K L W) (vid' : V → K') (hsame : SameIdentity c.vid vid')
    (hd : g.dd.Lawful c.inf) (hd' : g'.dd.Lawful c.inf) {validV validV' : V → Prop} {validL validL' : L → Prop}
    (starts : List V) (hst : WStorable g.mo g.lo c.next c.vid starts validV validL)
    (hst' : WStorable g'.mo g'.lo c.next vid' starts validV' validL') (limit : Option Int) (fuel : Nat) :
    let run := spRun g c none starts limit fuel
    let run' := spRun g' (c.withId vid') none starts limit fuel
    run.reports.map (fun r => (r.vertex, r.distance, r.depth)) =
      run'.reports.map (fun r => (r.vertex, r.distance, r.depth)) ∧
    List.Forall₂ (fun r r' => ∀ v, g.dd.get r.dist (c.vid v) = g'.dd.get r'.dist (vid' v) ∧
      g.mo.get? r.preds (c.vid v) = g'.mo.get? r'.preds (vid' v) ∧
      g.lo.get? r.labels (c.vid v) = g'.lo.get? r'.labels (vid' v)) run.reports run'.reports ∧
    run.ending = run'.ending := by
  obtain ⟨Q, iQ, q, f, f', hf, hf', hsur, hq, hq'⟩ := hsame.common
  intro run run'
  have h := C39_sp_gear_independent (g := g.pull f) (c := c.withId q) (g'.pull f') (hd.pull hf) (hd'.pull hf') starts
    (hst.pull hf hq) (hst'.pull hf' hq') limit fuel
  rw [spRun_pull g c hq, show c.withId q = (c.withId vid').withId q from rfl, spRun_pull g' (c.withId vid') hq'] at h
  refine ⟨h.1, h.2.1.imp fun r r' h v => ?_, h.2.2⟩
  rw [hq, hq']
  exact h (q v)

/-- **C92 for A\*.** -/
theorem C92_astar {W M ML D M' ML' D' : Type} [AddCommMonoid W] [LinearOrder W] [IsOrderedCancelAddMonoid W]
    (g : WGear V K L W M ML D)
    (g' : WGear V K' L W M' ML' D') (c : AStarCfg V K L W) (vid' : V → K') (hsame : SameIdentity c.vid vid')
    (hd : g.dd.Lawful c.inf) (hd' : g'.dd.Lawful c.inf) {validV validV' : V → Prop} {validL validL' : L → Prop}
    (starts : List V) (hst : WStorable g.mo g.lo c.next c.vid starts validV validL)
    (hst' : WStorable g'.mo g'.lo c.next vid' starts validV' validL') (limit : Option Int) (fuel : Nat) :
    let run := aRun g c none none starts limit fuel
    let run' := aRun g' (c.withId vid') none none starts limit fuel
    run.reports.map (fun r => (r.vertex, r.pathLength, r.depth)) =
      run'.reports.map (fun r => (r.vertex, r.pathLength, r.depth)) ∧
    List.Forall₂ (fun r r' => ∀ v, g.dd.get r.dist (c.vid v) = g'.dd.get r'.dist (vid' v) ∧
      g.mo.get? r.preds (c.vid v) = g'.mo.get? r'.preds (vid' v) ∧
      g.lo.get? r.labels (c.vid v) = g'.lo.get? r'.labels (vid' v)) run.reports run'.reports ∧
    run.ending = run'.ending := by
  obtain ⟨Q, iQ, q, f, f', hf, hf', hsur, hq, hq'⟩ := hsame.common
  intro run run'
  have h := C39_astar_gear_independent (g := g.pull f) (c := c.withId q) (g'.pull f') (hd.pull hf) (hd'.pull hf') starts
    (hst.pull hf hq) (hst'.pull hf' hq') limit fuel
  rw [aRun_pull g c hq, show c.withId q = (c.withId vid').withId q from rfl, aRun_pull g' (c.withId vid') hq'] at h
  refine ⟨h.1, h.2.1.imp fun r r' h v => ?_, h.2.2⟩
  rw [hq, hq']
  exact h (q v)

/-! ## Bidirectional searches: the result is literally the same -/

/-- **C92 for the bidirectional breadth-first search.** -/
theorem C92_bibfs {S M ML S' M' ML' : Type} (g : TravGear V K L S M ML) (g' : TravGear V K' L S' M' ML') (c : BiCfg V K L)
    (vid' : V → K') (hsame : SameIdentity c.vid vid')
    (hg : g.so.Lawful) (hg' : g'.so.Lawful) (hcF : Compat (Edge c.nextF) c.vid) (hcB : Compat (Edge c.nextB) c.vid)
    (hop : OppositeEdges c.nextF c.nextB) (hinj : c.buildPath = true → Function.Injective c.vid) (starts goals : List V)
    {validV validV' : V → Prop} {validL validL' : L → Prop}
    (hsF : Storable g (c.side false) starts validV validL) (hsB : Storable g (c.side true) goals validV validL)
    (hsF' : Storable g' ((c.withId vid').side false) starts validV' validL')
    (hsB' : Storable g' ((c.withId vid').side true) goals validV' validL')
    (limit : Option Int) (fuel : Nat) :
    biSearch g c starts goals true true limit fuel = biSearch g' (c.withId vid') starts goals true true limit fuel := by
  obtain ⟨Q, iQ, q, f, f', hf, hf', hsur, hq, hq'⟩ := hsame.common
  have hc : ∀ E : V → V → Prop, Compat E c.vid → Compat E q := by
    intro E h u u' v e he
    obtain ⟨v', h1, h2⟩ := h u u' v (by rw [hq]; exact congrArg f e) he
    rw [hq] at h2
    exact ⟨v', h1, hf h2⟩
  have h := C39_bibfs_gear_independent (g.pull f) (g'.pull f') (c.withId q) (hg.pull hf) (hg'.pull hf') (hc _ hcF) (hc _ hcB)
    hop (fun hb u v e => hinj hb (by rw [hq]; exact congrArg f e)) starts goals
    (hsF.pull (c := c.side false) hf hq) (hsB.pull (c := c.side true) hf hq)
    (hsF'.pull (c := (c.withId vid').side false) hf' hq') (hsB'.pull (c := (c.withId vid').side true) hf' hq') limit fuel
  rwa [biSearch_pull hf g c hq, show c.withId q = (c.withId vid').withId q from rfl,
    biSearch_pull hf' g' (c.withId vid') hq'] at h

/-- **C92 for the bidirectional shortest paths search.** (The iterations of the returned path end; `pathFuel` only bounds
their number of steps in the model.) -/
theorem C92_bd {W M ML D M' ML' D' : Type} [AddCommMonoid W] [LinearOrder W] [IsOrderedAddMonoid W]
    (g : WGear V K L W M ML D) (g' : WGear V K' L W M' ML' D') (c : BdCfg V K L W)
    (vid' : V → K') (hsame : SameIdentity c.vid vid')
    (H : BdHyp g c) (hd' : g'.dd.Lawful c.inf) (hinj : c.buildPath = true → Function.Injective c.vid)
    (starts goals : List V) {validV validV' : V → Prop} {validL validL' : L → Prop}
    (hsF : WStorable g.mo g.lo c.nextF c.vid starts validV validL)
    (hsB : WStorable g.mo g.lo c.nextB c.vid goals validV validL)
    (hsF' : WStorable g'.mo g'.lo c.nextF vid' starts validV' validL')
    (hsB' : WStorable g'.mo g'.lo c.nextB vid' goals validV' validL')
    (limit : Option Int) (fuel : Nat) :
    ∃ N, ∀ pathFuel, N ≤ pathFuel → bdSearch g c starts goals limit fuel pathFuel =
      bdSearch g' (c.withId vid') starts goals limit fuel pathFuel := by
  obtain ⟨Q, iQ, q, f, f', hf, hf', hsur, hq, hq'⟩ := hsame.common
  have hc : ∀ next : V → List (V × W × L), WCompat next c.vid → WCompat next q := by
    intro E h u u' v x e he
    obtain ⟨v', h1, h2⟩ := h u u' v x (by rw [hq]; exact congrArg f e) he
    rw [hq] at h2
    exact ⟨v', h1, hf h2⟩
  obtain ⟨N, h⟩ := C39_bd_gear_independent (g.pull f) (g'.pull f') (c.withId q)
    ⟨H.dd.pull hf, H.nonnegF, H.nonnegB, hc _ H.compatF, hc _ H.compatB, H.inf, H.opp⟩ (hd'.pull hf')
    (fun hb u v e => hinj hb (by rw [hq]; exact congrArg f e)) starts goals
    (hsF.pull hf hq) (hsB.pull hf hq) (hsF'.pull hf' hq') (hsB'.pull hf' hq') limit fuel
  refine ⟨N, fun pf hpf => ?_⟩
  have h := h pf hpf
  rwa [bdSearch_pull hf g c hq, show c.withId q = (c.withId vid').withId q from rfl,
    bdSearch_pull hf' g' (c.withId vid') hq'] at h

/-! ## Examples -/

/-- The ids need not be injective: numbers are identified modulo 5, and the second function computes multiples of three. -/
example : SameIdentity (fun v : Nat => v % 5) (fun v : Nat => 3 * (v % 5)) ∧
    ¬ SameIdentity (fun v : Nat => v % 5) (fun v : Nat => v) := by
  refine ⟨fun u v => ⟨fun h => by simp only at h ⊢; rw [h], fun h => by simp only at h ⊢; omega⟩, fun h => ?_⟩
  exact absurd ((h 0 5).1 rfl) (by decide)

/-- The second run uses another function and another gear. -/
example :
    let c : TravCfg Nat Nat Char := ⟨fun v => [(v + 1, 'a'), (v + 7, 'b')], fun v => v % 5, false, true⟩
    let run := bfsRun exHash c [] [0] none 100
    let run' := bfsRun exLists (c.withId (fun v => 3 * (v % 5))) [] [0] none 100
    run.reports.map (fun r => (r.vertex, r.depth)) = [(1, 1), (7, 1), (8, 2), (14, 2)] ∧
    run'.reports.map (fun r => (r.vertex, r.depth)) = [(1, 1), (7, 1), (8, 2), (14, 2)] := by
  decide +kernel

/-- C92_bfs: the hypotheses hold for this case. -/
example : let c : TravCfg Nat Nat Char := ⟨fun v => [(v + 1, 'a'), (v + 7, 'b')], fun v => v % 5, false, true⟩
    exHash.so.Lawful ∧ exLists.so.Lawful ∧ Storable exHash c [0] (fun _ => True) (fun _ => True) ∧
    Storable exLists (c.withId (fun v => 3 * (v % 5))) [0] (fun _ => True) (fun _ => True) ∧
    ∀ v, exHash.so.contains [] (v % 5) = exLists.so.contains [] (3 * (v % 5)) := by
  refine ⟨hashSet_lawful, bitSeqSet_lawful _ rfl (fun _ => by decide) 0,
    ⟨dictMap_lawful, dictMap_lawful, fun _ _ => trivial, fun _ _ _ _ => trivial, ?_⟩,
    ⟨listMap_lawful _ rfl (fun _ => by decide) 3, listMap_lawful _ rfl (fun _ => by decide) 0, fun _ _ => trivial,
      fun _ _ _ _ => trivial, ?_⟩, fun v => ?_⟩
  · intro s hs t ht _; simp at hs ht; rw [hs, ht]
  · intro s hs t ht _; simp at hs ht; rw [hs, ht]
  · rw [show exLists.so.contains [] (3 * (v % 5)) = false from
      (bitSeqSet_lawful _ rfl (fun _ => by decide) 0).contains_empty _]
    simp [exHash, hashSet]

/-- **C92 does not hold in general for topological sorting**: with bit-packed sequences, the two (injective!) functions
`vertex_to_id` lead to different results, because the second one computes smaller ids. This is the problem of C74, seen with
one gear. -/
theorem C92_counterexample_topo :
    let next : Nat → List (Nat × Char) := fun v => if v = 1 then [(200, 'a')] else []
    let c : TravCfg Nat Nat Char := ⟨next, id, false, false⟩
    let vid' : Nat → Nat := fun v => if v = 1 then 200 else if v = 200 then 1 else v
    SameIdentity c.vid vid' ∧
    (topoRun exBits c [] [200, 1] none 50).ending = .raised .assertionError ∧
    (topoRun exBits (c.withId vid') [] [200, 1] none 50).ending = .done ∧
    (topoRun exBits (c.withId vid') [] [200, 1] none 50).reports.map (fun r => r.vertex) = [1, 200] := by
  refine ⟨fun u v => ⟨fun h => ?_, fun h => ?_⟩, by decide +kernel, by decide +kernel, by decide +kernel⟩
  · rw [show u = v from h]
  · dsimp only [id] at h ⊢
    split_ifs at h <;> omega

end NoGraphs
