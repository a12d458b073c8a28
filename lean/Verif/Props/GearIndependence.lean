import Verif.Proofs.TopoGear
import Verif.Proofs.TraceGear
import Verif.Proofs.BiGear
import Verif.Props.Topological
import Verif.Props.DepthFirstTrace

/-! # Independence of the gear: C39 for the bidirectional searches, C74 for the strategies that test traces

`Storable`, `WStorable`: the gear can store the vertices and labels of the graph. `SetOps.Lawful`, `DistOps.Lawful`: the
collections of the gear work as sets of ids, resp. as maps from ids to distances (C35 - C38 prove this for each kind of
collection). -/

set_option linter.unusedSectionVars false

namespace NoGraphs

open Spec

variable {V K L : Type} [DecidableEq V] [DecidableEq K]

/-! ## C39: bidirectional searches -/

section search

variable {S M ML S' M' ML' : Type}

/-- **C39 for the bidirectional breadth-first search.** With any two gears that can store the vertices and labels, the search
gives the same result: the same length, and a path object with the same content; or the same answer that there is no path;
or the same exception. -/
theorem C39_bibfs_gear_independent (g : TravGear V K L S M ML) (g' : TravGear V K L S' M' ML') (c : BiCfg V K L)
    (hg : g.so.Lawful) (hg' : g'.so.Lawful) (hcF : Compat (Edge c.nextF) c.vid) (hcB : Compat (Edge c.nextB) c.vid)
    (hop : OppositeEdges c.nextF c.nextB) (hinj : c.buildPath = true → Function.Injective c.vid) (starts goals : List V)
    {validV validV' : V → Prop} {validL validL' : L → Prop}
    (hsF : Storable g (c.side false) starts validV validL) (hsB : Storable g (c.side true) goals validV validL)
    (hsF' : Storable g' (c.side false) starts validV' validL') (hsB' : Storable g' (c.side true) goals validV' validL')
    (limit : Option Int) (fuel : Nat) :
    biSearch g c starts goals true true limit fuel = biSearch g' c starts goals true true limit fuel := by
  unfold biSearch
  cases hcom : biCommon c.vid starts goals true true with
  | some v => rfl
  | none =>
    obtain ⟨h1, h2⟩ := bi_gear_sim (starts := starts) (goals := goals) ⟨hg, hcF, hcB⟩ hg' hop hinj
      (fun b => by cases b <;> assumption) (fun b => by cases b <;> assumption) (biCommon_none hcom) limit fuel
    dsimp only
    rw [← h1]
    cases he : (runMachine (biStep g c) fuel none (biInit g c starts goals limit)).ending with
    | done => dsimp only; rw [h2 he]
    | raised e => rfl
    | outOfFuel => rfl

end search

section weighted

variable {W M ML D M' ML' D' : Type} [AddCommMonoid W] [LinearOrder W] [IsOrderedAddMonoid W]

/-- **C39 for the bidirectional shortest path search.** With any two gears with the same infinity value that can store the
vertices and labels, the search gives the same result: the same weight, and a path object with the same content; or the
same answer that there is no path; or the same exception. (`pathFuel` bounds the iterations of the path object in the
model; the statement holds for all values that are large enough.) -/
theorem C39_bd_gear_independent (g : WGear V K L W M ML D) (g' : WGear V K L W M' ML' D') (c : BdCfg V K L W)
    (H : BdHyp g c) (hd' : g'.dd.Lawful c.inf) (hinj : c.buildPath = true → Function.Injective c.vid)
    (starts goals : List V) {validV validV' : V → Prop} {validL validL' : L → Prop}
    (hsF : WStorable g.mo g.lo c.nextF c.vid starts validV validL)
    (hsB : WStorable g.mo g.lo c.nextB c.vid goals validV validL)
    (hsF' : WStorable g'.mo g'.lo c.nextF c.vid starts validV' validL')
    (hsB' : WStorable g'.mo g'.lo c.nextB c.vid goals validV' validL')
    (limit : Option Int) (fuel : Nat) :
    ∃ N, ∀ pathFuel, N ≤ pathFuel →
      bdSearch g c starts goals limit fuel pathFuel = bdSearch g' c starts goals limit fuel pathFuel := by
  unfold bdSearch
  split
  · exact ⟨0, fun _ _ => rfl⟩
  · exact ⟨0, fun _ _ => rfl⟩
  · rename_i start rs gl rg
    cases hcom : biCommon c.vid (start :: rs) (gl :: rg) true true with
    | some v => exact ⟨0, fun _ _ => rfl⟩
    | none =>
      have hok := H.ok (biCommon_none hcom)
      obtain ⟨h1, h2⟩ := bd_gear_sim (starts := start :: rs) (goals := gl :: rg) H.dd hd'
        (fun b => by cases b <;> assumption) (fun b => by cases b <;> assumption) start limit fuel
      dsimp only
      rw [← h1]
      obtain ⟨s, hr, hend⟩ := run_reaches (bdStep g c) fuel none (bdInit g c start (start :: rs) (gl :: rg) limit)
      cases he : (runMachine (bdStep g c) fuel none (bdInit g c start (start :: rs) (gl :: rg) limit)).ending with
      | raised e => exact ⟨0, fun _ _ => rfl⟩
      | outOfFuel => exact ⟨0, fun _ _ => rfl⟩
      | done =>
        have hs := h2 he
        rw [he] at hend
        dsimp only at hend ⊢
        rw [← hs.found, ← hs.best]
        by_cases hf : (runMachine (bdStep g c) fuel none (bdInit g c start (start :: rs) (gl :: rg) limit)).final.found = true
        · simp only [hf, if_true]
          cases hb : c.buildPath with
          | false => exact ⟨0, fun _ _ => by simp only [bdPath, hb, Bool.false_eq_true, if_false]⟩
          | true =>
            obtain ⟨t, h, F, cur, wit⟩ := bd_inv (ns := False) hok start limit False.elim hr
            obtain ⟨-, ⟨e1, -⟩ | ⟨e1, e, rest, -, -, hbest, -⟩⟩ := bdStep_stop hend
            · rw [e1, wit.found] at hf; simp at hf
            · have key := wit.stored hok (hinj hb) hb hsF hsB hbest
              generalize (runMachine (bdStep g c) fuel none (bdInit g c start (start :: rs) (gl :: rg) limit)).final = fin
                at *
              subst e1
              obtain ⟨f, -, -, f3⟩ := key false
              obtain ⟨b, -, -, b3⟩ := key true
              refine ⟨max f.steps.length b.steps.length + 1, fun pathFuel hp => ?_⟩
              congr 1
              simp only [bdPath, hb, if_true, ← hs.node]
              exact fromBidirectional_same hsF.mo hsF.lo hsF'.mo hsF'.lo (hs.side false).same.2.1 (hs.side true).same.2.1
                (hs.side false).same.2.2 (hs.side true).same.2.2 f3 b3 pathFuel (by omega) (by omega)
        · simp only [hf]
          exact ⟨0, fun _ _ => rfl⟩

end weighted

/-! ## C74: topological sorting, and depth-first search with trace -/

section trace

variable {S M ML S' M' ML' : Type}

/-- **C74 for the topological sorting, with a restriction.** With any two gears that can store the vertices and labels, and
with the same visited vertices at the start, the sorting makes the same reports, with the same content of the collections
of visited vertices, predecessors and labels at each report; it ends in the same way, and `cycle_from_start` is the same;
unless one of the runs ends with an `AssertionError`.

Missing for the full claim: the absence of the `AssertionError`, where the claim is wrong (`C74_counterexample_topo`). -/
theorem C74_topo_gear_independent_partial (g : TravGear V K L S M ML) (g' : TravGear V K L S' M' ML') (c : TravCfg V K L)
    (hg : g.so.Lawful) (hg' : g'.so.Lawful) (starts : List V)
    {validV validV' : V → Prop} {validL validL' : L → Prop}
    (hst : Storable g c starts validV validL) (hst' : Storable g' c starts validV' validL')
    (already : S) (already' : S') (ha : ∀ k, g.so.contains already k = g'.so.contains already' k)
    (limit : Option Int) (fuel : Nat) :
    let run := topoRun g c already starts limit fuel
    let run' := topoRun g' c already' starts limit fuel
    run.ending = .raised .assertionError ∨ run'.ending = .raised .assertionError ∨
    (run.reports.map (fun r => (r.vertex, r.depth)) = run'.reports.map (fun r => (r.vertex, r.depth)) ∧
     List.Forall₂ (fun r r' => ∀ k, g.so.contains r.visited k = g'.so.contains r'.visited k ∧
       (c.buildPaths = true → g.mo.get? r.preds k = g'.mo.get? r'.preds k ∧ g.lo.get? r.labels k = g'.lo.get? r'.labels k))
       run.reports run'.reports ∧
     run.ending = run'.ending ∧ run.final.cycleFromStart = run'.final.cycleFromStart) := by
  intro run run'
  refine (topo_gear_sim hg hg' (fun _ => ⟨hst, hst'⟩) already already' ha limit fuel).imp_right
    (·.imp_right fun h => ?_)
  have h3 := repsOf_forall₂ h.1
  exact ⟨forall₂_map_eq h3 (fun a b h => by rw [h.1, h.2.1]),
    h3.imp (fun a b h k => ⟨h.2.2.1 k, fun hb => ⟨(h.2.2.2 hb).1 k, (h.2.2.2 hb).2 k⟩⟩), h.2.1, h.2.2.cyc⟩

/-- **C74 for the topological sorting from one start vertex**, without given visited vertices: here there is no
`AssertionError`, and thus no restriction. -/
theorem C74_topo_single_start (g : TravGear V K L S M ML) (g' : TravGear V K L S' M' ML') (c : TravCfg V K L)
    (hg : g.so.Lawful) (hgr : g.so.Grows) (hg' : g'.so.Lawful) (hgr' : g'.so.Grows) (ht : c.isTree = false) (start : V)
    {validV validV' : V → Prop} {validL validL' : L → Prop}
    (hst : Storable g c [start] validV validL) (hst' : Storable g' c [start] validV' validL')
    (limit : Option Int) (fuel : Nat) :
    let run := topoRun g c g.so.empty [start] limit fuel
    let run' := topoRun g' c g'.so.empty [start] limit fuel
    run.reports.map (fun r => (r.vertex, r.depth)) = run'.reports.map (fun r => (r.vertex, r.depth)) ∧
    List.Forall₂ (fun r r' => ∀ k, g.so.contains r.visited k = g'.so.contains r'.visited k ∧
      (c.buildPaths = true → g.mo.get? r.preds k = g'.mo.get? r'.preds k ∧ g.lo.get? r.labels k = g'.lo.get? r'.labels k))
      run.reports run'.reports ∧
    run.ending = run'.ending ∧ run.final.cycleFromStart = run'.final.cycleFromStart := by
  have na : ∀ {S M ML : Type} (g : TravGear V K L S M ML), g.so.Lawful → g.so.Grows →
      (topoRun g c g.so.empty [start] limit fuel).ending ≠ .raised .assertionError := by
    intro S M ML g hg hgr he
    unfold topoRun at he
    rw [if_neg (by rw [ht]; simp)] at he
    obtain ⟨s, hr, h⟩ := run_reaches (topoStep g c) fuel (prepareLimit limit) (topoInit g c g.so.empty [start])
    rw [he] at h
    rcases h with h | ⟨h, -⟩
    · refine topo_no_assert g c hg hgr ht g.so.empty [start] (by simp) (.inr ⟨?_, fun k hk => ?_⟩) hr h
      · intro s hs t ht v _ _
        simp at hs ht; rw [hs, ht]
      · rw [hg.contains_empty] at hk; simp at hk
    · cases h
  intro run run'
  rcases C74_topo_gear_independent_partial g g' c hg hg' [start] hst hst' g.so.empty g'.so.empty
    (fun k => by rw [hg.contains_empty, hg'.contains_empty]) limit fuel with h | h | h
  · exact absurd h (na g hg hgr)
  · exact absurd h (na g' hg' hgr')
  · exact h

/-- **C74 for depth-first search with trace or events, with a restriction.** With accepted options, in any mode, and with any
two gears that can store the vertices and labels (and that distinguish a missing predecessor, as those based on hashing and
on lists do, see C54), and with the same visited vertices at the start, the traversal makes the same reports, with the same
event, trace, depth and index, and the same content of the collections; and it ends in the same way.

Missing for the full claim: the cases excluded by `TraceAlready.range` and `Faithful`, where the claim is wrong
(`C74_counterexample_trace`, `C54_counterexample`). -/
theorem C74_dfs_trace_gear_independent_partial (g : TravGear V K L S M ML) (g' : TravGear V K L S' M' ML')
    (c : TraceCfg V K L) {given : Bool} {already : S} {already' : S'} (hg : g.so.Lawful) (hgr : g.so.Grows)
    (hg' : g'.so.Lawful) (hgr' : g'.so.Grows) (hacc : c.Accepted given)
    (hal : TraceAlready g c given already) (hal' : TraceAlready g' c given already')
    (ha : ∀ k, g.so.contains already k = g'.so.contains already' k) (starts : List V)
    {validV validV' : V → Prop} {validL validL' : L → Prop}
    (hst : c.buildPaths = true → Storable g c.toTravCfg starts validV validL ∧
      Storable g' c.toTravCfg starts validV' validL' ∧ g.mo.Faithful ∧ g'.mo.Faithful)
    (limit : Option Int) (fuel : Nat) :
    let run := trRun g c already starts limit fuel
    let run' := trRun g' c already' starts limit fuel
    run.reports.map (fun r => (r.vertex, r.depth, r.event, r.trace, r.traceLabels, r.index)) =
      run'.reports.map (fun r => (r.vertex, r.depth, r.event, r.trace, r.traceLabels, r.index)) ∧
    List.Forall₂ (fun r r' => ∀ k, g.so.contains r.visited k = g'.so.contains r'.visited k ∧
      g.so.contains r.onTrace k = g'.so.contains r'.onTrace k ∧
      (c.buildPaths = true → g.mo.get? r.preds k = g'.mo.get? r'.preds k ∧ g.lo.get? r.labels k = g'.lo.get? r'.labels k))
      run.reports run'.reports ∧
    run.ending = run'.ending := by
  intro run run'
  rcases tr_gear_sim (starts := starts) (validV := validV) (validV' := validV') (validL := validL) (validL' := validL')
    ⟨hg, hg', hst⟩ already already' ha (fun h s hr v last nl hpc ho => by
      obtain ⟨F, x, q, lv, hist, hc, -⟩ :=
        tr_inv hacc.ok (trPathsOk_false (fun _ => True) starts) hg hgr hal.trRange hr
      have hctl := hc.ctl
      unfold TrCtl at hctl
      rw [hpc] at hctl
      obtain ⟨rfl, rfl, ⟨p, rfl, rfl⟩, -⟩ := hctl
      exact hc.data.onTop ho) limit fuel with h | h | h
  · have := (C59_dfs_no_failure_partial g c hg hgr hacc hal starts limit fuel _ h).1
    simp at this
  · have := (C59_dfs_no_failure_partial g' c hg' hgr' hacc hal' starts limit fuel _ h).1
    simp at this
  · have h3 := repsOf_forall₂ h.1
    exact ⟨forall₂_map_eq h3 (fun a b ⟨h1, h2, h3, h4, h5, h6, _⟩ => by rw [h1, h2, h3, h4, h5, h6]),
      h3.imp (fun a b h k => ⟨h.2.2.2.2.2.2.2.1 k, h.2.2.2.2.2.2.1 k,
        fun hb => ⟨(h.2.2.2.2.2.2.2.2 hb).1 k, (h.2.2.2.2.2.2.2.2 hb).2 k⟩⟩), h.2⟩

end trace

/-! ## Examples -/

/-- Gears based on lists and arrays for the examples. -/
def exBdArr : WGear Nat Nat Unit Nat (List Nat) (List (Option Unit)) (List Nat) :=
  ⟨arrayMap ⟨255, 2, true⟩ 0, listMap ⟨none, 2, true⟩ 0, seqDist ⟨1000, 2, true⟩ 0⟩

/-- C39 (bidirectional breadth-first search): the hypotheses hold for hash based collections and for sequences, and a path is
found. -/
example : Storable exHash (exBi.side false) [0] (fun _ => True) (fun _ => True) ∧
    Storable exHash (exBi.side true) [4] (fun _ => True) (fun _ => True) ∧
    Storable exLists (exBi.side false) [0] (fun _ => True) (fun _ => True) ∧
    Storable exLists (exBi.side true) [4] (fun _ => True) (fun _ => True) ∧
    biSearch exHash exBi [0] [4] true true none 100 = biSearch exLists exBi [0] [4] true true none 100 ∧
    ∃ n o, biSearch exLists exBi [0] [4] true true none 100 = .found n o ∧ n = 3 := by
  have h1 : Storable exHash (exBi.side false) [0] (fun _ => True) (fun _ => True) :=
    ⟨dictMap_lawful, dictMap_lawful, fun _ _ => trivial, fun _ _ _ _ => trivial, by simp⟩
  have h2 : Storable exHash (exBi.side true) [4] (fun _ => True) (fun _ => True) :=
    ⟨dictMap_lawful, dictMap_lawful, fun _ _ => trivial, fun _ _ _ _ => trivial, by simp⟩
  have h3 : Storable exLists (exBi.side false) [0] (fun _ => True) (fun _ => True) :=
    ⟨listMap_lawful _ rfl (fun _ => by decide) 3, listMap_lawful _ rfl (fun _ => by decide) 0, fun _ _ => trivial,
      fun _ _ _ _ => trivial, by simp⟩
  have h4 : Storable exLists (exBi.side true) [4] (fun _ => True) (fun _ => True) :=
    ⟨listMap_lawful _ rfl (fun _ => by decide) 3, listMap_lawful _ rfl (fun _ => by decide) 0, fun _ _ => trivial,
      fun _ _ _ _ => trivial, by simp⟩
  refine ⟨h1, h2, h3, h4, ?_, _, ⟨[0, 1, 3, 4], [4, 3, 1, 0], [(0, 1, 'a'), (1, 3, 'c'), (3, 4, 'f')],
    [(3, 4, 'f'), (1, 3, 'c'), (0, 1, 'a')]⟩, ?_, rfl⟩
  · exact C39_bibfs_gear_independent exHash exLists exBi hashSet_lawful (bitSeqSet_lawful _ rfl (fun _ => by decide) 0)
      (.of_injective _ _ (fun _ _ h => h)) (.of_injective _ _ (fun _ _ h => h))
      (fun u v => ⟨fun ⟨l, h⟩ => ⟨l, (exOpposite u v l).1 h⟩, fun ⟨l, h⟩ => ⟨l, (exOpposite u v l).2 h⟩⟩)
      (fun _ _ _ h => h) [0] [4] h1 h2 h3 h4 none 100
  · decide +kernel

/-- C39 (bidirectional shortest path search): the hypotheses hold for hash based collections and for arrays, and a path is
found. -/
example : BdHyp exBdHash exBd ∧ exBdArr.dd.Lawful exBd.inf ∧
    WStorable exBdArr.mo exBdArr.lo exBd.nextF exBd.vid [0] (fun x => x ≠ 255) (fun _ => True) ∧
    WStorable exBdArr.mo exBdArr.lo exBd.nextB exBd.vid [4] (fun x => x ≠ 255) (fun _ => True) ∧
    (match bdSearch exBdArr exBd [0] [4] none 100 10 with
      | .found w p => some (w, p.vertsForwards)
      | _ => none) = some (13, [0, 3, 4]) := by
  have hF : ∀ w v, WalkW exBd.nextF (· ∈ [0]) w v → v ≠ 255 := by
    intro w v h
    have : v < 9 := by
      cases h with
      | start hs => simp at hs; omega
      | @step w u v x _ he =>
        obtain ⟨l, hl⟩ := he
        simp only [exBd, exBdNext] at hl
        split at hl <;> simp at hl <;> omega
    omega
  have hB : ∀ w v, WalkW exBd.nextB (· ∈ [4]) w v → v ≠ 255 := by
    intro w v h
    have : v < 9 := by
      cases h with
      | start hs => simp at hs; omega
      | @step w u v x _ he =>
        obtain ⟨l, hl⟩ := he
        simp only [exBd, exBdPrev] at hl
        split at hl <;> simp at hl <;> omega
    omega
  refine ⟨exBdHyp, seqDist_lawful _ (fun _ => by decide) 0,
    ⟨arrayMap_lawful _ (fun _ => by decide) 0, listMap_lawful _ rfl (fun _ => by decide) 0, hF, fun _ _ _ _ _ => trivial,
      by simp⟩,
    ⟨arrayMap_lawful _ (fun _ => by decide) 0, listMap_lawful _ rfl (fun _ => by decide) 0, hB, fun _ _ _ _ _ => trivial,
      by simp⟩, ?_⟩
  decide +kernel

/-- C74 (topological sorting): the third case occurs, with three reports or more. -/
example : Storable exHash (exDagCfg true) [0] (fun _ => True) (fun _ => True) ∧
    Storable exLists (exDagCfg true) [0] (fun _ => True) (fun _ => True) ∧
    (topoRun exLists (exDagCfg true) exLists.so.empty [0] none 100).ending = .done ∧
    (topoRun exHash (exDagCfg true) exHash.so.empty [0] none 100).reports.map (fun r => (r.vertex, r.depth)) =
      [(4, 1), (3, 3), (1, 2), (2, 1), (0, 0)] ∧
    (topoRun exLists (exDagCfg true) exLists.so.empty [0] none 100).reports.map (fun r => (r.vertex, r.depth)) =
      [(4, 1), (3, 3), (1, 2), (2, 1), (0, 0)] := by
  refine ⟨⟨dictMap_lawful, dictMap_lawful, fun _ _ => trivial, fun _ _ _ _ => trivial, by simp⟩,
    ⟨listMap_lawful _ rfl (fun _ => by decide) 3, listMap_lawful _ rfl (fun _ => by decide) 0, fun _ _ => trivial,
      fun _ _ _ _ => trivial, by simp⟩, ?_, ?_, ?_⟩ <;> decide +kernel

/-- **C74 does not hold in general for the topological sorting**: start vertices `200` and `1`, edge `1 → 200`. With hash based
collections, both vertices are reported; with bit-packed sequences, the sorting ends with an `AssertionError`. -/
theorem C74_counterexample_topo :
    let next : Nat → List (Nat × Char) := fun v => if v = 1 then [(200, 'a')] else []
    let run := topoRun exHash ⟨next, id, false, false⟩ [] [200, 1] none 50
    let run' := topoRun exBits ⟨next, id, false, false⟩ [] [200, 1] none 50
    (run.ending = .done ∧ run.reports.map (fun r => r.vertex) = [1, 200]) ∧
    run'.ending = .raised .assertionError := by
  refine ⟨?_, ?_⟩ <;> decide +kernel

/-- **C74 does not hold in general for depth-first search with events**: id 40 is given as already visited, `BACK_EDGE` is
requested, and there is the edge `0 → 40`. With hash based collections, the traversal ends normally, and with bit-packed
sequences, it ends with an `AssertionError`. -/
theorem C74_counterexample_trace :
    let next : Nat → List (Nat × Char) := fun v => if v = 0 then [(40, 'a')] else []
    let o := { exOptions .dfsTree (fun e => e = .backEdge) with alreadyGiven := true }
    (dfsOptions o).isSome = true ∧
    (trRun exHash (exTraceCfg ⟨next, id, false, true⟩ o) (exHash.so.add exHash.so.empty 40) [0] none 200).ending = .done ∧
    (trRun exLists (exTraceCfg ⟨next, id, false, true⟩ o) (exLists.so.add exLists.so.empty 40) [0] none 200).ending =
      .raised .assertionError := by
  refine ⟨?_, ?_, ?_⟩ <;> decide +kernel

/-- C74 (depth-first search with events): the hypotheses hold. -/
example : let c := exTraceCfg ⟨exKinds, id, false, true⟩ (exOptions .dfsTree exAll)
    c.Accepted false ∧ TraceAlready exHash c false exHash.so.empty ∧ TraceAlready exLists c false exLists.so.empty ∧
    exHash.mo.Faithful ∧ exLists.mo.Faithful ∧
    Storable exHash c.toTravCfg [0, 0, 3] (fun _ => True) (fun _ => True) ∧
    Storable exLists c.toTravCfg [0, 0, 3] (fun _ => True) (fun _ => True) := by
  intro c
  exact ⟨exTraceCfg_accepted _ _ (by decide) (by decide),
    ⟨fun _ => rfl, fun _ k h => by simp [exHash, hashSet] at h⟩,
    ⟨fun _ => rfl, fun _ k h => by
      rw [show exLists.so.contains exLists.so.empty k = false from
        (bitSeqSet_lawful _ rfl (fun _ => by decide) 0).contains_empty k] at h
      simp at h⟩,
    dictMap_faithful, listMap_faithful _ rfl _,
    ⟨dictMap_lawful, dictMap_lawful, fun _ _ => trivial, fun _ _ _ _ => trivial, fun _ _ _ _ h => h⟩,
    ⟨listMap_lawful _ rfl (fun _ => by decide) 3, listMap_lawful _ rfl (fun _ => by decide) 0, fun _ _ => trivial,
      fun _ _ _ _ => trivial, fun _ _ _ _ h => h⟩⟩

end NoGraphs
