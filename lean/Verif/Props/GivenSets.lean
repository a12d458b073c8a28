import Verif.Model.GivenSets
import Verif.Props.GearIndependence
import Verif.Props.DepthFirstBoth
import Verif.Props.BfsModes
import Verif.Props.NeighborsThenDepth
import Verif.Props.DepthFirst

/-! # Property C90: any kind of set can be given for the visited vertices

The application gives a set `already'` that is implemented by the operations `so'`, instead of a set `already` with the same
ids that is implemented as the sets of the gear are. -/

set_option linter.unusedSectionVars false

namespace NoGraphs

open Spec

variable {V K L S S' M ML : Type} [DecidableEq V] [DecidableEq K]

/-- The gear, but with another implementation of the set of visited vertices. -/
def TravGear.withSet (g : TravGear V K L S M ML) (so' : SetOps S' K) : TravGear V K L S' M ML := ⟨so', g.mo, g.lo⟩

theorem Storable.withSet {g : TravGear V K L S M ML} {c : TravCfg V K L} {starts : List V} {validV : V → Prop}
    {validL : L → Prop} (h : Storable g c starts validV validL) (so' : SetOps S' K) :
    Storable (g.withSet so') c starts validV validL := ⟨h.mo, h.lo, h.verts, h.labs, h.distinct⟩

/-- **C90 for breadth-first search.** With any implementation of the given set, there are the same reports, with the same
paths, the given set contains the same ids at each report, and the traversal ends in the same way. -/
theorem C90_bfs (g : TravGear V K L S M ML) (so' : SetOps S' K) (c : TravCfg V K L) (hg : g.so.Lawful) (hg' : so'.Lawful)
    {validV : V → Prop} {validL : L → Prop} (starts : List V) (hst : Storable g c starts validV validL)
    (already : S) (already' : S') (ha : ∀ k, g.so.contains already k = so'.contains already' k)
    (limit : Option Int) (fuel : Nat) :
    let run := bfsRun g c already starts limit fuel
    let run' := bfsRun (g.withSet so') c already' starts limit fuel
    run.reports.map (fun r => (r.vertex, r.depth)) = run'.reports.map (fun r => (r.vertex, r.depth)) ∧
    List.Forall₂ (fun r r' => ∀ k, g.so.contains r.visited k = so'.contains r'.visited k ∧
      g.mo.get? r.preds k = g.mo.get? r'.preds k ∧ g.lo.get? r.labels k = g.lo.get? r'.labels k)
      run.reports run'.reports ∧
    run.ending = run'.ending :=
  C39_bfs_gear_independent g (g.withSet so') c hg hg' starts hst (hst.withSet so') already already' ha limit fuel

/-- **C90 for neighbors-then-depth search.** -/
theorem C90_ntd (g : TravGear V K L S M ML) (so' : SetOps S' K) (c : NtdCfg V K L) (hg : g.so.Lawful) (hg' : so'.Lawful)
    {validV : V → Prop} {validL : L → Prop} (starts : List V) (hst : Storable g c.toTravCfg starts validV validL)
    (already : S) (already' : S') (ha : ∀ k, g.so.contains already k = so'.contains already' k)
    (limit : Option Int) (fuel : Nat) :
    let run := ntdRun g c already starts limit fuel
    let run' := ntdRun (g.withSet so') c already' starts limit fuel
    run.reports.map (fun r => (r.vertex, r.depth)) = run'.reports.map (fun r => (r.vertex, r.depth)) ∧
    List.Forall₂ (fun r r' => ∀ k, g.so.contains r.visited k = so'.contains r'.visited k ∧
      g.mo.get? r.preds k = g.mo.get? r'.preds k ∧ g.lo.get? r.labels k = g.lo.get? r'.labels k)
      run.reports run'.reports ∧
    run.ending = run'.ending :=
  C39_ntd_gear_independent g c (g.withSet so') hg hg' starts hst (hst.withSet so') already already' ha limit fuel

/-- Without a request that needs the trace, the trace is not computed. -/
theorem dfsOptions_noTrace {o o' : DfsOptions} (h : dfsOptions o = some o') (hn : ¬ o.NeedsTrace) (hm : o.mode = .dfsTree) :
    o'.withTrace = false := by
  have h0 : ∀ e, e ≠ .none → e.isEntering = false → o.report e = false := fun e h1 h2 => by
    by_contra h3
    exact hn (.inr (.inr (.inr ⟨e, h1, h2, by simpa using h3⟩)))
  have h1 : o.computeTrace = false := by by_contra h; exact hn (.inl (by simpa using h))
  have h2 : o.computeOnTrace = false := by by_contra h; exact hn (.inr (.inl (by simpa using h)))
  have h3 : o.computeIndex = false := by by_contra h; exact hn (.inr (.inr (.inl (by simpa using h))))
  have e1 := h0 .leavingStart (by decide) rfl
  have e2 := h0 .leavingSuccessor (by decide) rfl
  have e3 := h0 .skippingStart (by decide) rfl
  have e4 := h0 .backEdge (by decide) rfl
  have e5 := h0 .forwardEdge (by decide) rfl
  have e6 := h0 .crossEdge (by decide) rfl
  have e7 := h0 .someNonTreeEdge (by decide) rfl
  have e8 := h0 .forwardOrCrossEdge (by decide) rfl
  simp [dfsOptions, DfsOptions.nonTree, h1, h2, h3, e1, e2, e3, e4, e5, e6, e7, e8, hm] at h
  subst h
  simp [DfsOptions.withTrace]

/-- What a consumer sees of a depth-first run, except for the set of the vertices on the trace. -/
def DfsSeenRun.shown {S : Type} (r : DfsSeenRun V K S) : List (V × DfsEvent × Int × List V) × Ending :=
  (r.reports.map (fun r => (r.vertex, r.event, r.depth, r.trace)), r.ending)

/-- **C90 for depth-first search, with a restriction.** If no option needs the trace and the mode is `DFS_TREE`, or if the
given set is of the same kind as the sets of the gear, then with any implementation of the given set, the traversal makes
the same reports and ends in the same way.

Missing for the full claim: sets of other kinds, for options that need the trace, and for other modes. There, the claim is
wrong (`C90_dfs_counterexample`). And the restrictions of C74 (`hrange`, `hst`). -/
theorem C90_dfs_partial (gear given : SetKind) (g : TravGear V K L S M ML) (so' : SetOps S' K) (f : DfsGraph V K L)
    (o : DfsOptions) (hso : g.so.Lawful) (hgr : g.so.Grows) (hso' : so'.Lawful) (hgr' : so'.Grows)
    (hgiven : o.alreadyGiven = true) (hk : (¬ o.NeedsTrace ∧ o.mode = .dfsTree) ∨ given = gear) (already : S) (already' : S')
    (ha : ∀ k, g.so.contains already k = so'.contains already' k)
    (hrange : o.report .backEdge = true → ∀ k, g.so.contains already k = true →
      (g.so.mustContain g.so.empty k).isSome = true ∧ (so'.mustContain so'.empty k).isSome = true)
    {validV : V → Prop} {validL : L → Prop} (starts : List V)
    (hst : o.buildPaths = true → Storable g ⟨f.next, f.vid, o.isTree, true⟩ starts validV validL ∧ g.mo.Faithful)
    (limit : Option Int) (fuel : Nat) :
    (depthFirstRunGiven gear given (g.withSet so') f o already' starts limit fuel).map DfsSeenRun.shown =
      (depthFirstRunGiven gear gear g f o already starts limit fuel).map DfsSeenRun.shown := by
  unfold depthFirstRunGiven
  cases ho : dfsOptions o with
  | none => rfl
  | some o' =>
    obtain ⟨e1, e2, e3, e4, e5⟩ := dfsOptions_same ho
    have hn : ¬ (o'.withTrace = true ∧ given ≠ gear) := by
      rintro ⟨h1, h2⟩
      rcases hk with ⟨h3, h4⟩ | h3
      · rw [dfsOptions_noTrace ho h3 h4] at h1
        simp at h1
      · exact h2 h3
    dsimp only
    rw [if_neg hn, if_neg (by simp)]
    simp only [depthFirstRun, ho]
    by_cases hw : o'.withTrace = true
    · simp only [hw, if_true, Option.map_some]
      have hac : (f.traced o').Accepted o.alreadyGiven := ⟨o, o', ho, hw, rfl, rfl, rfl, rfl, rfl, rfl, e5⟩
      have hal : TraceAlready g (f.traced o') o.alreadyGiven already :=
        ⟨fun h => absurd (hgiven.symm.trans h) (by simp), fun h k hk => (hrange (by rw [← e3]; exact h) k hk).1⟩
      have hal' : TraceAlready (g.withSet so') (f.traced o') o.alreadyGiven already' :=
        ⟨fun h => absurd (hgiven.symm.trans h) (by simp),
          fun h k hk => (hrange (by rw [← e3]; exact h) k (by rw [ha]; exact hk)).2⟩
      obtain ⟨h1, -, h2⟩ := C74_dfs_trace_gear_independent_partial g (g.withSet so') (f.traced o') hso hgr hso' hgr' hac
        hal hal' ha starts (validV := validV) (validV' := validV) (validL := validL) (validL' := validL)
        (fun hb => by
          obtain ⟨h3, h4⟩ := hst (by rw [← e4]; exact hb)
          have h5 : Storable g (f.traced o').toTravCfg starts validV validL :=
            ⟨h3.mo, h3.lo, h3.verts, h3.labs, h3.distinct⟩
          exact ⟨h5, h5.withSet so', h4, h4⟩) limit fuel
      have h3 := congrArg (List.map (fun x : V × Int × DfsEvent × List V × _ × _ => (x.1, x.2.2.1, x.2.1, x.2.2.2.1))) h1
      simp only [List.map_map] at h3
      simp only [DfsSeenRun.shown, List.map_map, Option.some.injEq, Prod.mk.injEq]
      exact ⟨h3.symm, h2.symm⟩
    · simp only [hw, Bool.false_eq_true, if_false, Option.map_some]
      obtain ⟨h1, -, h2⟩ := C39_dfs_gear_independent g (f.plain o') (g.withSet so') hso hso' starts
        (validV := validV) (validV' := validV) (validL := validL) (validL' := validL)
        (fun hb => by
          obtain ⟨h3, h4⟩ := hst (by rw [← e4]; exact hb)
          have h5 : Storable g (f.plain o').toTravCfg starts validV validL :=
            ⟨h3.mo, h3.lo, h3.verts, h3.labs, h3.distinct⟩
          exact ⟨h5, h5.withSet so', h4, h4⟩) already already' ha limit fuel
      have h3 := congrArg (List.map (fun x : V × Int × DfsEvent => (x.1, x.2.2, x.2.1, ([] : List V)))) h1
      simp only [List.map_map] at h3
      simp only [DfsSeenRun.shown, List.map_map, Option.some.injEq, Prod.mk.injEq]
      exact ⟨h3.symm, h2.symm⟩

/-- **C90 for topological sorting, with the documented restriction**: the given set is of the kind of the sets of the gear
(or the graph is declared to be a tree). Missing: the case of an `AssertionError` (see C74). -/
theorem C90_topo_partial (gear given : SetKind) (g : TravGear V K L S M ML) (so' : SetOps S' K) (c : TravCfg V K L)
    (hg : g.so.Lawful) (hg' : so'.Lawful) (hk : c.isTree = true ∨ given = gear)
    {validV : V → Prop} {validL : L → Prop} (starts : List V) (hst : Storable g c starts validV validL)
    (already : S) (already' : S') (ha : ∀ k, g.so.contains already k = so'.contains already' k)
    (limit : Option Int) (fuel : Nat) :
    let run := topoRunGiven gear gear g c already starts limit fuel
    let run' := topoRunGiven gear given (g.withSet so') c already' starts limit fuel
    run.ending = .raised .assertionError ∨ run'.ending = .raised .assertionError ∨
    (run.reports.map (fun r => (r.vertex, r.depth)) = run'.reports.map (fun r => (r.vertex, r.depth)) ∧
     List.Forall₂ (fun r r' => ∀ k, g.so.contains r.visited k = so'.contains r'.visited k ∧
       (c.buildPaths = true → g.mo.get? r.preds k = g.mo.get? r'.preds k ∧ g.lo.get? r.labels k = g.lo.get? r'.labels k))
       run.reports run'.reports ∧
     run.ending = run'.ending ∧ run.final.cycleFromStart = run'.final.cycleFromStart) := by
  have e : topoRunGiven gear given (g.withSet so') c already' starts limit fuel =
      topoRun (g.withSet so') c already' starts limit fuel := by
    unfold topoRunGiven
    rw [if_neg]
    rintro ⟨h1, h2⟩
    rcases hk with h | h
    · rw [h] at h1; simp at h1
    · exact h2 h
  have e' : topoRunGiven gear gear g c already starts limit fuel = topoRun g c already starts limit fuel := by
    unfold topoRunGiven
    rw [if_neg (by simp)]
  rw [e, e']
  exact C74_topo_gear_independent_partial g (g.withSet so') c hg hg' starts hst (hst.withSet so') already already' ha limit fuel

set_option synthInstance.maxSize 2000 in
/-- **C90 does not hold in general for depth-first search.** The gear is one with bit packing, and an empty set of Python is
given for the visited vertices. Without further options, the vertices 1 and 2 are reported (one after the other), as with a
set of the gear. If the trace is requested, nothing is reported, and an `AssertionError` is raised. -/
theorem C90_dfs_counterexample :
    let next : Nat → List (Nat × Char) := fun v => if v = 0 then [(1, 'a')] else if v = 1 then [(2, 'b')] else []
    let f : DfsGraph Nat Nat Char := ⟨next, id, false, true, fun _ => false⟩
    let plain : DfsOptions := ⟨false, .dfsTree, fun e => e = .enteringSuccessor, false, false, false, false, true⟩
    let traced : DfsOptions := { plain with computeTrace := true }
    let gear := exBits
    let user := gear.withSet (hashSet (K := Nat))
    ((depthFirstRunGiven .bits .other user f plain [] [0] none 50).map DfsSeenRun.shown =
      some ([(1, .enteringSuccessor, 1, []), (2, .enteringSuccessor, 2, [])], .done)) ∧
    ((depthFirstRunGiven .bits .bits gear f traced gear.so.empty [0] none 50).map DfsSeenRun.shown =
      some ([(1, .enteringSuccessor, 1, [0, 1]), (2, .enteringSuccessor, 2, [0, 1, 2])], .done)) ∧
    ((depthFirstRunGiven .bits .other user f traced [] [0] none 50).map DfsSeenRun.shown =
      some ([], .raised .assertionError)) := by
  refine ⟨?_, ?_, ?_⟩ <;> decide +kernel

/-! ## Non-vacuity (gears: see `Verif/Props/Bfs.lean` and `BfsModes.lean`) -/

/-- A gear with bit packing, and a given set of Python that contains the id 1: lawful, the same ids, and the run is not
empty. -/
example : exBits.so.Lawful ∧ (hashSet (K := Nat)).Lawful ∧ exBits.so.Grows ∧ (hashSet (K := Nat)).Grows ∧
    (∀ k, exBits.so.contains (exBits.so.add exBits.so.empty 1) k = (hashSet (K := Nat)).contains [1] k) ∧
    Storable exBits (exCfg true) [0] (fun x => x ≠ 255) (fun _ => True) ∧
    (bfsRun exBits (exCfg true) (exBits.so.add exBits.so.empty 1) [0] none 100).reports.map (fun r => (r.vertex, r.depth)) =
      [(2, 1), (3, 2), (4, 3)] := by
  refine ⟨bitSeqSet_lawful _ rfl (fun _ => by decide) 0, hashSet_lawful, bitSeqSet_grows _ (by simp [SeqParams.Ok]) 0, hashSet_grows,
    fun k => ?_, ⟨arrayMap_lawful _ (fun _ => by decide) 0, listMap_lawful _ rfl (fun _ => by decide) 0,
      fun v hv => by have := exNext_reach hv; omega, fun _ _ _ _ => trivial, fun s hs t ht _ => by simp at hs ht; omega⟩, ?_⟩
  · have h := bitSeqSet_lawful ⟨0, 2, true⟩ rfl (fun _ => by decide) 0
    show (bitSeqSet ⟨0, 2, true⟩ 0).contains ((bitSeqSet ⟨0, 2, true⟩ 0).add (bitSeqSet ⟨0, 2, true⟩ 0).empty 1) k = _
    rw [h.contains_add, h.contains_empty]
    simp [hashSet]
  · decide +kernel

/-- Options that need no trace, and options that need it. -/
example :
    let plain : DfsOptions := ⟨false, .dfsTree, fun e => e = .enteringSuccessor, false, false, false, false, true⟩
    (¬ plain.NeedsTrace ∧ plain.mode = .dfsTree) ∧ (DfsOptions.NeedsTrace { plain with computeTrace := true }) := by
  refine ⟨⟨?_, rfl⟩, .inl rfl⟩
  rintro (h | h | h | ⟨e, h1, h2, h3⟩)
  · simp at h
  · simp at h
  · simp at h
  · simp at h3
    subst h3
    simp [DfsEvent.isEntering] at h2

end NoGraphs
