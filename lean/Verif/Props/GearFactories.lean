import Verif.Model.GearFactories
import Verif.Props.BfsModes
import Verif.Props.NeighborsThenDepth
import Verif.Props.GearIndependence
import Verif.Props.MinimumSpanningTree
import Verif.Props.AStar
import Verif.Proofs.InRange
import Verif.Spec.CTypes

/-! # The collections that the gears for integers create: C84

The theorems compare the gears for integer ids and integer vertices, with all their options, with the gear for hashable
ids. -/

set_option linter.unusedSectionVars false

namespace NoGraphs

open Spec

/-! ## The collections -/

theorem intIdSet_lawful (o : IntOptions) : (intIdSet o).Lawful := by
  unfold intIdSet
  cases o.noBitPacking
  · exact bitSeqSet_lawful _ rfl (fun _ => by simp) _
  · exact boolSeqSet_lawful _ rfl (fun _ => by simp) _

theorem intIdSet_grows (o : IntOptions) : (intIdSet o).Grows := by
  unfold intIdSet
  cases o.noBitPacking
  · exact bitSeqSet_grows _ (fun _ => by simp) _
  · exact boolSeqSet_grows _ (fun _ => by simp) _

theorem intListMap_lawful {X : Type} [DecidableEq X] (o : IntOptions) :
    (intListMap o : MapOps (List (Option X)) Nat X).Lawful (fun _ => True) :=
  listMap_lawful _ rfl (fun h => by simp at h) _

theorem intDist_lawful {W : Type} [LinearOrder W] (inf : W) (o : IntOptions) : (intDist inf o).Lawful inf :=
  seqDist_lawful _ (fun h => by simp at h) _

theorem intVertexMap_lawful (c : VertexCode) (o : IntOptions) : (intVertexMap c o).Lawful (fun x => x ≠ c.max) :=
  arrayMap_lawful _ (fun _ => by simp) _

/-- The ids that are pre-allocated, by the variant of the set. -/
theorem intIdSet_range (o : IntOptions) (k : Nat) :
    ((intIdSet o).mustContain (intIdSet o).empty k).isSome = true ↔
      if o.noBitPacking then k < (o.preAllocate + 7) / 8 else k / 8 < o.preAllocate := by
  unfold intIdSet
  cases o.noBitPacking <;> simp [boolSeqSet, bitSeqSet, seqGet]

theorem same_already {S S' K : Type} [DecidableEq K] {o : SetOps S K} {o' : SetOps S' K} (h : o.Lawful) (h' : o'.Lawful)
    (ids : List K) (k : K) :
    o.contains (o.addAll o.empty ids) k = o'.contains (o'.addAll o'.empty ids) k := by
  rw [Bool.eq_iff_iff, h.contains_addAll, h'.contains_addAll, h.contains_empty, h'.contains_empty]

/-! ## Integer ids: all options, all strategies -/

section ids

variable {V L : Type} [DecidableEq V] [DecidableEq L]

theorem intGear_storable (o : IntOptions) (c : TravCfg V Nat L) (starts : List V)
    (hd : ∀ s ∈ starts, ∀ t ∈ starts, c.vid s = c.vid t → s = t) :
    Storable (intGear o) c starts (fun _ => True) (fun _ => True) :=
  ⟨intListMap_lawful o, intListMap_lawful o, fun _ _ => trivial, fun _ _ _ _ => trivial, hd⟩

theorem hashGear_storable (c : TravCfg V Nat L) (starts : List V)
    (hd : ∀ s ∈ starts, ∀ t ∈ starts, c.vid s = c.vid t → s = t) :
    Storable hashGear c starts (fun _ => True) (fun _ => True) :=
  ⟨dictMap_lawful, dictMap_lawful, fun _ _ => trivial, fun _ _ _ _ => trivial, hd⟩

/-- **C84, breadth-first search.** With the gear for integer ids, whatever its options are, the traversal makes the same
reports, with the same visited ids, predecessors and labels at each report, and ends in the same way, as with the gear for
hashable ids. -/
theorem C84_bfs (o : IntOptions) (c : TravCfg V Nat L) (starts : List V)
    (hd : ∀ s ∈ starts, ∀ t ∈ starts, c.vid s = c.vid t → s = t) (ids : List Nat) (limit : Option Int) (fuel : Nat) :
    let g : TravGear V Nat L _ _ _ := intGear o
    let h : TravGear V Nat L _ _ _ := hashGear
    let run := bfsRun g c (g.so.addAll g.so.empty ids) starts limit fuel
    let run' := bfsRun h c (h.so.addAll h.so.empty ids) starts limit fuel
    run.reports.map (fun r => (r.vertex, r.depth)) = run'.reports.map (fun r => (r.vertex, r.depth)) ∧
    List.Forall₂ (fun r r' => ∀ k, g.so.contains r.visited k = h.so.contains r'.visited k ∧
      g.mo.get? r.preds k = h.mo.get? r'.preds k ∧ g.lo.get? r.labels k = h.lo.get? r'.labels k)
      run.reports run'.reports ∧
    run.ending = run'.ending :=
  C39_bfs_gear_independent (intGear o) hashGear c (intIdSet_lawful o) hashSet_lawful starts (intGear_storable o c starts hd)
    (hashGear_storable c starts hd) _ _ (same_already (intIdSet_lawful o) hashSet_lawful ids) limit fuel

/-- **C84, neighbors-then-depth search.** -/
theorem C84_ntd (o : IntOptions) (c : NtdCfg V Nat L) (starts : List V)
    (hd : ∀ s ∈ starts, ∀ t ∈ starts, c.vid s = c.vid t → s = t) (ids : List Nat) (limit : Option Int) (fuel : Nat) :
    let g : TravGear V Nat L _ _ _ := intGear o
    let h : TravGear V Nat L _ _ _ := hashGear
    let run := ntdRun g c (g.so.addAll g.so.empty ids) starts limit fuel
    let run' := ntdRun h c (h.so.addAll h.so.empty ids) starts limit fuel
    run.reports.map (fun r => (r.vertex, r.depth)) = run'.reports.map (fun r => (r.vertex, r.depth)) ∧
    List.Forall₂ (fun r r' => ∀ k, g.so.contains r.visited k = h.so.contains r'.visited k ∧
      g.mo.get? r.preds k = h.mo.get? r'.preds k ∧ g.lo.get? r.labels k = h.lo.get? r'.labels k)
      run.reports run'.reports ∧
    run.ending = run'.ending :=
  C39_ntd_gear_independent (intGear o) c hashGear (intIdSet_lawful o) hashSet_lawful starts (intGear_storable o _ starts hd)
    (hashGear_storable _ starts hd) _ _ (same_already (intIdSet_lawful o) hashSet_lawful ids) limit fuel

/-- **C84, depth-first search without trace.** -/
theorem C84_dfs (o : IntOptions) (c : DfsCfg V Nat L) (starts : List V)
    (hd : ∀ s ∈ starts, ∀ t ∈ starts, c.vid s = c.vid t → s = t) (ids : List Nat) (limit : Option Int) (fuel : Nat) :
    let g : TravGear V Nat L _ _ _ := intGear o
    let h : TravGear V Nat L _ _ _ := hashGear
    let run := dfsRun g c (g.so.addAll g.so.empty ids) starts limit fuel
    let run' := dfsRun h c (h.so.addAll h.so.empty ids) starts limit fuel
    run.reports.map (fun r => (r.vertex, r.depth, r.event)) =
      run'.reports.map (fun r => (r.vertex, r.depth, r.event)) ∧
    List.Forall₂ (fun r r' => ∀ k, g.so.contains r.visited k = h.so.contains r'.visited k ∧
      (c.buildPaths = true → g.mo.get? r.preds k = h.mo.get? r'.preds k ∧ g.lo.get? r.labels k = h.lo.get? r'.labels k))
      run.reports run'.reports ∧
    run.ending = run'.ending :=
  C39_dfs_gear_independent (intGear o) c hashGear (intIdSet_lawful o) hashSet_lawful starts
    (fun _ => ⟨intGear_storable o _ starts hd, hashGear_storable _ starts hd, listMap_faithful _ rfl _, dictMap_faithful⟩)
    _ _ (same_already (intIdSet_lawful o) hashSet_lawful ids) limit fuel

/-- **C84, minimum spanning trees.** -/
theorem C84_mst {W : Type} [LinearOrder W] (o : IntOptions) (c : MstCfg V Nat L W) (starts : List V)
    (hd : ∀ s ∈ starts, ∀ t ∈ starts, c.vid s = c.vid t → s = t) (limit : Option Int) (fuel : Nat) :
    let g : TravGear V Nat L _ _ _ := intGear o
    let h : TravGear V Nat L _ _ _ := hashGear
    let run := mstRun g c starts limit fuel
    let run' := mstRun h c starts limit fuel
    run.reports.map (fun r => (r.vertex, r.edge)) = run'.reports.map (fun r => (r.vertex, r.edge)) ∧
    (c.buildPaths = true → List.Forall₂ (fun r r' => ∀ k, g.mo.get? r.preds k = h.mo.get? r'.preds k ∧
      g.lo.get? r.labels k = h.lo.get? r'.labels k) run.reports run'.reports) ∧
    run.ending = run'.ending :=
  C39_mst_gear_independent (intGear o) c hashGear (intIdSet_lawful o) hashSet_lawful starts
    (validV := fun _ => True) (validV' := fun _ => True) (validL := fun _ => True) (validL' := fun _ => True)
    (fun _ => ⟨⟨intListMap_lawful o, intListMap_lawful o, fun _ _ => trivial, fun _ _ _ _ => trivial, hd⟩,
      ⟨dictMap_lawful, dictMap_lawful, fun _ _ => trivial, fun _ _ _ _ => trivial, hd⟩⟩) limit fuel

/-- **C84, bidirectional breadth-first search.** -/
theorem C84_bibfs (o : IntOptions) (c : BiCfg V Nat L) (hcF : Compat (Edge c.nextF) c.vid)
    (hcB : Compat (Edge c.nextB) c.vid) (hop : OppositeEdges c.nextF c.nextB)
    (hinj : c.buildPath = true → Function.Injective c.vid) (starts goals : List V)
    (hdS : ∀ s ∈ starts, ∀ t ∈ starts, c.vid s = c.vid t → s = t)
    (hdG : ∀ s ∈ goals, ∀ t ∈ goals, c.vid s = c.vid t → s = t) (limit : Option Int) (fuel : Nat) :
    biSearch (intGear o) c starts goals true true limit fuel = biSearch hashGear c starts goals true true limit fuel :=
  C39_bibfs_gear_independent (intGear o) hashGear c (intIdSet_lawful o) hashSet_lawful hcF hcB hop hinj starts goals
    (intGear_storable o _ starts hdS) (intGear_storable o _ goals hdG) (hashGear_storable _ starts hdS)
    (hashGear_storable _ goals hdG) limit fuel

theorem intWGear_storable {W : Type} [LinearOrder W] [Add W] [Zero W] (inf : W) (o : IntOptions) (next : V → List (V × W × L)) (vid : V → Nat) (starts : List V)
    (hd : ∀ s ∈ starts, ∀ t ∈ starts, vid s = vid t → s = t) :
    WStorable (intWGear (V := V) (L := L) inf o).mo (intWGear (V := V) (L := L) inf o).lo next vid starts (fun _ => True) (fun _ => True) :=
  ⟨intListMap_lawful o, intListMap_lawful o, fun _ _ _ => trivial, fun _ _ _ _ _ => trivial, hd⟩

theorem hashWGear_storable {W : Type} [LinearOrder W] [Add W] [Zero W] (inf : W) (next : V → List (V × W × L)) (vid : V → Nat) (starts : List V)
    (hd : ∀ s ∈ starts, ∀ t ∈ starts, vid s = vid t → s = t) :
    WStorable (hashWGear (V := V) (K := Nat) (L := L) inf).mo (hashWGear (V := V) (K := Nat) (L := L) inf).lo next vid starts
      (fun _ => True) (fun _ => True) :=
  ⟨dictMap_lawful, dictMap_lawful, fun _ _ _ => trivial, fun _ _ _ _ _ => trivial, hd⟩

/-- **C84, shortest paths.** With the gear for integer ids, whatever its options are, the traversal makes the same reports,
with the same distances, predecessors and labels at each report, and ends in the same way, as with the gear for hashable
ids. -/
theorem C84_sp {W : Type} [Add W] [Zero W] [LinearOrder W] [WeightLaws W] (o : IntOptions) (c : WCfg V Nat L W)
    (starts : List V) (hd : ∀ s ∈ starts, ∀ t ∈ starts, c.vid s = c.vid t → s = t) (limit : Option Int) (fuel : Nat) :
    let g : WGear V Nat L W _ _ _ := intWGear c.inf o
    let h : WGear V Nat L W _ _ _ := hashWGear c.inf
    let run := spRun g c none starts limit fuel
    let run' := spRun h c none starts limit fuel
    run.reports.map (fun r => (r.vertex, r.distance, r.depth)) =
      run'.reports.map (fun r => (r.vertex, r.distance, r.depth)) ∧
    List.Forall₂ (fun r r' => ∀ k, g.dd.get r.dist k = h.dd.get r'.dist k ∧
      g.mo.get? r.preds k = h.mo.get? r'.preds k ∧ g.lo.get? r.labels k = h.lo.get? r'.labels k)
      run.reports run'.reports ∧
    run.ending = run'.ending :=
  C39_sp_gear_independent (intWGear c.inf o) c (hashWGear c.inf) (intDist_lawful _ o) (dictDist_lawful _) starts
    (intWGear_storable _ o _ _ starts hd) (hashWGear_storable _ _ _ starts hd) limit fuel

/-- **C84, A\*.** -/
theorem C84_astar {W : Type} [AddCommMonoid W] [LinearOrder W] [IsOrderedCancelAddMonoid W] (o : IntOptions)
    (c : AStarCfg V Nat L W) (starts : List V) (hd : ∀ s ∈ starts, ∀ t ∈ starts, c.vid s = c.vid t → s = t)
    (limit : Option Int) (fuel : Nat) :
    let g : WGear V Nat L W _ _ _ := intWGear c.inf o
    let h : WGear V Nat L W _ _ _ := hashWGear c.inf
    let run := aRun g c none none starts limit fuel
    let run' := aRun h c none none starts limit fuel
    run.reports.map (fun r => (r.vertex, r.pathLength, r.depth)) =
      run'.reports.map (fun r => (r.vertex, r.pathLength, r.depth)) ∧
    List.Forall₂ (fun r r' => ∀ k, g.dd.get r.dist k = h.dd.get r'.dist k ∧
      g.mo.get? r.preds k = h.mo.get? r'.preds k ∧ g.lo.get? r.labels k = h.lo.get? r'.labels k)
      run.reports run'.reports ∧
    run.ending = run'.ending :=
  C39_astar_gear_independent (intWGear c.inf o) c (hashWGear c.inf) (intDist_lawful _ o) (dictDist_lawful _) starts
    (intWGear_storable _ o _ _ starts hd) (hashWGear_storable _ _ _ starts hd) limit fuel

/-- **C84, bidirectional search of shortest paths.** -/
theorem C84_bd {W : Type} [AddCommMonoid W] [LinearOrder W] [IsOrderedAddMonoid W] (o : IntOptions) (c : BdCfg V Nat L W)
    (hnF : NonNeg c.nextF) (hnB : NonNeg c.nextB) (hcF : WCompat c.nextF c.vid) (hcB : WCompat c.nextB c.vid)
    (hinf : 0 ≤ c.inf) (hop : WOppositeEdges c.nextF c.nextB) (hinj : c.buildPath = true → Function.Injective c.vid)
    (starts goals : List V) (hdS : ∀ s ∈ starts, ∀ t ∈ starts, c.vid s = c.vid t → s = t)
    (hdG : ∀ s ∈ goals, ∀ t ∈ goals, c.vid s = c.vid t → s = t) (limit : Option Int) (fuel : Nat) :
    ∃ N, ∀ pathFuel, N ≤ pathFuel → bdSearch (intWGear c.inf o) c starts goals limit fuel pathFuel =
      bdSearch (hashWGear c.inf) c starts goals limit fuel pathFuel :=
  C39_bd_gear_independent (intWGear c.inf o) (hashWGear c.inf) c
    ⟨intDist_lawful _ o, hnF, hnB, hcF, hcB, hinf, hop⟩ (dictDist_lawful _) hinj starts goals
    (intWGear_storable _ o _ _ starts hdS) (intWGear_storable _ o _ _ goals hdG) (hashWGear_storable _ _ _ starts hdS)
    (hashWGear_storable _ _ _ goals hdG) limit fuel

end ids

/-! ## Pre-allocation -/

section pre

variable {V L : Type} [DecidableEq V] [DecidableEq L]

/-- **C84, pre-allocation of mappings.** If space for `preAllocate` ids has been requested, assignments for these ids
do not change the size of the sequences. -/
theorem C84_pre_allocate_maps {X W : Type} [DecidableEq X] [LinearOrder W] (o : IntOptions) (inf : W) (c : VertexCode) :
    (∀ kvs : List (Nat × X), (∀ kv ∈ kvs, kv.1 < o.preAllocate) →
      ((intListMap o).setAll (intListMap o).empty kvs).length = o.preAllocate) ∧
    (∀ kvs : List (Nat × W), (∀ kv ∈ kvs, kv.1 < o.preAllocate) →
      ((intDist inf o).setAll (intDist inf o).empty kvs).length = o.preAllocate) ∧
    (∀ kvs : List (Nat × Nat), (∀ kv ∈ kvs, kv.1 < o.preAllocate) →
      ((intNumbers o).setAll (intNumbers o).empty kvs).length = o.preAllocate) ∧
    (∀ kvs : List (Nat × Nat), (∀ kv ∈ kvs, kv.1 < o.preAllocate) →
      ((intVertexMap c o).setAll (intVertexMap c o).empty kvs).length = o.preAllocate) := by
  have key : ∀ {X Y : Type} (p : SeqParams Y) (f : X → Y) (kvs : List (Nat × X)) (m : List Y), m.length = o.preAllocate →
      (∀ kv ∈ kvs, kv.1 < o.preAllocate) →
      (kvs.foldl (fun m kv => setOrExtend p m kv.1 (f kv.2)) m).length = o.preAllocate := by
    intro X Y p f kvs
    induction kvs with
    | nil => intro m hm _; exact hm
    | cons kv kvs ih =>
      intro m hm hk
      refine ih _ ?_ (fun kv' h => hk kv' (List.mem_cons_of_mem _ h))
      have := hk kv List.mem_cons_self
      simp [setOrExtend, seqSet, hm, this]
  refine ⟨fun kvs h => key _ some kvs _ ?_ h, fun kvs h => key _ id kvs _ ?_ h, fun kvs h => key _ id kvs _ ?_ h,
    fun kvs h => key _ id kvs _ ?_ h⟩
  · exact List.length_replicate ..
  · exact List.length_replicate ..
  · exact List.length_replicate ..
  · exact List.length_replicate ..

/-- **C84, pre-allocation of sets with bit packing**: adding ids below `preAllocate` does not change the size.

Missing for the full claim: the same without bit packing. There it is wrong (`C84_pre_allocate_counterexample`). -/
theorem C84_pre_allocate_sets_partial (o : IntOptions) (hb : o.noBitPacking = false) (ids : List Nat)
    (h : ∀ k ∈ ids, k < o.preAllocate) :
    ((intIdSet o).addAll (intIdSet o).empty ids).length = (intIdSet o).empty.length := by
  unfold SetOps.addAll
  suffices ∀ s : List Nat, s.length = o.preAllocate → (ids.foldl (intIdSet o).add s).length = o.preAllocate by
    have h0 : (intIdSet o).empty.length = o.preAllocate := by simp [intIdSet, hb, bitSeqSet]
    rw [this _ h0, h0]
  induction ids with
  | nil => intro s hs; exact hs
  | cons k ids ih =>
    intro s hs
    refine ih (fun k' h' => h k' (List.mem_cons_of_mem _ h')) _ ?_
    have hk := h k List.mem_cons_self
    have hk8 : k / 8 < s.length := by omega
    simp only [intIdSet, hb, bitSeqSet, BitSet.add, seqGet, List.getElem?_eq_getElem hk8, Bool.false_eq_true, if_false]
    rw [seqSet_getD_length, hs]

/-- A sorting for which all edges lead to ids that are in range of the fresh set does not end with an `AssertionError`. -/
theorem topo_no_assert_range {S M ML : Type} (g : TravGear V Nat L S M ML) (c : TravCfg V Nat L) (hgr : g.so.Grows)
    (already : S) (starts : List V)
    (hrange : ∀ v, Reachable (Edge c.next) (· ∈ starts) v → ∀ e ∈ c.next v,
      (g.so.mustContain g.so.empty (c.vid e.1)).isSome = true) (limit : Option Int) (fuel : Nat) :
    (topoRun g c already starts limit fuel).ending ≠ .raised .assertionError := by
  intro he
  unfold topoRun at he
  cases ht : c.isTree
  · rw [ht, if_neg (by simp)] at he
    obtain ⟨s, hr, h⟩ := run_reaches (topoStep g c) fuel (prepareLimit limit) (topoInit g c already starts)
    rw [he] at h
    have hinv : (∀ k, (g.so.mustContain g.so.empty k).isSome = true → (g.so.mustContain s.trace k).isSome = true) ∧
        (∀ v ∈ s.stack, Reachable (Edge c.next) (· ∈ starts) v) ∧
        (∀ v es, s.pc = .edges v es → ∀ e ∈ es, ∃ u, Reachable (Edge c.next) (· ∈ starts) u ∧ e ∈ c.next u) := by
      have hpost : ∀ s : TopoState V L S M ML,
          ((∀ k, (g.so.mustContain g.so.empty k).isSome = true → (g.so.mustContain s.trace k).isSome = true) ∧
          (∀ v ∈ s.stack, Reachable (Edge c.next) (· ∈ starts) v) ∧
          (∀ v es, s.pc = .edges v es → ∀ e ∈ es, ∃ u, Reachable (Edge c.next) (· ∈ starts) u ∧ e ∈ c.next u)) →
          (topoStep g c s).Post (fun s =>
            (∀ k, (g.so.mustContain g.so.empty k).isSome = true → (g.so.mustContain s.trace k).isSome = true) ∧
            (∀ v ∈ s.stack, Reachable (Edge c.next) (· ∈ starts) v) ∧
            (∀ v es, s.pc = .edges v es → ∀ e ∈ es, ∃ u, Reachable (Edge c.next) (· ∈ starts) u ∧ e ∈ c.next u)) := by
        rintro s ⟨h1, h2, h3⟩
        unfold topoStep
        split
        · exact trivial
        · rename_i hpc
          split
          · exact ⟨h1, h2, h3⟩
          · rename_i v rest hst
            have hv : Reachable (Edge c.next) (· ∈ starts) v := h2 v (by rw [hst]; exact List.mem_cons_self)
            have hrest : ∀ w ∈ rest, Reachable (Edge c.next) (· ∈ starts) w :=
              fun w hw => h2 w (by rw [hst]; exact List.mem_cons_of_mem _ hw)
            have hed : ∀ w es, TopoPc.edges v (c.next v) = .edges w es → ∀ e ∈ es,
                ∃ u, Reachable (Edge c.next) (· ∈ starts) u ∧ e ∈ c.next u := by
              rintro w es ⟨⟩ e he'
              exact ⟨v, hv, he'⟩
            dsimp only
            split
            · exact ⟨fun k hk => hgr.discard _ _ _ (h1 k hk), hrest, h3⟩
            · split
              · split
                · exact ⟨h1, hrest, h3⟩
                · exact ⟨fun k hk => hgr.add _ _ _ (h1 k hk), h2, hed⟩
              · exact ⟨fun k hk => hgr.add _ _ _ (h1 k hk), h2, hed⟩
        · rename_i v e es hpc
          have hes : ∀ w es', TopoPc.edges v es = .edges w es' → ∀ e ∈ es',
              ∃ u, Reachable (Edge c.next) (· ∈ starts) u ∧ e ∈ c.next u := by
            rintro w es' ⟨⟩ e' he'
            exact h3 v _ hpc e' (List.mem_cons_of_mem _ he')
          split
          · split
            · exact trivial
            · exact ⟨h1, h2, by rintro _ _ ⟨⟩⟩
            · exact ⟨h1, h2, hes⟩
          · refine ⟨h1, fun w hw => ?_, hes⟩
            rcases List.mem_cons.1 hw with rfl | hw
            · obtain ⟨u, hu, heu⟩ := h3 v _ hpc e List.mem_cons_self
              exact hu.step ⟨e.2, heu⟩
            · exact h2 w hw
        · exact ⟨h1, h2, by rintro _ _ ⟨⟩⟩
      refine Reaches.invariant (fun _ s =>
        (∀ k, (g.so.mustContain g.so.empty k).isSome = true → (g.so.mustContain s.trace k).isSome = true) ∧
        (∀ v ∈ s.stack, Reachable (Edge c.next) (· ∈ starts) v) ∧
        (∀ v es, s.pc = .edges v es → ∀ e ∈ es, ∃ u, Reachable (Edge c.next) (· ∈ starts) u ∧ e ∈ c.next u))
        ?_ ?_ ?_ ?_ hr
      · exact ⟨fun k hk => hk, fun v hv => .start (List.mem_reverse.1 hv), by rintro _ _ ⟨⟩⟩
      · intro h s s' hi hs; have := hpost s hi; rw [hs] at this; exact this
      · intro h s r s' hi hs; have := hpost s hi; rw [hs] at this; exact this
      · intro h s s' hi hs; have := hpost s hi; rw [hs] at this; exact this
    rcases h with h | ⟨h, -⟩
    · obtain ⟨h1, -, h3⟩ := hinv
      unfold topoStep at h
      split at h
      · simp at h
      · split at h
        · simp at h
        · simp only at h
          split at h
          · simp at h
          · split at h
            · split at h <;> simp at h
            · simp at h
      · rename_i v e es hpc
        split at h
        · obtain ⟨u, hu, heu⟩ := h3 v _ hpc e List.mem_cons_self
          have := h1 _ (hrange u hu e heu)
          split at h
          · rename_i hm; rw [hm] at this; simp at this
          · simp at h
          · simp at h
        · simp at h
      · simp at h
    · simp at h
  · rw [ht, if_pos rfl] at he
    obtain ⟨s, hr, h⟩ := run_reaches (topoTreeStep g c) fuel (prepareLimit limit) (topoInit g c already starts)
    rw [he] at h
    rcases h with h | ⟨h, -⟩
    · unfold topoTreeStep at h
      split at h
      · simp at h
      · split at h <;> simp at h
      · simp at h
      · simp at h
    · simp at h

/-- **C84, topological sorting**, with bit packing: if space has been pre-allocated for all ids that edges lead to, the
traversal makes the same reports, with the same content of the collections, and ends in the same way, and with the same
cycle, as with the gear for hashable ids.

Missing for the full claim: cases without pre-allocation, or without bit packing. There, the claim is wrong
(`C74_counterexample_topo`, `C84_topo_counterexample`). -/
theorem C84_topo_partial (o : IntOptions) (hb : o.noBitPacking = false) (c : TravCfg V Nat L) (starts : List V)
    (hd : ∀ s ∈ starts, ∀ t ∈ starts, c.vid s = c.vid t → s = t)
    (hpre : ∀ v, Reachable (Edge c.next) (· ∈ starts) v → ∀ e ∈ c.next v, c.vid e.1 < o.preAllocate)
    (ids : List Nat) (limit : Option Int) (fuel : Nat) :
    let g : TravGear V Nat L _ _ _ := intGear o
    let h : TravGear V Nat L _ _ _ := hashGear
    let run := topoRun g c (g.so.addAll g.so.empty ids) starts limit fuel
    let run' := topoRun h c (h.so.addAll h.so.empty ids) starts limit fuel
    run.reports.map (fun r => (r.vertex, r.depth)) = run'.reports.map (fun r => (r.vertex, r.depth)) ∧
    List.Forall₂ (fun r r' => ∀ k, g.so.contains r.visited k = h.so.contains r'.visited k ∧
      (c.buildPaths = true → g.mo.get? r.preds k = h.mo.get? r'.preds k ∧ g.lo.get? r.labels k = h.lo.get? r'.labels k))
      run.reports run'.reports ∧
    run.ending = run'.ending ∧ run.final.cycleFromStart = run'.final.cycleFromStart := by
  intro g h run run'
  rcases C74_topo_gear_independent_partial (intGear o) hashGear c (intIdSet_lawful o) hashSet_lawful starts
    (intGear_storable o c starts hd) (hashGear_storable c starts hd) _ _
    (same_already (intIdSet_lawful o) hashSet_lawful ids) limit fuel with h1 | h1 | h1
  · refine absurd h1 (topo_no_assert_range (intGear o) c (intIdSet_grows o) _ starts (fun v hv e he => ?_) limit fuel)
    refine (intIdSet_range o _).2 ?_
    have := hpre v hv e he
    simp only [hb, Bool.false_eq_true, if_false]
    omega
  · exact absurd h1 (topo_no_assert_range hashGear c hashSet_grows _ starts (fun _ _ _ _ => rfl) limit fuel)
  · exact h1

/-- **C84, depth-first search with trace or events**, with bit packing: if space has been pre-allocated for the ids
given as already visited, the traversal makes the same reports, with the same content of the collections, and ends in the
same way, as with the gear for hashable ids. `given`: already visited ids are given.

Missing for the full claim: cases without pre-allocation, or without bit packing. There, the claim is wrong
(`C74_counterexample_trace`, `C84_trace_counterexample`). -/
theorem C84_trace_partial (o : IntOptions) (hb : o.noBitPacking = false) (c : TraceCfg V Nat L) (given : Bool)
    (hacc : c.Accepted given) (starts : List V) (hd : ∀ s ∈ starts, ∀ t ∈ starts, c.vid s = c.vid t → s = t)
    (ids : List Nat) (hgiven : given = false → ids = []) (hpre : ∀ k ∈ ids, k < o.preAllocate)
    (limit : Option Int) (fuel : Nat) :
    let g : TravGear V Nat L _ _ _ := intGear o
    let h : TravGear V Nat L _ _ _ := hashGear
    let run := trRun g c (g.so.addAll g.so.empty ids) starts limit fuel
    let run' := trRun h c (h.so.addAll h.so.empty ids) starts limit fuel
    run.reports.map (fun r => (r.vertex, r.depth, r.event, r.trace, r.traceLabels, r.index)) =
      run'.reports.map (fun r => (r.vertex, r.depth, r.event, r.trace, r.traceLabels, r.index)) ∧
    List.Forall₂ (fun r r' => ∀ k, g.so.contains r.visited k = h.so.contains r'.visited k ∧
      g.so.contains r.onTrace k = h.so.contains r'.onTrace k ∧
      (c.buildPaths = true → g.mo.get? r.preds k = h.mo.get? r'.preds k ∧ g.lo.get? r.labels k = h.lo.get? r'.labels k))
      run.reports run'.reports ∧
    run.ending = run'.ending := by
  refine C74_dfs_trace_gear_independent_partial (intGear o) hashGear c (intIdSet_lawful o) (intIdSet_grows o) hashSet_lawful
    hashSet_grows hacc ⟨fun h => ?_, fun _ k hk => (intIdSet_range o k).2 ?_⟩ ⟨fun h => ?_, fun _ _ _ => rfl⟩
    (same_already (intIdSet_lawful o) hashSet_lawful ids) starts
    (fun _ => ⟨intGear_storable o _ starts hd, hashGear_storable _ starts hd, listMap_faithful _ rfl _, dictMap_faithful⟩)
    limit fuel
  · rw [hgiven h]; rfl
  · have hk' := hk
    simp only [intGear] at hk'
    rw [(intIdSet_lawful o).contains_addAll, (intIdSet_lawful o).contains_empty] at hk'
    have := hpre k (by simpa using hk')
    simp only [hb, Bool.false_eq_true, if_false]
    omega
  · rw [hgiven h]; rfl

end pre

/-! ## Integer vertices -/

section vertices

variable {L : Type} [DecidableEq L]

/-- **C84, storing vertices in arrays.** On each platform (the size of an item of the array is at least the minimal size that
Python guarantees for the type code), all documented vertices, and also the internal value for "no vertex", fit into an item
of the array. A stored vertex is read again, and other entries keep their values. The internal value is the highest value of
the documented range, and it is the only one that is read as "no vertex". -/
theorem C84_vertex_fits (c : VertexCode) (o : IntOptions) :
    (∃ t : CIntType, (c.code.char, t) ∈ cIntTypes ∧ ∀ size, t.minSize ≤ size → ∀ v : Nat, v ≤ c.max →
      FitsCInt t.signed size v) ∧
    c.max = (match c with | .L => 4294967296 | .Q => 2 ^ 64 | .I => 65536) - 1 ∧
    (∀ m k v, v < c.max → ∀ j,
      (intVertexMap c o).get? ((intVertexMap c o).set m k v) j = if j = k then some v else (intVertexMap c o).get? m j) ∧
    ∀ m k, (intVertexMap c o).get? ((intVertexMap c o).set m k c.max) k = none := by
  refine ⟨?_, by cases c <;> rfl, fun m k v hv j => ?_, fun m k => ?_⟩
  · have key : ∀ n size v : Nat, n ≤ size → v ≤ 256 ^ n - 1 → FitsCInt false size v := by
      intro n size v hn hv
      have hp : (256 : Nat) ^ n ≤ 2 ^ (8 * size) := by
        rw [pow_mul]; exact Nat.pow_le_pow_right (by decide) hn
      have h0 : 0 < (256 : Nat) ^ n := Nat.pow_pos (by decide)
      have hlt : v < 2 ^ (8 * size) := by omega
      simp only [FitsCInt, Bool.false_eq_true, if_false]
      exact ⟨Int.natCast_nonneg _, by exact_mod_cast hlt⟩
    cases c
    · exact ⟨⟨false, 4⟩, by decide, fun size hs v hv => key 4 size v hs hv⟩
    · exact ⟨⟨false, 8⟩, by decide, fun size hs v hv => key 8 size v hs hv⟩
    · exact ⟨⟨false, 2⟩, by decide, fun size hs v hv => key 2 size v hs hv⟩
  · exact (intVertexMap_lawful c o).get_set _ k v j (by omega)
  · have h := setOrExtend_val ⟨c.max, 1024, true⟩ (fun _ => by simp) m k c.max k
    rw [if_pos rfl] at h
    show SeqMap.getItem _ (setOrExtend _ m k c.max) k = none
    rw [SeqMap.getItem_eq, h, if_pos rfl]

theorem intVGear_storable (vc : VertexCode) (o : IntOptions) (c : TravCfg Nat Nat L) (starts : List Nat)
    (hv : ∀ v, Reachable (Edge c.next) (· ∈ starts) v → v < vc.max)
    (hd : ∀ s ∈ starts, ∀ t ∈ starts, c.vid s = c.vid t → s = t) :
    Storable (intVGear vc o) c starts (fun x => x ≠ vc.max) (fun _ => True) :=
  ⟨intVertexMap_lawful vc o, intListMap_lawful o, fun v h => by have := hv v h; omega, fun _ _ _ _ => trivial, hd⟩

/-- **C84, breadth-first search with the gear for integer vertices**: if the vertices that occur are in the documented
range, all results are as with the gear for hashable ids. -/
theorem C84_bfs_vertices (vc : VertexCode) (o : IntOptions) (c : TravCfg Nat Nat L) (starts : List Nat)
    (hv : ∀ v, Reachable (Edge c.next) (· ∈ starts) v → v < vc.max)
    (hd : ∀ s ∈ starts, ∀ t ∈ starts, c.vid s = c.vid t → s = t) (ids : List Nat) (limit : Option Int) (fuel : Nat) :
    let g : TravGear Nat Nat L _ _ _ := intVGear vc o
    let h : TravGear Nat Nat L _ _ _ := hashGear
    let run := bfsRun g c (g.so.addAll g.so.empty ids) starts limit fuel
    let run' := bfsRun h c (h.so.addAll h.so.empty ids) starts limit fuel
    run.reports.map (fun r => (r.vertex, r.depth)) = run'.reports.map (fun r => (r.vertex, r.depth)) ∧
    List.Forall₂ (fun r r' => ∀ k, g.so.contains r.visited k = h.so.contains r'.visited k ∧
      g.mo.get? r.preds k = h.mo.get? r'.preds k ∧ g.lo.get? r.labels k = h.lo.get? r'.labels k)
      run.reports run'.reports ∧
    run.ending = run'.ending :=
  C39_bfs_gear_independent (intVGear vc o) hashGear c (intIdSet_lawful _) hashSet_lawful starts
    (intVGear_storable vc o c starts hv hd) (hashGear_storable c starts hd) _ _
    (same_already (intIdSet_lawful _) hashSet_lawful ids) limit fuel

/-- **C84, shortest paths with the gear for integer vertices.** -/
theorem C84_sp_vertices {W : Type} [Add W] [Zero W] [LinearOrder W] [WeightLaws W] (vc : VertexCode) (o : IntOptions)
    (c : WCfg Nat Nat L W) (starts : List Nat) (hv : ∀ w v, WalkW c.next (· ∈ starts) w v → v < vc.max)
    (hd : ∀ s ∈ starts, ∀ t ∈ starts, c.vid s = c.vid t → s = t) (limit : Option Int) (fuel : Nat) :
    let g : WGear Nat Nat L W _ _ _ := intVWGear c.inf vc o
    let h : WGear Nat Nat L W _ _ _ := hashWGear c.inf
    let run := spRun g c none starts limit fuel
    let run' := spRun h c none starts limit fuel
    run.reports.map (fun r => (r.vertex, r.distance, r.depth)) =
      run'.reports.map (fun r => (r.vertex, r.distance, r.depth)) ∧
    List.Forall₂ (fun r r' => ∀ k, g.dd.get r.dist k = h.dd.get r'.dist k ∧
      g.mo.get? r.preds k = h.mo.get? r'.preds k ∧ g.lo.get? r.labels k = h.lo.get? r'.labels k)
      run.reports run'.reports ∧
    run.ending = run'.ending :=
  C39_sp_gear_independent (intVWGear c.inf vc o) c (hashWGear c.inf) (intDist_lawful _ o) (dictDist_lawful _) starts
    (validV := fun x => x ≠ vc.max)
    ⟨intVertexMap_lawful vc o, intListMap_lawful o, fun w v h => by have := hv w v h; omega,
      fun _ _ _ _ _ => trivial, hd⟩ (hashWGear_storable _ _ _ starts hd) limit fuel

/-- **C84, A\* with the gear for integer vertices.** -/
theorem C84_astar_vertices {W : Type} [AddCommMonoid W] [LinearOrder W] [IsOrderedCancelAddMonoid W] (vc : VertexCode)
    (o : IntOptions) (c : AStarCfg Nat Nat L W) (starts : List Nat)
    (hv : ∀ w v, WalkW c.next (· ∈ starts) w v → v < vc.max)
    (hd : ∀ s ∈ starts, ∀ t ∈ starts, c.vid s = c.vid t → s = t) (limit : Option Int) (fuel : Nat) :
    let g : WGear Nat Nat L W _ _ _ := intVWGear c.inf vc o
    let h : WGear Nat Nat L W _ _ _ := hashWGear c.inf
    let run := aRun g c none none starts limit fuel
    let run' := aRun h c none none starts limit fuel
    run.reports.map (fun r => (r.vertex, r.pathLength, r.depth)) =
      run'.reports.map (fun r => (r.vertex, r.pathLength, r.depth)) ∧
    List.Forall₂ (fun r r' => ∀ k, g.dd.get r.dist k = h.dd.get r'.dist k ∧
      g.mo.get? r.preds k = h.mo.get? r'.preds k ∧ g.lo.get? r.labels k = h.lo.get? r'.labels k)
      run.reports run'.reports ∧
    run.ending = run'.ending :=
  C39_astar_gear_independent (intVWGear c.inf vc o) c (hashWGear c.inf) (intDist_lawful _ o) (dictDist_lawful _) starts
    (validV := fun x => x ≠ vc.max)
    ⟨intVertexMap_lawful vc o, intListMap_lawful o, fun w v h => by have := hv w v h; omega,
      fun _ _ _ _ _ => trivial, hd⟩ (hashWGear_storable _ _ _ starts hd) limit fuel

/-- **C84, bidirectional search of shortest paths with the gear for integer vertices.** -/
theorem C84_bd_vertices {W : Type} [AddCommMonoid W] [LinearOrder W] [IsOrderedAddMonoid W] (vc : VertexCode)
    (o : IntOptions) (c : BdCfg Nat Nat L W)
    (hnF : NonNeg c.nextF) (hnB : NonNeg c.nextB) (hcF : WCompat c.nextF c.vid) (hcB : WCompat c.nextB c.vid)
    (hinf : 0 ≤ c.inf) (hop : WOppositeEdges c.nextF c.nextB) (hinj : c.buildPath = true → Function.Injective c.vid)
    (starts goals : List Nat) (hvF : ∀ w v, WalkW c.nextF (· ∈ starts) w v → v < vc.max)
    (hvB : ∀ w v, WalkW c.nextB (· ∈ goals) w v → v < vc.max)
    (hdS : ∀ s ∈ starts, ∀ t ∈ starts, c.vid s = c.vid t → s = t)
    (hdG : ∀ s ∈ goals, ∀ t ∈ goals, c.vid s = c.vid t → s = t) (limit : Option Int) (fuel : Nat) :
    ∃ N, ∀ pathFuel, N ≤ pathFuel → bdSearch (intVWGear c.inf vc o) c starts goals limit fuel pathFuel =
      bdSearch (hashWGear c.inf) c starts goals limit fuel pathFuel :=
  C39_bd_gear_independent (intVWGear c.inf vc o) (hashWGear c.inf) c
    ⟨intDist_lawful _ o, hnF, hnB, hcF, hcB, hinf, hop⟩ (dictDist_lawful _) hinj starts goals
    (validV := fun x => x ≠ vc.max)
    ⟨intVertexMap_lawful vc o, intListMap_lawful o, fun w v h => by have := hvF w v h; omega,
      fun _ _ _ _ _ => trivial, hdS⟩
    ⟨intVertexMap_lawful vc o, intListMap_lawful o, fun w v h => by have := hvB w v h; omega,
      fun _ _ _ _ _ => trivial, hdG⟩
    (hashWGear_storable _ _ _ starts hdS) (hashWGear_storable _ _ _ goals hdG) limit fuel

end vertices

/-! ## Examples -/

theorem exNext_small {v : Nat} (h : Reachable (Edge exNext) (· ∈ [0]) v) : v < 9 := by
  obtain ⟨n, h⟩ := h
  cases h with
  | start hs => simp at hs; omega
  | step _ he =>
    obtain ⟨l, hl⟩ := he
    unfold exNext at hl
    split at hl <;> simp at hl <;> omega

theorem exW_small {w v : Nat} (h : WalkW exW (· ∈ [0]) w v) : v < 9 := by
  cases h with
  | start hs => simp at hs; omega
  | step _ he =>
    obtain ⟨l, hl⟩ := he
    unfold exW at hl
    split at hl <;> simp at hl <;> omega

/-- Breadth-first search: all vertices are in the documented range, and there are several reports, with all kinds of
sets. -/
example : (∀ v, Reachable (Edge (exCfg true).next) (· ∈ [0]) v → v < VertexCode.I.max) ∧
    ((bfsRun (intVGear .I ⟨false, false, 3⟩) (exCfg true) [0, 0, 0] [0] none 100).reports.map
      (fun r => (r.vertex, r.depth)) = [(1, 1), (2, 1), (3, 2), (4, 3)]) ∧
    ((bfsRun (intGear ⟨true, false, 0⟩) (exCfg true) [] [0] none 100).reports.map
      (fun r => (r.vertex, r.depth)) = [(1, 1), (2, 1), (3, 2), (4, 3)]) ∧
    ((bfsRun (intGear ⟨true, true, 20⟩) (exCfg true) [0, 0, 0] [0] none 100).reports.map
      (fun r => (r.vertex, r.depth)) = [(1, 1), (2, 1), (3, 2), (4, 3)]) := by
  refine ⟨fun v h => lt_trans (exNext_small h) (by decide), ?_, ?_, ?_⟩ <;> decide +kernel

/-- Shortest paths: all vertices are in the documented range, and there are several reports. -/
example : (∀ w v, WalkW (exWCfg true).next (· ∈ [0]) w v → v < VertexCode.I.max) ∧
    ((spRun (intVWGear 1000 .I ⟨false, false, 3⟩) (exWCfg true) none [0] none 100).reports.map
      (fun r => (r.vertex, r.distance, r.depth)) = [(2, 1, 1), (4, 1, 2), (1, 3, 2), (3, 4, 3)]) ∧
    ((spRun (intWGear 1000 ⟨true, false, 0⟩) (exWCfg true) none [0] none 100).reports.map
      (fun r => (r.vertex, r.distance, r.depth)) = [(2, 1, 1), (4, 1, 2), (1, 3, 2), (3, 4, 3)]) := by
  refine ⟨fun w v h => lt_trans (exW_small h) (by decide), ?_, ?_⟩ <;> decide +kernel

/-- Topological sorting with pre-allocation: the hypothesis holds for start vertices that depend on each other (the case in
which the `AssertionError` occurs otherwise), and both vertices are reported. -/
example : let next : Nat → List (Nat × Char) := fun v => if v = 1 then [(200, 'a')] else []
    (∀ v, Reachable (Edge next) (· ∈ [200, 1]) v → ∀ e ∈ next v, e.1 < 201) ∧
    (topoRun (intGear ⟨true, false, 201⟩) ⟨next, id, false, false⟩ (List.replicate 201 0) [200, 1] none 50).reports.map
      (fun r => r.vertex) = [1, 200] := by
  refine ⟨fun v _ e he => ?_, ?_⟩
  · dsimp only at he
    split at he <;> simp at he
    rw [he]; decide
  · decide +kernel

/-- Depth-first search with events, with an already visited id in the pre-allocated range: the options are accepted. -/
example : let next : Nat → List (Nat × Char) := fun v => if v = 0 then [(1, 'b'), (10, 'a')] else if v = 1 then [(0, 'c')] else []
    let o := { exOptions .dfsTree (fun e => e = .backEdge) with alreadyGiven := true }
    (exTraceCfg ⟨next, id, false, false⟩ o).Accepted true ∧
    (trRun (intGear ⟨true, false, 11⟩) (exTraceCfg ⟨next, id, false, false⟩ o)
      ((intIdSet ⟨true, false, 11⟩).addAll (intIdSet ⟨true, false, 11⟩).empty [10]) [0] none 200).reports.map
        (fun r => (r.vertex, r.event)) = [(0, .backEdge)] := by
  refine ⟨exTraceCfg_accepted _ _ rfl rfl, ?_⟩
  decide +kernel

/-! ## Without bit packing: too little is pre-allocated -/

/-- **C84, pre-allocation, is wrong without bit packing**: for 16 vertices, space for 2 ids is pre-allocated; adding id 15
extends the sequence. With bit packing, space for 128 ids is pre-allocated. (The division by 8 in the code is done for the
wrong variant.) -/
theorem C84_pre_allocate_counterexample :
    let bools : IntOptions := ⟨true, true, 16⟩
    let bits : IntOptions := ⟨true, false, 16⟩
    (intIdSet bools).empty.length = 2 ∧ ((intIdSet bools).add (intIdSet bools).empty 15).length = 1040 ∧
    (intIdSet bits).empty.length = 16 ∧ ((intIdSet bits).add (intIdSet bits).empty 127).length = 16 := by
  refine ⟨?_, ?_, ?_, ?_⟩ <;> decide +kernel

/-- **C84, depth-first search with events, is wrong without bit packing**, even with pre-allocation: space is requested for
16 vertices, id 10 is given as already visited, `BACK_EDGE` is requested, and there is the edge `0 → 10`. With bit packing,
the traversal ends normally; without, it ends with an `AssertionError`. -/
theorem C84_trace_counterexample :
    let next : Nat → List (Nat × Char) := fun v => if v = 0 then [(10, 'a')] else []
    let o := { exOptions .dfsTree (fun e => e = .backEdge) with alreadyGiven := true }
    let bits : TravGear Nat Nat Char _ _ _ := intGear ⟨true, false, 16⟩
    let bools : TravGear Nat Nat Char _ _ _ := intGear ⟨true, true, 16⟩
    (dfsOptions o).isSome = true ∧
    (trRun bits (exTraceCfg ⟨next, id, false, false⟩ o) (bits.so.addAll bits.so.empty [10]) [0] none 200).ending = .done ∧
    (trRun bools (exTraceCfg ⟨next, id, false, false⟩ o) (bools.so.addAll bools.so.empty [10]) [0] none 200).ending =
      .raised .assertionError := by
  refine ⟨?_, ?_, ?_⟩ <;> decide +kernel

/-- **C84, topological sorting, is wrong without bit packing**, even with pre-allocation: space is requested for
2000 vertices, start vertices `1500` and `1`, edge `1 → 1500`. With bit packing, both vertices are reported; without, the
sorting ends with an `AssertionError`. -/
theorem C84_topo_counterexample :
    let next : Nat → List (Nat × Char) := fun v => if v = 1 then [(1500, 'a')] else []
    let bits : TravGear Nat Nat Char _ _ _ := intGear ⟨true, false, 2000⟩
    let bools : TravGear Nat Nat Char _ _ _ := intGear ⟨true, true, 2000⟩
    (topoRun bits ⟨next, id, false, false⟩ bits.so.empty [1500, 1] none 50).ending = .done ∧
    (topoRun bools ⟨next, id, false, false⟩ bools.so.empty [1500, 1] none 50).ending = .raised .assertionError := by
  refine ⟨?_, ?_⟩ <;> decide +kernel

end NoGraphs
