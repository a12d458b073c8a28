import Verif.Spec.EdgeOrder
import Verif.Props.Agreement

/-! # C97: the order and the repetition of edges and start vertices do not change what is found

Two complete runs of one strategy, on graphs that differ only in the order and the repetition of edges (and in labels), and
with start vertices that differ only in order and repetition. Gears, limits and options may differ, too. -/

set_option linter.unusedSectionVars false

namespace NoGraphs

open NoGraphs.Spec

variable {V K L L' W : Type} [DecidableEq V] [DecidableEq K]

theorem Spec.SameGraph.eq {next : V → List (V × L)} {next' : V → List (V × L')} (h : SameGraph next next') :
    Edge next = Edge next' := by
  funext u v; exact propext (h u v)

theorem Spec.SameMembers.eq {a b : List V} (h : SameMembers a b) : (· ∈ a) = (· ∈ b) := by
  funext v; exact propext (h v)

theorem Spec.SameMembers.ids {a b : List V} (h : SameMembers a b) (vid : V → K) (k : K) : k ∈ a.map vid ↔ k ∈ b.map vid := by
  simp only [List.mem_map]
  exact ⟨fun ⟨v, hv, e⟩ => ⟨v, (h v).1 hv, e⟩, fun ⟨v, hv, e⟩ => ⟨v, (h v).2 hv, e⟩⟩

theorem Spec.ListsNewIds.same {E : V → V → Prop} {vid : V → K} {starts starts' : List V} (h : SameMembers starts starts')
    {ids : List K} (hl : ListsNewIds E vid starts ids) : ListsNewIds E vid starts' ids := by
  refine ⟨hl.1, fun k => ?_⟩
  rw [hl.2, IsNewId, IsNewId, h.ids, h.eq]

/-- Reports with the same ids, and for each id with the same value. -/
theorem perm_pairs {R R' X : Type} {a : List R} {b : List R'} {id₁ : R → K} {id₂ : R' → K} {val₁ : R → X} {val₂ : R' → X}
    (hn : (a.map id₁).Nodup) (hp : (a.map id₁).Perm (b.map id₂))
    (hv : ∀ r ∈ a, ∀ r' ∈ b, id₁ r = id₂ r' → val₁ r = val₂ r') :
    (a.map (fun r => (id₁ r, val₁ r))).Perm (b.map (fun r => (id₂ r, val₂ r))) := by
  have hn' : (b.map id₂).Nodup := hp.nodup_iff.1 hn
  have nd : ∀ {Y : Type} (l : List Y) (i : Y → K) (x : Y → X), (l.map i).Nodup → (l.map (fun r => (i r, x r))).Nodup := by
    intro Y l i x h
    refine List.Nodup.of_map Prod.fst ?_
    rw [List.map_map]; exact h
  refine (List.perm_ext_iff_of_nodup (nd a id₁ val₁ hn) (nd b id₂ val₂ hn')).2 (fun p => ?_)
  constructor
  · intro h
    obtain ⟨r, hr, rfl⟩ := List.mem_map.1 h
    obtain ⟨r', hr', e⟩ := List.mem_map.1 ((hp.mem_iff).1 (List.mem_map_of_mem hr))
    exact List.mem_map.2 ⟨r', hr', by rw [e, hv r hr r' hr' e.symm]⟩
  · intro h
    obtain ⟨r', hr', rfl⟩ := List.mem_map.1 h
    obtain ⟨r, hr, e⟩ := List.mem_map.1 ((hp.mem_iff).2 (List.mem_map_of_mem hr'))
    exact List.mem_map.2 ⟨r, hr, by rw [e, hv r hr r' hr' e]⟩

section Unweighted

variable {S M ML S' M' ML' : Type} (g : TravGear V K L S M ML) (g' : TravGear V K L' S' M' ML')

/-- **C97, breadth-first.** At each moment of two traversals, the same depth is reported for the same vertex. Complete
traversals report the same vertices with the same depths, and the sequences of depths are equal. -/
theorem C97_bfs (c : TravCfg V K L) (c' : TravCfg V K L') (hg : g.so.Lawful) (hg' : g'.so.Lawful) (ht : c.isTree = false)
    (ht' : c'.isTree = false) (hvid : c'.vid = c.vid) (hsame : SameGraph c.next c'.next) (hc : Compat (Edge c.next) c.vid)
    (starts starts' : List V) (hst : SameMembers starts starts') (limit limit' : Option Int) (fuel fuel' : Nat) :
    let run := bfsRun g c g.so.empty starts limit fuel
    let run' := bfsRun g' c' g'.so.empty starts' limit' fuel'
    (∀ r ∈ run.reports, ∀ r' ∈ run'.reports, c.vid r.vertex = c.vid r'.vertex → r.depth = r'.depth) ∧
    (run.ending = .done → run'.ending = .done →
      (run.reports.map (fun r => (c.vid r.vertex, r.depth))).Perm (run'.reports.map (fun r => (c.vid r.vertex, r.depth))) ∧
      run.reports.map (fun r => r.depth) = run'.reports.map (fun r => r.depth)) := by
  intro run run'
  have hc' : Compat (Edge c'.next) c'.vid := by rw [hvid, ← hsame.eq]; exact hc
  have key : ∀ r ∈ run.reports, ∀ r' ∈ run'.reports, c.vid r.vertex = c.vid r'.vertex → r.depth = r'.depth := by
    intro r hr r' hr' e
    obtain ⟨d, h1, h2⟩ := C01_bfs_depth g c hg ht hc starts limit fuel r hr
    obtain ⟨d', h1', h2'⟩ := C01_bfs_depth g' c' hg' ht' hc' starts' limit' fuel' r' hr'
    rw [hvid, ← hsame.eq, ← hst.eq] at h2'
    rw [h1, h1', h2.unique h2' e]
  refine ⟨key, fun hd hd' => ?_⟩
  have hl := (bfs_lists g c hg ht hc starts limit fuel hd).same hst
  have hl' := bfs_lists g' c' hg' ht' hc' starts' limit' fuel' hd'
  rw [hvid, ← hsame.eq] at hl'
  have hp := perm_pairs (val₁ := fun r => r.depth) (val₂ := fun r => r.depth) hl.1 (hl.perm hl') key
  refine ⟨hp, ?_⟩
  have h2 := hp.map Prod.snd
  rw [List.map_map, List.map_map] at h2
  exact List.Perm.eq_of_pairwise (le := (· ≤ ·)) (fun a b _ _ => le_antisymm)
    (C02_bfs_once_ordered g c hg ht hc g.so.empty starts limit fuel).2.2
    (C02_bfs_once_ordered g' c' hg' ht' hc' g'.so.empty starts' limit' fuel').2.2 h2

/-- **C97, neighbors-then-depth.** Complete traversals report the same vertices. -/
theorem C97_ntd (c : NtdCfg V K L) (c' : NtdCfg V K L') (hg : g.so.Lawful) (hg' : g'.so.Lawful) (ht : c.isTree = false)
    (ht' : c'.isTree = false) (hvid : c'.vid = c.vid) (hsame : SameGraph c.next c'.next) (hc : Compat (Edge c.next) c.vid)
    (starts starts' : List V) (hst : SameMembers starts starts') (limit limit' : Option Int) (fuel fuel' : Nat) :
    let run := ntdRun g c g.so.empty starts limit fuel
    let run' := ntdRun g' c' g'.so.empty starts' limit' fuel'
    run.ending = .done → run'.ending = .done →
      (run.reports.map (fun r => c.vid r.vertex)).Perm (run'.reports.map (fun r => c.vid r.vertex)) := by
  intro run run' hd hd'
  have hc' : Compat (Edge c'.next) c'.vid := by rw [hvid, ← hsame.eq]; exact hc
  have hl := (ntd_lists g c hg ht hc starts limit fuel hd).same hst
  have hl' := ntd_lists g' c' hg' ht' hc' starts' limit' fuel' hd'
  rw [hvid, ← hsame.eq] at hl'
  exact hl.perm hl'

/-- **C97, depth-first.** Complete traversals, that report start vertices and are not pruned, report the same vertices. -/
theorem C97_dfs (c : DfsCfg V K L) (c' : DfsCfg V K L') (hg : g.so.Lawful) (hg' : g'.so.Lawful) (ht : c.isTree = false)
    (ht' : c'.isTree = false) (hvid : c'.vid = c.vid) (hsame : SameGraph c.next c'.next) (hc : Compat (Edge c.next) c.vid)
    (hskip : ∀ n, c.skip n = false) (hskip' : ∀ n, c'.skip n = false) (hs : c.reportSucc = true) (hs' : c'.reportSucc = true)
    (hrs : c.reportStart = true) (hrs' : c'.reportStart = true)
    (starts starts' : List V) (hst : SameMembers starts starts') (limit limit' : Option Int) (fuel fuel' : Nat) :
    let run := dfsRun g c g.so.empty starts limit fuel
    let run' := dfsRun g' c' g'.so.empty starts' limit' fuel'
    run.ending = .done → run'.ending = .done →
      (run.reports.map (fun r => c.vid r.vertex)).Perm (run'.reports.map (fun r => c.vid r.vertex)) := by
  intro run run' hd hd'
  have hc' : Compat (Edge c'.next) c'.vid := by rw [hvid, ← hsame.eq]; exact hc
  obtain ⟨a1, a2, a3⟩ := dfs_reported g c hg ht hc hskip hs starts limit fuel hd
  obtain ⟨b1, b2, b3⟩ := dfs_reported g' c' hg' ht' hc' hskip' hs' starts' limit' fuel' hd'
  rw [hvid, ← hsame.eq, ← hst.eq] at b2 b3
  rw [hvid] at b1
  refine (List.perm_ext_iff_of_nodup a1 b1).2 (fun k => ⟨fun h => ?_, fun h => ?_⟩)
  · obtain ⟨v, hv, rfl⟩ := a2 k h
    exact b3 v hv (.inl hrs')
  · obtain ⟨v, hv, rfl⟩ := b2 k h
    exact a3 v hv (.inl hrs)

/-- **C97, topological sorting.** From one start vertex: both runs raise the exception for a cycle, or both come to their
end, and report the same vertices. -/
theorem C97_topo (c : TravCfg V K L) (c' : TravCfg V K L') (hg : g.so.Lawful) (hg' : g'.so.Lawful) (hgr : g.so.Grows)
    (hgr' : g'.so.Grows) (ht : c.isTree = false)
    (ht' : c'.isTree = false) (hvid : c'.vid = c.vid) (hsame : SameGraph c.next c'.next) (hc : Compat (Edge c.next) c.vid)
    (start : V) (hfin : FinitelyReachable (Edge c.next) (· ∈ [start]) c.vid) :
    ∃ N, ∀ fuel fuel', N ≤ fuel → N ≤ fuel' →
      let run := topoRun g c g.so.empty [start] none fuel
      let run' := topoRun g' c' g'.so.empty [start] none fuel'
      (run.ending = .raised .runtimeError ∧ run'.ending = .raised .runtimeError) ∨
      (run.ending = .done ∧ run'.ending = .done ∧
        (run.reports.map (fun r => c.vid r.vertex)).Perm (run'.reports.map (fun r => c.vid r.vertex))) := by
  have hc' : Compat (Edge c'.next) c'.vid := by rw [hvid, ← hsame.eq]; exact hc
  obtain ⟨N, hN⟩ := C17_topo_single_start g c hg hgr ht hc start hfin
  obtain ⟨N', hN'⟩ := C17_topo_single_start g' c' hg' hgr' ht' hc' start (by rw [hvid, ← hsame.eq]; exact hfin)
  refine ⟨max N N', fun fuel fuel' hf hf' => ?_⟩
  intro run run'
  have h1 := hN fuel (le_trans (le_max_left _ _) hf)
  have h2 := hN' fuel' (le_trans (le_max_right _ _) hf')
  rw [hvid, ← hsame.eq] at h2
  rcases h1 with ⟨x1, x2⟩ | ⟨x1, x2, x3, x4, -⟩
  · rcases h2 with ⟨y1, y2⟩ | ⟨y1, -⟩
    · exact .inl ⟨x2, y2⟩
    · exact absurd x1 y1
  · rcases h2 with ⟨y1, -⟩ | ⟨y1, y2, y3, y4, -⟩
    · exact absurd y1 x1
    · exact .inr ⟨x2, y2, (List.perm_ext_iff_of_nodup x3 y3).2 (fun k => (x4 k).trans (y4 k).symm)⟩

/-- **C97, bidirectional breadth-first.** Both searches find paths of the same length, or both find nothing. -/
theorem C97_bibfs (c : BiCfg V K L) (c' : BiCfg V K L') (hg : g.so.Lawful) (hg' : g'.so.Lawful) (hvid : c'.vid = c.vid)
    (hF : SameGraph c.nextF c'.nextF) (hB : SameGraph c.nextB c'.nextB) (hcF : Compat (Edge c.nextF) c.vid)
    (hcB : Compat (Edge c.nextB) c.vid) (hop : OppositeEdges c.nextF c.nextB)
    (starts starts' goals goals' : List V) (hst : SameMembers starts starts') (hgo : SameMembers goals goals') :
    (∀ limit limit' fuel fuel' n p n' p', biSearch g c starts goals true true limit fuel = .found n p →
      biSearch g' c' starts' goals' true true limit' fuel' = .found n' p' → n = n') ∧
    (∀ limit limit' fuel fuel', biSearch g c starts goals true true limit fuel = .notFound →
      ∀ n' p', biSearch g' c' starts' goals' true true limit' fuel' ≠ .found n' p') := by
  have hop' : OppositeEdges c'.nextF c'.nextB := by
    unfold OppositeEdges; rw [← hF.eq, ← hB.eq]; exact hop
  have hcF' : Compat (Edge c'.nextF) c'.vid := by rw [hvid, ← hF.eq]; exact hcF
  have hcB' : Compat (Edge c'.nextB) c'.vid := by rw [hvid, ← hB.eq]; exact hcB
  have hcon : ∀ n, Connects (Edge c.nextF) c.vid starts goals n ↔ Connects (Edge c'.nextF) c'.vid starts' goals' n := by
    intro n
    unfold Connects
    rw [← hF.eq, hvid, ← hst.eq]
    exact ⟨fun ⟨v, t, h, h'⟩ => ⟨v, t, (hgo t).1 h, h'⟩, fun ⟨v, t, h, h'⟩ => ⟨v, t, (hgo t).2 h, h'⟩⟩
  refine ⟨fun limit limit' fuel fuel' n p n' p' h h' => ?_, fun limit limit' fuel fuel' h n' p' h' => ?_⟩
  · have h1 := C28_bibfs g c hg hcF hcB hop starts goals limit fuel
    have h2 := C28_bibfs g' c' hg' hcF' hcB' hop' starts' goals' limit' fuel'
    rw [h] at h1
    rw [h'] at h2
    obtain ⟨m, rfl, hm1, hm2⟩ := h1
    obtain ⟨m', rfl, hm1', hm2'⟩ := h2
    rw [Nat.le_antisymm (hm2 _ ((hcon _).2 hm1')) (hm2' _ ((hcon _).1 hm1))]
  · have h1 := C28_bibfs g c hg hcF hcB hop starts goals limit fuel
    have h2 := C28_bibfs g' c' hg' hcF' hcB' hop' starts' goals' limit' fuel'
    rw [h] at h1
    rw [h'] at h2
    obtain ⟨m', -, hm1', -⟩ := h2
    exact h1 _ ((hcon _).2 hm1')

end Unweighted

section Weighted

theorem Spec.NotHeavier.walk [Add W] [Zero W] [LinearOrder W] [WeightLaws W] {next : V → List (V × W × L)}
    {next' : V → List (V × W × L')} (h : NotHeavier next next') {P : V → Prop} {w : W} {v : V} (hw : WalkW next P w v) :
    ∃ w', w' ≤ w ∧ WalkW next' P w' v := by
  induction hw with
  | start hs => exact ⟨0, le_refl _, .start hs⟩
  | step _ e ih =>
    rename_i w u v x _
    obtain ⟨w', h1, h2⟩ := ih
    obtain ⟨y, h3, h4⟩ := h _ _ _ e
    refine ⟨w' + y, ?_, .step h2 h4⟩
    refine le_trans (WeightLaws.mono _ _ y h1) ?_
    rw [WeightLaws.comm w y, WeightLaws.comm w x]
    exact WeightLaws.mono _ _ _ h3

theorem Spec.SameCheapest.idDist [Add W] [Zero W] [LinearOrder W] [WeightLaws W] {next : V → List (V × W × L)}
    {next' : V → List (V × W × L')} (h : SameCheapest next next') {P : V → Prop} {vid : V → K} {k : K} {w w' : W}
    (h1 : IsIdDist next P vid k w) (h2 : IsIdDist next' P vid k w') : w = w' := by
  obtain ⟨⟨v, e, hv⟩, hm⟩ := h1
  obtain ⟨⟨v', e', hv'⟩, hm'⟩ := h2
  obtain ⟨y, hy, hy'⟩ := h.1.walk hv
  obtain ⟨y2, hy2, hy2'⟩ := h.2.walk hv'
  exact le_antisymm (le_trans (hm _ _ hy2' e') hy2) (le_trans (hm' _ _ hy' e) hy)

theorem Spec.IsDist.idDist [Add W] [Zero W] [LE W] {next : V → List (V × W × L)} {P : V → Prop} {vid : V → K} {v : V} {w : W}
    (h : IsDist next P vid v w) : IsIdDist next P vid (vid v) w := ⟨⟨v, rfl, h.1⟩, h.2⟩

theorem Spec.SameCheapest.reach [LinearOrder W] {next : V → List (V × W × L)} {next' : V → List (V × W × L')}
    (h : SameCheapest next next') (u v : V) : (∃ x, WEdge next u v x) ↔ ∃ x, WEdge next' u v x :=
  ⟨fun ⟨x, hx⟩ => (h.1 u v x hx).elim fun y hy => ⟨y, hy.2⟩, fun ⟨x, hx⟩ => (h.2 u v x hx).elim fun y hy => ⟨y, hy.2⟩⟩

variable {M ML D M' ML' D' : Type}

/-- **C97, shortest paths.** At each moment of two traversals, the same distance is reported for the same vertex. Complete
traversals report the same vertices with the same distances, and the sequences of distances are equal. -/
theorem C97_sp [Add W] [Zero W] [LinearOrder W] [WeightLaws W] (g : WGear V K L W M ML D) (g' : WGear V K L' W M' ML' D')
    (c : WCfg V K L W) (c' : WCfg V K L' W) (hd : g.dd.Lawful c.inf) (hd' : g'.dd.Lawful c'.inf) (ht : c.isTree = false)
    (ht' : c'.isTree = false) (hvid : c'.vid = c.vid) (hsame : SameCheapest c.next c'.next) (hn : NonNeg c.next)
    (hn' : NonNeg c'.next) (hc : WCompat c.next c.vid) (hc' : WCompat c'.next c.vid)
    (starts starts' : List V) (hst : SameMembers starts starts') (limit limit' : Option Int) (fuel fuel' : Nat) :
    let run := spRun g c none starts limit fuel
    let run' := spRun g' c' none starts' limit' fuel'
    (∀ r ∈ run.reports, ∀ r' ∈ run'.reports, c.vid r.vertex = c.vid r'.vertex → r.distance = r'.distance) ∧
    (run.ending = .done → run'.ending = .done →
      (run.reports.map (fun r => (c.vid r.vertex, r.distance))).Perm
        (run'.reports.map (fun r => (c.vid r.vertex, r.distance))) ∧
      run.reports.map (fun r => r.distance) = run'.reports.map (fun r => r.distance)) := by
  intro run run'
  rw [← hvid] at hc'
  have key : ∀ r ∈ run.reports, ∀ r' ∈ run'.reports, c.vid r.vertex = c.vid r'.vertex → r.distance = r'.distance := by
    intro r hr r' hr' e
    have h1 := (C18_sp_distance g c ht hd hn hc starts limit fuel r hr).idDist
    have h2 := (C18_sp_distance g' c' ht' hd' hn' hc' starts' limit' fuel' r' hr').idDist
    rw [hvid, ← hst.eq, ← e] at h2
    exact hsame.idDist h1 h2
  refine ⟨key, fun hdone hdone' => ?_⟩
  obtain ⟨a1, a2, a3⟩ := C19_sp_once_ordered g c ht hd hn hc starts limit fuel
  obtain ⟨b1, b2, b3⟩ := C19_sp_once_ordered g' c' ht' hd' hn' hc' starts' limit' fuel'
  have a4 := C20_sp_complete g c ht hd hn hc starts limit fuel hdone
  have b4 := C20_sp_complete g' c' ht' hd' hn' hc' starts' limit' fuel' hdone'
  rw [hvid] at b1 b2 b4
  have hp : (run.reports.map (fun r => c.vid r.vertex)).Perm (run'.reports.map (fun r => c.vid r.vertex)) := by
    refine (List.perm_ext_iff_of_nodup a1 b1).2 (fun k => ⟨fun h => ?_, fun h => ?_⟩)
    · obtain ⟨r, hr, rfl⟩ := List.mem_map.1 h
      obtain ⟨w, -, hw⟩ := hsame.1.walk (C18_sp_distance g c ht hd hn hc starts limit fuel r hr).1
      rw [hst.eq] at hw
      rcases b4 _ _ hw with h | ⟨r', hr', e⟩
      · exact absurd ((hst.ids c.vid _).2 h) (a2 r hr)
      · exact List.mem_map.2 ⟨r', hr', e⟩
    · obtain ⟨r', hr', rfl⟩ := List.mem_map.1 h
      obtain ⟨w, -, hw⟩ := hsame.2.walk (C18_sp_distance g' c' ht' hd' hn' hc' starts' limit' fuel' r' hr').1
      rw [← hst.eq] at hw
      rcases a4 _ _ hw with h | ⟨r, hr, e⟩
      · exact absurd ((hst.ids c.vid _).1 h) (b2 r' hr')
      · exact List.mem_map.2 ⟨r, hr, e⟩
  have hpp := perm_pairs (val₁ := fun r => r.distance) (val₂ := fun r => r.distance) a1 hp key
  refine ⟨hpp, ?_⟩
  have h2 := hpp.map Prod.snd
  rw [List.map_map, List.map_map] at h2
  exact List.Perm.eq_of_pairwise (le := (· ≤ ·)) (fun a b _ _ => le_antisymm) a3 b3 h2

/-- **C97, A\*.** With an admissible heuristic function, the same path length is reported for a goal vertex. -/
theorem C97_astar [AddCommMonoid W] [LinearOrder W] [IsOrderedCancelAddMonoid W] (g : WGear V K L W M ML D)
    (g' : WGear V K L' W M' ML' D') (c : AStarCfg V K L W) (c' : AStarCfg V K L' W) (hd : g.dd.Lawful c.inf)
    (hd' : g'.dd.Lawful c'.inf) (ht : c.isTree = false) (ht' : c'.isTree = false) (hvid : c'.vid = c.vid)
    (hheur : c'.heur = c.heur) (hsame : SameCheapest c.next c'.next) (hn : NonNeg c.next)
    (hn' : NonNeg c'.next) (hc : WCompat c.next c.vid) (hc' : WCompat c'.next c.vid) (hh : HeurCompat c.heur c.vid)
    {goal : V → Prop} (hgoal : ∀ u v, c.vid u = c.vid v → goal u → goal v) (hadm : Admissible c.next c.heur goal)
    (h0 : ∀ v, goal v → 0 ≤ c.heur v)
    (starts starts' : List V) (hst : SameMembers starts starts') (limit limit' : Option Int) (fuel fuel' : Nat) :
    ∀ r ∈ (aRun g c none none starts limit fuel).reports, ∀ r' ∈ (aRun g' c' none none starts' limit' fuel').reports,
      goal r.vertex → c.vid r.vertex = c.vid r'.vertex → r.pathLength = r'.pathLength := by
  intro r hr r' hr' hg e
  obtain ⟨a, b, hab⟩ := List.append_of_mem hr
  obtain ⟨a', b', hab'⟩ := List.append_of_mem hr'
  have hadm' : Admissible c'.next c'.heur goal := by
    intro u w v hw hgv
    obtain ⟨w', h1, h2⟩ := hsame.2.walk hw
    rw [hheur]
    exact le_trans (hadm u w' v h2 hgv) h1
  have h1 := (C24_astar_goal g c ht hd hn hc hh hgoal hadm h0 starts limit fuel hab hg).1
  have h2 := (C24_astar_goal g' c' ht' hd' hn' (by rw [hvid]; exact hc') (by rw [hvid, hheur]; exact hh)
    (by rw [hvid]; exact hgoal) hadm' (by rw [hheur]; exact h0) starts' limit' fuel' hab' (hgoal _ _ e hg)).1
  rw [hvid, ← hst.eq, ← e] at h2
  exact hsame.idDist h1 h2

theorem Spec.Linked.of_notHeavier {vid : V → K} {F : List (V × V × W)} {G : List (V × V × W)} {j k : K}
    (h : ∀ f ∈ F, ∃ f' ∈ G, f'.1 = f.1 ∧ f'.2.1 = f.2.1) (hl : Linked vid F j k) : Linked vid G j k := by
  induction hl with
  | refl => exact .refl
  | step hf hj _ ih =>
    obtain ⟨f', h1, h2, h3⟩ := h _ hf
    refine .step h1 ?_ ih
    unfold Joins at hj ⊢
    rw [h2, h3]; exact hj

/-- The cheaper edges, as a list. -/
theorem notHeavier_edges [LinearOrder W] {next : V → List (V × W × L)} {next' : V → List (V × W × L')}
    (h : NotHeavier next next') (F : List (V × V × W)) (hF : GraphEdges next F) :
    ∃ G : List (V × V × W), GraphEdges next' G ∧
      List.Forall₂ (fun f f' => f'.1 = f.1 ∧ f'.2.1 = f.2.1 ∧ f'.2.2 ≤ f.2.2) F G := by
  induction F with
  | nil => exact ⟨[], by simp [GraphEdges], .nil⟩
  | cons f F ih =>
    obtain ⟨G, h1, h2⟩ := ih (fun x hx => hF x (List.mem_cons_of_mem _ hx))
    obtain ⟨y, hy, hy'⟩ := h _ _ _ (hF f List.mem_cons_self)
    refine ⟨(f.1, f.2.1, y) :: G, ?_, .cons ⟨rfl, rfl, hy⟩ h2⟩
    intro x hx
    rcases List.mem_cons.1 hx with rfl | hx
    · exact hy'
    · exact h1 x hx

variable {S S' : Type}

theorem mst_ids_perm [LinearOrder W] (g : TravGear V K L S M ML) (g' : TravGear V K L' S' M' ML')
    (c : MstCfg V K L W) (c' : MstCfg V K L' W) (hg : g.so.Lawful) (hg' : g'.so.Lawful) (hvid : c'.vid = c.vid)
    (hsame : SameCheapest c.next c'.next) (hc : WCompat c.next c.vid) (hc' : WCompat c'.next c.vid)
    (starts starts' : List V) (hst : SameMembers starts starts') (limit limit' : Option Int) (fuel fuel' : Nat)
    (hd : (mstRun g c starts limit fuel).ending = .done) (hd' : (mstRun g' c' starts' limit' fuel').ending = .done) :
    ((mstRun g c starts limit fuel).reports.map (fun r => c.vid r.vertex)).Perm
      ((mstRun g' c' starts' limit' fuel').reports.map (fun r => c.vid r.vertex)) := by
  rw [← hvid] at hc'
  obtain ⟨a1, a2, -⟩ := C26_mst_tree g c hg starts limit fuel
  obtain ⟨a3, a4⟩ := C26_mst_spans g c hg hc starts limit fuel hd
  obtain ⟨b1, b2, -⟩ := C26_mst_tree g' c' hg' starts' limit' fuel'
  obtain ⟨b3, b4⟩ := C26_mst_spans g' c' hg' hc' starts' limit' fuel' hd'
  have hr : ∀ v, WReachable c'.next starts' v ↔ WReachable c.next starts v := by
    intro v
    unfold WReachable
    have : (fun u w => ∃ x, WEdge c'.next u w x) = (fun u w => ∃ x, WEdge c.next u w x) := by
      funext u w; exact propext (hsame.reach u w).symm
    rw [this, ← hst.eq]
  rw [hvid] at b1 b2 b3
  refine (List.perm_ext_iff_of_nodup a1 b1).2 (fun k => ⟨fun h => ?_, fun h => ?_⟩)
  · obtain ⟨r, hm, rfl⟩ := List.mem_map.1 h
    rcases b3 _ ((hr _).2 (a4 r hm)) with h | ⟨r', hr', e⟩
    · exact absurd ((hst.ids c.vid _).2 h) (a2 r hm)
    · exact List.mem_map.2 ⟨r', hr', e⟩
  · obtain ⟨r, hm, rfl⟩ := List.mem_map.1 h
    rcases a3 _ ((hr _).1 (b4 r hm)) with h | ⟨r', hr', e⟩
    · exact absurd ((hst.ids c.vid _).1 h) (b2 r hm)
    · exact List.mem_map.2 ⟨r', hr', e⟩

theorem mst_weight_le [AddCommMonoid W] [LinearOrder W] [IsOrderedAddMonoid W] (g : TravGear V K L S M ML)
    (g' : TravGear V K L' S' M' ML')
    (c : MstCfg V K L W) (c' : MstCfg V K L' W) (hg : g.so.Lawful) (hg' : g'.so.Lawful) (hvid : c'.vid = c.vid)
    (hsame : SameCheapest c.next c'.next) (hc : WCompat c.next c.vid) (hc' : WCompat c'.next c.vid)
    (hsym : WSymmetric c.next)
    (starts starts' : List V) (hst : SameMembers starts starts') (limit limit' : Option Int) (fuel fuel' : Nat)
    (hd : (mstRun g c starts limit fuel).ending = .done) (hd' : (mstRun g' c' starts' limit' fuel').ending = .done) :
    ((mstRun g c starts limit fuel).reports.map (fun r => r.edge.2.2.1)).sum ≤
      ((mstRun g' c' starts' limit' fuel').reports.map (fun r => r.edge.2.2.1)).sum := by
  have hp := mst_ids_perm g g' c c' hg hg' hvid hsame hc hc' starts starts' hst limit limit' fuel fuel' hd hd'
  obtain ⟨t1, t2⟩ := C27_mst_connects g' c' hg' starts' limit' fuel'
  obtain ⟨G, h1, h2⟩ := notHeavier_edges hsame.2 _ t1
  have hlen : G.length = (mstRun g c starts limit fuel).reports.length := by
    rw [← h2.length_eq]
    have := hp.length_eq
    simp only [List.length_map, plainEdges] at this ⊢
    exact this.symm
  have hcon : ∀ r ∈ (mstRun g c starts limit fuel).reports, ∃ t ∈ starts, Linked c.vid G (c.vid r.vertex) (c.vid t) := by
    intro r hr
    obtain ⟨r', hr', e⟩ := List.mem_map.1 (hp.mem_iff.1 (List.mem_map_of_mem hr))
    obtain ⟨t, ht, hl⟩ := t2 r' hr'
    rw [hvid, e] at hl
    refine ⟨t, (hst t).2 ht, hl.of_notHeavier (fun f hf => ?_)⟩
    obtain ⟨i, hi, rfl⟩ := List.getElem_of_mem hf
    have := (List.forall₂_iff_get.1 h2).2 i hi (by rw [← h2.length_eq]; exact hi)
    exact ⟨_, List.get_mem _ _, this.1, this.2.1⟩
  refine le_trans ((C27_mst_minimal g c hg hc hsym starts limit fuel G h1 hcon).2 (.inl hlen)) ?_
  have : (G.map (fun f => f.2.2)).sum ≤
      ((plainEdges ((mstRun g' c' starts' limit' fuel').reports.map (fun r => r.edge))).map (fun f => f.2.2)).sum := by
    apply List.Forall₂.sum_le_sum
    rw [List.forall₂_map_left_iff, List.forall₂_map_right_iff]
    exact h2.flip.imp (fun _ _ h => h.2.2)
  refine le_trans this (le_of_eq ?_)
  simp only [plainEdges, List.map_map]
  rfl

/-- **C97, minimum spanning tree.** Complete traversals report the same vertices. For graphs whose edges can be used in both
directions, with edges of the same total weight. -/
theorem C97_mst [AddCommMonoid W] [LinearOrder W] [IsOrderedAddMonoid W] (g : TravGear V K L S M ML)
    (g' : TravGear V K L' S' M' ML')
    (c : MstCfg V K L W) (c' : MstCfg V K L' W) (hg : g.so.Lawful) (hg' : g'.so.Lawful) (hvid : c'.vid = c.vid)
    (hsame : SameCheapest c.next c'.next) (hc : WCompat c.next c.vid) (hc' : WCompat c'.next c.vid)
    (starts starts' : List V) (hst : SameMembers starts starts') (limit limit' : Option Int) (fuel fuel' : Nat) :
    let run := mstRun g c starts limit fuel
    let run' := mstRun g' c' starts' limit' fuel'
    run.ending = .done → run'.ending = .done →
      (run.reports.map (fun r => c.vid r.vertex)).Perm (run'.reports.map (fun r => c.vid r.vertex)) ∧
      (WSymmetric c.next → WSymmetric c'.next →
        (run.reports.map (fun r => r.edge.2.2.1)).sum = (run'.reports.map (fun r => r.edge.2.2.1)).sum) := by
  intro run run' hd hd'
  refine ⟨mst_ids_perm g g' c c' hg hg' hvid hsame hc hc' starts starts' hst limit limit' fuel fuel' hd hd',
    fun h h' => le_antisymm
      (mst_weight_le g g' c c' hg hg' hvid hsame hc hc' h starts starts' hst limit limit' fuel fuel' hd hd')
      (mst_weight_le g' g c' c hg' hg hvid.symm ⟨hsame.2, hsame.1⟩ (by rw [hvid]; exact hc') (by rw [hvid]; exact hc) h'
        starts' starts (fun v => (hst v).symm) limit' limit fuel' fuel hd' hd)⟩

/-- **C97, bidirectional shortest path (partial).** If one search finds a path, the other never says that there is none,
and the weights differ by the factor 2, at most. -/
theorem C97_bd_partial [AddCommMonoid W] [LinearOrder W] [IsOrderedAddMonoid W] {g : WGear V K L W M ML D}
    {g' : WGear V K L' W M' ML' D'} {c : BdCfg V K L W} {c' : BdCfg V K L' W} (H : BdHyp g c) (H' : BdHyp g' c')
    (hvid : c'.vid = c.vid) (hsame : SameCheapest c.nextF c'.nextF) (starts starts' goals goals' : List V)
    (hst : SameMembers starts starts') (hgo : SameMembers goals goals') (limit limit' : Option Int)
    (fuel fuel' pathFuel pathFuel' : Nat) (w : W) (p : PathObj V L)
    (hres : bdSearch g c starts goals limit fuel pathFuel = .found w p) :
    bdSearch g' c' starts' goals' limit' fuel' pathFuel' ≠ .notFound ∧
    ∀ w' p', bdSearch g' c' starts' goals' limit' fuel' pathFuel' = .found w' p' → w ≤ w' + w' ∧ w' ≤ w + w := by
  have h1 := bd_result H False starts goals limit False.elim fuel pathFuel
  rw [hres] at h1
  have conv : ∀ x, WConnects c.nextF c.vid starts goals x → ∃ y, y ≤ x ∧ WConnects c'.nextF c'.vid starts' goals' y := by
    rintro x ⟨v, t, ht, e, hw⟩
    obtain ⟨y, hy, hw'⟩ := hsame.1.walk hw
    rw [hst.eq] at hw'
    exact ⟨y, hy, v, t, (hgo t).1 ht, by rw [hvid]; exact e, hw'⟩
  have conv' : ∀ x, WConnects c'.nextF c'.vid starts' goals' x → ∃ y, y ≤ x ∧ WConnects c.nextF c.vid starts goals y := by
    rintro x ⟨v, t, ht, e, hw⟩
    obtain ⟨y, hy, hw'⟩ := hsame.2.walk hw
    rw [← hst.eq] at hw'
    exact ⟨y, hy, v, t, (hgo t).2 ht, by rw [← hvid]; exact e, hw'⟩
  refine ⟨fun h => ?_, fun w' p' h => ?_⟩
  · have h2 := C32_bd H' starts' goals' limit' fuel' pathFuel'
    rw [h] at h2
    obtain ⟨y, -, hy⟩ := conv _ h1.1
    exact h2 _ hy
  · have h2 := bd_result H' False starts' goals' limit' False.elim fuel' pathFuel'
    rw [h] at h2
    obtain ⟨y, hy1, hy2⟩ := conv _ h1.1
    obtain ⟨z, hz1, hz2⟩ := conv' _ h2.1
    exact ⟨le_trans (h1.2 _ hz2).1 (add_le_add hz1 hz1), le_trans (h2.2 _ hy2).1 (add_le_add hy1 hy1)⟩

end Weighted

/-! ## Examples -/

/-- The graph of the examples, with the edges in opposite order, and each edge twice. -/
def exDoubled (v : Nat) : List (Nat × Char) := (exNext v).reverse ++ exNext v

theorem exDoubled_same : SameGraph exNext exDoubled := by
  intro u v
  simp [Edge, exDoubled]

/-- The weighted graph of the examples, with the edges in opposite order, and further edges that are heavier. -/
def exHeavier (v : Nat) : List (Nat × Nat × Char) := (exThree v).map (fun e => (e.1, e.2.1 + 1, 'h')) ++ (exThree v).reverse

theorem exHeavier_same : SameCheapest exThree exHeavier := by
  constructor
  · rintro u v x ⟨l, h⟩
    exact ⟨x, le_refl _, l, by simp [exHeavier, h]⟩
  · rintro u v x ⟨l, h⟩
    rcases List.mem_append.1 h with h | h
    · obtain ⟨e, he, hx⟩ := List.mem_map.1 h
      obtain ⟨e1, e2, e3⟩ := e
      simp only [Prod.mk.injEq] at hx
      obtain ⟨rfl, rfl, -⟩ := hx
      exact ⟨e2, Nat.le_succ _, e3, he⟩
    · exact ⟨x, le_refl _, l, List.mem_reverse.1 h⟩

/-- Two complete breadth-first runs: another order, the same vertices with the same depths. -/
example : SameMembers [0, 5] [5, 0, 5] ∧
    ((bfsRun exHash ⟨exNext, id, false, true⟩ [] [0, 5] none 200).reports.map (fun r => (r.vertex, r.depth)),
      (bfsRun exHash ⟨exNext, id, false, true⟩ [] [0, 5] none 200).ending) =
      ([(1, 1), (2, 1), (4, 1), (6, 1), (3, 2)], .done) ∧
    ((bfsRun exHash ⟨exDoubled, id, false, true⟩ [] [5, 0, 5] none 200).reports.map (fun r => (r.vertex, r.depth)),
      (bfsRun exHash ⟨exDoubled, id, false, true⟩ [] [5, 0, 5] none 200).ending) =
      ([(6, 1), (4, 1), (1, 1), (2, 1), (3, 2)], .done) := by
  refine ⟨fun v => by simp; omega, ?_, ?_⟩ <;> decide +kernel

/-- Two complete runs of the shortest paths strategy, and of the minimum spanning tree strategy. -/
example :
    ((spRun exWHash ⟨exHeavier, id, false, true, true, 1000⟩ none [5, 0, 5] none 400).reports.map
      (fun r => (r.vertex, r.distance)),
      (spRun exWHash ⟨exHeavier, id, false, true, true, 1000⟩ none [5, 0, 5] none 400).ending) =
      ([(2, 3), (1, 3), (4, 3), (6, 3), (3, 6)], .done) ∧
    ((spRun exWHash ⟨exThree, id, false, true, true, 1000⟩ none [0, 5] none 200).reports.map
      (fun r => (r.vertex, r.distance)),
      (spRun exWHash ⟨exThree, id, false, true, true, 1000⟩ none [0, 5] none 200).ending) =
      ([(2, 3), (1, 3), (6, 3), (4, 3), (3, 6)], .done) ∧
    ((mstRun exHash ⟨exHeavier, id, true⟩ [5, 0] none 400).reports.map (fun r => r.vertex),
      (mstRun exHash ⟨exHeavier, id, true⟩ [5, 0] none 400).ending) = ([6, 4, 1, 2, 3], .done) := by
  refine ⟨?_, ?_, ?_⟩ <;> decide +kernel

/-- The graph of the counterexample for C31, with two parallel edges from 6 to 5 instead of a detour. -/
def exParNext (a b : Nat) : Nat → List (Nat × Nat × Unit)
  | 0 => [(1, 10, ()), (2, 11, ()), (8, 11, ()), (3, 12, ())]
  | 1 => [(5, 10, ())]
  | 3 => [(4, 1, ())]
  | 4 => [(5, 5, ())]
  | 6 => [(5, a, ()), (5, b, ())]
  | _ => []

/-- The incoming edges of this graph. -/
def exParPrev (a b : Nat) : Nat → List (Nat × Nat × Unit)
  | 1 => [(0, 10, ())]
  | 2 => [(0, 11, ())]
  | 3 => [(0, 12, ())]
  | 4 => [(3, 1, ())]
  | 5 => [(1, 10, ()), (4, 5, ()), (6, a, ()), (6, b, ())]
  | 8 => [(0, 11, ())]
  | _ => []

/-- The search in this graph. -/
def exParallelEdges (a b : Nat) : BdCfg Nat Nat Unit Nat := ⟨exParNext a b, exParPrev a b, id, true, 1000⟩

theorem exParOpposite (a b : Nat) : WOpposite (exParNext a b) (exParPrev a b) := by
  have h1 : ∀ u v x l, (v, x, l) ∈ exParNext a b u → (u, x, l) ∈ exParPrev a b v := by
    intro u v x l h
    unfold exParNext at h
    split at h <;> simp at h <;>
      (try rcases h with ⟨rfl, rfl⟩ | ⟨rfl, rfl⟩ | ⟨rfl, rfl⟩ | ⟨rfl, rfl⟩) <;>
      simp_all [exParPrev]
  have h2 : ∀ u v x l, (u, x, l) ∈ exParPrev a b v → (v, x, l) ∈ exParNext a b u := by
    intro u v x l h
    unfold exParPrev at h
    split at h <;> simp at h <;>
      (try rcases h with ⟨rfl, rfl⟩ | ⟨rfl, rfl⟩ | ⟨rfl, rfl⟩ | ⟨rfl, rfl⟩) <;>
      simp_all [exParNext]
  exact fun u v x l => ⟨h1 u v x l, h2 u v x l⟩

theorem exParHyp (a b : Nat) : BdHyp exBdHash (exParallelEdges a b) where
  dd := dictDist_lawful _
  nonnegF := fun _ _ _ _ => Nat.zero_le _
  nonnegB := fun _ _ _ _ => Nat.zero_le _
  compatF := by rintro u u' v x rfl h; exact ⟨v, h, rfl⟩
  compatB := by rintro u u' v x rfl h; exact ⟨v, h, rfl⟩
  inf := Nat.zero_le _
  opp := fun u v x => ⟨fun ⟨l, h⟩ => ⟨l, (exParOpposite a b u v x l).1 h⟩, fun ⟨l, h⟩ => ⟨l, (exParOpposite a b u v x l).2 h⟩⟩

/-- **C97 is false for the bidirectional shortest path search.** The edges functions of both searches give the same edges for each
vertex, in another order (two parallel edges from 6 to 5, with the weights 2 and 3, change places). One search finds a path
of weight 20, the other one of weight 18. -/
theorem C97_bd_counterexample :
    BdHyp exBdHash (exParallelEdges 3 2) ∧ BdHyp exBdHash (exParallelEdges 2 3) ∧
    (∀ v, ((exParallelEdges 3 2).nextF v).Perm ((exParallelEdges 2 3).nextF v)) ∧ (∀ v, ((exParallelEdges 3 2).nextB v).Perm ((exParallelEdges 2 3).nextB v)) ∧
    (match bdSearch exBdHash (exParallelEdges 3 2) [0] [5] none 100 10 with
      | .found w p => some (w, p.vertsForwards)
      | _ => none) = some (20, [0, 1, 5]) ∧
    (match bdSearch exBdHash (exParallelEdges 2 3) [0] [5] none 100 10 with
      | .found w p => some (w, p.vertsForwards)
      | _ => none) = some (18, [0, 3, 4, 5]) := by
  refine ⟨exParHyp 3 2, exParHyp 2 3, fun v => ?_, fun v => ?_, by decide +kernel, by decide +kernel⟩
  · show (exParNext 3 2 v).Perm (exParNext 2 3 v)
    unfold exParNext
    split <;> decide
  · show (exParPrev 3 2 v).Perm (exParPrev 2 3 v)
    unfold exParPrev
    split <;> decide

end NoGraphs
