import Verif.Spec.Agreement
import Verif.Props.AStar
import Verif.Props.BiDijkstra
import Verif.Props.DepthFirst
import Verif.Props.MinimumSpanningTree
import Verif.Props.NeighborsThenDepth
import Verif.Props.Topological
import Mathlib.Algebra.Order.Monoid.Unbundled.Pow

/-! # C95: the strategies agree with each other

Runs of different strategies on one graph, from the same start vertices, with gears, limits and numbers of steps that may
differ. Each run is complete (it ended regularly). -/

set_option linter.unusedSectionVars false

namespace NoGraphs

open NoGraphs.Spec

variable {V K L L' W : Type} [DecidableEq V] [DecidableEq K]

theorem Spec.WalkN.mono_start {E : V → V → Prop} {P Q : V → Prop} (h : ∀ v, P v → Q v) {n : Nat} {v : V}
    (hw : WalkN E P n v) : WalkN E Q n v := by
  induction hw with
  | start hs => exact .start (h _ hs)
  | step _ e ih => exact .step ih e

theorem Spec.SameEdges.walkN {next : V → List (V × L)} {wnext : V → List (V × W × L')} [Add W] [Zero W]
    (h : SameEdges next wnext) {P : V → Prop} {w : W} {v : V} (hw : WalkW wnext P w v) : Reachable (Edge next) P v := by
  induction hw with
  | start hs => exact ⟨0, .start hs⟩
  | step _ e ih =>
    obtain ⟨n, hn⟩ := ih
    exact ⟨n + 1, .step hn ((h _ _).2 ⟨_, e⟩)⟩

theorem Spec.SameEdges.walkW {next : V → List (V × L)} {wnext : V → List (V × W × L')} [Add W] [Zero W]
    (h : SameEdges next wnext) {P : V → Prop} {v : V} (hv : Reachable (Edge next) P v) : ∃ w, WalkW wnext P w v := by
  obtain ⟨n, hn⟩ := hv
  induction hn with
  | start hs => exact ⟨0, .start hs⟩
  | step _ e ih =>
    obtain ⟨w, hw⟩ := ih
    obtain ⟨x, hx⟩ := (h _ _).1 e
    exact ⟨w + x, .step hw hx⟩

theorem Spec.SameEdges.reachable {next : V → List (V × L)} {wnext : V → List (V × W × L')}
    (h : SameEdges next wnext) (starts : List V) (v : V) :
    WReachable wnext starts v ↔ Reachable (Edge next) (· ∈ starts) v := by
  unfold WReachable
  have : (fun u w => ∃ x, WEdge wnext u w x) = Edge next := by
    funext u w; exact propext (h u w).symm
  rw [this]

theorem Spec.ListsNewIds.perm {E : V → V → Prop} {vid : V → K} {starts : List V} {a b : List K}
    (ha : ListsNewIds E vid starts a) (hb : ListsNewIds E vid starts b) : a.Perm b :=
  (List.perm_ext_iff_of_nodup ha.1 hb.1).2 (fun k => (ha.2 k).trans (hb.2 k).symm)

/-- Lists that contain the start vertices, too. -/
theorem Spec.ListsNewIds.perm_with_starts {E : V → V → Prop} {vid : V → K} {starts : List V} {a b : List K}
    (ha : ListsNewIds E vid starts a) (hn : (starts.map vid).Nodup) (hb : b.Nodup)
    (h : ∀ k, k ∈ b ↔ ∃ v, Reachable E (· ∈ starts) v ∧ vid v = k) : b.Perm (starts.map vid ++ a) := by
  refine (List.perm_ext_iff_of_nodup hb ?_).2 (fun k => ?_)
  · exact List.nodup_append.2 ⟨hn, ha.1, fun x hx y hy e => ((ha.2 y).1 hy).1 (e ▸ hx)⟩
  · rw [h, List.mem_append, ha.2]
    constructor
    · rintro ⟨v, hv, rfl⟩
      by_cases hs : vid v ∈ starts.map vid
      · exact .inl hs
      · exact .inr ⟨hs, v, hv, rfl⟩
    · rintro (hk | ⟨-, hk⟩)
      · obtain ⟨s, hs, rfl⟩ := List.mem_map.1 hk
        exact ⟨s, ⟨0, .start hs⟩, rfl⟩
      · exact hk

/-- Reports with the three typical properties. -/
theorem listsNewIds_of {E : V → V → Prop} {vid : V → K} {starts : List V} {R : Type} {reports : List R} {vert : R → V}
    (hn : (reports.map (fun r => vid (vert r))).Nodup) (hs : ∀ r ∈ reports, vid (vert r) ∉ starts.map vid)
    (hr : ∀ r ∈ reports, Reachable E (· ∈ starts) (vert r))
    (hc : ∀ v, Reachable E (· ∈ starts) v → vid v ∈ starts.map vid ∨ ∃ r ∈ reports, vid (vert r) = vid v) :
    ListsNewIds E vid starts (reports.map (fun r => vid (vert r))) := by
  refine ⟨hn, fun k => ⟨fun hk => ?_, ?_⟩⟩
  · obtain ⟨r, hm, rfl⟩ := List.mem_map.1 hk
    exact ⟨hs r hm, _, hr r hm, rfl⟩
  · rintro ⟨hk, v, hv, rfl⟩
    rcases hc v hv with h | ⟨r, hm, e⟩
    · exact absurd h hk
    · exact List.mem_map.2 ⟨r, hm, e⟩

section Unweighted

variable {S M ML : Type} (g : TravGear V K L S M ML)

theorem bfs_lists (c : TravCfg V K L) (hg : g.so.Lawful) (ht : c.isTree = false) (hc : Compat (Edge c.next) c.vid)
    (starts : List V) (limit : Option Int) (fuel : Nat)
    (hdone : (bfsRun g c g.so.empty starts limit fuel).ending = .done) :
    ListsNewIds (Edge c.next) c.vid starts
      ((bfsRun g c g.so.empty starts limit fuel).reports.map (fun r => c.vid r.vertex)) := by
  obtain ⟨h1, h2, -⟩ := C02_bfs_once_ordered g c hg ht hc g.so.empty starts limit fuel
  refine listsNewIds_of h1 (fun r hr => (h2 r hr).1) (fun r hr => ?_) (fun v hv => ?_)
  · obtain ⟨d, -, hd⟩ := C01_bfs_depth g c hg ht hc starts limit fuel r hr
    exact ⟨d, hd.1⟩
  · refine (C03_bfs_complete g c hg ht hc g.so.empty starts limit fuel hdone).1 v ?_
    have := bfsE_empty g c hg
    unfold bfsE at this
    rw [this]; exact hv

theorem ntd_lists (c : NtdCfg V K L) (hg : g.so.Lawful) (ht : c.isTree = false) (hc : Compat (Edge c.next) c.vid)
    (starts : List V) (limit : Option Int) (fuel : Nat)
    (hdone : (ntdRun g c g.so.empty starts limit fuel).ending = .done) :
    ListsNewIds (Edge c.next) c.vid starts
      ((ntdRun g c g.so.empty starts limit fuel).reports.map (fun r => c.vid r.vertex)) := by
  obtain ⟨h0, h1, h2⟩ := C06_ntd_once g c hg ht g.so.empty starts limit fuel
  have hE := bfsE_empty g c.toTravCfg hg
  unfold bfsE at hE
  rw [hE] at h0
  refine listsNewIds_of h1 (fun r hr => (h2 r hr).1) h0 (fun v hv => ?_)
  refine (C06_ntd_complete g c hg ht hc g.so.empty starts limit fuel hdone).1 v ?_
  rw [hE]; exact hv

/-- The vertices reported by a depth-first search without pruning. -/
theorem dfs_reported (c : DfsCfg V K L) (hg : g.so.Lawful) (ht : c.isTree = false) (hc : Compat (Edge c.next) c.vid)
    (hskip : ∀ n, c.skip n = false) (hsucc : c.reportSucc = true)
    (starts : List V) (limit : Option Int) (fuel : Nat)
    (hdone : (dfsRun g c g.so.empty starts limit fuel).ending = .done) :
    let ids := (dfsRun g c g.so.empty starts limit fuel).reports.map (fun r => c.vid r.vertex)
    ids.Nodup ∧ (∀ k ∈ ids, ∃ v, Reachable (Edge c.next) (· ∈ starts) v ∧ c.vid v = k) ∧
    ∀ v, Reachable (Edge c.next) (· ∈ starts) v → c.reportStart = true ∨ c.vid v ∉ starts.map c.vid → c.vid v ∈ ids := by
  intro ids
  obtain ⟨h1, h2⟩ := C08_dfs_once g c hg ht g.so.empty starts limit fuel
  have hE := bfsE_empty g c.toTravCfg hg
  unfold bfsE at hE
  have hS : (fun v => v ∈ starts ∧ ¬ g.so.contains g.so.empty (c.vid v) = true) = (· ∈ starts) := by
    funext v; simp [hg.contains_empty]
  rw [hE, hS] at h2
  refine ⟨h1, fun k hk => ?_, fun v hv h => ?_⟩
  · obtain ⟨r, hr, rfl⟩ := List.mem_map.1 hk
    exact ⟨_, (h2 r hr).2, rfl⟩
  · have := C08_dfs_complete g c hg ht hc hskip hsucc g.so.empty starts limit fuel hdone v
    rw [hE, hS] at this
    obtain ⟨r, hr, e⟩ := this hv h
    exact List.mem_map.2 ⟨r, hr, e⟩

end Unweighted

/-! ## C95 -/

section Strategies

variable {S M ML : Type} (g : TravGear V K L S M ML) (next : V → List (V × L)) (vid : V → K)

/-- **C95, strategies without weights.** A complete breadth-first traversal lists the ids of the reachable vertices other
than the start vertices, each once. A complete neighbors-then-depth traversal reports the same ids. A complete depth-first
search, without pruning, reports the same ids, and in addition only start vertices: each of them once, if start
vertices are to be reported. A topological sorting reports them all. The gears may differ, too. -/
theorem C95_unweighted {S₁ M₁ ML₁ S₂ M₂ ML₂ S₃ M₃ ML₃ : Type} (g₁ : TravGear V K L S₁ M₁ ML₁)
    (g₂ : TravGear V K L S₂ M₂ ML₂) (g₃ : TravGear V K L S₃ M₃ ML₃)
    (hg : g.so.Lawful) (hg₁ : g₁.so.Lawful) (hg₂ : g₂.so.Lawful) (hg₃ : g₃.so.Lawful) (hgr : g₃.so.Grows)
    (hc : Compat (Edge next) vid) (starts : List V) (bp bp₁ cd₁ : Bool) (limit limit₁ limit₂ limit₃ : Option Int)
    (fuel fuel₁ fuel₂ fuel₃ : Nat)
    (hdone : (bfsRun g ⟨next, vid, false, bp⟩ g.so.empty starts limit fuel).ending = .done) :
    let bfsIds := (bfsRun g ⟨next, vid, false, bp⟩ g.so.empty starts limit fuel).reports.map (fun r => vid r.vertex)
    ListsNewIds (Edge next) vid starts bfsIds ∧
    ((ntdRun g₁ ⟨⟨next, vid, false, bp₁⟩, cd₁⟩ g₁.so.empty starts limit₁ fuel₁).ending = .done →
      ((ntdRun g₁ ⟨⟨next, vid, false, bp₁⟩, cd₁⟩ g₁.so.empty starts limit₁ fuel₁).reports.map
        (fun r => vid r.vertex)).Perm bfsIds) ∧
    (∀ c : DfsCfg V K L, c.next = next → c.vid = vid → c.isTree = false → c.reportSucc = true → (∀ n, c.skip n = false) →
      (dfsRun g₂ c g₂.so.empty starts limit₂ fuel₂).ending = .done →
      let ids := (dfsRun g₂ c g₂.so.empty starts limit₂ fuel₂).reports.map (fun r => vid r.vertex)
      (ids.filter (fun k => decide (k ∉ starts.map vid))).Perm bfsIds ∧
      ((starts.map vid).Nodup → c.reportStart = true → ids.Perm (starts.map vid ++ bfsIds))) ∧
    ((starts.map vid).Nodup → (topoRun g₃ ⟨next, vid, false, bp₁⟩ g₃.so.empty starts limit₃ fuel₃).ending = .done →
      ((topoRun g₃ ⟨next, vid, false, bp₁⟩ g₃.so.empty starts limit₃ fuel₃).reports.map
        (fun r => vid r.vertex)).Perm (starts.map vid ++ bfsIds)) := by
  intro bfsIds
  have hb : ListsNewIds (Edge next) vid starts bfsIds :=
    bfs_lists g ⟨next, vid, false, bp⟩ hg rfl hc starts limit fuel hdone
  refine ⟨hb, fun hd => ?_, ?_, fun hn hd => ?_⟩
  · exact (ntd_lists g₁ ⟨⟨next, vid, false, bp₁⟩, cd₁⟩ hg₁ rfl hc starts limit₁ fuel₁ hd).perm hb
  · intro c h1 h2 ht hsucc hskip hd ids
    subst h1 h2
    obtain ⟨a1, a2, a3⟩ := dfs_reported g₂ c hg₂ ht hc hskip hsucc starts limit₂ fuel₂ hd
    refine ⟨?_, fun hn hst => hb.perm_with_starts hn a1 (fun k => ⟨a2 k, ?_⟩)⟩
    · refine (List.perm_ext_iff_of_nodup (a1.filter _) hb.1).2 (fun k => ?_)
      rw [List.mem_filter, decide_eq_true_eq, hb.2]
      constructor
      · exact fun ⟨h, h'⟩ => ⟨h', a2 k h⟩
      · rintro ⟨hk, v, hv, rfl⟩
        exact ⟨a3 v hv (.inr hk), hk⟩
    · rintro ⟨v, hv, rfl⟩
      exact a3 v hv (.inl hst)
  · have hE := topoE_empty g₃ ⟨next, vid, false, bp₁⟩ hg₃ starts
    unfold topoE at hE
    obtain ⟨a1, a2⟩ := C16_topo_order_partial g₃ ⟨next, vid, false, bp₁⟩ hg₃ hgr rfl g₃.so.empty starts hn limit₃ fuel₃
    have a3 := C16_topo_complete g₃ ⟨next, vid, false, bp₁⟩ hg₃ hgr rfl hc g₃.so.empty starts hn limit₃ fuel₃ hd
    unfold TopoEdges at a1 a3
    rw [hE] at a1 a3
    refine hb.perm_with_starts hn a2 (fun k => ⟨fun hk => ?_, ?_⟩)
    · obtain ⟨r, hr, rfl⟩ := List.mem_map.1 hk
      obtain ⟨b, a, hba⟩ := List.append_of_mem hr
      obtain ⟨s0, hs0, ⟨n, hw⟩, -⟩ := a1 b r a hba
      exact ⟨r.vertex, ⟨n, hw.mono_start (fun v e => e ▸ hs0)⟩, rfl⟩
    · rintro ⟨v, hv, rfl⟩
      obtain ⟨r, hr, e⟩ := a3 v hv
      exact List.mem_map.2 ⟨r, hr, e⟩

/-- **C95, strategies with weights.** On a graph with weights that has the same edges, a complete run of the shortest
paths strategy, and one of the minimum spanning tree strategy, report the same ids as a complete breadth-first traversal. -/
theorem C95_weighted {S₂ M₁ ML₁ D₁ M₂ ML₂ : Type} [Add W] [Zero W] [LinearOrder W] [WeightLaws W]
    (g₁ : WGear V K L' W M₁ ML₁ D₁) (g₂ : TravGear V K L' S₂ M₂ ML₂)
    (hg : g.so.Lawful) (hg₂ : g₂.so.Lawful) (hc : Compat (Edge next) vid) (wnext : V → List (V × W × L'))
    (hs : SameEdges next wnext) (hw : WCompat wnext vid)
    (starts : List V) (bp bp₁ bp₂ keep : Bool) (inf : W) (limit limit₁ limit₂ : Option Int) (fuel fuel₁ fuel₂ : Nat)
    (hdone : (bfsRun g ⟨next, vid, false, bp⟩ g.so.empty starts limit fuel).ending = .done) :
    let bfsIds := (bfsRun g ⟨next, vid, false, bp⟩ g.so.empty starts limit fuel).reports.map (fun r => vid r.vertex)
    (g₁.dd.Lawful inf → NonNeg wnext →
      (spRun g₁ ⟨wnext, vid, false, bp₁, keep, inf⟩ none starts limit₁ fuel₁).ending = .done →
      ((spRun g₁ ⟨wnext, vid, false, bp₁, keep, inf⟩ none starts limit₁ fuel₁).reports.map
        (fun r => vid r.vertex)).Perm bfsIds) ∧
    ((mstRun g₂ ⟨wnext, vid, bp₂⟩ starts limit₂ fuel₂).ending = .done →
      ((mstRun g₂ ⟨wnext, vid, bp₂⟩ starts limit₂ fuel₂).reports.map (fun r => vid r.vertex)).Perm bfsIds) := by
  intro bfsIds
  have hb : ListsNewIds (Edge next) vid starts bfsIds :=
    bfs_lists g ⟨next, vid, false, bp⟩ hg rfl hc starts limit fuel hdone
  refine ⟨fun hd hn hd1 => ?_, fun hd2 => ?_⟩
  · obtain ⟨a1, a2, -⟩ := C19_sp_once_ordered g₁ ⟨wnext, vid, false, bp₁, keep, inf⟩ rfl hd hn hw starts limit₁ fuel₁
    refine (listsNewIds_of a1 a2 (fun r hr => ?_) (fun v hv => ?_)).perm hb
    · exact hs.walkN (C18_sp_distance g₁ _ rfl hd hn hw starts limit₁ fuel₁ r hr).1
    · obtain ⟨w, hv⟩ := hs.walkW hv
      exact C20_sp_complete g₁ ⟨wnext, vid, false, bp₁, keep, inf⟩ rfl hd hn hw starts limit₁ fuel₁ hd1 w v hv
  · obtain ⟨a1, a2, -⟩ := C26_mst_tree g₂ ⟨wnext, vid, bp₂⟩ hg₂ starts limit₂ fuel₂
    obtain ⟨a3, a4⟩ := C26_mst_spans g₂ ⟨wnext, vid, bp₂⟩ hg₂ hw starts limit₂ fuel₂ hd2
    exact (listsNewIds_of a1 a2 (fun r hr => (hs.reachable starts _).1 (a4 r hr))
      (fun v hv => a3 v ((hs.reachable starts v).2 hv))).perm hb

/-- **C95, equal weights.** If all edges have the same weight `x`, the distance that the shortest paths strategy reports for
a vertex is the depth that breadth-first reports for it (or for another vertex with the same id), times `x`. -/
theorem C95_equal_weights {M₁ ML₁ D₁ : Type} [AddCommMonoid W] [LinearOrder W] [IsOrderedAddMonoid W]
    (g₁ : WGear V K L' W M₁ ML₁ D₁) (hg : g.so.Lawful) (hc : Compat (Edge next) vid) (wnext : V → List (V × W × L'))
    (hs : SameEdges next wnext) (hw : WCompat wnext vid) (x : W) (hx : 0 ≤ x) (hxs : ConstWeight wnext x)
    (starts : List V) (bp bp₁ keep : Bool) (inf : W) (hd : g₁.dd.Lawful inf) (limit limit₁ : Option Int)
    (fuel fuel₁ : Nat) :
    ∀ b ∈ (bfsRun g ⟨next, vid, false, bp⟩ g.so.empty starts limit fuel).reports,
    ∀ r ∈ (spRun g₁ ⟨wnext, vid, false, bp₁, keep, inf⟩ none starts limit₁ fuel₁).reports,
      vid r.vertex = vid b.vertex → 0 ≤ b.depth ∧ r.distance = b.depth.toNat • x := by
  intro b hb r hr e
  have hn : NonNeg wnext := fun u v y h => by rw [hxs u v y h]; exact hx
  have toN : ∀ {w : W} {v : V}, WalkW wnext (· ∈ starts) w v → ∃ n : Nat, WalkN (Edge next) (· ∈ starts) n v ∧ w = n • x := by
    intro w v h
    induction h with
    | start h => exact ⟨0, .start h, (zero_nsmul x).symm⟩
    | step _ e ih =>
      obtain ⟨n, h1, h2⟩ := ih
      exact ⟨n + 1, .step h1 ((hs _ _).2 ⟨_, e⟩), by rw [h2, hxs _ _ _ e, succ_nsmul]⟩
  have toW : ∀ {n : Nat} {v : V}, WalkN (Edge next) (· ∈ starts) n v → WalkW wnext (· ∈ starts) (n • x) v := by
    intro n v h
    induction h with
    | start h => rw [zero_nsmul]; exact .start h
    | step _ e ih =>
      obtain ⟨y, hy⟩ := (hs _ _).1 e
      have := hxs _ _ _ hy
      subst this
      rw [succ_nsmul]; exact .step ih hy
  obtain ⟨d, h1, h2, h3⟩ := C01_bfs_depth g ⟨next, vid, false, bp⟩ hg rfl hc starts limit fuel b hb
  obtain ⟨h4, h5⟩ := C18_sp_distance g₁ ⟨wnext, vid, false, bp₁, keep, inf⟩ rfl hd hn hw starts limit₁ fuel₁ r hr
  rw [h1]
  refine ⟨Int.natCast_nonneg d, ?_⟩
  rw [Int.toNat_natCast]
  obtain ⟨n, h6, h7⟩ := toN h4
  refine le_antisymm (h5 _ _ (toW h2) e.symm) ?_
  rw [h7]
  exact nsmul_le_nsmul_left hx (h3 n _ h6 e)

/-- **C95, A\*.** On a graph with weights that has the same edges, a complete run of A* reports (for any heuristic
function, possibly several times) exactly the ids that a complete breadth-first traversal reports. -/
theorem C95_astar {M₁ ML₁ D₁ : Type} [AddCommMonoid W] [LinearOrder W] [IsOrderedCancelAddMonoid W]
    (g₁ : WGear V K L' W M₁ ML₁ D₁) (hg : g.so.Lawful) (hc : Compat (Edge next) vid) (wnext : V → List (V × W × L'))
    (hs : SameEdges next wnext) (hw : WCompat wnext vid) (hn : NonNeg wnext) (heur : V → W) (hh : HeurCompat heur vid)
    (starts : List V) (bp bp₁ : Bool) (inf : W) (hd : g₁.dd.Lawful inf) (limit limit₁ : Option Int)
    (fuel fuel₁ : Nat) (hdone : (bfsRun g ⟨next, vid, false, bp⟩ g.so.empty starts limit fuel).ending = .done)
    (hdone₁ : (aRun g₁ ⟨wnext, vid, false, bp₁, inf, heur⟩ none none starts limit₁ fuel₁).ending = .done) :
    let bfsIds := (bfsRun g ⟨next, vid, false, bp⟩ g.so.empty starts limit fuel).reports.map (fun r => vid r.vertex)
    let ids := (aRun g₁ ⟨wnext, vid, false, bp₁, inf, heur⟩ none none starts limit₁ fuel₁).reports.map (fun r => vid r.vertex)
    (∀ k, k ∈ ids ↔ k ∈ bfsIds) ∧
    (Consistent wnext heur → (∀ v, heur v ≠ inf) → ids.Perm bfsIds) := by
  intro bfsIds ids
  have hb : ListsNewIds (Edge next) vid starts bfsIds :=
    bfs_lists g ⟨next, vid, false, bp⟩ hg rfl hc starts limit fuel hdone
  obtain ⟨a1, a2⟩ := C24_astar_complete g₁ ⟨wnext, vid, false, bp₁, inf, heur⟩ rfl hd hn hw hh starts limit₁ fuel₁ hdone₁
  have hmem : ∀ k, k ∈ ids ↔ k ∈ bfsIds := by
    intro k
    rw [hb.2]
    constructor
    · intro hk
      obtain ⟨r, hr, rfl⟩ := List.mem_map.1 hk
      refine ⟨a2 r hr, r.vertex, ?_, rfl⟩
      obtain ⟨t, htr, -⟩ := run_reaches (aStep g₁ ⟨wnext, vid, false, bp₁, inf, heur⟩) fuel₁ (prepareLimit limit₁)
        (aInit g₁ ⟨wnext, vid, false, bp₁, inf, heur⟩ none none starts)
      obtain ⟨a, b, hab⟩ := List.append_of_mem hr
      obtain ⟨h1, t, t', ha, hb, -⟩ := htr.emitted hab
      obtain ⟨e, rest, hpc, hheap, hst, hec, hre, -⟩ := a_emit rfl hb
      obtain ⟨w', hw'⟩ := ((a_inv rfl hd hn hw hh ha).entR e (by rw [hheap]; exact List.mem_cons_self)).1
      rw [hre]
      exact hs.walkN hw'
    · rintro ⟨hk, v, hv, rfl⟩
      obtain ⟨w, hv⟩ := hs.walkW hv
      rcases a1 w v hv with h | ⟨r, hr, e⟩
      · exact absurd h hk
      · exact List.mem_map.2 ⟨r, hr, e⟩
  refine ⟨hmem, fun hcons hfin => ?_⟩
  obtain ⟨a3, -⟩ := C25_astar_consistent_partial g₁ ⟨wnext, vid, false, bp₁, inf, heur⟩ rfl hd hn hw hh hcons hfin starts
    limit₁ fuel₁
  exact (List.perm_ext_iff_of_nodup a3 hb.1).2 hmem

/-- **C95, bidirectional breadth-first.** If breadth-first reports the goal with depth `d`, bidirectional breadth-first finds
a path with `d` edges. If a complete breadth-first traversal does not report it, and it is no start vertex,
bidirectional breadth-first finds nothing (provided that the goal can be reached from finitely many vertices). -/
theorem C95_bibfs {S₁ M₁ ML₁ : Type} (g₁ : TravGear V K L S₁ M₁ ML₁) (hg : g.so.Lawful) (hg₁ : g₁.so.Lawful)
    (hc : Compat (Edge next) vid) (c : BiCfg V K L) (hF : c.nextF = next) (hv : c.vid = vid)
    (hcB : Compat (Edge c.nextB) vid) (hop : OppositeEdges next c.nextB) (starts : List V) (goal : V)
    (bp : Bool) (limit : Option Int) (fuel : Nat) :
    let run := bfsRun g ⟨next, vid, false, bp⟩ g.so.empty starts limit fuel
    (∀ b ∈ run.reports, vid b.vertex = vid goal → ∃ N, ∀ fuel', N ≤ fuel' →
      ∃ d p, biSearch g₁ c starts [goal] true true none fuel' = .found d p ∧ (d : Int) = b.depth) ∧
    (run.ending = .done → vid goal ∉ starts.map vid → vid goal ∉ run.reports.map (fun r => vid r.vertex) →
      FinitelyReachable (Edge c.nextB) (· ∈ [goal]) vid → ∃ N, ∀ fuel', N ≤ fuel' →
      biSearch g₁ c starts [goal] true true none fuel' = .notFound) := by
  intro run
  subst hF hv
  obtain ⟨e1, e2⟩ := C28_bibfs_exact g₁ c hg₁ hc hcB hop starts [goal]
  refine ⟨fun b hb e => ?_, fun hdone hs hr hfin => ?_⟩
  · obtain ⟨d, h1, h2, h3⟩ := C01_bfs_depth g ⟨c.nextF, c.vid, false, bp⟩ hg rfl hc starts limit fuel b hb
    obtain ⟨N, hN⟩ := e1 d ⟨⟨b.vertex, goal, by simp, e, h2⟩, fun m ⟨v, t, ht, e', h⟩ => by
      simp only [List.mem_singleton] at ht
      subst ht
      exact h3 m v h (e'.trans e.symm)⟩
    exact ⟨N, fun fuel' hf => by obtain ⟨p, hp⟩ := hN fuel' hf; exact ⟨d, p, hp, h1.symm⟩⟩
  · have hb := bfs_lists g ⟨c.nextF, c.vid, false, bp⟩ hg rfl hc starts limit fuel hdone
    refine e2 (fun n ⟨v, t, ht, e', h⟩ => ?_) ⟨starts.map c.vid ++ run.reports.map (fun r => c.vid r.vertex), fun v hv => ?_⟩ hfin
    · simp only [List.mem_singleton] at ht
      subst ht
      exact hr ((hb.2 _).2 ⟨hs, v, ⟨n, h⟩, e'⟩)
    · rw [List.mem_append]
      by_cases hvs : c.vid v ∈ starts.map c.vid
      · exact .inl hvs
      · exact .inr ((hb.2 _).2 ⟨hvs, v, hv, rfl⟩)

/-- **C95, bidirectional shortest path.** If the shortest paths strategy reports the goal with distance `m`, a result of the
bidirectional search is at least `m`, and at most `m + m`, and the bidirectional search never reports that there is no path.
(See C31: the full claim, that the results are equal, is false of the code.) -/
theorem C95_bd {M₁ ML₁ D₁ M₂ ML₂ D₂ : Type} [AddCommMonoid W] [LinearOrder W] [IsOrderedAddMonoid W]
    (g₁ : WGear V K L W M₁ ML₁ D₁) (g₂ : WGear V K L W M₂ ML₂ D₂) (c : BdCfg V K L W) (H : BdHyp g₂ c)
    (bp keep : Bool) (inf : W) (hd : g₁.dd.Lawful inf) (starts : List V) (goal : V) (limit limit' : Option Int)
    (fuel fuel' pathFuel : Nat) :
    ∀ r ∈ (spRun g₁ ⟨c.nextF, c.vid, false, bp, keep, inf⟩ none starts limit fuel).reports, c.vid r.vertex = c.vid goal →
      bdSearch g₂ c starts [goal] limit' fuel' pathFuel ≠ .notFound ∧
      ∀ w p, bdSearch g₂ c starts [goal] limit' fuel' pathFuel = .found w p →
        r.distance ≤ w ∧ w ≤ r.distance + r.distance := by
  intro r hr e
  obtain ⟨h4, h5⟩ := C18_sp_distance g₁ ⟨c.nextF, c.vid, false, bp, keep, inf⟩ rfl hd H.nonnegF H.compatF starts limit fuel r hr
  refine ⟨fun hres => ?_, fun w p hres => ?_⟩
  · have := C32_bd H starts [goal] limit' fuel' pathFuel
    rw [hres] at this
    exact this _ ⟨r.vertex, goal, by simp, e, h4⟩
  · refine (C31_bd_at_most_twice_partial H starts [goal] limit' fuel' pathFuel w p hres).2 r.distance
      ⟨⟨r.vertex, goal, by simp, e, h4⟩, fun w' ⟨v, t, ht, e', h⟩ => ?_⟩
    simp only [List.mem_singleton] at ht
    subst ht
    exact h5 _ _ h (e'.trans e.symm)

end Strategies

/-! ## Examples -/

/-- The graph of the examples, with the weight 3 for each edge. -/
def exThree (v : Nat) : List (Nat × Nat × Char) := (exNext v).map (fun e => (e.1, 3, e.2))

theorem exThree_same : SameEdges exNext exThree := by
  intro u v
  constructor
  · rintro ⟨l, h⟩
    exact ⟨3, l, List.mem_map.2 ⟨(v, l), h, rfl⟩⟩
  · rintro ⟨x, l, h⟩
    obtain ⟨e, he, hx⟩ := List.mem_map.1 h
    obtain ⟨e1, e2⟩ := e
    simp only [Prod.mk.injEq] at hx
    obtain ⟨rfl, -, rfl⟩ := hx
    exact ⟨_, he⟩

theorem exThree_const : ConstWeight exThree 3 := by
  rintro u v y ⟨l, h⟩
  obtain ⟨e, -, hx⟩ := List.mem_map.1 h
  simp only [Prod.mk.injEq] at hx
  exact hx.2.1.symm

/-- The hypotheses of the theorems hold for the example. -/
example : exHash.so.Lawful ∧ exBits.so.Lawful ∧ Compat (Edge exNext) (id : Nat → Nat) ∧ WCompat exThree (id : Nat → Nat) ∧
    NonNeg exThree ∧ exWHash.dd.Lawful 1000 :=
  ⟨hashSet_lawful, bitSeqSet_lawful _ rfl (fun _ => by decide) 0, Compat.of_injective _ _ Function.injective_id, fun u u' v x e h => ⟨v, by
    have : u = u' := e
    subst this; exact ⟨h, rfl⟩⟩, fun u v y h => by rw [exThree_const u v y h]; decide, dictDist_lawful 1000⟩

/-- Complete runs of the strategies from two start vertices. -/
example :
    ((bfsRun exHash ⟨exNext, id, false, true⟩ [] [0, 5] none 200).reports.map (fun r => (r.vertex, r.depth)),
      (bfsRun exHash ⟨exNext, id, false, true⟩ [] [0, 5] none 200).ending) =
      ([(1, 1), (2, 1), (4, 1), (6, 1), (3, 2)], .done) ∧
    ((ntdRun exBits ⟨⟨exNext, id, false, false⟩, false⟩ exBits.so.empty [0, 5] none 200).reports.map (fun r => r.vertex),
      (ntdRun exBits ⟨⟨exNext, id, false, false⟩, false⟩ exBits.so.empty [0, 5] none 200).ending) =
      ([4, 6, 1, 2, 3], .done) ∧
    ((dfsRun exHash (exDfs true true) [] [0, 5] none 200).reports.map (fun r => r.vertex),
      (dfsRun exHash (exDfs true true) [] [0, 5] none 200).ending) = ([0, 1, 3, 4, 2, 5, 6], .done) ∧
    ((spRun exWHash ⟨exThree, id, false, true, true, 1000⟩ none [0, 5] none 200).reports.map
      (fun r => (r.vertex, r.distance)),
      (spRun exWHash ⟨exThree, id, false, true, true, 1000⟩ none [0, 5] none 200).ending) =
      ([(2, 3), (1, 3), (6, 3), (4, 3), (3, 6)], .done) ∧
    ((mstRun exHash ⟨exThree, id, true⟩ [0, 5] none 200).reports.map (fun r => r.vertex),
      (mstRun exHash ⟨exThree, id, true⟩ [0, 5] none 200).ending) = ([1, 2, 4, 6, 3], .done) ∧
    ((aRun exWHash ⟨exThree, id, false, true, 1000, fun v => v⟩ none none [0, 5] none 200).reports.map (fun r => r.vertex),
      (aRun exWHash ⟨exThree, id, false, true, 1000, fun v => v⟩ none none [0, 5] none 200).ending) =
      ([1, 2, 4, 6, 3], .done) := by
  refine ⟨?_, ?_, ?_, ?_, ?_, ?_⟩ <;> decide +kernel

/-- If a start vertex can be reached from an earlier one, depth-first search reports it as a successor, even if start vertices
are not to be reported. Breadth-first search does not report it. So the filter in `C95_unweighted` is needed. -/
example : (dfsRun exHash (exDfs true false) [] [0, 3] none 200).reports.map (fun r => r.vertex) = [1, 3, 4, 2] ∧
    (bfsRun exHash ⟨exNext, id, false, true⟩ [] [0, 3] none 200).reports.map (fun r => r.vertex) = [1, 2, 4] := by
  decide +kernel

end NoGraphs
