import Verif.Props.EdgeOrder

/-! # C104: distances of different searches fit together

Runs of the same strategy in one graph from different start vertices, in the reversed graph, and in a graph with more or
lighter edges. Gears, limits and numbers of steps may differ. Where a search reports no distance for the own start vertices,
its distance is zero. -/

set_option linter.unusedSectionVars false

namespace NoGraphs

open NoGraphs.Spec

variable {V K L L' W : Type} [DecidableEq V] [DecidableEq K]

/-! ## Walks -/

/-- A walk to a vertex, and one from a vertex with the same id. -/
theorem walkN_append_id {E : V → V → Prop} {vid : V → K} (hc : Compat E vid) {P : V → Prop} {a b : Nat} {v v' u : V}
    (h1 : WalkN E P a v) (he : vid v = vid v') (h2 : WalkN E (· ∈ [v']) b u) : ∃ u', vid u' = vid u ∧ WalkN E P (a + b) u' := by
  simp only [List.mem_singleton] at h2
  obtain ⟨u', h3, h4⟩ := h2.transport hc he.symm
  exact ⟨u', h3, h1.append h4⟩

theorem walkW_append_id [AddCommMonoid W] {next : V → List (V × W × L)} {vid : V → K} (hc : WCompat next vid) {P : V → Prop}
    {a b : W} {v v' u : V} (h1 : WalkW next P a v) (he : vid v = vid v') (h2 : WalkW next (· ∈ [v']) b u) :
    ∃ u', vid u' = vid u ∧ WalkW next P (a + b) u' := by
  induction h2 with
  | start hs =>
    rw [List.mem_singleton] at hs; subst hs
    exact ⟨v, he, by rw [add_zero]; exact h1⟩
  | step _ e ih =>
    obtain ⟨u', h3, h4⟩ := ih
    obtain ⟨n, h5, h6⟩ := hc _ _ _ _ h3.symm e
    exact ⟨n, h6, by rw [← add_assoc]; exact .step h4 h5⟩

theorem walkN_single {E : V → V → Prop} {starts : List V} {n : Nat} {v : V} (h : WalkN E (· ∈ starts) n v) :
    ∃ s ∈ starts, WalkN E (· ∈ [s]) n v := by
  obtain ⟨y, h1, h2⟩ := h.from_start
  exact ⟨y, h1, WalkN.of_start (by simp) h2⟩

theorem walkW_single [Add W] [Zero W] {next : V → List (V × W × L)} {starts : List V} {w : W} {v : V}
    (h : WalkW next (· ∈ starts) w v) : ∃ s ∈ starts, WalkW next (· ∈ [s]) w v := by
  induction h with
  | start hs => exact ⟨_, hs, .start (by simp)⟩
  | step _ e ih =>
    obtain ⟨s, hs, hw⟩ := ih
    exact ⟨s, hs, .step hw e⟩

theorem walkW_mono_start [Add W] [Zero W] {next : V → List (V × W × L)} {P Q : V → Prop} (h : ∀ v, P v → Q v) {w : W} {v : V}
    (hw : WalkW next P w v) : WalkW next Q w v := by
  induction hw with
  | start hs => exact .start (h _ hs)
  | step _ e ih => exact .step ih e

/-- A walk to a vertex, followed backwards in the reversed graph from a vertex with the same id. -/
theorem walkW_back [AddCommMonoid W] {next : V → List (V × W × L)} {next' : V → List (V × W × L')} {vid : V → K} {a b v : V}
    (hc : WCompat next' vid) (hop : ∀ u v x, WEdge next u v x → WEdge next' v u x) {w : W}
    (h : WalkW next (· ∈ [a]) w v) (hb : vid v = vid b) : ∃ u, vid u = vid a ∧ WalkW next' (· ∈ [b]) w u := by
  have key : ∀ {w : W} {v : V}, WalkW next (· ∈ [a]) w v → ∀ (y : W) (v' : V), WalkW next' (· ∈ [b]) y v' → vid v' = vid v →
      ∃ u, vid u = vid a ∧ WalkW next' (· ∈ [b]) (w + y) u := by
    intro w v h
    induction h with
    | start hs =>
      intro y v' h2 he
      rw [List.mem_singleton] at hs; subst hs
      exact ⟨v', he, by rw [zero_add]; exact h2⟩
    | @step w u v x _ e ih =>
      intro y v' h2 he
      obtain ⟨u', h3, h4⟩ := hc _ _ _ _ he.symm (hop _ _ _ e)
      obtain ⟨t, h5, h6⟩ := ih _ _ (.step h2 h3) h4
      exact ⟨t, h5, by rw [add_assoc, add_comm x y]; exact h6⟩
  have := key h 0 b (.start (by simp)) hb.symm
  rwa [add_zero] at this

/-- The same for numbers of edges. -/
theorem walkN_back {E E' : V → V → Prop} {vid : V → K} {a b v : V} (hc : Compat E' vid) (hop : ∀ u v, E u v → E' v u)
    {n : Nat} (h : WalkN E (· ∈ [a]) n v) (hb : vid v = vid b) : ∃ u, vid u = vid a ∧ WalkN E' (· ∈ [b]) n u := by
  simp only [List.mem_singleton] at h ⊢
  obtain ⟨u, h1, h2⟩ := (h.rev hop).transport hc hb
  exact ⟨u, h1, h2⟩

theorem walkN_mono_edge {E E' : V → V → Prop} (hE : ∀ u v, E u v → E' u v) {P : V → Prop} {n : Nat} {v : V}
    (h : WalkN E P n v) : WalkN E' P n v := by
  induction h with
  | start hs => exact .start hs
  | step _ e ih => exact .step ih (hE _ _ e)

/-! ## Shortest paths -/

section Weighted

variable [AddCommMonoid W] [LinearOrder W] [IsOrderedAddMonoid W]
variable {M ML D M' ML' D' M'' ML'' D'' : Type}
variable (g : WGear V K L W M ML D) (g' : WGear V K L' W M' ML' D')

/-- What is assumed about a graph, options and a gear: it is searched as a general graph, the gear stores distances, and
weights are not negative. -/
structure SpFair (g : WGear V K L W M ML D) (c : WCfg V K L W) : Prop where
  tree : c.isTree = false
  dd : g.dd.Lawful c.inf
  nonneg : NonNeg c.next
  compat : WCompat c.next c.vid

/-- **C104, several start vertices.** A search from several start vertices never reports a greater distance than a search
from one of them; and if the searches from the single start vertices are complete, one of them reports the
same distance. -/
theorem C104_sp_starts {c : WCfg V K L W} (h : SpFair g c) (starts : List V) (limit : Option Int) (fuel : Nat)
    (limit' : V → Option Int) (fuel' : V → Nat) :
    ∀ r ∈ (spRun g c none starts limit fuel).reports,
      (∀ s ∈ starts, ∀ r' ∈ (spRun g c none [s] (limit' s) (fuel' s)).reports, c.vid r'.vertex = c.vid r.vertex →
        r.distance ≤ r'.distance) ∧
      ((∀ s ∈ starts, (spRun g c none [s] (limit' s) (fuel' s)).ending = .done) →
        ∃ s ∈ starts, ∃ r' ∈ (spRun g c none [s] (limit' s) (fuel' s)).reports, c.vid r'.vertex = c.vid r.vertex ∧
          r'.distance = r.distance) := by
  intro r hr
  obtain ⟨h1, h2⟩ := C18_sp_distance g c h.tree h.dd h.nonneg h.compat starts limit fuel r hr
  have hle : ∀ s ∈ starts, ∀ r' ∈ (spRun g c none [s] (limit' s) (fuel' s)).reports, c.vid r'.vertex = c.vid r.vertex →
      r.distance ≤ r'.distance := by
    intro s hs r' hr' he
    obtain ⟨h3, -⟩ := C18_sp_distance g c h.tree h.dd h.nonneg h.compat [s] (limit' s) (fuel' s) r' hr'
    exact h2 _ _ (walkW_mono_start (by simp [hs]) h3) he
  refine ⟨hle, fun hdone => ?_⟩
  obtain ⟨s, hs, hw⟩ := walkW_single h1
  rcases C20_sp_complete g c h.tree h.dd h.nonneg h.compat [s] (limit' s) (fuel' s) (hdone s hs) _ _ hw with hm | ⟨r', hr', he⟩
  · exfalso
    refine (C19_sp_once_ordered g c h.tree h.dd h.nonneg h.compat starts limit fuel).2.1 r hr ?_
    simp only [List.map_cons, List.map_nil, List.mem_singleton] at hm
    rw [hm]; exact List.mem_map_of_mem hs
  · refine ⟨s, hs, r', hr', he, le_antisymm ?_ (hle s hs r' hr' he)⟩
    exact (C18_sp_distance g c h.tree h.dd h.nonneg h.compat [s] (limit' s) (fuel' s) r' hr').2 _ _ hw he.symm

/-- **C104, triangle inequality.** A search from `a` reports distance `x` for (a vertex with the id of) `b`, and a search
from `b` reports distance `y` for some vertex: a search from `a` reports at most `x + y` for it. -/
theorem C104_sp_triangle {c : WCfg V K L W} (h : SpFair g c) (a b : V) (limit limit' limit'' : Option Int)
    (fuel fuel' fuel'' : Nat) :
    ∀ r ∈ (spRun g c none [a] limit fuel).reports, c.vid r.vertex = c.vid b →
    ∀ r' ∈ (spRun g c none [b] limit' fuel').reports,
    ∀ r'' ∈ (spRun g c none [a] limit'' fuel'').reports, c.vid r''.vertex = c.vid r'.vertex →
      r''.distance ≤ r.distance + r'.distance := by
  intro r hr hb r' hr' r'' hr'' he
  obtain ⟨h1, -⟩ := C18_sp_distance g c h.tree h.dd h.nonneg h.compat [a] limit fuel r hr
  obtain ⟨h2, -⟩ := C18_sp_distance g c h.tree h.dd h.nonneg h.compat [b] limit' fuel' r' hr'
  obtain ⟨u, h3, h4⟩ := walkW_append_id h.compat h1 hb h2
  exact (C18_sp_distance g c h.tree h.dd h.nonneg h.compat [a] limit'' fuel'' r'' hr'').2 _ _ h4 (h3.trans he.symm)

/-- ... and if this search is complete, it reports the vertex, or it is `a` itself. -/
theorem C104_sp_transitive {c : WCfg V K L W} (h : SpFair g c) (a b : V) (limit limit' limit'' : Option Int)
    (fuel fuel' fuel'' : Nat) (hdone : (spRun g c none [a] limit'' fuel'').ending = .done) :
    ∀ r ∈ (spRun g c none [a] limit fuel).reports, c.vid r.vertex = c.vid b →
    ∀ r' ∈ (spRun g c none [b] limit' fuel').reports, c.vid r'.vertex = c.vid a ∨
      ∃ r'' ∈ (spRun g c none [a] limit'' fuel'').reports, c.vid r''.vertex = c.vid r'.vertex := by
  intro r hr hb r' hr'
  obtain ⟨h1, -⟩ := C18_sp_distance g c h.tree h.dd h.nonneg h.compat [a] limit fuel r hr
  obtain ⟨h2, -⟩ := C18_sp_distance g c h.tree h.dd h.nonneg h.compat [b] limit' fuel' r' hr'
  obtain ⟨u, h3, h4⟩ := walkW_append_id h.compat h1 hb h2
  have := C20_sp_complete g c h.tree h.dd h.nonneg h.compat [a] limit'' fuel'' hdone _ _ h4
  simpa [h3] using this

/-- **C104, reversed graph.** A search from `a` reports for `b` the same distance as a search from `b` in the reversed
graph reports for `a`. (For an undirected graph, `c'` can be `c`: distances are symmetric.) -/
theorem C104_sp_reversed {c : WCfg V K L W} {c' : WCfg V K L' W} (h : SpFair g c) (h' : SpFair g' c')
    (hvid : c'.vid = c.vid) (hop : ∀ u v x, WEdge c.next u v x ↔ WEdge c'.next v u x) (a b : V)
    (limit limit' : Option Int) (fuel fuel' : Nat) :
    (∀ r ∈ (spRun g c none [a] limit fuel).reports, c.vid r.vertex = c.vid b →
      ∀ r' ∈ (spRun g' c' none [b] limit' fuel').reports, c.vid r'.vertex = c.vid a → r.distance = r'.distance) ∧
    ((spRun g' c' none [b] limit' fuel').ending = .done →
      ∀ r ∈ (spRun g c none [a] limit fuel).reports, c.vid r.vertex = c.vid b →
        ∃ r' ∈ (spRun g' c' none [b] limit' fuel').reports, c.vid r'.vertex = c.vid a) := by
  have hc' : WCompat c'.next c.vid := hvid ▸ h'.compat
  refine ⟨fun r hr hb r' hr' ha => ?_, fun hdone r hr hb => ?_⟩
  · obtain ⟨h1, h2⟩ := C18_sp_distance g c h.tree h.dd h.nonneg h.compat [a] limit fuel r hr
    obtain ⟨h3, h4⟩ := C18_sp_distance g' c' h'.tree h'.dd h'.nonneg h'.compat [b] limit' fuel' r' hr'
    rw [hvid] at h4
    obtain ⟨u, e1, e2⟩ := walkW_back hc' (fun u v x => (hop u v x).1) h1 hb
    obtain ⟨u', e3, e4⟩ := walkW_back h.compat (fun u v x => (hop v u x).2) h3 ha
    exact le_antisymm (h2 _ _ e4 (e3.trans hb.symm)) (h4 _ _ e2 (e1.trans ha.symm))
  · obtain ⟨h1, h2⟩ := C18_sp_distance g c h.tree h.dd h.nonneg h.compat [a] limit fuel r hr
    obtain ⟨u, e1, e2⟩ := walkW_back hc' (fun u v x => (hop u v x).1) h1 hb
    rcases C20_sp_complete g' c' h'.tree h'.dd h'.nonneg h'.compat [b] limit' fuel' hdone _ _ e2 with hm | ⟨r', hr', he⟩
    · exfalso
      refine (C19_sp_once_ordered g c h.tree h.dd h.nonneg h.compat [a] limit fuel).2.1 r hr ?_
      rw [hvid] at hm
      simp only [List.map_cons, List.map_nil, List.mem_singleton] at hm ⊢
      rw [hb, ← hm, e1]
    · rw [hvid] at he
      exact ⟨r', hr', he.trans e1⟩

/-- **C104, more or lighter edges.** If edges are added, or made lighter, no reported distance becomes greater, and (in a
complete search) no vertex gets lost. -/
theorem C104_sp_monotone {c : WCfg V K L W} {c' : WCfg V K L' W} (h : SpFair g c) (h' : SpFair g' c')
    (hvid : c'.vid = c.vid) (hle : NotHeavier c.next c'.next) (starts : List V) (limit limit' : Option Int)
    (fuel fuel' : Nat) :
    (∀ r ∈ (spRun g c none starts limit fuel).reports, ∀ r' ∈ (spRun g' c' none starts limit' fuel').reports,
      c.vid r'.vertex = c.vid r.vertex → r'.distance ≤ r.distance) ∧
    ((spRun g' c' none starts limit' fuel').ending = .done →
      ∀ r ∈ (spRun g c none starts limit fuel).reports,
        ∃ r' ∈ (spRun g' c' none starts limit' fuel').reports, c.vid r'.vertex = c.vid r.vertex) := by
  refine ⟨fun r hr r' hr' he => ?_, fun hdone r hr => ?_⟩
  · obtain ⟨h1, -⟩ := C18_sp_distance g c h.tree h.dd h.nonneg h.compat starts limit fuel r hr
    obtain ⟨w, h2, h3⟩ := hle.walk h1
    have h4 := (C18_sp_distance g' c' h'.tree h'.dd h'.nonneg h'.compat starts limit' fuel' r' hr').2 _ _ h3
    rw [hvid] at h4
    exact (h4 he.symm).trans h2
  · obtain ⟨h1, -⟩ := C18_sp_distance g c h.tree h.dd h.nonneg h.compat starts limit fuel r hr
    obtain ⟨w, -, h3⟩ := hle.walk h1
    have h4 := C20_sp_complete g' c' h'.tree h'.dd h'.nonneg h'.compat starts limit' fuel' hdone _ _ h3
    rw [hvid] at h4
    exact h4.resolve_left ((C19_sp_once_ordered g c h.tree h.dd h.nonneg h.compat starts limit fuel).2.1 r hr)

end Weighted

/-! ## Breadth-first search -/

section Unweighted

variable {S M ML S' M' ML' : Type} (g : TravGear V K L S M ML) (g' : TravGear V K L' S' M' ML')

/-- What is assumed about a graph, options and a gear. -/
structure BfsFair (g : TravGear V K L S M ML) (c : TravCfg V K L) : Prop where
  tree : c.isTree = false
  so : g.so.Lawful
  compat : Compat (Edge c.next) c.vid

theorem bfs_all {c : TravCfg V K L} (h : BfsFair g c) (starts : List V) (limit : Option Int) (fuel : Nat)
    (hdone : (bfsRun g c g.so.empty starts limit fuel).ending = .done) {n : Nat} {v : V}
    (hw : WalkN (Edge c.next) (· ∈ starts) n v) : c.vid v ∈ starts.map c.vid ∨
      ∃ r ∈ (bfsRun g c g.so.empty starts limit fuel).reports, c.vid r.vertex = c.vid v := by
  refine (C03_bfs_complete g c h.so h.tree h.compat g.so.empty starts limit fuel hdone).1 v ?_
  have := bfsE_empty g c h.so
  unfold bfsE at this
  rw [this]; exact ⟨n, hw⟩

/-- **C104, several start vertices, breadth-first.** -/
theorem C104_bfs_starts {c : TravCfg V K L} (h : BfsFair g c) (starts : List V) (limit : Option Int) (fuel : Nat)
    (limit' : V → Option Int) (fuel' : V → Nat) :
    ∀ r ∈ (bfsRun g c g.so.empty starts limit fuel).reports,
      (∀ s ∈ starts, ∀ r' ∈ (bfsRun g c g.so.empty [s] (limit' s) (fuel' s)).reports, c.vid r'.vertex = c.vid r.vertex →
        r.depth ≤ r'.depth) ∧
      ((∀ s ∈ starts, (bfsRun g c g.so.empty [s] (limit' s) (fuel' s)).ending = .done) →
        ∃ s ∈ starts, ∃ r' ∈ (bfsRun g c g.so.empty [s] (limit' s) (fuel' s)).reports, c.vid r'.vertex = c.vid r.vertex ∧
          r'.depth = r.depth) := by
  intro r hr
  obtain ⟨d, hd, h1, h2⟩ := C01_bfs_depth g c h.so h.tree h.compat starts limit fuel r hr
  have hle : ∀ s ∈ starts, ∀ r' ∈ (bfsRun g c g.so.empty [s] (limit' s) (fuel' s)).reports,
      c.vid r'.vertex = c.vid r.vertex → r.depth ≤ r'.depth := by
    intro s hs r' hr' he
    obtain ⟨d', hd', h3, -⟩ := C01_bfs_depth g c h.so h.tree h.compat [s] (limit' s) (fuel' s) r' hr'
    rw [hd, hd']
    exact_mod_cast h2 _ _ (h3.mono_start (by simp [hs])) he
  refine ⟨hle, fun hdone => ?_⟩
  obtain ⟨s, hs, hw⟩ := walkN_single h1
  rcases bfs_all g h [s] (limit' s) (fuel' s) (hdone s hs) hw with hm | ⟨r', hr', he⟩
  · exfalso
    refine ((C02_bfs_once_ordered g c h.so h.tree h.compat g.so.empty starts limit fuel).2.1 r hr).1 ?_
    simp only [List.map_cons, List.map_nil, List.mem_singleton] at hm
    rw [hm]; exact List.mem_map_of_mem hs
  · refine ⟨s, hs, r', hr', he, le_antisymm ?_ (hle s hs r' hr' he)⟩
    obtain ⟨d', hd', -, h4⟩ := C01_bfs_depth g c h.so h.tree h.compat [s] (limit' s) (fuel' s) r' hr'
    rw [hd, hd']
    exact_mod_cast h4 _ _ hw he.symm

/-- **C104, triangle inequality, breadth-first.** -/
theorem C104_bfs_triangle {c : TravCfg V K L} (h : BfsFair g c) (a b : V) (limit limit' limit'' : Option Int)
    (fuel fuel' fuel'' : Nat) :
    ∀ r ∈ (bfsRun g c g.so.empty [a] limit fuel).reports, c.vid r.vertex = c.vid b →
    ∀ r' ∈ (bfsRun g c g.so.empty [b] limit' fuel').reports,
    ∀ r'' ∈ (bfsRun g c g.so.empty [a] limit'' fuel'').reports, c.vid r''.vertex = c.vid r'.vertex →
      r''.depth ≤ r.depth + r'.depth := by
  intro r hr hb r' hr' r'' hr'' he
  obtain ⟨d, hd, h1, -⟩ := C01_bfs_depth g c h.so h.tree h.compat [a] limit fuel r hr
  obtain ⟨d', hd', h2, -⟩ := C01_bfs_depth g c h.so h.tree h.compat [b] limit' fuel' r' hr'
  obtain ⟨d'', hd'', -, h5⟩ := C01_bfs_depth g c h.so h.tree h.compat [a] limit'' fuel'' r'' hr''
  obtain ⟨u, h3, h4⟩ := walkN_append_id h.compat h1 hb h2
  rw [hd, hd', hd'']
  exact_mod_cast h5 _ _ h4 (h3.trans he.symm)

/-- **C104, reversed graph, breadth-first.** -/
theorem C104_bfs_reversed {c : TravCfg V K L} {c' : TravCfg V K L'} (h : BfsFair g c) (h' : BfsFair g' c')
    (hvid : c'.vid = c.vid) (hop : ∀ u v, Edge c.next u v ↔ Edge c'.next v u) (a b : V)
    (limit limit' : Option Int) (fuel fuel' : Nat) :
    (∀ r ∈ (bfsRun g c g.so.empty [a] limit fuel).reports, c.vid r.vertex = c.vid b →
      ∀ r' ∈ (bfsRun g' c' g'.so.empty [b] limit' fuel').reports, c.vid r'.vertex = c.vid a → r.depth = r'.depth) ∧
    ((bfsRun g' c' g'.so.empty [b] limit' fuel').ending = .done →
      ∀ r ∈ (bfsRun g c g.so.empty [a] limit fuel).reports, c.vid r.vertex = c.vid b →
        ∃ r' ∈ (bfsRun g' c' g'.so.empty [b] limit' fuel').reports, c.vid r'.vertex = c.vid a) := by
  have hc' : Compat (Edge c'.next) c.vid := hvid ▸ h'.compat
  refine ⟨fun r hr hb r' hr' ha => ?_, fun hdone r hr hb => ?_⟩
  · obtain ⟨d, hd, h1, h2⟩ := C01_bfs_depth g c h.so h.tree h.compat [a] limit fuel r hr
    obtain ⟨d', hd', h3, h4⟩ := C01_bfs_depth g' c' h'.so h'.tree h'.compat [b] limit' fuel' r' hr'
    rw [hvid] at h4
    obtain ⟨u, e1, e2⟩ := walkN_back hc' (fun u v => (hop u v).1) h1 hb
    obtain ⟨u', e3, e4⟩ := walkN_back h.compat (fun u v => (hop v u).2) h3 ha
    rw [hd, hd']
    exact_mod_cast le_antisymm (h2 _ _ e4 (e3.trans hb.symm)) (h4 _ _ e2 (e1.trans ha.symm))
  · obtain ⟨d, hd, h1, h2⟩ := C01_bfs_depth g c h.so h.tree h.compat [a] limit fuel r hr
    obtain ⟨u, e1, e2⟩ := walkN_back hc' (fun u v => (hop u v).1) h1 hb
    rcases bfs_all g' h' [b] limit' fuel' hdone e2 with hm | ⟨r', hr', he⟩
    · exfalso
      refine ((C02_bfs_once_ordered g c h.so h.tree h.compat g.so.empty [a] limit fuel).2.1 r hr).1 ?_
      rw [hvid] at hm
      simp only [List.map_cons, List.map_nil, List.mem_singleton] at hm ⊢
      rw [hb, ← hm, e1]
    · rw [hvid] at he
      exact ⟨r', hr', he.trans e1⟩

/-- **C104, more edges, breadth-first.** -/
theorem C104_bfs_monotone {c : TravCfg V K L} {c' : TravCfg V K L'} (h : BfsFair g c) (h' : BfsFair g' c')
    (hvid : c'.vid = c.vid) (hle : ∀ u v, Edge c.next u v → Edge c'.next u v) (starts : List V) (limit limit' : Option Int)
    (fuel fuel' : Nat) :
    (∀ r ∈ (bfsRun g c g.so.empty starts limit fuel).reports,
      ∀ r' ∈ (bfsRun g' c' g'.so.empty starts limit' fuel').reports,
      c.vid r'.vertex = c.vid r.vertex → r'.depth ≤ r.depth) ∧
    ((bfsRun g' c' g'.so.empty starts limit' fuel').ending = .done →
      ∀ r ∈ (bfsRun g c g.so.empty starts limit fuel).reports,
        ∃ r' ∈ (bfsRun g' c' g'.so.empty starts limit' fuel').reports, c.vid r'.vertex = c.vid r.vertex) := by
  refine ⟨fun r hr r' hr' he => ?_, fun hdone r hr => ?_⟩
  · obtain ⟨d, hd, h1, -⟩ := C01_bfs_depth g c h.so h.tree h.compat starts limit fuel r hr
    obtain ⟨d', hd', -, h4⟩ := C01_bfs_depth g' c' h'.so h'.tree h'.compat starts limit' fuel' r' hr'
    rw [hvid] at h4
    rw [hd, hd']
    exact_mod_cast h4 _ _ (walkN_mono_edge hle h1) he.symm
  · obtain ⟨d, hd, h1, -⟩ := C01_bfs_depth g c h.so h.tree h.compat starts limit fuel r hr
    have h4 := bfs_all g' h' starts limit' fuel' hdone (walkN_mono_edge hle h1)
    rw [hvid] at h4
    exact h4.resolve_left ((C02_bfs_once_ordered g c h.so h.tree h.compat g.so.empty starts limit fuel).2.1 r hr).1

/-- **C104, bidirectional search with exchanged roles.** The search from the goals to the starts, with the functions for
outgoing and incoming edges exchanged, finds a path of the same length, or nothing, too. -/
theorem C104_bibfs_exchanged (c : BiCfg V K L) (c' : BiCfg V K L') (hg : g.so.Lawful) (hg' : g'.so.Lawful)
    (hvid : c'.vid = c.vid) (hF : ∀ u v, Edge c'.nextF u v ↔ Edge c.nextB u v)
    (hB : ∀ u v, Edge c'.nextB u v ↔ Edge c.nextF u v) (hcF : Compat (Edge c.nextF) c.vid)
    (hcB : Compat (Edge c.nextB) c.vid) (hop : OppositeEdges c.nextF c.nextB) (starts goals : List V) :
    (∀ limit limit' fuel fuel' n p n' p', biSearch g c starts goals true true limit fuel = .found n p →
      biSearch g' c' goals starts true true limit' fuel' = .found n' p' → n = n') ∧
    (∀ limit limit' fuel fuel' n p, biSearch g c starts goals true true limit fuel = .found n p →
      biSearch g' c' goals starts true true limit' fuel' ≠ .notFound) ∧
    (∀ limit limit' fuel fuel', biSearch g c starts goals true true limit fuel = .notFound →
      ∀ n' p', biSearch g' c' goals starts true true limit' fuel' ≠ .found n' p') := by
  have eF : Edge c'.nextF = Edge c.nextB := by funext u v; exact propext (hF u v)
  have eB : Edge c'.nextB = Edge c.nextF := by funext u v; exact propext (hB u v)
  have hop' : OppositeEdges c'.nextF c'.nextB := by
    intro u v; rw [eF, eB]; exact (hop v u).symm
  have hcon : ∀ n, Connects (Edge c.nextF) c.vid starts goals n ↔ Connects (Edge c'.nextF) c'.vid goals starts n := by
    intro n
    rw [eF, hvid]
    constructor
    · intro h
      obtain ⟨y, y', h1, h2, h3⟩ := h.meet (E' := Edge c.nextB) (fun u v => (hop u v).1) hcB 0 (Nat.zero_le _)
      cases h2 with
      | start hs => exact ⟨y', y, hs, h1.symm, h3⟩
    · intro h
      obtain ⟨y, y', h1, h2, h3⟩ := h.meet (E' := Edge c.nextF) (fun u v => (hop v u).2) hcF 0 (Nat.zero_le _)
      cases h2 with
      | start hs => exact ⟨y', y, hs, h1.symm, h3⟩
  have h1 := fun limit fuel => C28_bibfs g c hg hcF hcB hop starts goals limit fuel
  have h2 := fun limit fuel => C28_bibfs g' c' hg' (by rw [eF, hvid]; exact hcB) (by rw [eB, hvid]; exact hcF) hop' goals
    starts limit fuel
  refine ⟨fun limit limit' fuel fuel' n p n' p' e e' => ?_, fun limit limit' fuel fuel' n p e e' => ?_,
    fun limit limit' fuel fuel' e n' p' e' => ?_⟩
  all_goals
    have h1 := h1 limit fuel
    have h2 := h2 limit' fuel'
    rw [e] at h1
    rw [e'] at h2
  · obtain ⟨m, rfl, hm1, hm2⟩ := h1
    obtain ⟨m', rfl, hm1', hm2'⟩ := h2
    rw [Nat.le_antisymm (hm2 _ ((hcon _).2 hm1')) (hm2' _ ((hcon _).1 hm1))]
  · obtain ⟨m, -, hm1, -⟩ := h1
    exact h2 _ ((hcon _).1 hm1)
  · obtain ⟨m', -, hm1', -⟩ := h2
    exact h1 _ ((hcon _).2 hm1')

end Unweighted

/-! ## Examples -/

theorem exW_fair (keep : Bool) : SpFair exWHash (exWCfg keep) :=
  ⟨rfl, dictDist_lawful _, exW_nonneg, by rintro u u' v x rfl h; exact ⟨v, h, rfl⟩⟩

/-- The reversed graph of `exW`. -/
def exWRev : Nat → List (Nat × Nat × Unit)
  | 0 => [(1, 2, ())]
  | 1 => [(0, 5, ()), (2, 2, ())]
  | 2 => [(0, 1, ()), (0, 3, ())]
  | 3 => [(1, 1, ()), (4, 7, ())]
  | 4 => [(2, 0, ())]
  | _ => []

/-- Hash based collections for it. -/
def exWRevGear : WGear Nat Nat Unit Nat (Nat → Option Nat) (Nat → Option Unit) (Nat → Option Nat) :=
  ⟨dictMap, dictMap, dictDist 1000⟩

/-- The reversed graph as configuration. -/
def exWRevCfg : WCfg Nat Nat Unit Nat := ⟨exWRev, id, false, false, true, 1000⟩

theorem exWRev_fair : SpFair exWRevGear exWRevCfg :=
  ⟨rfl, dictDist_lawful _, fun _ _ _ _ => Nat.zero_le _, by rintro u u' v x rfl h; exact ⟨v, h, rfl⟩⟩

theorem exWRev_opposite : ∀ u v x, WEdge (exWCfg true).next u v x ↔ WEdge exWRevCfg.next v u x := by
  intro u v x
  simp only [WEdge, exWCfg, exWRevCfg]
  constructor
  · rintro ⟨l, h⟩
    refine ⟨(), ?_⟩
    unfold exW at h
    split at h <;> simp at h <;> aesop (add norm unfold exWRev)
  · rintro ⟨l, h⟩
    unfold exWRev at h
    split at h <;> simp at h <;> aesop (add norm unfold exW)

example := C104_sp_starts exWHash (exW_fair true) [0, 1, 4] none 200 (fun _ => none) (fun _ => 200)
example := C104_sp_triangle exWHash (exW_fair true) 0 2 none none none 200 200 200
example := C104_sp_reversed exWHash exWRevGear (exW_fair true) exWRev_fair rfl exWRev_opposite 0 3 none none 200 200

example : (spRun exWHash (exWCfg true) none [0] none 200).reports.map (fun r => (r.vertex, r.distance)) =
      [(2, 1), (4, 1), (1, 3), (3, 4)] ∧
    (spRun exWRevGear exWRevCfg none [3] none 200).reports.map (fun r => (r.vertex, r.distance)) =
      [(1, 1), (2, 3), (0, 4), (4, 7)] ∧
    (spRun exWHash (exWCfg true) none [1, 4] none 200).reports.map (fun r => (r.vertex, r.distance)) =
      [(3, 1), (0, 2), (2, 3)] := by decide +kernel

theorem ex_bfs_fair : BfsFair exHash (exCfg true) :=
  ⟨rfl, hashSet_lawful, Compat.of_injective _ _ (fun _ _ h => h)⟩

example := C104_bfs_starts exHash ex_bfs_fair [0, 5] none 200 (fun _ => none) (fun _ => 200)
example := C104_bfs_triangle exHash ex_bfs_fair 0 3 none none none 200 200 200
example := C104_bfs_monotone exHash exHash ex_bfs_fair (c' := ⟨fun v => (7, 'n') :: exNext v, id, false, false⟩)
  ⟨rfl, hashSet_lawful, Compat.of_injective _ _ (fun _ _ h => h)⟩ rfl
  (by rintro u v ⟨l, h⟩; exact ⟨l, List.mem_cons_of_mem _ h⟩) [0] none none 200 200

/-- The graph of the successors of numbers, and the reversed one. -/
def exSucc : TravCfg Nat Nat Unit := ⟨fun v => [(v + 1, ())], id, false, false⟩
@[inherit_doc exSucc] def exPred : TravCfg Nat Nat Unit :=
  ⟨fun v => match v with | 0 => [] | n + 1 => [(n, ())], id, false, false⟩
/-- Hash based collections for them. -/
def exUnitGear : TravGear Nat Nat Unit (List Nat) (Nat → Option Nat) (Nat → Option Unit) := ⟨hashSet, dictMap, dictMap⟩

theorem exSucc_fair : BfsFair exUnitGear exSucc := ⟨rfl, hashSet_lawful, Compat.of_injective _ _ (fun _ _ h => h)⟩
theorem exPred_fair : BfsFair exUnitGear exPred := ⟨rfl, hashSet_lawful, Compat.of_injective _ _ (fun _ _ h => h)⟩

theorem exSucc_opposite : ∀ u v, Edge exSucc.next u v ↔ Edge exPred.next v u := by
  intro u v
  cases v with
  | zero => simp [Edge, exSucc, exPred]
  | succ n => simp [Edge, exSucc, exPred, eq_comm]

example := C104_bfs_reversed exUnitGear exUnitGear exSucc_fair exPred_fair rfl exSucc_opposite 2 5 (some 10) none 200 200

example : (bfsRun exUnitGear exSucc [] [2] (some 4) 200).reports.map (fun r => (r.vertex, r.depth)) =
      [(3, 1), (4, 2), (5, 3), (6, 4)] ∧
    (bfsRun exUnitGear exPred [] [5] none 200).reports.map (fun r => (r.vertex, r.depth)) =
      [(4, 1), (3, 2), (2, 3), (1, 4), (0, 5)] ∧
    (bfsRun exUnitGear exPred [] [5] none 200).ending = .done := by decide +kernel

example := C104_bibfs_exchanged exUnitGear exUnitGear ⟨exSucc.next, exPred.next, id, true⟩
  ⟨exPred.next, exSucc.next, id, false⟩ hashSet_lawful hashSet_lawful rfl (fun _ _ => Iff.rfl) (fun _ _ => Iff.rfl)
  exSucc_fair.compat exPred_fair.compat exSucc_opposite [2, 3] [7]

example := C104_sp_transitive exWHash (exW_fair true) 0 2 none none none 200 200 200 (by decide +kernel)

/-- `exW` with an edge more, and the edge from 0 to 1 with weight 2 instead of 5. -/
def exWLight : WCfg Nat Nat Char Nat :=
  ⟨fun v => match v with | 0 => (1, 2, 'l') :: exW 0 | v => (6, 1, 'm') :: exW v, id, false, false, true, 1000⟩

example := C104_sp_monotone exWHash exWHash (exW_fair true) (c' := exWLight)
  ⟨rfl, dictDist_lawful _, fun _ _ _ _ => Nat.zero_le _, by rintro u u' v x rfl h; exact ⟨v, h, rfl⟩⟩ rfl
  (by
    rintro u v x ⟨l, h⟩
    refine ⟨x, le_refl _, l, ?_⟩
    cases u with
    | zero => exact List.mem_cons_of_mem _ h
    | succ n => exact List.mem_cons_of_mem _ h) [0] none none 200 200

example : (spRun exWHash exWLight none [0] none 200).reports.map (fun r => (r.vertex, r.distance)) =
    [(2, 1), (4, 1), (6, 2), (1, 2), (3, 3)] := by decide +kernel

end NoGraphs
