import Verif.Props.AStar

/-! # A* searches only where it is promising (C107) -/

set_option linter.unusedSectionVars false

namespace NoGraphs

open Spec

variable {V K L W M ML D : Type} [DecidableEq V] [DecidableEq K]
variable [AddCommMonoid W] [LinearOrder W] [IsOrderedCancelAddMonoid W]
variable (g : WGear V K L W M ML D) (c : AStarCfg V K L W)

/-- **C107.** With an admissible heuristic function, what A* reports until it reports a goal is promising: path length plus
estimate do not exceed the weight of any walk to the goal. A vertex whose estimate is infinity is only reported if all walks
to the goal weigh infinity or more. -/
theorem C107_astar_promising (ht : c.isTree = false) (hd : g.dd.Lawful c.inf) (hn : NonNeg c.next)
    (hc : WCompat c.next c.vid) (hh : HeurCompat c.heur c.vid) {goal : V → Prop}
    (hadm : Admissible c.next c.heur goal) (starts : List V) (limit : Option Int) (fuel : Nat)
    {before after : List (AStarReport V W M ML D)} {r : AStarReport V W M ML D}
    (hr : (aRun g c none none starts limit fuel).reports = before ++ r :: after)
    {t : V} (htg : goal t) (hts : c.vid t ∉ starts.map c.vid) (hnew : ∀ r' ∈ before, c.vid r'.vertex ≠ c.vid t)
    {w : W} (hw : WalkW c.next (· ∈ starts) w t) :
    (c.heur r.vertex ≠ c.inf → r.pathLength + c.heur r.vertex ≤ w) ∧ (c.heur r.vertex = c.inf → c.inf ≤ w) := by
  obtain ⟨s, hs, -⟩ := run_reaches (aStep g c) fuel (prepareLimit limit) (aInit g c none none starts)
  obtain ⟨h1, s1, s2, ha, hb, hbef⟩ := hs.emitted hr
  have inv := a_inv ht hd hn hc hh ha
  obtain ⟨e, rest, hpc, hheap, hst, hec, hre, -⟩ := a_emit ht hb
  have hele : e ∈ s1.heap := by rw [hheap]; exact List.mem_cons_self
  have hkey : e.key = aGuess c.inf (g.dd.get s1.dist (c.vid e.item.1)) (c.heur e.item.1) := by
    rw [← inv.guess _ (inv.known_ent hele)]
    exact le_antisymm (le_of_not_gt hst) (inv.guess_le hele)
  have hle : e.key ≤ w := by
    rcases inv.frontier hpc hw with h1 | ⟨f, hf, u, w1, w2, k1, k2, k3, k4, k5, k6⟩
    · exfalso
      rcases h1.2.2.2 with h2 | ⟨r', h2, h3⟩
      · exact hts h2
      · exact hnew r' (by rw [← hbef]; exact h2) h3
    · have hef : e.key ≤ f.key := by
        rw [hheap] at hf
        rcases List.mem_cons.1 hf with rfl | hf
        · exact le_refl _
        · have := inv.sorted
          rw [hheap] at this
          exact ((List.pairwise_cons.1 this).1 f hf).key_le
      refine hef.trans ?_
      rw [k2, inv.guess u k4]
      have hb := hadm u w2 t k5 htg
      have h0 : 0 ≤ g.dd.get s1.dist (c.vid u) := inv.nonneg hn k4
      unfold aGuess
      split
      · rename_i hinf
        rw [hinf] at hb
        rw [← k6]
        exact hb.trans (le_add_of_nonneg_left (h0.trans k3))
      · rw [← k6]
        exact add_le_add k3 hb
  rw [hkey] at hle
  rw [hre]
  refine ⟨fun hfin => ?_, fun hinf => ?_⟩
  · rwa [aGuess_fin hfin] at hle
  · simp only at hinf
    rwa [hinf, aGuess, if_pos rfl] at hle

/-- **C107, compared with Dijkstra's algorithm.** With an admissible heuristic function, each vertex with a positive (not
infinite) estimate that A* reports until it reports a goal is also reported by the shortest paths traversal before it reports
this goal: the search space of A* is included in that of Dijkstra's algorithm. (With estimate zero, vertices that are as far
away as the goal may differ.) -/
theorem C107_astar_within_dijkstra {M' ML' D' : Type} (g' : WGear V K L W M' ML' D') (c' : WCfg V K L W)
    (hnext : c'.next = c.next) (hvid : c'.vid = c.vid) (ht' : c'.isTree = false) (hd' : g'.dd.Lawful c'.inf)
    (ht : c.isTree = false) (hd : g.dd.Lawful c.inf) (hn : NonNeg c.next)
    (hc : WCompat c.next c.vid) (hh : HeurCompat c.heur c.vid) {goal : V → Prop}
    (hadm : Admissible c.next c.heur goal) (starts : List V) (limit limit' : Option Int) (fuel fuel' : Nat)
    {before after : List (AStarReport V W M ML D)} {r : AStarReport V W M ML D}
    (hr : (aRun g c none none starts limit fuel).reports = before ++ r :: after)
    {before' after' : List (SpReport V W M' ML' D')} {t : SpReport V W M' ML' D'}
    (hsp : (spRun g' c' none starts limit' fuel').reports = before' ++ t :: after')
    (htg : goal t.vertex) (hnew : ∀ r' ∈ before, c.vid r'.vertex ≠ c.vid t.vertex)
    (hpos : 0 < c.heur r.vertex) (hfin : c.heur r.vertex ≠ c.inf) :
    ∃ r' ∈ before', c.vid r'.vertex = c.vid r.vertex := by
  have hn' : NonNeg c'.next := by rw [hnext]; exact hn
  have hc' : WCompat c'.next c'.vid := by rw [hnext, hvid]; exact hc
  have hmem : t ∈ (spRun g' c' none starts limit' fuel').reports := by rw [hsp]; simp
  have hdist := C18_sp_distance g' c' ht' hd' hn' hc' starts limit' fuel' t hmem
  have hts : c.vid t.vertex ∉ starts.map c.vid := by
    have := (C19_sp_once_ordered g' c' ht' hd' hn' hc' starts limit' fuel').2.1 t hmem
    rwa [hvid] at this
  have hwalk : WalkW c.next (· ∈ starts) t.distance t.vertex := by
    have := hdist.1
    rwa [hnext] at this
  have hprom := (C107_astar_promising g c ht hd hn hc hh hadm starts limit fuel hr htg hts hnew hwalk).1 hfin
  have hlt : r.pathLength < t.distance := lt_of_lt_of_le (lt_add_of_pos_right _ hpos) hprom
  obtain ⟨s, hs, -⟩ := run_reaches (aStep g c) fuel (prepareLimit limit) (aInit g c none none starts)
  obtain ⟨h1, s1, s2, ha, hb, hbef⟩ := hs.emitted hr
  have inv := a_inv ht hd hn hc hh ha
  obtain ⟨e, rest, hpc, hheap, hst, hec, hre, -⟩ := a_emit ht hb
  have hele : e ∈ s1.heap := by rw [hheap]; exact List.mem_cons_self
  have hns : c.vid r.vertex ∉ starts.map c.vid := by
    rw [hre]; exact (inv.entR e hele).2.2 hec
  obtain ⟨v, hv, hvw⟩ := inv.walk _ (inv.known_ent hele)
  have hrv : c.vid v = c.vid r.vertex := by rw [hre]; exact hv
  have hpl : g.dd.get s1.dist (c.vid e.item.1) = r.pathLength := by rw [hre]
  rw [hpl] at hvw
  rcases C20_sp_before g' c' ht' hd' hn' hc' starts limit' fuel' hsp r.pathLength v (by rw [hnext]; exact hvw) hlt with
    h2 | ⟨r', h2, h3⟩
  · rw [hvid, hrv] at h2
    exact absurd h2 hns
  · rw [hvid, hrv] at h3
    exact ⟨r', h2, h3⟩

/-- **C107, compared with other heuristic functions.** Let a goal be reported by an A* search with a consistent heuristic
function. Each vertex that A* with a better informed admissible heuristic function `c.heur` (a larger, finite estimate for the
vertex) reports until it reports this goal is also reported by the other search before the goal. -/
theorem C107_astar_informed {M' ML' D' : Type} (g' : WGear V K L W M' ML' D') (c' : AStarCfg V K L W)
    (hnext : c'.next = c.next) (hvid : c'.vid = c.vid) (ht' : c'.isTree = false) (hd' : g'.dd.Lawful c'.inf)
    (hh' : HeurCompat c'.heur c'.vid) (hcons' : Consistent c'.next c'.heur)
    (ht : c.isTree = false) (hd : g.dd.Lawful c.inf) (hn : NonNeg c.next)
    (hc : WCompat c.next c.vid) (hh : HeurCompat c.heur c.vid) {goal : V → Prop}
    (hgoal : ∀ u v, c.vid u = c.vid v → goal u → goal v) (hadm : Admissible c.next c.heur goal)
    (starts : List V) (limit limit' : Option Int) (fuel fuel' : Nat)
    {before after : List (AStarReport V W M ML D)} {r : AStarReport V W M ML D}
    (hr : (aRun g c none none starts limit fuel).reports = before ++ r :: after)
    {before' after' : List (AStarReport V W M' ML' D')} {t : AStarReport V W M' ML' D'}
    (hr' : (aRun g' c' none none starts limit' fuel').reports = before' ++ t :: after')
    (htg : goal t.vertex) (h0 : 0 ≤ c'.heur t.vertex) (hf' : c'.heur t.vertex ≠ c'.inf)
    (hnew : ∀ r' ∈ before, c.vid r'.vertex ≠ c.vid t.vertex)
    (hlt : c'.heur r.vertex < c.heur r.vertex) (hfin : c.heur r.vertex ≠ c.inf) :
    ∃ r' ∈ before', c.vid r'.vertex = c.vid r.vertex := by
  have hn' : NonNeg c'.next := by rw [hnext]; exact hn
  have hc' : WCompat c'.next c'.vid := by rw [hnext, hvid]; exact hc
  obtain ⟨s', hs', -⟩ := run_reaches (aStep g' c') fuel' (prepareLimit limit') (aInit g' c' none none starts)
  obtain ⟨k1, t1, t2, ka, kb, kbef⟩ := hs'.emitted hr'
  have inv' := a_inv ht' hd' hn' hc' hh' ka
  obtain ⟨f, rest', kpc, kheap, kst, kec, kre, -⟩ := a_emit ht' kb
  have kele : f ∈ t1.heap := by rw [kheap]; exact List.mem_cons_self
  have kv : t.vertex = f.item.1 := by rw [kre]
  have kpl : g'.dd.get t1.dist (c'.vid f.item.1) = t.pathLength := by rw [kre]
  obtain ⟨kkey, kall⟩ := inv'.accept hn' kpc kheap kst (by rw [← kv]; exact hf')
  obtain ⟨u, hu, huw⟩ := inv'.walk _ (inv'.known_ent kele)
  rw [kpl, hnext] at huw
  have hu : c.vid u = c.vid t.vertex := by rw [kv, ← hvid]; exact hu
  have huns : c.vid u ∉ starts.map c.vid := by
    have := (inv'.entR f kele).2.2 kec
    rwa [← kv, hvid, ← hu] at this
  have hprom := (C107_astar_promising g c ht hd hn hc hh hadm starts limit fuel hr (hgoal _ _ hu.symm htg) huns
    (fun r' h => by rw [hu]; exact hnew r' h) huw).1 hfin
  obtain ⟨s, hs, -⟩ := run_reaches (aStep g c) fuel (prepareLimit limit) (aInit g c none none starts)
  obtain ⟨h1, s1, s2, ha, hb, hbef⟩ := hs.emitted hr
  have inv := a_inv ht hd hn hc hh ha
  obtain ⟨e, rest, hpc, hheap, hst, hec, hre, -⟩ := a_emit ht hb
  have hele : e ∈ s1.heap := by rw [hheap]; exact List.mem_cons_self
  have hns : c.vid r.vertex ∉ starts.map c.vid := by
    rw [hre]; exact (inv.entR e hele).2.2 hec
  obtain ⟨v, hv, hvw⟩ := inv.walk _ (inv.known_ent hele)
  have hrv : c.vid v = c.vid r.vertex := by rw [hre]; exact hv
  have hpl : g.dd.get s1.dist (c.vid e.item.1) = r.pathLength := by rw [hre]
  rw [hpl] at hvw
  rcases kall r.pathLength v (by rw [hnext]; exact hvw) (towardsOk_of_consistent hcons' _) with h2 | h2
  · rcases h2.2 with h3 | ⟨r', h3, h4⟩
    · rw [hvid, hrv] at h3
      exact absurd h3 hns
    · rw [hvid, hrv] at h4
      exact ⟨r', by rw [← kbef]; exact h3, h4⟩
  · exfalso
    rw [kkey, kpl, ← kv, hh' v r.vertex (by rw [hvid]; exact hrv)] at h2
    have h3 : t.pathLength ≤ t.pathLength + c'.heur t.vertex := le_add_of_nonneg_right h0
    have h4 : r.pathLength + c'.heur r.vertex < r.pathLength + c.heur r.vertex := add_lt_add_right hlt _
    exact lt_irrefl _ (lt_of_le_of_lt (h3.trans h2) (lt_of_lt_of_le h4 hprom))

/-! ## Non-vacuity -/

/-- The goal (vertex 3) is reached through vertex 2. The branch with vertices 1, 4 and 5 does not lead to it. -/
def exFocusGraph : Nat → List (Nat × Nat × Char)
  | 0 => [(1, 1, 'a'), (2, 2, 'b')]
  | 1 => [(4, 1, 'c')]
  | 2 => [(3, 2, 'd')]
  | 4 => [(5, 1, 'e')]
  | _ => []

/-- Estimates: the distance to the goal, 50 for vertex 1, and infinity for the rest of the useless branch. -/
def exFocus : AStarCfg Nat Nat Char Nat := ⟨exFocusGraph, id, false, true, 1000,
  fun v => if v = 0 then 4 else if v = 2 then 2 else if v = 3 then 0 else if v = 1 then 50 else 1000⟩

/-- The same graph for the shortest paths traversal. -/
def exFocusSp : WCfg Nat Nat Char Nat := ⟨exFocusGraph, id, false, true, true, 1000⟩

/-- A* goes straight to the goal, and searches the useless branch only after it. -/
example : (aRun exWHash exFocus none none [0] none 200).reports.map (fun r => (r.vertex, r.pathLength)) =
    [(2, 2), (3, 4), (1, 1), (4, 2), (5, 3)] := by decide +kernel

/-- Dijkstra's algorithm searches the useless branch before it reports the goal. -/
example : (spRun exWHash exFocusSp none [0] none 200).reports.map (fun r => (r.vertex, r.distance)) =
    [(1, 1), (4, 2), (2, 2), (5, 3), (3, 4)] := by decide +kernel

theorem exFocus_walks {u w v : Nat} (h : WalkW exFocusGraph (· = u) w v) : v = 3 →
    u = 3 ∨ (u = 2 ∧ 2 ≤ w) ∨ (u = 0 ∧ 4 ≤ w) := by
  have key : v = u ∨ ((u = 1 ∨ u = 4) ∧ v ≠ 3 ∧ v ≠ 2 ∧ v ≠ 0) ∨ (u = 2 ∧ v = 3 ∧ 2 ≤ w) ∨
      (u = 0 ∧ (v = 1 ∨ v = 4 ∨ v = 5 ∨ (v = 2 ∧ 2 ≤ w) ∨ (v = 3 ∧ 4 ≤ w))) := by
    induction h with
    | start hs => exact .inl hs
    | @step w x v y _ he ih =>
      obtain ⟨l, hl⟩ := he
      match x, hl with
      | 0, hl => simp [exFocusGraph] at hl; omega
      | 1, hl => simp [exFocusGraph] at hl; omega
      | 2, hl => simp [exFocusGraph] at hl; omega
      | 3, hl => simp [exFocusGraph] at hl
      | 4, hl => simp [exFocusGraph] at hl; omega
      | n + 5, hl => simp [exFocusGraph] at hl
  omega

theorem exFocus_admissible : Admissible exFocus.next exFocus.heur (· = 3) := by
  intro u w v hw hv
  rcases exFocus_walks hw hv with rfl | ⟨rfl, h⟩ | ⟨rfl, h⟩ <;> simp [exFocus] <;> omega

/-- The way to the goal. -/
theorem exFocus_walk : WalkW exFocus.next (· ∈ [0]) 4 3 := by
  have h1 : WalkW exFocus.next (· ∈ [0]) 0 0 := .start (by simp)
  have h2 : WalkW exFocus.next (· ∈ [0]) (0 + 2) 2 := .step h1 ⟨'b', by simp [exFocus, exFocusGraph]⟩
  exact WalkW.step (w := 0 + 2) (x := 2) h2 ⟨'d', by simp [exFocus, exFocusGraph]⟩

/-- C107 on the example: what is reported until the goal has path length plus estimate at most 4. -/
example {before after} {r : AStarReport Nat Nat _ _ _}
    (hr : (aRun exWHash exFocus none none [0] none 200).reports = before ++ r :: after)
    (hnew : ∀ r' ∈ before, r'.vertex ≠ 3) (hfin : exFocus.heur r.vertex ≠ 1000) :
    r.pathLength + exFocus.heur r.vertex ≤ 4 :=
  (C107_astar_promising exWHash exFocus rfl (dictDist_lawful 1000) (fun _ _ _ _ => Nat.zero_le _) wcompat_id
    (fun u v h => by simp only [exFocus, id_eq] at h ⊢; rw [h]) (goal := (· = 3)) exFocus_admissible [0] none 200 hr (t := 3) rfl (by decide) hnew exFocus_walk).1 hfin

/-- C107 on the example, compared with Dijkstra's algorithm. -/
example {before after before' after'} {r : AStarReport Nat Nat _ _ _} {t : SpReport Nat Nat _ _ _}
    (hr : (aRun exWHash exFocus none none [0] none 200).reports = before ++ r :: after)
    (hsp : (spRun exWHash exFocusSp none [0] none 200).reports = before' ++ t :: after') (ht : t.vertex = 3)
    (hnew : ∀ r' ∈ before, r'.vertex ≠ 3) (hr2 : r.vertex = 2) : ∃ r' ∈ before', r'.vertex = 2 := by
  have := C107_astar_within_dijkstra exWHash exFocus exWHash exFocusSp rfl rfl rfl (dictDist_lawful 1000) rfl
    (dictDist_lawful 1000) (fun _ _ _ _ => Nat.zero_le _) wcompat_id
    (fun u v h => by simp only [exFocus, id_eq] at h ⊢; rw [h]) (goal := (· = 3)) exFocus_admissible [0] none none 200 200 hr hsp ht
    (fun r' h => by rw [ht]; exact hnew r' h) (by rw [hr2]; decide) (by rw [hr2]; decide)
  rw [hr2] at this
  exact this

/-- The same graph with smaller estimates, that are consistent: a search that goes farther. -/
def exFocusLess : AStarCfg Nat Nat Char Nat := { exFocus with heur := fun v => if v = 2 then 1 else 0 }

theorem exFocusLess_consistent : Consistent exFocusLess.next exFocusLess.heur := by
  intro u v x h
  obtain ⟨l, hl⟩ := h
  match u with
  | 0 => exact Nat.zero_le _
  | 1 => exact Nat.zero_le _
  | 2 => simp [exFocusLess, exFocus, exFocusGraph] at hl ⊢; omega
  | n + 3 => simp [exFocusLess]

example : (aRun exWHash exFocusLess none none [0] none 200).reports.map (fun r => (r.vertex, r.pathLength)) =
    [(1, 1), (4, 2), (5, 3), (2, 2), (3, 4)] := by decide +kernel

/-- C107 on the example, compared with the smaller estimates. -/
example {before after before' after'} {r t : AStarReport Nat Nat _ _ _}
    (hr : (aRun exWHash exFocus none none [0] none 200).reports = before ++ r :: after)
    (hr' : (aRun exWHash exFocusLess none none [0] none 200).reports = before' ++ t :: after') (ht : t.vertex = 3)
    (hnew : ∀ r' ∈ before, r'.vertex ≠ 3) (hr2 : r.vertex = 2) : ∃ r' ∈ before', r'.vertex = 2 := by
  have := C107_astar_informed exWHash exFocus exWHash exFocusLess rfl rfl rfl (dictDist_lawful 1000)
    (fun u v (h : u = v) => by rw [h]) exFocusLess_consistent rfl (dictDist_lawful 1000) (fun _ _ _ _ => Nat.zero_le _)
    wcompat_id (fun u v (h : u = v) => by rw [h]) (goal := (· = 3)) (fun u v (h : u = v) hu => h ▸ hu)
    exFocus_admissible [0] none none 200 200 hr hr' ht (Nat.zero_le _) (by rw [ht]; decide)
    (fun r' h => by rw [ht]; exact hnew r' h) (by rw [hr2]; decide) (by rw [hr2]; decide)
  rw [hr2] at this
  exact this

end NoGraphs
