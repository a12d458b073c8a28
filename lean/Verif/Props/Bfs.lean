import Verif.Proofs.Shows
import Verif.Props.Limit

/-! # Properties of breadth-first search: C01 - C05, C51

`g` is any gear (`TravGear`), `c` holds the graph and the options.  Walks, reachability and depth
(minimal number of edges) are defined in `Verif/Spec/Graph.lean`, on the graph alone. -/

set_option linter.unusedSectionVars false

namespace NoGraphs

open Spec

variable {V K L S M ML : Type} [DecidableEq V] [DecidableEq K]
variable (g : TravGear V K L S M ML) (c : TravCfg V K L)

theorem bfsE_empty (hg : g.so.Lawful) : bfsE g c g.so.empty = Edge c.next := by
  funext u v
  simp [bfsE, Allowed, hg.contains_empty]

/-- **C01, with `already_visited`.** Each reported vertex is reachable by edges to vertices that were
not already visited, and `depth` is the minimal number of edges of such walks. -/
theorem C01_bfs_depth_already (hg : g.so.Lawful) (ht : c.isTree = false) (hc : Compat (Edge c.next) c.vid)
    (already : S) (starts : List V) (limit : Option Int) (fuel : Nat) :
    ∀ r ∈ (bfsRun g c already starts limit fuel).reports, ∃ d : Nat, r.depth = d ∧
      IsDepth (Allowed c.next c.vid (fun k => g.so.contains already k = true)) (· ∈ starts) c.vid r.vertex d := by
  intro r hr
  obtain ⟨s, hs, -⟩ := run_reaches (bfsStep g c false) fuel (prepareLimit limit) (bfsInit g c already starts)
  obtain ⟨n, inv⟩ := bfs_inv hg ht hc hs
  obtain ⟨d, h1, -, -, h4, -⟩ := inv.reps r hr
  exact ⟨d, h1, h4⟩

/-- **C01.** Each vertex reported by a breadth-first traversal is reachable from a start vertex, and
`depth` is the minimal number of edges of walks to it: for every graph, set of start vertices, gear,
calculation limit, and at each moment of the traversal. -/
theorem C01_bfs_depth (hg : g.so.Lawful) (ht : c.isTree = false) (hc : Compat (Edge c.next) c.vid)
    (starts : List V) (limit : Option Int) (fuel : Nat) :
    ∀ r ∈ (bfsRun g c g.so.empty starts limit fuel).reports,
      ∃ d : Nat, r.depth = d ∧ IsDepth (Edge c.next) (· ∈ starts) c.vid r.vertex d := by
  intro r hr
  obtain ⟨d, h1, h2⟩ := C01_bfs_depth_already g c hg ht hc g.so.empty starts limit fuel r hr
  refine ⟨d, h1, ?_⟩
  rw [← bfsE_empty g c hg]; exact h2

/-- **C02.** No id is reported twice, no id of a start vertex or of an already visited vertex is
reported, and depths never decrease. -/
theorem C02_bfs_once_ordered (hg : g.so.Lawful) (ht : c.isTree = false) (hc : Compat (Edge c.next) c.vid)
    (already : S) (starts : List V) (limit : Option Int) (fuel : Nat) :
    let reports := (bfsRun g c already starts limit fuel).reports
    (reports.map (fun r => c.vid r.vertex)).Nodup ∧
    (∀ r ∈ reports, c.vid r.vertex ∉ starts.map c.vid ∧ g.so.contains already (c.vid r.vertex) = false) ∧
    (reports.map (fun r => r.depth)).Pairwise (· ≤ ·) := by
  intro reports
  obtain ⟨s, hs, -⟩ := run_reaches (bfsStep g c false) fuel (prepareLimit limit) (bfsInit g c already starts)
  obtain ⟨n, inv⟩ := bfs_inv hg ht hc hs
  refine ⟨inv.nodup, fun r hr => ?_, inv.sorted⟩
  obtain ⟨d, h1, h2, -, h4, -⟩ := inv.reps r hr
  constructor
  · intro hm
    obtain ⟨v, hv, e⟩ := List.mem_map.1 hm
    have := h4.2 0 v (.start hv) e
    omega
  · cases hw : h4.1 with
    | start hs => omega
    | step _ he => simpa using he.2

/-- **C03, completeness.** If the traversal ends without exception, every vertex reachable from a start
vertex (by edges to vertices not already visited), other than the starts, has been reported; and its
`visited` holds exactly the ids already visited, of starts and of reports. -/
theorem C03_bfs_complete (hg : g.so.Lawful) (ht : c.isTree = false) (hc : Compat (Edge c.next) c.vid)
    (already : S) (starts : List V) (limit : Option Int) (fuel : Nat)
    (hdone : (bfsRun g c already starts limit fuel).ending = .done) :
    (∀ v, Reachable (Allowed c.next c.vid (fun k => g.so.contains already k = true)) (· ∈ starts) v →
      c.vid v ∈ starts.map c.vid ∨
      ∃ r ∈ (bfsRun g c already starts limit fuel).reports, c.vid r.vertex = c.vid v) ∧
    (∀ k, g.so.contains (bfsRun g c already starts limit fuel).final.visited k = true ↔
      g.so.contains already k = true ∨ k ∈ starts.map c.vid ∨
      ∃ r ∈ (bfsRun g c already starts limit fuel).reports, c.vid r.vertex = k) := by
  obtain ⟨s, hs, he⟩ := run_reaches (bfsStep g c false) fuel (prepareLimit limit) (bfsInit g c already starts)
  unfold bfsRun at hdone
  rw [hdone] at he
  obtain ⟨h1, h2⟩ := bfs_stop_complete hg ht hc hs he
  refine ⟨h2, fun k => ?_⟩
  obtain ⟨n, inv⟩ := bfs_inv hg ht hc hs
  have : (bfsRun g c already starts limit fuel).final.visited = s.visited := h1
  rw [this]
  constructor
  · exact inv.cover k
  · rintro (h | h | ⟨r, hr, rfl⟩)
    · exact (inv.vis k).2 (.inl h)
    · obtain ⟨v, hv, rfl⟩ := List.mem_map.1 h
      exact (inv.vis _).2 (.inr (.inl ⟨0, v, Nat.zero_le _, .start hv, rfl⟩))
    · obtain ⟨d, _, _, _, _, h5⟩ := inv.reps r hr
      exact h5

/-- **C03, termination.** If only finitely many vertices are reachable, the traversal (without limit)
comes to its end without exception. -/
theorem C03_bfs_terminates (hg : g.so.Lawful) (ht : c.isTree = false) (hc : Compat (Edge c.next) c.vid)
    (already : S) (starts : List V)
    (hfin : FinitelyReachable (Allowed c.next c.vid (fun k => g.so.contains already k = true)) (· ∈ starts) c.vid) :
    ∃ N, ∀ fuel, N ≤ fuel → (bfsRun g c already starts none fuel).ending = .done := by
  obtain ⟨N, hN⟩ := bfs_terminates (M := M) (ML := ML) hg ht hc hfin
  refine ⟨N, fun fuel hf => ?_⟩
  rcases run_not_raised (bfsStep g c false) (bfsInit g c already starts)
    (fun h s e _ => bfs_no_fail s e) fuel with h | h
  · exact h
  · exact absurd h (hN fuel hf _)

/-- **C04.** With `build_paths`, when a vertex is reported at depth `d`, `paths` shows for it a path of
`d` labeled edges of the graph from a start vertex; and `paths` shows the same path at each later
report. -/
theorem C04_bfs_paths (hg : g.so.Lawful) (ht : c.isTree = false) (hb : c.buildPaths = true)
    (hc : Compat (Edge c.next) c.vid) {validV : V → Prop} {validL : L → Prop} (already : S)
    (starts : List V) (hst : Storable g c starts validV validL) (limit : Option Int) (fuel : Nat)
    {before after : List (BfsReport V S M ML)} {r : BfsReport V S M ML}
    (hr : (bfsRun g c already starts limit fuel).reports = before ++ r :: after) :
    ∃ p : SPath V L, p.first ∈ starts ∧ IsPath c.next p.first p.steps ∧
      p.verts.getLast? = some r.vertex ∧ (p.steps.length : Int) = r.depth ∧
      ∀ r' ∈ r :: after, ShowsPath (pathsView g.mo g.lo c.vid r'.preds r'.labels) r.vertex p := by
  obtain ⟨s, hs, -⟩ := run_reaches (bfsStep g c false) fuel (prepareLimit limit) (bfsInit g c already starts)
  have inv := bfs_path_inv hg ht hb hc hst hs
  have hr' : repsOf (runMachine (bfsStep g c false) fuel (prepareLimit limit)
      (bfsInit g c already starts)).events = before ++ r :: after := hr
  obtain ⟨p, h1, h2⟩ := inv.reps r (by rw [hr']; simp)
  refine ⟨p, h2.1, h2.2.1, h2.2.2.last, h1, fun r' hm => ?_⟩
  rcases List.mem_cons.1 hm with rfl | hm
  · exact h2.2.2.shows hst.mo hst.lo
  · have := inv.later
    rw [hr', List.pairwise_append] at this
    have := (List.pairwise_cons.1 this.2.1).1 r' hm p h2
    exact this.2.2.shows hst.mo hst.lo

/-- **C04, final state.** The paths of all reported vertices are still the same when the traversal has
ended. -/
theorem C04_bfs_paths_final (hg : g.so.Lawful) (ht : c.isTree = false) (hb : c.buildPaths = true)
    (hc : Compat (Edge c.next) c.vid) {validV : V → Prop} {validL : L → Prop} (already : S)
    (starts : List V) (hst : Storable g c starts validV validL) (limit : Option Int) (fuel : Nat)
    (hdone : (bfsRun g c already starts limit fuel).ending = .done) :
    let run := bfsRun g c already starts limit fuel
    ∀ r ∈ run.reports, ∃ p : SPath V L,
      ShowsPath (pathsView g.mo g.lo c.vid r.preds r.labels) r.vertex p ∧
      ShowsPath (pathsView g.mo g.lo c.vid run.final.preds run.final.labels) r.vertex p := by
  intro run r hr
  obtain ⟨s, hs, he⟩ := run_reaches (bfsStep g c false) fuel (prepareLimit limit) (bfsInit g c already starts)
  unfold bfsRun at hdone
  rw [hdone] at he
  have inv := bfs_path_inv hg ht hb hc hst hs
  have hsame : run.final.preds = s.preds ∧ run.final.labels = s.labels := by
    have he' : bfsStep g c false s = .stop run.final := he
    unfold bfsStep at he'
    split at he'
    · split at he'
      · simp only [Step.stop.injEq] at he'
        rw [← he']; exact ⟨rfl, rfl⟩
      · simp at he'
    · split at he'
      · simp at he'
      · split at he' <;> simp at he'
    · simp at he'
    · split at he' <;> simp at he'
    · simp at he'
  obtain ⟨p, -, h2⟩ := inv.reps r hr
  refine ⟨p, h2.2.2.shows hst.mo hst.lo, ?_⟩
  rw [hsame.1, hsame.2]
  exact (inv.keep r hr p h2).2.2.shows hst.mo hst.lo

/-- **C05 for breadth-first search** (instance of the theorem for all machines). -/
theorem C05_bfs (already : S) (starts : List V) (fuel : Nat) (k : Nat) :
    let unlimited := bfsRun g c already starts none fuel
    let limited := bfsRun g c already starts (some k) fuel
    (expsOf unlimited.events ≤ k → limited = unlimited) ∧
    (k < expsOf unlimited.events →
      limited.events = beforeExp k unlimited.events ∧ limited.ending = .raised .runtimeError) ∧
    expsOf limited.events ≤ k :=
  let h := C05_limit_exact (bfsStep g c false) fuel (bfsInit g c already starts) k
  ⟨h.1, h.2, C05_reads_at_most (bfsStep g c false) fuel (bfsInit g c already starts) k⟩

/-- **C51.** A first complete run from `starts1`, then a complete run from `starts2` that is given the
`visited` of the first one: the second run reports no id that the first run reported or started from, and
an id is a start or reported in one of the two runs iff it is one of a vertex reachable from
`starts1 ++ starts2`. -/
theorem C51_bfs_already_visited (hg : g.so.Lawful) (ht : c.isTree = false)
    (hc : Compat (Edge c.next) c.vid) (starts1 starts2 : List V) (fuel1 fuel2 : Nat) (lim1 lim2 : Option Int) :
    let run1 := bfsRun g c g.so.empty starts1 lim1 fuel1
    let run2 := bfsRun g c run1.final.visited starts2 lim2 fuel2
    run1.ending = .done → run2.ending = .done →
    (∀ r2 ∈ run2.reports, c.vid r2.vertex ∉ starts1.map c.vid ∧
      ∀ r1 ∈ run1.reports, c.vid r1.vertex ≠ c.vid r2.vertex) ∧
    (∀ k, (∃ v, Reachable (Edge c.next) (· ∈ starts1 ++ starts2) v ∧ c.vid v = k) ↔
      k ∈ (starts1 ++ starts2).map c.vid ∨ (∃ r ∈ run1.reports, c.vid r.vertex = k) ∨
      ∃ r ∈ run2.reports, c.vid r.vertex = k) := by
  intro run1 run2 h1 h2
  have C1 := C03_bfs_complete g c hg ht hc g.so.empty starts1 lim1 fuel1 h1
  have C2 := C03_bfs_complete g c hg ht hc run1.final.visited starts2 lim2 fuel2 h2
  have O2 := C02_bfs_once_ordered g c hg ht hc run1.final.visited starts2 lim2 fuel2
  have D1 := C01_bfs_depth g c hg ht hc starts1 lim1 fuel1
  have D2 := C01_bfs_depth_already g c hg ht hc run1.final.visited starts2 lim2 fuel2
  have V1 : ∀ k, g.so.contains run1.final.visited k = true ↔
      k ∈ starts1.map c.vid ∨ ∃ r ∈ run1.reports, c.vid r.vertex = k := by
    intro k; rw [C1.2 k]; simp [hg.contains_empty, run1]
  have hE := bfsE_empty g c hg
  unfold bfsE at hE
  refine ⟨fun r2 hr2 => ?_, fun k => ⟨?_, ?_⟩⟩
  · have hn := (O2.2.1 r2 hr2).2
    constructor
    · intro hm
      rw [(V1 _).2 (.inl hm)] at hn; simp at hn
    · intro r1 hr1 e
      rw [(V1 _).2 (.inr ⟨r1, hr1, e⟩)] at hn; simp at hn
  · rintro ⟨v, hv, rfl⟩
    -- ids visited in run 1 are closed under edges; others are reachable in the second run
    have key : (∃ v', Reachable (Edge c.next) (· ∈ starts1) v' ∧ c.vid v' = c.vid v) ∨
        ∃ v', Reachable (Allowed c.next c.vid (fun k => g.so.contains run1.final.visited k = true))
          (· ∈ starts2) v' ∧ c.vid v' = c.vid v := by
      refine Reachable.induct (P := fun v =>
        (∃ v', Reachable (Edge c.next) (· ∈ starts1) v' ∧ c.vid v' = c.vid v) ∨
        ∃ v', Reachable (Allowed c.next c.vid (fun k => g.so.contains run1.final.visited k = true))
          (· ∈ starts2) v' ∧ c.vid v' = c.vid v) ?_ ?_ hv
      · intro v hv
        rcases List.mem_append.1 hv with h | h
        · exact .inl ⟨v, .start h, rfl⟩
        · exact .inr ⟨v, .start h, rfl⟩
      · rintro u w - (⟨u', hu', e⟩ | ⟨u', hu', e⟩) huw
        · obtain ⟨w', hw', e'⟩ := hc u u' w e.symm huw
          exact .inl ⟨w', hu'.step hw', e'⟩
        · obtain ⟨w', hw', e'⟩ := hc u u' w e.symm huw
          by_cases hvis : g.so.contains run1.final.visited (c.vid w') = true
          · left
            rcases (V1 _).1 hvis with h | ⟨r, hr, h⟩
            · obtain ⟨x, hx, hxe⟩ := List.mem_map.1 h
              exact ⟨x, .start hx, hxe.trans e'⟩
            · obtain ⟨d, _, hd⟩ := D1 r hr
              exact ⟨r.vertex, ⟨d, hd.1⟩, h.trans e'⟩
          · exact .inr ⟨w', hu'.step ⟨hw', hvis⟩, e'⟩
    rcases key with ⟨v', hv', e⟩ | ⟨v', hv', e⟩
    · rw [← e]
      rcases C1.1 v' (by rw [hE]; exact hv') with h | h
      · left; rw [List.map_append]; exact List.mem_append_left _ h
      · exact .inr (.inl h)
    · rw [← e]
      rcases C2.1 v' hv' with h | h
      · left; rw [List.map_append]; exact List.mem_append_right _ h
      · exact .inr (.inr h)
  · rintro (h | ⟨r, hr, rfl⟩ | ⟨r, hr, rfl⟩)
    · obtain ⟨v, hv, rfl⟩ := List.mem_map.1 h
      exact ⟨v, .start hv, rfl⟩
    · obtain ⟨d, _, hd⟩ := D1 r hr
      refine ⟨r.vertex, ?_, rfl⟩
      refine Reachable.induct (E := Edge c.next) (S := (· ∈ starts1)) ?_ ?_ ⟨d, hd.1⟩
      · exact fun v hv => .start (List.mem_append_left _ hv)
      · exact fun u v _ hu he => hu.step he
    · obtain ⟨d, _, hd⟩ := D2 r hr
      refine ⟨r.vertex, ?_, rfl⟩
      refine Reachable.induct (S := (· ∈ starts2)) ?_ ?_ ⟨d, hd.1⟩
      · exact fun v hv => .start (List.mem_append_right _ hv)
      · exact fun u v _ hu he => hu.step he.1

/-! ## Non-vacuity: a concrete graph and concrete gears -/

/-- A graph with a cycle, a diamond, a self loop and parallel edges (labels are characters). -/
def exNext : Nat → List (Nat × Char)
  | 0 => [(1, 'a'), (2, 'b'), (1, 'x')]
  | 1 => [(3, 'c'), (0, 'd')]
  | 2 => [(3, 'e'), (2, 's')]
  | 3 => [(4, 'f')]
  | 5 => [(4, 'g'), (6, 'h')]
  | _ => []

/-- The example as configuration. -/
def exCfg (buildPaths : Bool) : TravCfg Nat Nat Char := ⟨exNext, id, false, buildPaths⟩

/-- Hash based collections. -/
def exHash : TravGear Nat Nat Char (List Nat) (Nat → Option Nat) (Nat → Option Char) :=
  ⟨hashSet, dictMap, dictMap⟩

/-- Bit-packed set, array of integers (gap value 255), list of labels. -/
def exBits : TravGear Nat Nat Char (List Nat) (List Nat) (List (Option Char)) :=
  ⟨bitSeqSet ⟨0, 2, true⟩ 0, arrayMap ⟨255, 2, true⟩ 0, listMap ⟨none, 2, true⟩ 0⟩

example : ((bfsRun exHash (exCfg true) [] [0] none 100).reports.map (fun r => (r.vertex, r.depth)),
    (bfsRun exHash (exCfg true) [] [0] none 100).ending) =
    ([(1, 1), (2, 1), (3, 2), (4, 3)], .done) := by decide

example : (bfsRun exBits (exCfg true) [] [0] none 100).reports.map (fun r => (r.vertex, r.depth,
      ((pathsView exBits.mo exBits.lo id r.preds r.labels).iterLabeledEdgesFromStart 9 r.vertex).1)) =
    [(1, 1, [(0, 1, 'a')]), (2, 1, [(0, 2, 'b')]), (3, 2, [(0, 1, 'a'), (1, 3, 'c')]),
     (4, 3, [(0, 1, 'a'), (1, 3, 'c'), (3, 4, 'f')])] := by decide

example : exHash.so.Lawful ∧ exBits.so.Lawful ∧ Compat (Edge exNext) (id : Nat → Nat) :=
  ⟨hashSet_lawful, bitSeqSet_lawful _ rfl (fun _ => by decide) 0, Compat.of_injective _ _ (fun _ _ h => h)⟩

/-- The reachable vertices of the example are small, so gear `exBits` can store them. -/
theorem exNext_reach {v : Nat} (h : Reachable (Edge exNext) (· ∈ [0]) v) : v ≤ 4 := by
  refine Reachable.induct (P := fun v => v ≤ 4) ?_ ?_ h
  · intro v hv; simp at hv; omega
  · rintro u w - hu ⟨l, hl⟩
    have : u = 0 ∨ u = 1 ∨ u = 2 ∨ u = 3 ∨ u = 4 := by omega
    rcases this with rfl | rfl | rfl | rfl | rfl <;> simp [exNext] at hl <;> omega

example : Storable exBits (exCfg true) [0] (fun x => x ≠ 255) (fun _ => True) where
  mo := arrayMap_lawful _ (fun _ => by decide) 0
  lo := listMap_lawful _ rfl (fun _ => by decide) 0
  verts v hv := by have := exNext_reach hv; omega
  labs _ _ _ _ := trivial
  distinct s hs t ht _ := by simp at hs ht; omega

example : FinitelyReachable (Edge exNext) (· ∈ [0]) (id : Nat → Nat) :=
  ⟨[0, 1, 2, 3, 4], fun v hv => by
    have := exNext_reach hv
    have : v = 0 ∨ v = 1 ∨ v = 2 ∨ v = 3 ∨ v = 4 := by omega
    simpa using this⟩

/-- C51 is not vacuous: both runs end, the second one reports vertex 6 only. -/
example :
    let run1 := bfsRun exHash (exCfg false) [] [0] none 100
    let run2 := bfsRun exHash (exCfg false) run1.final.visited [5] none 100
    run1.ending = .done ∧ run2.ending = .done ∧ run2.reports.map (fun r => r.vertex) = [6] := by decide

/-- C05 is not vacuous: with limit 2 the run raises after 3 reports. -/
example : ((bfsRun exHash (exCfg false) [] [0] (some 2) 100).reports.map (fun r => r.vertex),
    (bfsRun exHash (exCfg false) [] [0] (some 2) 100).ending) = ([1, 2, 3], .raised .runtimeError) := by
  decide

end NoGraphs
