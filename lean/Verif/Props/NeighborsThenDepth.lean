import Verif.Proofs.NeighborsThenDepthOrder
import Verif.Proofs.NeighborsThenDepthModes
import Verif.Props.BfsModes

/-! # Properties of the traversal "neighbors, then depth": C06, C07, C65; C05, C39, C51, C52 for it -/

set_option linter.unusedSectionVars false

namespace NoGraphs

open Spec

variable {V K L S M ML : Type} [DecidableEq V] [DecidableEq K]
variable (g : TravGear V K L S M ML) (c : NtdCfg V K L)

/-- **C06, reports.** Each reported vertex is reachable from a start vertex (by edges to vertices that were not already
visited); no id is reported twice; no id of a start or of an already visited vertex is reported: for every graph, at
each moment of the traversal. -/
theorem C06_ntd_once (hg : g.so.Lawful) (ht : c.isTree = false) (already : S) (starts : List V)
    (limit : Option Int) (fuel : Nat) :
    let reports := (ntdRun g c already starts limit fuel).reports
    (∀ r ∈ reports, Reachable (Allowed c.next c.vid (fun k => g.so.contains already k = true)) (· ∈ starts) r.vertex) ∧
    (reports.map (fun r => c.vid r.vertex)).Nodup ∧
    ∀ r ∈ reports, c.vid r.vertex ∉ starts.map c.vid ∧ g.so.contains already (c.vid r.vertex) = false := by
  intro reports
  obtain ⟨s, hs, -⟩ := run_reaches (ntdStep g c) fuel (prepareLimit limit) (ntdInit g c already starts)
  obtain ⟨G, inv⟩ := ntd_inv (bp := False) hg ht ntdPathsOk_false hs
  refine ⟨fun r hr => ?_, inv.nodup, inv.fresh⟩
  obtain ⟨n, h1, -⟩ := inv.reps r hr
  exact ⟨_, h1.walk⟩

/-- **C06, completeness.** If the traversal ends without exception, every vertex reachable from a start vertex (by edges
to vertices not already visited), other than the starts, has been reported; and its `visited` holds exactly the ids
already visited, of starts and of reports. -/
theorem C06_ntd_complete (hg : g.so.Lawful) (ht : c.isTree = false) (hc : Compat (Edge c.next) c.vid)
    (already : S) (starts : List V) (limit : Option Int) (fuel : Nat)
    (hdone : (ntdRun g c already starts limit fuel).ending = .done) :
    (∀ v, Reachable (Allowed c.next c.vid (fun k => g.so.contains already k = true)) (· ∈ starts) v →
      c.vid v ∈ starts.map c.vid ∨
      ∃ r ∈ (ntdRun g c already starts limit fuel).reports, c.vid r.vertex = c.vid v) ∧
    (∀ k, g.so.contains (ntdRun g c already starts limit fuel).final.visited k = true ↔
      g.so.contains already k = true ∨ k ∈ starts.map c.vid ∨
      ∃ r ∈ (ntdRun g c already starts limit fuel).reports, c.vid r.vertex = k) := by
  obtain ⟨s, hs, he⟩ := run_reaches (ntdStep g c) fuel (prepareLimit limit) (ntdInit g c already starts)
  unfold ntdRun at hdone
  rw [hdone] at he
  obtain ⟨h1, h2⟩ := ntd_stop_complete hg ht hc hs he
  refine ⟨h2, fun k => ?_⟩
  obtain ⟨G, inv⟩ := ntd_inv (bp := False) hg ht ntdPathsOk_false hs
  have : (ntdRun g c already starts limit fuel).final.visited = s.visited := congrArg _ h1
  rw [this]
  exact inv.vis k

/-- **C06, termination.** If only finitely many vertices are reachable, the traversal (without limit) comes to its end
without exception. -/
theorem C06_ntd_terminates (hg : g.so.Lawful) (ht : c.isTree = false) (already : S) (starts : List V)
    (hfin : FinitelyReachable (Allowed c.next c.vid (fun k => g.so.contains already k = true)) (· ∈ starts) c.vid) :
    ∃ N, ∀ fuel, N ≤ fuel → (ntdRun g c already starts none fuel).ending = .done := by
  obtain ⟨N, hN⟩ := ntd_terminates (M := M) (ML := ML) hg ht hfin
  refine ⟨N, fun fuel hf => ?_⟩
  rcases run_not_raised (ntdStep g c) (ntdInit g c already starts)
    (fun h s e hr => ntd_no_fail hg ht hr e) fuel with h | h
  · exact h
  · exact absurd h (hN fuel hf _)

/-- **C07.** With `build_paths`, when a vertex is reported, `paths` shows for it a path of labeled edges of the graph
from a start vertex; with `compute_depth`, `depth` is its number of edges (and otherwise -1); and `paths` shows the same
path at each later report. -/
theorem C07_ntd_depth_paths (hg : g.so.Lawful) (ht : c.isTree = false) (hb : c.buildPaths = true)
    {validV : V → Prop} {validL : L → Prop} (already : S) (starts : List V)
    (hst : Storable g c.toTravCfg starts validV validL) (limit : Option Int) (fuel : Nat)
    {before after : List (NtdReport V S M ML)} {r : NtdReport V S M ML}
    (hr : (ntdRun g c already starts limit fuel).reports = before ++ r :: after) :
    ∃ p : SPath V L, p.first ∈ starts ∧ IsPath c.next p.first p.steps ∧ p.verts.getLast? = some r.vertex ∧
      (c.computeDepth = true → r.depth = p.steps.length) ∧ (c.computeDepth = false → r.depth = -1) ∧
      ∀ r' ∈ r :: after, ShowsPath (pathsView g.mo g.lo c.vid r'.preds r'.labels) r.vertex p := by
  obtain ⟨s, hs, -⟩ := run_reaches (ntdStep g c) fuel (prepareLimit limit) (ntdInit g c already starts)
  obtain ⟨G, inv⟩ := ntd_inv (bp := True) hg ht (fun _ => ⟨hb, _, _, hst⟩) hs
  have hr' : repsOf (runMachine (ntdStep g c) fuel (prepareLimit limit)
      (ntdInit g c already starts)).events = before ++ r :: after := hr
  obtain ⟨n, hat, hd⟩ := inv.reps r (by rw [hr']; simp)
  obtain ⟨p, h1, h2⟩ := hat.path trivial
  refine ⟨p, h2.1, h2.2.1, h2.2.2.last, fun h => ?_, fun h => ?_, fun r' hm => ?_⟩
  · rw [hd, if_pos h, ← h1]
  · rw [hd, if_neg (by simp [h])]
  · rcases List.mem_cons.1 hm with rfl | hm
    · exact h2.2.2.shows hst.mo hst.lo
    · have := inv.later trivial
      rw [hr', List.pairwise_append] at this
      have := (List.pairwise_cons.1 this.2.1).1 r' hm p h2
      exact this.2.2.shows hst.mo hst.lo

/-- **C07, final state.** The paths of all reported vertices are still the same when the traversal has ended. -/
theorem C07_ntd_paths_final (hg : g.so.Lawful) (ht : c.isTree = false) (hb : c.buildPaths = true)
    {validV : V → Prop} {validL : L → Prop} (already : S) (starts : List V)
    (hst : Storable g c.toTravCfg starts validV validL) (limit : Option Int) (fuel : Nat)
    (hdone : (ntdRun g c already starts limit fuel).ending = .done) :
    let run := ntdRun g c already starts limit fuel
    ∀ r ∈ run.reports, ∃ p : SPath V L,
      ShowsPath (pathsView g.mo g.lo c.vid r.preds r.labels) r.vertex p ∧
      ShowsPath (pathsView g.mo g.lo c.vid run.final.preds run.final.labels) r.vertex p := by
  intro run r hr
  obtain ⟨s, hs, he⟩ := run_reaches (ntdStep g c) fuel (prepareLimit limit) (ntdInit g c already starts)
  unfold ntdRun at hdone
  rw [hdone] at he
  obtain ⟨G, inv⟩ := ntd_inv (bp := True) hg ht (fun _ => ⟨hb, _, _, hst⟩) hs
  have hstop := ntd_inv_step hg ht (fun _ => ⟨hb, _, _, hst⟩) inv
  simp only at he
  rw [he] at hstop
  have hfin : run.final = s := hstop.1
  obtain ⟨n, hat, -⟩ := inv.reps r hr
  obtain ⟨p, -, h2⟩ := hat.path trivial
  refine ⟨p, h2.2.2.shows hst.mo hst.lo, ?_⟩
  rw [hfin]
  exact (inv.keep trivial r hr p h2).2.2.shows hst.mo hst.lo

/-- **C07, without paths.** Whether or not paths are built, with `compute_depth` the depth of a report is the number of
edges of a walk from a start vertex to the vertex. -/
theorem C07_ntd_depth_walk (hg : g.so.Lawful) (ht : c.isTree = false) (hd : c.computeDepth = true) (already : S)
    (starts : List V) (limit : Option Int) (fuel : Nat) :
    ∀ r ∈ (ntdRun g c already starts limit fuel).reports, ∃ n : Nat, r.depth = n ∧ 0 < n ∧
      WalkN (Allowed c.next c.vid (fun k => g.so.contains already k = true)) (· ∈ starts) n r.vertex := by
  intro r hr
  obtain ⟨s, hs, -⟩ := run_reaches (ntdStep g c) fuel (prepareLimit limit) (ntdInit g c already starts)
  obtain ⟨G, inv⟩ := ntd_inv (bp := False) hg ht ntdPathsOk_false hs
  obtain ⟨n, h1, h2⟩ := inv.reps r hr
  exact ⟨n + 1, by rw [h2, if_pos hd], Nat.succ_pos _, h1.walk⟩

/-- **C65.** The reports come in the documented order: for each vertex first its new neighbors in the given order, then
what is found from them, beginning with the neighbor reported last; start vertices are explored beginning with the last
one. With `compute_depth`, the depths are those of this order. This holds for the complete sequence of reports if the
traversal ends, and otherwise for the part reported so far. -/
theorem C65_ntd_order (hg : g.so.Lawful) (ht : c.isTree = false) (already : S) (alreadyIds : List K)
    (ha : ∀ k, g.so.contains already k = true ↔ k ∈ alreadyIds) (starts : List V) (hs0 : starts ≠ [])
    (limit : Option Int) (fuel : Nat) :
    let run := ntdRun g c already starts limit fuel
    ∃ reps seen', NeighborsThenDepth (fun v => (c.next v).map Prod.fst) c.vid (decide (run.ending = .done)) 0
        (starts.map c.vid ++ alreadyIds) starts.reverse reps seen' ∧
      run.reports.map (fun r => r.vertex) = reps.map Prod.fst ∧
      (c.computeDepth = true → run.reports.map (fun r => r.depth) = reps.map (fun p => (p.2 : Int))) := by
  intro run
  obtain ⟨s, hs, he⟩ := run_reaches (ntdStep g c) fuel (prepareLimit limit) (ntdInit g c already starts)
  obtain ⟨G, seen, rs, inv⟩ := ntd_order hg ht alreadyIds ha hs
  have hstack : ∃ n, NtdStack c.nb c.vid n (decide (run.ending = .done))
      (starts.reverse.map (fun v => (v, 0)) ++ []) (starts.map c.vid ++ alreadyIds) rs := by
    rw [List.append_nil]
    by_cases hd : run.ending = .done
    · have hd' : (runMachine (ntdStep g c) fuel (prepareLimit limit) (ntdInit g c already starts)).ending = .done := hd
      rw [hd'] at he
      have := ntd_order_step hg ht inv
      simp only at he
      rw [he] at this
      simpa [hd] using this.2
    · simp only [hd, decide_false]
      have hcont := inv.cont
      cases hp : s.pc with
      | loop =>
        rw [hp] at hcont
        simpa using hcont 0 false [] .cut
      | edges u es =>
        rw [hp] at hcont
        obtain ⟨d, -, -, h⟩ := hcont
        simpa using h [] List.nil_prefix
  obtain ⟨n, hstack⟩ := hstack
  have hv : run.reports.map (fun r => r.vertex) = rs.map Prod.fst := inv.verts
  have hdp : c.computeDepth = true → run.reports.map (fun r => r.depth) = rs.map (fun p => (p.2 : Int)) := inv.depths
  rcases NtdStack.split _ _ _ _ _ _ _ hstack with ⟨hb, -, s', h1⟩ | ⟨m, R1, R2, s1, -, rfl, h1, h2⟩
  · rw [hb]
    exact ⟨rs, s', h1, inv.verts, inv.depths⟩
  · by_cases hd : run.ending = .done
    · simp only [hd, decide_true] at h2 ⊢
      cases h2
      rw [List.append_nil] at hv hdp
      exact ⟨R1, s1, h1, hv, hdp⟩
    · simp only [hd, decide_false] at h2 ⊢
      cases h2
      rw [List.append_nil] at hv hdp
      refine ⟨R1, s1, h1.cut (by simpa using hs0), hv, hdp⟩

/-- **C05 for this traversal** (instance of the theorem for all machines). -/
theorem C05_ntd (already : S) (starts : List V) (fuel : Nat) (k : Nat) :
    let unlimited := ntdRun g c already starts none fuel
    let limited := ntdRun g c already starts (some k) fuel
    (expsOf unlimited.events ≤ k → limited = unlimited) ∧
    (k < expsOf unlimited.events →
      limited.events = beforeExp k unlimited.events ∧ limited.ending = .raised .runtimeError) ∧
    expsOf limited.events ≤ k :=
  let h := C05_limit_exact (ntdStep g c) fuel (ntdInit g c already starts) k
  ⟨h.1, h.2, C05_reads_at_most (ntdStep g c) fuel (ntdInit g c already starts) k⟩

/-- **C51.** A first complete run from `starts1`, then a complete run from `starts2` that is given the `visited` of the
first one: the second run reports no id that the first run reported or started from, and an id is a start or reported in
one of the two runs iff it is one of a vertex reachable from `starts1 ++ starts2`. -/
theorem C51_ntd_already_visited (hg : g.so.Lawful) (ht : c.isTree = false)
    (hc : Compat (Edge c.next) c.vid) (starts1 starts2 : List V) (fuel1 fuel2 : Nat) (lim1 lim2 : Option Int) :
    let run1 := ntdRun g c g.so.empty starts1 lim1 fuel1
    let run2 := ntdRun g c run1.final.visited starts2 lim2 fuel2
    run1.ending = .done → run2.ending = .done →
    (∀ r2 ∈ run2.reports, c.vid r2.vertex ∉ starts1.map c.vid ∧
      ∀ r1 ∈ run1.reports, c.vid r1.vertex ≠ c.vid r2.vertex) ∧
    (∀ k, (∃ v, Reachable (Edge c.next) (· ∈ starts1 ++ starts2) v ∧ c.vid v = k) ↔
      k ∈ (starts1 ++ starts2).map c.vid ∨ (∃ r ∈ run1.reports, c.vid r.vertex = k) ∨
      ∃ r ∈ run2.reports, c.vid r.vertex = k) := by
  intro run1 run2 h1 h2
  have C1 := C06_ntd_complete g c hg ht hc g.so.empty starts1 lim1 fuel1 h1
  have C2 := C06_ntd_complete g c hg ht hc run1.final.visited starts2 lim2 fuel2 h2
  have O2 := C06_ntd_once g c hg ht run1.final.visited starts2 lim2 fuel2
  have hE := bfsE_empty g c.toTravCfg hg
  unfold bfsE at hE
  have D1 : ∀ r ∈ run1.reports, Reachable (Edge c.next) (· ∈ starts1) r.vertex := fun r hr => by
    have := (C06_ntd_once g c hg ht g.so.empty starts1 lim1 fuel1).1 r hr
    rwa [hE] at this
  have V1 : ∀ k, g.so.contains run1.final.visited k = true ↔
      k ∈ starts1.map c.vid ∨ ∃ r ∈ run1.reports, c.vid r.vertex = k := by
    intro k; rw [C1.2 k]; simp [hg.contains_empty, run1]
  refine ⟨fun r2 hr2 => ?_, fun k => ⟨?_, ?_⟩⟩
  · have hn := (O2.2.2 r2 hr2).2
    constructor
    · intro hm
      rw [(V1 _).2 (.inl hm)] at hn; simp at hn
    · intro r1 hr1 e
      rw [(V1 _).2 (.inr ⟨r1, hr1, e⟩)] at hn; simp at hn
  · rintro ⟨v, hv, rfl⟩
    have key : (∃ v', Reachable (Edge c.next) (· ∈ starts1) v' ∧ c.vid v' = c.vid v) ∨
        ∃ v', Reachable (Allowed c.next c.vid (fun k => g.so.contains run1.final.visited k = true))
          (· ∈ starts2) v' ∧ c.vid v' = c.vid v := by
      refine Reachable.induct (P := fun v =>
        (∃ v', Reachable (Edge c.next) (· ∈ starts1) v' ∧ c.vid v' = c.vid v) ∨
        ∃ v', Reachable (Allowed c.next c.vid (fun k => g.so.contains run1.final.visited k = true))
          (· ∈ starts2) v' ∧ c.vid v' = c.vid v) ?_ ?_ hv
      · intro v hv
        rcases List.mem_append.1 hv with h | h
        · exact .inl ⟨v, .start h, rfl⟩
        · exact .inr ⟨v, .start h, rfl⟩
      · rintro u w - (⟨u', hu', e⟩ | ⟨u', hu', e⟩) huw
        · obtain ⟨w', hw', e'⟩ := hc u u' w e.symm huw
          exact .inl ⟨w', hu'.step hw', e'⟩
        · obtain ⟨w', hw', e'⟩ := hc u u' w e.symm huw
          by_cases hvis : g.so.contains run1.final.visited (c.vid w') = true
          · left
            rcases (V1 _).1 hvis with h | ⟨r, hr, h⟩
            · obtain ⟨x, hx, hxe⟩ := List.mem_map.1 h
              exact ⟨x, .start hx, hxe.trans e'⟩
            · exact ⟨r.vertex, D1 r hr, h.trans e'⟩
          · exact .inr ⟨w', hu'.step ⟨hw', hvis⟩, e'⟩
    rcases key with ⟨v', hv', e⟩ | ⟨v', hv', e⟩
    · rw [← e]
      rcases C1.1 v' (by rw [hE]; exact hv') with h | h
      · left; rw [List.map_append]; exact List.mem_append_left _ h
      · exact .inr (.inl h)
    · rw [← e]
      rcases C2.1 v' hv' with h | h
      · left; rw [List.map_append]; exact List.mem_append_right _ h
      · exact .inr (.inr h)
  · rintro (h | ⟨r, hr, rfl⟩ | ⟨r, hr, rfl⟩)
    · obtain ⟨v, hv, rfl⟩ := List.mem_map.1 h
      exact ⟨v, .start hv, rfl⟩
    · refine ⟨r.vertex, ?_, rfl⟩
      refine Reachable.induct (E := Edge c.next) (S := (· ∈ starts1)) ?_ ?_ (D1 r hr)
      · exact fun v hv => .start (List.mem_append_left _ hv)
      · exact fun u v _ hu he => hu.step he
    · refine ⟨r.vertex, ?_, rfl⟩
      refine Reachable.induct (S := (· ∈ starts2)) ?_ ?_ (O2.1 r hr)
      · exact fun v hv => .start (List.mem_append_right _ hv)
      · exact fun u v _ hu he => hu.step he.1

/-- **C52 for this traversal.** If the reachable part of the graph is a forest rooted at the start vertices, then with
`is_tree=True` the traversal makes the same reports (vertex, depth, and stored paths) as with `is_tree=False`, and ends
in the same way. -/
theorem C52_ntd_tree (hg : g.so.Lawful) (ht : c.isTree = false) (starts : List V)
    (hf : IsForest c.next c.vid starts) (limit : Option Int) (fuel : Nat) :
    let general := ntdRun g c g.so.empty starts limit fuel
    let tree := ntdRun g { c with isTree := true } g.so.empty starts limit fuel
    tree.reports.map (fun r => (r.vertex, r.depth, r.preds, r.labels)) =
      general.reports.map (fun r => (r.vertex, r.depth, r.preds, r.labels)) ∧
    tree.ending = general.ending := by
  intro general tree
  obtain ⟨h1, h2⟩ := ntd_tree_sim (M := M) (ML := ML) hg ht hf fuel (prepareLimit limit)
  refine ⟨?_, h2⟩
  exact forall₂_map_eq (repsOf_forall₂ h1) (fun a b h => by rw [h.1, h.2.1, h.2.2.1, h.2.2.2])

/-- **C39 for this traversal.** With any two gears that can store the reachable vertices and labels, and already visited
sets with the same content, it makes the same reports: the same vertices and depths in the same order, with the same
content of `visited`, of the predecessors and of the edge labels at each report; and it ends in the same way. -/
theorem C39_ntd_gear_independent {S' M' ML' : Type} (g' : TravGear V K L S' M' ML') (hg : g.so.Lawful)
    (hg' : g'.so.Lawful) {validV validV' : V → Prop} {validL validL' : L → Prop} (starts : List V)
    (hst : Storable g c.toTravCfg starts validV validL) (hst' : Storable g' c.toTravCfg starts validV' validL')
    (already : S) (already' : S') (ha : ∀ k, g.so.contains already k = g'.so.contains already' k)
    (limit : Option Int) (fuel : Nat) :
    let run := ntdRun g c already starts limit fuel
    let run' := ntdRun g' c already' starts limit fuel
    run.reports.map (fun r => (r.vertex, r.depth)) = run'.reports.map (fun r => (r.vertex, r.depth)) ∧
    List.Forall₂ (fun r r' => ∀ k, g.so.contains r.visited k = g'.so.contains r'.visited k ∧
      g.mo.get? r.preds k = g'.mo.get? r'.preds k ∧ g.lo.get? r.labels k = g'.lo.get? r'.labels k)
      run.reports run'.reports ∧
    run.ending = run'.ending := by
  intro run run'
  obtain ⟨h1, h2, -⟩ := ntd_gear_sim hg hg' hst hst' already already' ha fuel (prepareLimit limit)
  have h3 := repsOf_forall₂ h1
  refine ⟨forall₂_map_eq h3 (fun a b h => by rw [h.1, h.2.1]), ?_, h2⟩
  exact h3.imp (fun a b h k => ⟨h.2.2.1 k, h.2.2.2.1 k, h.2.2.2.2 k⟩)

/-! ## Non-vacuity (graph `exNext`, gears `exHash` and `exBits`: see `Verif/Props/Bfs.lean` and `BfsModes.lean`, where
the hypotheses about gears, ids, storability and finiteness are shown for them; `exTree` is a forest) -/

/-- Neighbors 1 and 2 of 0 first, then from the last reported neighbor 2. -/
example : ((ntdRun exHash ⟨exCfg true, true⟩ [] [0] none 100).reports.map (fun r => (r.vertex, r.depth)),
    (ntdRun exHash ⟨exCfg true, true⟩ [] [0] none 100).ending) =
    ([(1, 1), (2, 1), (3, 2), (4, 3)], .done) := by decide

/-- Depth first shows in a tree: 5 (below 2) before 3 and 4 (below 1); and the depth goes down again. -/
example : (ntdRun exBits ⟨⟨exTree, id, false, true⟩, true⟩ [] [0] none 100).reports.map (fun r => (r.vertex, r.depth,
      ((pathsView exBits.mo exBits.lo id r.preds r.labels).iterLabeledEdgesFromStart 9 r.vertex).1)) =
    [(1, 1, [(0, 1, 'a')]), (2, 1, [(0, 2, 'b')]), (5, 2, [(0, 2, 'b'), (2, 5, 'e')]),
     (3, 2, [(0, 1, 'a'), (1, 3, 'c')]), (4, 2, [(0, 1, 'a'), (1, 4, 'd')])] := by decide

/-- Without `compute_depth`, the depth is -1. -/
example : (ntdRun exHash ⟨exCfg false, false⟩ [] [5, 0] none 100).reports.map (fun r => (r.vertex, r.depth)) =
    [(1, -1), (2, -1), (3, -1), (4, -1), (6, -1)] := by decide

/-- C51 is not vacuous. -/
example :
    let run1 := ntdRun exHash ⟨exCfg false, true⟩ [] [0] none 100
    let run2 := ntdRun exHash ⟨exCfg false, true⟩ run1.final.visited [5] none 100
    run1.ending = .done ∧ run2.ending = .done ∧ run2.reports.map (fun r => r.vertex) = [6] := by decide

end NoGraphs
