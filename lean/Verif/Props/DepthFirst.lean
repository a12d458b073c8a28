import Verif.Proofs.DfsSim
import Verif.Props.BfsModes

/-! # Properties of depth-first search without trace: C08, C09, C54; C05 and C51 for it

The recursive depth-first search is defined in `Verif/Spec/Dfs.lean`, on the graph alone. `starts.map SPath.single`
are the paths the search has to handle: the start vertices, each as path without edges. `c.reported q` says whether
the event of entering the path `q` has been requested, and `c.prune` when the consumer prunes the search by
`skip_expanding_entered_vertex`. -/

set_option linter.unusedSectionVars false

namespace NoGraphs

open Spec

variable {V K L S M ML : Type} [DecidableEq V] [DecidableEq K]
variable (g : TravGear V K L S M ML) (c : DfsCfg V K L)

theorem dfsPathsOk_false (starts : List V) : DfsPathsOk g c False starts := fun h => h.elim

/-- The state behind a run. -/
theorem dfs_run {bp : Prop} (hg : g.so.Lawful) (ht : c.isTree = false) {starts : List V}
    (hp : DfsPathsOk g c bp starts) (already : S) (limit : Option Int) (fuel : Nat) :
    let run := dfsRun g c already starts limit fuel
    ∃ s G outs q, DfsInv g c bp already starts run.events s G outs q ∧
      (run.ending = .done → s.pc = .start ∧ s.starts = [] ∧ run.final = { s with selfDepth := -1 }) := by
  intro run
  obtain ⟨s, hs, he⟩ := run_reaches (dfsStep g c) fuel (prepareLimit limit) (dfsInit g c already starts)
  obtain ⟨G, outs, q, inv⟩ := dfs_inv hg ht hp hs
  refine ⟨s, G, outs, q, inv, fun hd => ?_⟩
  have hd' : (runMachine (dfsStep g c) fuel (prepareLimit limit) (dfsInit g c already starts)).ending = .done := hd
  rw [hd'] at he
  replace he : dfsStep g c s = .stop run.final := he
  have hst := inv.step hg ht hp
  unfold dfsStep at he
  split at he
  · split at he
    · simp only [Step.stop.injEq] at he
      exact ⟨by assumption, by assumption, he.symm⟩
    · simp at he
  · dsimp only at he
    split at he
    · simp at he
    · rw [ht] at he
      simp only [Bool.false_eq_true, if_false] at he
      split at he
      · simp at he
      · unfold dfsEnter at he
        dsimp only at he
        split at he <;> split at he <;> simp at he
  · dsimp only at he
    split at he <;> simp at he
  · simp at he
  · split at he <;> simp at he

/-- What a complete run has entered. -/
theorem dfs_run_done {bp : Prop} (hg : g.so.Lawful) (ht : c.isTree = false) {starts : List V}
    (hp : DfsPathsOk g c bp starts) (already : S) (limit : Option Int) (fuel : Nat)
    (hdone : (dfsRun g c already starts limit fuel).ending = .done) :
    let run := dfsRun g c already starts limit fuel
    ∃ outs, DfsOut c.next c.vid c.prune (fun k => g.so.contains already k = true) 0 (starts.map SPath.single) outs
        (fun k => g.so.contains run.final.visited k = true) outs.length ∧
      List.Forall₂ (DfsMatch g c bp starts) run.reports (outs.filter c.reported) ∧
      ∀ q ∈ outs, GPath c.next starts q := by
  intro run
  obtain ⟨s, G, outs, q, inv, hf⟩ := dfs_run g c hg ht hp already limit fuel
  obtain ⟨h1, h2, h3⟩ := hf hdone
  refine ⟨outs, ?_, inv.reps, inv.gpath.2⟩
  have hi : dfsItems c s G q = [] := by simp [dfsItems, h1, h2]
  have := (inv.cont c.prune (fun _ _ _ => rfl) outs (fun k => g.so.contains s.visited k = true) outs.length).2
    ⟨[], by simp, by rw [hi]; exact DfsOut.nil_iff.2 ⟨rfl, rfl, rfl⟩⟩
  rw [show run.final = _ from h3]
  exact this

theorem dfsMatch_map {bp : Prop} {starts : List V} {rs : List (DfsReport V S M ML)} {qs : List (SPath V L)}
    (h : List.Forall₂ (DfsMatch g c bp starts) rs qs) :
    rs.map (fun r => (r.vertex, r.event)) = qs.map (fun q => (q.last, enterEvent q)) := by
  induction h with
  | nil => rfl
  | cons h _ ih => rw [List.map_cons, List.map_cons, ih, h.vertex, h.event]

theorem dfsMatch_depth {bp : Prop} (hd : c.computeDepth = true) {starts : List V} {rs : List (DfsReport V S M ML)}
    {qs : List (SPath V L)} (h : List.Forall₂ (DfsMatch g c bp starts) rs qs) :
    rs.map (fun r => (r.vertex, r.depth)) = qs.map (fun q => (q.last, (q.steps.length : Int))) := by
  induction h with
  | nil => rfl
  | cons h _ ih => rw [List.map_cons, List.map_cons, ih, h.vertex, h.depth hd]

theorem forall₂_mem {α β : Type} {R : α → β → Prop} {l : List α} {l' : List β} (h : List.Forall₂ R l l') {a : α}
    (ha : a ∈ l) : ∃ b ∈ l', R a b := by
  induction h with
  | nil => simp at ha
  | cons h _ ih =>
    rcases List.mem_cons.1 ha with rfl | ha
    · exact ⟨_, List.mem_cons_self, h⟩
    · obtain ⟨b, hb, hr⟩ := ih ha
      exact ⟨b, List.mem_cons_of_mem _ hb, hr⟩

theorem forall₂_mem' {α β : Type} {R : α → β → Prop} {l : List α} {l' : List β} (h : List.Forall₂ R l l') {b : β}
    (hb : b ∈ l') : ∃ a ∈ l, R a b := by
  induction h with
  | nil => simp at hb
  | cons h _ ih =>
    rcases List.mem_cons.1 hb with rfl | hb
    · exact ⟨_, List.mem_cons_self, h⟩
    · obtain ⟨a, ha, hr⟩ := ih hb
      exact ⟨a, List.mem_cons_of_mem _ ha, hr⟩

/-! ## C08 -/

/-- **C08, complete runs.** When a depth-first traversal ends (with any limit), the recursive search with the same
start vertices, already visited ids and pruning also ends. The traversal has reported the vertices that the recursive
search entered, in the same order, with the events that tell whether a vertex has been entered as start vertex or
not (restricted to the requested events); and it has visited the same ids. -/
theorem C08_dfs_order (hg : g.so.Lawful) (ht : c.isTree = false) (already : S) (starts : List V)
    (limit : Option Int) (fuel : Nat) (hdone : (dfsRun g c already starts limit fuel).ending = .done) :
    let run := dfsRun g c already starts limit fuel
    ∃ acts vis' n', Dfs c.next c.vid .tree c.prune (fun k => g.so.contains already k = true) 0
        (starts.map SPath.single) acts vis' n' ∧
      run.reports.map (fun r => (r.vertex, r.event)) =
        ((entered acts).filter c.reported).map (fun q => (q.last, enterEvent q)) ∧
      ∀ k, g.so.contains run.final.visited k = true ↔ vis' k := by
  intro run
  obtain ⟨outs, ⟨acts, h1, rfl⟩, h2, -⟩ :=
    dfs_run_done g c hg ht (dfsPathsOk_false g c starts) already limit fuel hdone
  exact ⟨acts, _, _, h1, dfsMatch_map g c h2, fun k => Iff.rfl⟩

/-- **C08, at each moment.** Also for infinite graphs, and at each moment of a run: what has been reported are the
first vertices a recursive depth-first search enters. Here, to have a search that ends, the recursive search is
stopped after `N` entered vertices: it prunes at all further ones. The vertices reported are those of the first `N`
ones whose event was requested. -/
theorem C08_dfs_prefix (hg : g.so.Lawful) (ht : c.isTree = false) (already : S) (starts : List V)
    (limit : Option Int) (fuel : Nat) :
    let run := dfsRun g c already starts limit fuel
    ∃ N acts vis' n', Dfs c.next c.vid .tree (fun n st => c.prune n st || decide (N ≤ n))
        (fun k => g.so.contains already k = true) 0 (starts.map SPath.single) acts vis' n' ∧
      N ≤ (entered acts).length ∧
      run.reports.map (fun r => (r.vertex, r.event)) =
        (((entered acts).take N).filter c.reported).map (fun q => (q.last, enterEvent q)) := by
  intro run
  obtain ⟨s, G, outs, q, inv, -⟩ := dfs_run g c hg ht (dfsPathsOk_false g c starts) already limit fuel
  obtain ⟨acts, vis', n', h1, -⟩ := Spec.Dfs.exists_of_bound (next := c.next) (vid := c.vid) (rule := .tree)
    (prune := fun n st => c.prune n st || decide (outs.length ≤ n)) outs.length
    (by intro n st h; simp [h]) (fun k => g.so.contains already k = true) 0 (starts.map SPath.single)
  obtain ⟨o, h2, -⟩ := (inv.cont (fun n st => c.prune n st || decide (outs.length ≤ n))
    (by intro n st h; simp; omega) (entered acts) vis' n').1 ⟨acts, h1, rfl⟩
  refine ⟨outs.length, acts, vis', n', h1, by rw [h2]; simp, ?_⟩
  rw [h2, List.take_left]
  exact dfsMatch_map g c inv.reps

/-- **C08, once.** At each moment of a run, no id has been reported twice. What has been reported is reachable by edges
to vertices that were not already visited, and was not already visited itself. -/
theorem C08_dfs_once (hg : g.so.Lawful) (ht : c.isTree = false) (already : S) (starts : List V)
    (limit : Option Int) (fuel : Nat) :
    let run := dfsRun g c already starts limit fuel
    (run.reports.map (fun r => c.vid r.vertex)).Nodup ∧
    ∀ r ∈ run.reports, ¬ g.so.contains already (c.vid r.vertex) = true ∧
      Reachable (Allowed c.next c.vid (fun k => g.so.contains already k = true))
        (fun v => v ∈ starts ∧ ¬ g.so.contains already (c.vid v) = true) r.vertex := by
  intro run
  obtain ⟨s, G, outs, q, inv, -⟩ := dfs_run g c hg ht (dfsPathsOk_false g c starts) already limit fuel
  obtain ⟨acts, vis', n', h1, -⟩ := Spec.Dfs.exists_of_bound (next := c.next) (vid := c.vid) (rule := .tree)
    (prune := fun n st => c.prune n st || decide (outs.length ≤ n)) outs.length
    (by intro n st h; simp [h]) (fun k => g.so.contains already k = true) 0 (starts.map SPath.single)
  obtain ⟨o, h2, -⟩ := (inv.cont (fun n st => c.prune n st || decide (outs.length ≤ n))
    (by intro n st h; simp; omega) (entered acts) vis' n').1 ⟨acts, h1, rfl⟩
  obtain ⟨-, h4, h5, -⟩ := Spec.Dfs.visited ⟨acts, h1, rfl⟩
  rw [h2] at h4 h5
  have hm := dfsMatch_map g c inv.reps
  constructor
  · have : run.reports.map (fun r => c.vid r.vertex) = (outs.filter c.reported).map (fun q => c.vid q.last) := by
      have := congrArg (List.map (fun x : V × DfsEvent => c.vid x.1)) hm
      simpa [RunResult.reports, List.map_map, Function.comp_def] using this
    rw [this]
    rw [List.map_append] at h4
    exact (h4.of_append_left).sublist (List.Sublist.map _ List.filter_sublist)
  · intro r hr
    obtain ⟨q, hq, hmt⟩ := forall₂_mem inv.reps hr
    have hq' := (List.mem_filter.1 hq).1
    rw [hmt.vertex]
    exact ⟨h5 q (List.mem_append_left _ hq'), inv.reach.2 q hq'⟩

/-- **C08, completeness.** When a depth-first traversal ends, and the consumer has not pruned it, and the event
`ENTERING_SUCCESSOR` is requested: each reachable vertex is reported, up to those with the id of a start vertex. If
also `ENTERING_START` is requested, each reachable vertex is reported. (By `C08_dfs_once`, exactly once.) -/
theorem C08_dfs_complete (hg : g.so.Lawful) (ht : c.isTree = false) (hc : Compat (Edge c.next) c.vid)
    (hskip : ∀ n, c.skip n = false) (hsucc : c.reportSucc = true) (already : S) (starts : List V)
    (limit : Option Int) (fuel : Nat) (hdone : (dfsRun g c already starts limit fuel).ending = .done) (v : V)
    (hv : Reachable (Allowed c.next c.vid (fun k => g.so.contains already k = true))
      (fun v => v ∈ starts ∧ ¬ g.so.contains already (c.vid v) = true) v)
    (hst : c.reportStart = true ∨ c.vid v ∉ starts.map c.vid) :
    ∃ r ∈ (dfsRun g c already starts limit fuel).reports, c.vid r.vertex = c.vid v := by
  obtain ⟨outs, h1, h2, h3⟩ :=
    dfs_run_done g c hg ht (dfsPathsOk_false g c starts) already limit fuel hdone
  have hp : c.prune = noPrune := by funext n st; simp [DfsCfg.prune, hskip, noPrune]
  rw [hp] at h1
  obtain ⟨q, hq, e⟩ := h1.complete hc hv
  have : q ∈ outs.filter c.reported := by
    refine List.mem_filter.2 ⟨hq, ?_⟩
    unfold DfsCfg.reported
    split
    · rename_i hs
      rcases hst with h | h
      · exact h
      · exfalso
        have h4 := (h3 q hq).1
        rw [SPath.isStart_iff] at hs
        rw [hs] at h4
        exact h (e ▸ List.mem_map_of_mem h4)
    · exact hsucc
  obtain ⟨r, hr, hm⟩ := forall₂_mem' h2 this
  exact ⟨r, hr, by rw [hm.vertex, e]⟩

/-- **C08, termination.** If finitely many ids can be reached, the traversal ends, and without limit it does not raise
an exception. -/
theorem C08_dfs_terminates (hg : g.so.Lawful) (ht : c.isTree = false) (already : S) (starts : List V)
    (hfin : ∃ ids : List K, ∀ v, Reachable (Allowed c.next c.vid (fun k => g.so.contains already k = true))
      (fun v => v ∈ starts ∧ ¬ g.so.contains already (c.vid v) = true) v → c.vid v ∈ ids) :
    ∃ N, ∀ fuel, N ≤ fuel → (∀ limit, (dfsRun g c already starts limit fuel).ending ≠ .outOfFuel) ∧
      (dfsRun g c already starts none fuel).ending = .done := by
  obtain ⟨N, h⟩ := dfs_terminates hg ht (dfsPathsOk_false g c starts) hfin
  refine ⟨N, fun fuel hf => ⟨fun limit => h fuel hf _, ?_⟩⟩
  have h1 := h fuel hf none
  cases he : (dfsRun g c already starts none fuel).ending with
  | done => rfl
  | outOfFuel => exact absurd he h1
  | raised e =>
    obtain ⟨hr, hf'⟩ := run_raised (dfsStep g c) fuel (dfsInit g c already starts) he
    exact absurd hf' (dfs_no_fail hg ht (dfsPathsOk_false g c starts) e hr)

/-! ## C09 -/

/-- **C09, depth.** With `compute_depth`, at each report the depth is the number of edges of the path by which the
recursive search has entered the vertex. -/
theorem C09_dfs_depth (hg : g.so.Lawful) (ht : c.isTree = false) (hd : c.computeDepth = true) (already : S)
    (starts : List V) (limit : Option Int) (fuel : Nat)
    (hdone : (dfsRun g c already starts limit fuel).ending = .done) :
    let run := dfsRun g c already starts limit fuel
    ∃ acts vis' n', Dfs c.next c.vid .tree c.prune (fun k => g.so.contains already k = true) 0
        (starts.map SPath.single) acts vis' n' ∧
      run.reports.map (fun r => (r.vertex, r.depth)) =
        ((entered acts).filter c.reported).map (fun q => (q.last, (q.steps.length : Int))) := by
  intro run
  obtain ⟨outs, ⟨acts, h1, rfl⟩, h2, -⟩ :=
    dfs_run_done g c hg ht (dfsPathsOk_false g c starts) already limit fuel hdone
  refine ⟨acts, _, _, h1, ?_⟩
  exact dfsMatch_depth g c hd h2

/-- **C09.** With `build_paths`, at each report (of any prefix of any run) the `Paths` object gives for the reported
vertex a path from a start vertex along edges of the graph; with `compute_depth`, its number of edges is the depth.

The predecessor collection is not array based, or there is only one start vertex and no pre-allocation (see
`C54_counterexample`). -/
theorem C09_dfs_paths (hg : g.so.Lawful) (ht : c.isTree = false) (hb : c.buildPaths = true)
    {validV : V → Prop} {validL : L → Prop} (already : S) (starts : List V)
    (hst : Storable g c.toTravCfg starts validV validL)
    (hf : g.mo.Faithful ∨ (starts.length ≤ 1 ∧ ∀ k, g.mo.raw g.mo.empty k = none))
    (limit : Option Int) (fuel : Nat) :
    ∀ r ∈ (dfsRun g c already starts limit fuel).reports,
      ∃ p : SPath V L, p.first ∈ starts ∧ IsPath c.next p.first p.steps ∧ p.verts.getLast? = some r.vertex ∧
        ShowsPath (pathsView g.mo g.lo c.vid r.preds r.labels) r.vertex p ∧
        (c.computeDepth = true → r.depth = p.steps.length) := by
  intro r hr
  have hp : DfsPathsOk g c True starts := fun _ => ⟨hb, ⟨validV, validL, hst⟩, hf⟩
  obtain ⟨s, G, outs, q, inv, -⟩ := dfs_run g c hg ht hp already limit fuel
  obtain ⟨q, hq, hm⟩ := forall₂_mem inv.reps hr
  obtain ⟨⟨h1, h2, h3⟩, -⟩ := hm.paths trivial
  refine ⟨q, h1, h2, by rw [q.verts_getLast, hm.vertex], ?_, hm.depth⟩
  rw [hm.vertex]
  exact h3.shows hst.mo hst.lo

/-- **C09, the paths stay.** When the traversal has ended, the `Paths` object gives for each vertex that has been entered
(reported or not) the path by which the recursive search has entered it. -/
theorem C09_dfs_paths_final (hg : g.so.Lawful) (ht : c.isTree = false) (hb : c.buildPaths = true)
    {validV : V → Prop} {validL : L → Prop} (already : S) (starts : List V)
    (hst : Storable g c.toTravCfg starts validV validL)
    (hf : g.mo.Faithful ∨ (starts.length ≤ 1 ∧ ∀ k, g.mo.raw g.mo.empty k = none))
    (limit : Option Int) (fuel : Nat) (hdone : (dfsRun g c already starts limit fuel).ending = .done) :
    let run := dfsRun g c already starts limit fuel
    ∃ acts vis' n', Dfs c.next c.vid .tree c.prune (fun k => g.so.contains already k = true) 0
        (starts.map SPath.single) acts vis' n' ∧
      ∀ q ∈ entered acts, ShowsPath (pathsView g.mo g.lo c.vid run.final.preds run.final.labels) q.last q := by
  intro run
  have hp : DfsPathsOk g c True starts := fun _ => ⟨hb, ⟨validV, validL, hst⟩, hf⟩
  obtain ⟨s, G, outs, q, inv, h⟩ := dfs_run g c hg ht hp already limit fuel
  obtain ⟨h1, h2, h3⟩ := h hdone
  have hi : dfsItems c s G q = [] := by simp [dfsItems, h1, h2]
  obtain ⟨acts, ha, rfl⟩ := (inv.cont c.prune (fun _ _ _ => rfl) outs (fun k => g.so.contains s.visited k = true)
    outs.length).2 ⟨[], by simp, by rw [hi]; exact DfsOut.nil_iff.2 ⟨rfl, rfl, rfl⟩⟩
  refine ⟨acts, _, _, ha, fun q hq => ?_⟩
  rw [show run.final = _ from h3]
  exact ((inv.paths trivial).stored q hq).1.2.2.shows hst.mo hst.lo

/-! ## C54 -/

/-- **C54 for predecessor collections that are not array based** (or array based ones with one start vertex and no
pre-allocation): when a vertex is reported as entered start vertex, its stored path is the empty one, i.e., it
consists of this vertex. (`C09_dfs_paths_final` says the same about the end of the run, also for start vertices that are
not reported.) Missing for the full claim: array based gears, where it is wrong
(`C54_counterexample`). -/
theorem C54_dfs_start_partial (hg : g.so.Lawful) (ht : c.isTree = false) (hb : c.buildPaths = true)
    {validV : V → Prop} {validL : L → Prop} (already : S) (starts : List V)
    (hst : Storable g c.toTravCfg starts validV validL)
    (hf : g.mo.Faithful ∨ (starts.length ≤ 1 ∧ ∀ k, g.mo.raw g.mo.empty k = none))
    (limit : Option Int) (fuel : Nat) :
    ∀ r ∈ (dfsRun g c already starts limit fuel).reports, r.event = .enteringStart →
      r.vertex ∈ starts ∧
      ShowsPath (pathsView g.mo g.lo c.vid r.preds r.labels) r.vertex (SPath.single r.vertex) := by
  intro r hr he
  have hp : DfsPathsOk g c True starts := fun _ => ⟨hb, ⟨validV, validL, hst⟩, hf⟩
  obtain ⟨s, G, outs, q, inv, -⟩ := dfs_run g c hg ht hp already limit fuel
  obtain ⟨q, hq, hm⟩ := forall₂_mem inv.reps hr
  obtain ⟨⟨h1, h2, h3⟩, -⟩ := hm.paths trivial
  have hs : q.isStart = true := by
    have := hm.event
    rw [he] at this
    unfold enterEvent at this
    split at this
    · assumption
    · simp at this
  have hq1 := (SPath.isStart_iff q).1 hs
  rw [hm.vertex]
  constructor
  · have : q.first = q.last := by rw [hq1]; rfl
    exact this ▸ h1
  · have h4 := h3.shows hst.mo hst.lo
    rwa [← hq1]

/-! ## C05, C51 -/

/-- **C05 for depth-first search.** With a limit `k ≥ 0`, the run is the unlimited one, cut where the edges of the
`k+1`-th vertex would be read; and it reads edges of at most `k` vertices. -/
theorem C05_dfs (already : S) (starts : List V) (k fuel : Nat) :
    let full := dfsRun g c already starts none fuel
    let limited := dfsRun g c already starts (some k) fuel
    (expsOf full.events ≤ k → limited = full) ∧
    (k < expsOf full.events →
      limited.events = beforeExp k full.events ∧ limited.ending = .raised .runtimeError) ∧
    expsOf limited.events ≤ k :=
  let h := C05_limit_exact (dfsStep g c) fuel (dfsInit g c already starts) k
  ⟨h.1, h.2, C05_reads_at_most (dfsStep g c) fuel (dfsInit g c already starts) k⟩

/-- **C51 for depth-first search.** A first complete run from `starts1` is followed by a complete run from `starts2` that
is given the `visited` of the first one. Then a complete run from `starts1 ++ starts2` makes exactly the reports of the
two runs, one after the other, and visits the same ids. -/
theorem C51_dfs_already_visited (hg : g.so.Lawful) (ht : c.isTree = false) (hskip : ∀ n, c.skip n = false)
    (already : S) (starts1 starts2 : List V) (fuel1 fuel2 fuel : Nat) (lim1 lim2 lim : Option Int) :
    let run1 := dfsRun g c already starts1 lim1 fuel1
    let run2 := dfsRun g c run1.final.visited starts2 lim2 fuel2
    let both := dfsRun g c already (starts1 ++ starts2) lim fuel
    run1.ending = .done → run2.ending = .done → both.ending = .done →
    both.reports.map (fun r => (r.vertex, r.event)) =
      run1.reports.map (fun r => (r.vertex, r.event)) ++ run2.reports.map (fun r => (r.vertex, r.event)) ∧
    (c.computeDepth = true → both.reports.map (fun r => r.depth) =
      run1.reports.map (fun r => r.depth) ++ run2.reports.map (fun r => r.depth)) ∧
    ∀ k, g.so.contains both.final.visited k = g.so.contains run2.final.visited k := by
  intro run1 run2 both h1 h2 h3
  obtain ⟨o1, a1, b1, -⟩ := dfs_run_done g c hg ht (dfsPathsOk_false g c starts1) already lim1 fuel1 h1
  obtain ⟨o2, a2, b2, -⟩ := dfs_run_done g c hg ht (dfsPathsOk_false g c starts2) run1.final.visited lim2 fuel2 h2
  obtain ⟨o, a3, b3, -⟩ := dfs_run_done g c hg ht (dfsPathsOk_false g c (starts1 ++ starts2)) already lim fuel h3
  have hp : c.prune = noPrune := by funext n st; simp [DfsCfg.prune, hskip, noPrune]
  rw [hp] at a1 a2 a3
  have a2' := a2.shift o1.length
  rw [Nat.add_zero] at a2'
  have := DfsOut.append_iff.2 ⟨o1, _, _, o2, rfl, a1, a2'⟩
  rw [← List.map_append] at this
  obtain ⟨e1, e2, -⟩ := a3.det this
  subst e1
  rw [List.filter_append] at b3
  refine ⟨?_, ?_, ?_⟩
  · rw [dfsMatch_map g c b3, List.map_append]
    exact congrArg₂ _ (dfsMatch_map g c b1).symm (dfsMatch_map g c b2).symm
  · intro hd
    have key : ∀ {starts : List V} {rs : List (DfsReport V S M ML)} {qs : List (SPath V L)},
        List.Forall₂ (DfsMatch g c False starts) rs qs → rs.map (fun r => r.depth) =
          qs.map (fun q => (q.steps.length : Int)) := by
      intro starts rs qs h
      have := congrArg (List.map Prod.snd) (dfsMatch_depth g c hd h)
      simpa [List.map_map, Function.comp_def] using this
    rw [key b3, List.map_append]
    exact congrArg₂ _ (key b1).symm (key b2).symm
  · intro k
    have := congrFun e2 k
    simp only [eq_iff_iff] at this
    exact Bool.eq_iff_iff.2 this

/-! ## C39, C52 -/

/-- **C39 for depth-first search.** With any two gears and already visited sets with the same content, a depth-first
traversal makes the same reports: the same vertices, depths and events in the same order, with the same content of
`visited` and, if paths are built, of the predecessors and edge labels; and it ends in the same way. If paths are built,
both gears must be able to store the reachable vertices and labels, and both predecessor collections must not be array
based (see `C54_counterexample`). -/
theorem C39_dfs_gear_independent {S' M' ML' : Type} (g' : TravGear V K L S' M' ML') (hg : g.so.Lawful)
    (hg' : g'.so.Lawful) {validV validV' : V → Prop} {validL validL' : L → Prop} (starts : List V)
    (hp : c.buildPaths = true → Storable g c.toTravCfg starts validV validL ∧
      Storable g' c.toTravCfg starts validV' validL' ∧ g.mo.Faithful ∧ g'.mo.Faithful)
    (already : S) (already' : S') (ha : ∀ k, g.so.contains already k = g'.so.contains already' k)
    (limit : Option Int) (fuel : Nat) :
    let run := dfsRun g c already starts limit fuel
    let run' := dfsRun g' c already' starts limit fuel
    run.reports.map (fun r => (r.vertex, r.depth, r.event)) = run'.reports.map (fun r => (r.vertex, r.depth, r.event)) ∧
    List.Forall₂ (fun r r' => ∀ k, g.so.contains r.visited k = g'.so.contains r'.visited k ∧
      (c.buildPaths = true → g.mo.get? r.preds k = g'.mo.get? r'.preds k ∧
        g.lo.get? r.labels k = g'.lo.get? r'.labels k)) run.reports run'.reports ∧
    run.ending = run'.ending := by
  intro run run'
  obtain ⟨h1, h2, -⟩ := dfs_gear_sim hg hg' hp already already' ha fuel (prepareLimit limit)
  refine ⟨?_, ?_, h2⟩
  · exact forall₂_map_eq (repsOf_forall₂ h1) (fun a b h => by rw [h.1, h.2.1, h.2.2.1])
  · exact (repsOf_forall₂ h1).imp (fun a b h k => ⟨h.2.2.2.1 k, fun hb => ⟨(h.2.2.2.2 hb).1 k, (h.2.2.2.2 hb).2 k⟩⟩)

/-- **C52 for depth-first search.** If the reachable part of the graph is a forest rooted at the start vertices, then
with `is_tree=True` the traversal makes the same reports as with `is_tree=False`, and ends in the same way. -/
theorem C52_dfs_tree (hg : g.so.Lawful) (ht : c.isTree = false) (starts : List V)
    (hf : IsForest c.next c.vid starts) (limit : Option Int) (fuel : Nat) :
    let general := dfsRun g c g.so.empty starts limit fuel
    let tree := dfsRun g { c with isTree := true } g.so.empty starts limit fuel
    tree.reports.map (fun r => (r.vertex, r.depth, r.event, r.preds, r.labels)) =
      general.reports.map (fun r => (r.vertex, r.depth, r.event, r.preds, r.labels)) ∧
    tree.ending = general.ending := by
  intro general tree
  obtain ⟨h1, h2⟩ := dfs_tree_sim (M := M) (ML := ML) hg ht hf fuel (prepareLimit limit)
  exact ⟨(forall₂_map_eq (repsOf_forall₂ h1) (fun a b h => by rw [h.1, h.2.1, h.2.2.1, h.2.2.2.1, h.2.2.2.2])).symm,
    h2.symm⟩

/-! ## Non-vacuity -/

theorem dictMap_faithful {K X : Type} [DecidableEq K] : (dictMap : MapOps (K → Option X) K X).Faithful := by
  intro m k x h
  simp only [dictMap] at h ⊢
  cases hm : m k with
  | none => rw [hm] at h; simp at h
  | some y => rfl

theorem listMap_faithful {X : Type} [DecidableEq X] (p : SeqParams (Option X)) (h0 : p.default = none) (pre : Nat) :
    (listMap p pre).Faithful := by
  intro m k x h
  simp only [listMap] at h ⊢
  unfold SeqMap.getItem SeqMap.contains
  simp [h, h0]

/-- The example graph with depths, without pruning. -/
def exDfs (bp start : Bool) : DfsCfg Nat Nat Char :=
  ⟨exCfg bp, true, start, true, fun _ => false⟩

/-- Bit-packed set, list of vertices, list of labels. -/
def exLists : TravGear Nat Nat Char (List Nat) (List (Option Nat)) (List (Option Char)) :=
  ⟨bitSeqSet ⟨0, 2, true⟩ 0, listMap ⟨none, 2, true⟩ 3, listMap ⟨none, 2, true⟩ 0⟩

/-- Depth-first search on the example: out-edges are followed in reverse order. -/
example : ((dfsRun exHash (exDfs true true) [] [0, 5] none 200).reports.map (fun r => (r.vertex, r.depth, r.event)),
    (dfsRun exHash (exDfs true true) [] [0, 5] none 200).ending) =
    ([(0, 0, .enteringStart), (1, 1, .enteringSuccessor), (3, 2, .enteringSuccessor), (4, 3, .enteringSuccessor),
      (2, 1, .enteringSuccessor), (5, 0, .enteringStart), (6, 1, .enteringSuccessor)], .done) := by decide +kernel

/-- The consumer prunes at the second entered vertex. -/
example : (dfsRun exHash { exDfs true true with skip := fun n => n == 1 } [] [0, 5] none 200).reports.map
    (fun r => r.vertex) = [0, 1, 2, 3, 4, 5, 6] := by decide +kernel

/-- The reported paths. -/
example : (dfsRun exLists (exDfs true false) [] [0, 5] none 200).reports.map (fun r => (r.vertex, r.depth,
      ((pathsView exLists.mo exLists.lo id r.preds r.labels).iterLabeledEdgesFromStart 9 r.vertex).1)) =
    [(1, 1, [(0, 1, 'x')]), (3, 2, [(0, 1, 'x'), (1, 3, 'c')]), (4, 3, [(0, 1, 'x'), (1, 3, 'c'), (3, 4, 'f')]),
     (2, 1, [(0, 2, 'b')]), (6, 1, [(5, 6, 'h')])] := by decide +kernel

/-- The hypotheses of the theorems hold for the gears of the examples. -/
example : exHash.so.Lawful ∧ exLists.so.Lawful ∧ exHash.mo.Faithful ∧ exLists.mo.Faithful ∧
    Storable exHash (exDfs true true).toTravCfg [0, 5] (fun _ => True) (fun _ => True) ∧
    Storable exLists (exDfs true true).toTravCfg [0, 5] (fun _ => True) (fun _ => True) :=
  ⟨hashSet_lawful, bitSeqSet_lawful _ rfl (fun _ => by decide) 0, dictMap_faithful, listMap_faithful _ rfl _,
    ⟨dictMap_lawful, dictMap_lawful, fun _ _ => trivial, fun _ _ _ _ => trivial,
      fun s _ t _ h => h⟩,
    ⟨listMap_lawful _ rfl (fun _ => by decide) 3, listMap_lawful _ rfl (fun _ => by decide) 0, fun _ _ => trivial,
      fun _ _ _ _ => trivial, fun s _ t _ h => h⟩⟩

/-- The array based gear can be used with one start vertex. -/
example : Storable exBits (exDfs true true).toTravCfg [0] (fun x => x ≠ 255) (fun _ => True) ∧
    ∀ k, exBits.mo.raw exBits.mo.empty k = none :=
  ⟨⟨arrayMap_lawful _ (fun _ => by decide) 0, listMap_lawful _ rfl (fun _ => by decide) 0,
      fun v hv => by have := exNext_reach hv; omega, fun _ _ _ _ => trivial,
      fun s _ t _ h => h⟩, fun k => by simp [exBits, arrayMap, seqGet]⟩

/-- C08 (termination): the hypothesis holds for the example. -/
example : ∃ ids : List Nat, ∀ v, Reachable (Allowed exNext id (fun k => exHash.so.contains [] k = true))
    (fun v => v ∈ [0] ∧ ¬ exHash.so.contains [] (id v) = true) v → id v ∈ ids := by
  refine ⟨[0, 1, 2, 3, 4], fun v hv => ?_⟩
  have hv' : Reachable (Edge exNext) (· ∈ [0]) v := by
    refine Reachable.induct ?_ ?_ hv
    · exact fun v hv => .start hv.1
    · exact fun u v _ hu he => hu.step he.1
  have := exNext_reach hv'
  have : v = 0 ∨ v = 1 ∨ v = 2 ∨ v = 3 ∨ v = 4 := by omega
  simpa using this

/-- C05: with limit 2 the run raises when the third vertex would be expanded. -/
example : ((dfsRun exHash (exDfs false false) [] [0] (some 2) 100).reports.map (fun r => r.vertex),
    (dfsRun exHash (exDfs false false) [] [0] (some 2) 100).ending) = ([1, 3], .raised .runtimeError) := by
  decide +kernel

/-- C51: all three runs end. -/
example :
    let run1 := dfsRun exHash (exDfs false true) [] [0] none 100
    let run2 := dfsRun exHash (exDfs false true) run1.final.visited [5] none 100
    let both := dfsRun exHash (exDfs false true) [] [0, 5] none 100
    run1.ending = .done ∧ run2.ending = .done ∧ both.ending = .done ∧
      run2.reports.map (fun r => r.vertex) = [5, 6] := by decide +kernel

/-- C52: a binary tree is a forest, and all vertices are reported. -/
example : IsForest exTree (id : Nat → Nat) [0] ∧
    (dfsRun exHash ⟨⟨exTree, id, true, true⟩, true, false, true, fun _ => false⟩ [] [0] none 100).reports.map
      (fun r => (r.vertex, r.depth)) = [(2, 1), (5, 2), (1, 1), (4, 2), (3, 2)] := ⟨exTree_forest, by decide +kernel⟩

/-- **C54 is wrong for array based gears**: two start vertices without edges. When the second one, 0, is entered, no path
is stored for it, although nothing has been stored for this vertex before. The reason: the array has a gap value at
index 0, and the program tests for `None`. The same happens for one start vertex with pre-allocation. -/
theorem C54_counterexample :
    ((dfsRun exBits ⟨⟨fun _ => [], id, false, true⟩, true, true, true, fun _ => false⟩ [] [3, 0] none 100).reports.map
      (fun r => (r.vertex, r.event, (pathsView exBits.mo exBits.lo id r.preds r.labels).contains r.vertex)) =
      [(3, .enteringStart, true), (0, .enteringStart, false)]) ∧
    ((dfsRun { exBits with mo := arrayMap ⟨255, 2, true⟩ 8 } ⟨⟨fun _ => [], id, false, true⟩, true, true, true,
        fun _ => false⟩ [] [3] none 100).reports.map
      (fun r => (r.vertex, r.event, (pathsView (arrayMap ⟨255, 2, true⟩ 8) exBits.lo id r.preds r.labels).contains
        r.vertex)) = [(3, .enteringStart, false)]) := by decide +kernel

end NoGraphs
