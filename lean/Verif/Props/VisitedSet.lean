import Verif.Props.NeighborsThenDepth
import Verif.Props.DepthFirst
import Verif.Props.DepthFirstTrace
import Verif.Props.Topological

/-! # C87: what the set of visited vertices shows at each report

In all theorems, the reports of the run are split at an arbitrary report `r`; `r.visited` is the attribute `visited`
(which is the set given as `already_visited`, if there is one), as the program sees it when it gets this report. -/

set_option linter.unusedSectionVars false

namespace NoGraphs

open Spec

variable {V K L S M ML : Type} [DecidableEq V] [DecidableEq K]
variable (g : TravGear V K L S M ML)

/-- **C87 for breadth-first search.** At each report, `visited` contains exactly the ids that were in it before the start,
those of the start vertices, and those of the vertices reported so far, including the current one. -/
theorem C87_bfs_visited (c : TravCfg V K L) (hg : g.so.Lawful) (ht : c.isTree = false) (hc : Compat (Edge c.next) c.vid)
    (already : S) (starts : List V) (limit : Option Int) (fuel : Nat)
    {before after : List (BfsReport V S M ML)} {r : BfsReport V S M ML}
    (hr : (bfsRun g c already starts limit fuel).reports = before ++ r :: after) :
    ∀ k, g.so.contains r.visited k = true ↔
      g.so.contains already k = true ∨ k ∈ starts.map c.vid ∨ ∃ r' ∈ before ++ [r], c.vid r'.vertex = k := by
  obtain ⟨s, hs, -⟩ := run_reaches (bfsStep g c false) fuel (prepareLimit limit) (bfsInit g c already starts)
  obtain ⟨h1, t, t', ht1, he, hb⟩ := hs.emitted hr
  have hs' : Reaches (bfsStep g c false) (bfsInit g c already starts) (h1 ++ [.rep r]) t' := .emit ht1 he
  obtain ⟨n, inv⟩ := bfs_inv hg ht hc hs'
  have hreps : repsOf (h1 ++ [.rep r]) = before ++ [r] := by simp [hb]
  have hvis : r.visited = t'.visited := by
    unfold bfsStep at he
    split at he
    · split at he <;> simp at he
    · split at he
      · simp at he
      · simp at he
    · simp at he
    · split at he
      · simp at he
      · simp only [Step.emit.injEq] at he
        obtain ⟨rfl, rfl⟩ := he
        rfl
    · simp at he
  intro k
  rw [hvis]
  constructor
  · intro h
    rw [← hreps]
    exact inv.cover k h
  · rintro (h | h | ⟨r', h1, rfl⟩)
    · exact (inv.vis k).2 (.inl h)
    · obtain ⟨v, hv, rfl⟩ := List.mem_map.1 h
      exact (inv.vis _).2 (.inr (.inl ⟨0, v, Nat.zero_le _, .start hv, rfl⟩))
    · rw [← hreps] at h1
      obtain ⟨d, -, -, -, -, h⟩ := inv.reps r' h1
      exact h

/-- **C87 for neighbors-then-depth search.** As for breadth-first search. -/
theorem C87_ntd_visited (c : NtdCfg V K L) (hg : g.so.Lawful) (ht : c.isTree = false)
    (already : S) (starts : List V) (limit : Option Int) (fuel : Nat)
    {before after : List (NtdReport V S M ML)} {r : NtdReport V S M ML}
    (hr : (ntdRun g c already starts limit fuel).reports = before ++ r :: after) :
    ∀ k, g.so.contains r.visited k = true ↔
      g.so.contains already k = true ∨ k ∈ starts.map c.vid ∨ ∃ r' ∈ before ++ [r], c.vid r'.vertex = k := by
  obtain ⟨s, hs, -⟩ := run_reaches (ntdStep g c) fuel (prepareLimit limit) (ntdInit g c already starts)
  obtain ⟨h1, t, t', ht1, he, hb⟩ := hs.emitted hr
  have hs' : Reaches (ntdStep g c) (ntdInit g c already starts) (h1 ++ [.rep r]) t' := .emit ht1 he
  obtain ⟨G, inv⟩ := ntd_inv (bp := False) hg ht ntdPathsOk_false hs'
  have hreps : repsOf (h1 ++ [.rep r]) = before ++ [r] := by simp [hb]
  have hvis : r.visited = t'.visited := by
    unfold ntdStep at he
    split at he
    · split at he
      · simp at he
      · split at he
        · split at he <;> simp at he
        · simp at he
    · simp at he
    · split at he
      · simp at he
      · simp only [Step.emit.injEq] at he
        obtain ⟨rfl, rfl⟩ := he
        rfl
  intro k
  rw [hvis, ← hreps]
  exact inv.vis k

theorem forall₂_exists_right {α β : Type} {R : α → β → Prop} {l : List α} {m : List β} (h : List.Forall₂ R l m) {a : α}
    (ha : a ∈ l) : ∃ b ∈ m, R a b := by
  induction h with
  | nil => simp at ha
  | cons h _ ih =>
    rcases List.mem_cons.1 ha with rfl | ha
    · exact ⟨_, List.mem_cons_self, h⟩
    · obtain ⟨b, hb, hab⟩ := ih ha
      exact ⟨b, List.mem_cons_of_mem _ hb, hab⟩

theorem forall₂_exists_left {α β : Type} {R : α → β → Prop} {l : List α} {m : List β} (h : List.Forall₂ R l m) {b : β}
    (hb : b ∈ m) : ∃ a ∈ l, R a b := by
  obtain ⟨a, ha, hab⟩ := forall₂_exists_right h.flip hb
  exact ⟨a, ha, hab⟩

/-- A report of depth-first search shows the set of the state. -/
theorem dfs_emit_visited {c : DfsCfg V K L} {s s' : DfsState V L S M ML} {r : DfsReport V S M ML}
    (he : dfsStep g c s = .emit r s') : r.visited = s'.visited := by
  have key : ∀ (s : DfsState V L S M ML) v, dfsEnter c s v = .emit r s' → r.visited = s'.visited := by
    intro s v h
    unfold dfsEnter at h
    simp only at h
    split at h
    · split at h
      · simp only [Step.emit.injEq] at h
        obtain ⟨rfl, rfl⟩ := h
        rfl
      · simp at h
    · split at h
      · simp only [Step.emit.injEq] at h
        obtain ⟨rfl, rfl⟩ := h
        rfl
      · simp at h
  unfold dfsStep at he
  split at he
  · split at he <;> simp at he
  · simp only at he
    split at he
    · simp at he
    · split at he
      · exact key _ _ he
      · split at he
        · simp at he
        · exact key _ _ he
  · simp only at he
    split at he <;> simp at he
  · simp at he
  · split at he <;> simp at he

/-- **C87 for depth-first search (without trace).** At each report, `visited` contains the ids that were in it before the
start, and those of the vertices reported so far, including the current one. Further ids in it are only those of start
vertices, and there are none if entering a start vertex is reported, too. -/
theorem C87_dfs_visited (c : DfsCfg V K L) (hg : g.so.Lawful) (ht : c.isTree = false) (hsucc : c.reportSucc = true)
    (already : S) (starts : List V) (limit : Option Int) (fuel : Nat)
    {before after : List (DfsReport V S M ML)} {r : DfsReport V S M ML}
    (hr : (dfsRun g c already starts limit fuel).reports = before ++ r :: after) :
    (∀ k, g.so.contains already k = true ∨ (∃ r' ∈ before ++ [r], c.vid r'.vertex = k) →
      g.so.contains r.visited k = true) ∧
    ∀ k, g.so.contains r.visited k = true → g.so.contains already k = true ∨
      (∃ r' ∈ before ++ [r], c.vid r'.vertex = k) ∨ (c.reportStart = false ∧ k ∈ starts.map c.vid) := by
  obtain ⟨s, hs, -⟩ := run_reaches (dfsStep g c) fuel (prepareLimit limit) (dfsInit g c already starts)
  obtain ⟨h1, t, t', ht1, he, hb⟩ := hs.emitted hr
  have hs' : Reaches (dfsStep g c) (dfsInit g c already starts) (h1 ++ [.rep r]) t' := .emit ht1 he
  obtain ⟨G, outs, q, inv⟩ := dfs_inv (bp := False) hg ht (dfsPathsOk_false g c starts) hs'
  have hreps : repsOf (h1 ++ [.rep r]) = before ++ [r] := by simp [hb]
  have hm := inv.reps
  rw [hreps] at hm
  rw [dfs_emit_visited g he]
  constructor
  · rintro k (h | ⟨r', h1, rfl⟩)
    · exact (inv.vis k).2 (.inl h)
    · obtain ⟨p, hp, hrp⟩ := forall₂_exists_right hm h1
      exact (inv.vis _).2 (.inr (List.mem_map.2 ⟨p, (List.mem_filter.1 hp).1, by rw [hrp.vertex]⟩))
  · intro k h
    rcases (inv.vis k).1 h with h | h
    · exact .inl h
    · obtain ⟨p, hp, rfl⟩ := List.mem_map.1 h
      by_cases hrep : c.reported p = true
      · obtain ⟨r', hr', hrp⟩ := forall₂_exists_left hm (List.mem_filter.2 ⟨hp, hrep⟩)
        exact .inr (.inl ⟨r', hr', by rw [hrp.vertex]⟩)
      · have hst : p.isStart = true := by
          by_contra hno
          exact hrep (by simp [DfsCfg.reported, hno, hsucc])
        refine .inr (.inr ⟨?_, ?_⟩)
        · simpa [DfsCfg.reported, hst] using hrep
        · have hfirst := (inv.gpath.2 p hp).1
          have : p.last = p.first := by
            obtain ⟨v, steps⟩ := p
            simp only [SPath.isStart, List.isEmpty_iff] at hst
            subst hst
            rfl
          rw [this]
          exact List.mem_map_of_mem hfirst

/-- **C87 for depth-first search with trace.** In mode `DFS_TREE`, with the events of entering requested: at each report
(of any event), `visited` contains exactly the ids that were in it before the start, and those of the vertices whose
entering has been reported so far, including the current report. -/
theorem C87_dfs_trace_visited (c : TraceCfg V K L) {given : Bool} {already : S} (hso : g.so.Lawful) (hgr : g.so.Grows)
    (hacc : c.Accepted given) (hal : TraceAlready g c given already) (ht : c.isTree = false) (hm : c.mode = .dfsTree)
    (hent : ∀ e : DfsEvent, e.isEntering = true → c.report e = true) (starts : List V)
    (limit : Option Int) (fuel : Nat) {before after : List (TraceReport V K L S M ML)} {r : TraceReport V K L S M ML}
    (hr : (trRun g c already starts limit fuel).reports = before ++ r :: after) :
    ∀ k, g.so.contains r.visited k = true ↔
      g.so.contains already k = true ∨ ∃ r' ∈ before ++ [r], r'.event.isEntering = true ∧ c.vid r'.vertex = k := by
  obtain ⟨hist, hf, hma, hb, -⟩ :=
    tr_run hacc.ok (trPathsOk_false (fun _ => True) starts) hso hgr hal.trRange limit fuel
  rw [hr] at hma
  obtain ⟨ms1, ⟨pre, a⟩, ms2, e, h1, h2, h3⟩ := forall₂_split hma
  have e1 : ms1 = moments pre := moments_split e
  subst e1
  have hA : ((before.filter (fun r => r.event.isEntering)).map (fun r => c.vid r.vertex)) = enteredIds c.vid pre :=
    tr_entering g c hent h1 (fun r => c.vid r.vertex) (fun q => c.vid q.last) (fun r pre q h => by rw [h.vertex]; rfl)
  have hids : ((before ++ [r]).filter (fun r => r.event.isEntering)).map (fun r => c.vid r.vertex) =
      enteredIds c.vid (pre ++ [a]) := by
    rw [List.filter_append, List.map_append, hA, enteredIds_append]
    congr 1
    obtain ⟨e1, -⟩ := codeEvent_inOut c pre a
    cases a with
    | enter q =>
      have : r.event.isEntering = true := by rw [h2.event]; exact e1.2 ⟨q, rfl⟩
      simp [this, h2.vertex, DfsAct.path]
    | leave q =>
      have : ¬ r.event.isEntering = true := by rw [h2.event, e1]; simp
      simp [this]
    | skip q =>
      have : ¬ r.event.isEntering = true := by rw [h2.event, e1]; simp
      simp [this]
  intro k
  rw [h2.vis (rule_tree ht hm) k]
  show g.so.contains already k = true ∨ k ∈ enteredIds c.vid (pre ++ [a]) ↔ _
  rw [← hids]
  simp only [List.mem_map, List.mem_filter, and_assoc]

/-- **C87 for topological sorting.** When a vertex is reported, there is a walk from a start vertex to it (`T` are its
vertices before the last one), with as many edges as `depth` says, such that `visited` contains exactly the ids that
were in it before the start, those of the start vertices, those of the vertices reported so far, including
the current one, and those of the vertices of the walk. None of the ids of the walk has been reported. -/
theorem C87_topo_visited (c : TravCfg V K L) (hg : g.so.Lawful) (hgr : g.so.Grows) (ht : c.isTree = false)
    (already : S) (starts : List V) (hn : (starts.map c.vid).Nodup) (limit : Option Int) (fuel : Nat)
    {before after : List (TopoReport V S M ML)} {r : TopoReport V S M ML}
    (hr : (topoRun g c already starts limit fuel).reports = before ++ r :: after) :
    ∃ T : List V, (∃ s0 ∈ starts, (T ++ [r.vertex]).head? = some s0) ∧
      WalkList (TopoEdges g c already starts) (T ++ [r.vertex]) ∧ r.depth = T.length ∧
      (∀ k, g.so.contains r.visited k = true ↔ g.so.contains already k = true ∨ k ∈ starts.map c.vid ∨
        (∃ r' ∈ before ++ [r], c.vid r'.vertex = k) ∨ k ∈ T.map c.vid) ∧
      ∀ r' ∈ before ++ [r], c.vid r'.vertex ∉ T.map c.vid := by
  rw [topoRun_eq g c ht] at hr
  obtain ⟨s, hs, -⟩ := run_reaches (topoStep g c) fuel (prepareLimit limit) (topoInit g c already starts)
  obtain ⟨h1, t, t', ht1, he, hb⟩ := hs.emitted hr
  obtain ⟨G, inv⟩ := topo_inv hg hgr ht hn ht1
  obtain ⟨G', hmv⟩ := inv.move hg
  rw [he] at hmv
  cases hmv with
  | leave v _ hpc =>
    obtain ⟨s0, q1, q2, -⟩ := inv.own.bottom (traceOf_true v G')
    have hd := inv.depth hpc
    rw [traceOf_true, List.length_cons] at hd
    have hb' : repIds c h1 = before.map (fun r => c.vid r.vertex) := by rw [repIds, hb]
    refine ⟨(traceOf G').reverse, ⟨s0, q1, ?_⟩, inv.own.2.2.walk v ?_, ?_, ?_, ?_⟩
    · rw [← q2, ← List.reverse_cons, List.head?_reverse]
    · intro t T hT
      have ho := inv.own.1
      unfold TopoOwn at ho
      rw [hT] at ho
      exact ho.1
    · simp only [List.length_reverse]; omega
    · intro k
      show g.so.contains t.visited k = true ↔ _
      rw [inv.vis k, hb', traceOf_true]
      simp only [List.map_cons, List.mem_cons, List.mem_map, List.mem_append, List.not_mem_nil, or_false,
        List.mem_reverse]
      constructor
      · rintro (h | h | (h | h) | ⟨r', hr', e⟩)
        · exact .inl h
        · exact .inr (.inl h)
        · exact .inr (.inr (.inl ⟨_, .inr rfl, h.symm⟩))
        · exact .inr (.inr (.inr h))
        · exact .inr (.inr (.inl ⟨r', .inl hr', e⟩))
      · rintro (h | h | ⟨r', hr' | rfl, e⟩ | h)
        · exact .inl h
        · exact .inr (.inl h)
        · exact .inr (.inr (.inr ⟨r', hr', e⟩))
        · exact .inr (.inr (.inl (.inl e.symm)))
        · exact .inr (.inr (.inl (.inr h)))
    · intro r' hr' hk
      rw [List.map_reverse, List.mem_reverse] at hk
      rcases List.mem_append.1 hr' with hr' | hr'
      · refine inv.disj _ (by rw [traceOf_true, List.map_cons]; exact List.mem_cons_of_mem _ hk) ?_
        rw [hb']
        exact List.mem_map_of_mem (f := fun r => c.vid r.vertex) hr'
      · rw [List.mem_singleton] at hr'
        subst hr'
        exact inv.own.2.1 hk

/-! ## Non-vacuity -/

/-- Breadth-first search, with one id in the set before the start: what `visited` shows at each report. -/
example : (bfsRun exHash (exDagCfg true) [3] [0] none 100).reports.map (fun r => (r.vertex,
      (List.range 6).filter (fun k => exHash.so.contains r.visited k))) =
    [(1, [0, 1, 3]), (2, [0, 1, 2, 3]), (4, [0, 1, 2, 3, 4])] ∧
    exHash.so.Lawful ∧ Compat (Edge exDag) (id : Nat → Nat) :=
  ⟨by decide +kernel, hashSet_lawful, Compat.of_injective _ _ (fun _ _ h => h)⟩

/-- Depth-first search, with reports of start vertices. -/
example : (dfsRun exHash (exDfs true true) [] [0] none 200).reports.map (fun r => (r.vertex,
      (List.range 6).filter (fun k => exHash.so.contains r.visited k))) =
    [(0, [0]), (1, [0, 1]), (3, [0, 1, 3]), (4, [0, 1, 3, 4]), (2, [0, 1, 2, 3, 4])] := by decide +kernel

/-- Depth-first search with trace: vertex, is it entered, visited. -/
example : (trRun exHash (exTraceCfg ⟨exKinds, id, false, true⟩ (exOptions .dfsTree exAll)) [] [0, 3] none 200).reports.map
      (fun r => (r.vertex, r.event.isEntering, (List.range 6).filter (fun k => exHash.so.contains r.visited k))) =
    [(0, true, [0]), (1, true, [0, 1]), (2, true, [0, 1, 2]), (0, false, [0, 1, 2]), (2, false, [0, 1, 2]),
     (1, false, [0, 1, 2]), (2, false, [0, 1, 2]), (0, false, [0, 1, 2]), (3, true, [0, 1, 2, 3]),
     (1, false, [0, 1, 2, 3]), (3, false, [0, 1, 2, 3])] ∧
    (∀ e : DfsEvent, e.isEntering = true → exAll e = true) :=
  ⟨by decide +kernel, by intro e; cases e <;> decide⟩

/-- Topological sorting: at the first report, the set has the reported vertex 4, and the start vertex 0, from which an edge
leads to it; at the second one, it also has the vertices 2 and 1 of the walk 0, 2, 1, 3 to the reported vertex. -/
example : (topoRun exHash (exDagCfg true) [] [0] none 100).reports.map (fun r => (r.vertex, r.depth,
      (List.range 6).filter (fun k => exHash.so.contains r.visited k))) =
    [(4, 1, [0, 4]), (3, 3, [0, 1, 2, 3, 4]), (1, 2, [0, 1, 2, 3, 4]), (2, 1, [0, 1, 2, 3, 4]),
     (0, 0, [0, 1, 2, 3, 4])] := by decide +kernel

end NoGraphs
