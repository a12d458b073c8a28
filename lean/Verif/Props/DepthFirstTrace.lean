import Verif.Proofs.DfsClassify
import Verif.Props.DepthFirst

/-! # Properties of depth-first search with trace: C10 - C15, C57 - C59; C05 for it, and the option part of C53

The recursive search is defined in `Verif/Spec/Dfs.lean` and the meaning of the events in `Verif/Spec/DfsEvents.lean`, on
the graph alone. `c.rule` is the rule of the search: depth-first search in mode `DFS_TREE`, all simple paths in mode
`ALL_PATHS`, all walks in mode `ALL_WALKS` and for trees. `c.prune` says when the consumer prunes the search by
`skip_expanding_entered_vertex`. `c.Accepted given` says that the options are the result of the option checks of
`start_from`. -/

set_option linter.unusedSectionVars false

namespace NoGraphs

open Spec

variable {V K L S M ML : Type} [DecidableEq V] [DecidableEq K]
variable (g : TravGear V K L S M ML) (c : TraceCfg V K L)

/-- The set of already visited ids. If the parameter is not given, it is empty. If it is given, and `BACK_EDGE` is
requested, and the gear stores sets as sequences, then these ids must be in the pre-allocated range (see
`C59_counterexample`). -/
structure TraceAlready (given : Bool) (already : S) : Prop where
  notGiven : given = false → already = g.so.empty
  range : c.report .backEdge = true → ∀ k, g.so.contains already k = true → (g.so.mustContain g.so.empty k).isSome = true

/-- Entering (`true`) or leaving (`false`), with the reported vertex and the trace. -/
def reportInOut (r : TraceReport V K L S M ML) : Option (Bool × V × List V) :=
  if r.event.isEntering then some (true, r.vertex, r.trace)
  else if r.event.isLeaving then some (false, r.vertex, r.trace)
  else none

variable {g c}

theorem TraceAlready.trRange {given : Bool} {already : S} (h : TraceAlready g c given already) : TrRange g c already :=
  fun _ hb => h.range hb

theorem trPathsOk_false (validL : L → Prop) (starts : List V) : TrPathsOk g c False validL starts := fun h => h.elim

theorem TraceAlready.empty_of_index {given : Bool} {already : S} (hso : g.so.Lawful) (h : TraceAlready g c given already)
    (hacc : c.Accepted given) (hi : c.computeIndex = true) (k : K) : ¬ g.so.contains already k = true := by
  rw [h.notGiven (hacc.index_given hi), hso.contains_empty]
  simp

theorem rule_ne_walks (c : TraceCfg V K L) : c.rule ≠ .walks ↔ c.isTree = false ∧ c.mode ≠ .allWalks := by
  rcases rule_cases c with ⟨hr, h⟩ | ⟨hr, ht, hm⟩ | ⟨hr, ht, hm⟩
  · rw [hr]
    rcases h with h | ⟨h1, h2⟩ <;> simp_all
  · simp [hr, ht, hm]
  · simp [hr, ht, hm]

theorem rule_tree {c : TraceCfg V K L} (ht : c.isTree = false) (hm : c.mode = .dfsTree) : c.rule = .tree := by
  simp [TraceCfg.rule, ht, hm]

theorem rule_paths {c : TraceCfg V K L} (ht : c.isTree = false) (hm : c.mode = .allPaths) : c.rule = .paths := by
  simp [TraceCfg.rule, ht, hm]

/-! ### Lists -/

theorem forall₂_filterMap {α β γ : Type} {R : α → β → Prop} {p : β → Bool} {f : α → Option γ} {h : β → Option γ} :
    ∀ {ms : List β} {rs : List α}, List.Forall₂ R rs (ms.filter p) → (∀ r, ∀ m ∈ ms, p m = true → R r m → f r = h m) →
      (∀ m ∈ ms, p m = false → h m = none) → rs.filterMap f = ms.filterMap h := by
  intro ms
  induction ms with
  | nil => intro rs hR _ _; rw [List.filter_nil, List.forall₂_nil_right_iff] at hR; subst hR; rfl
  | cons m ms ih =>
    intro rs hR hf hn
    cases hp : p m with
    | false =>
      rw [List.filter_cons_of_neg (by simp [hp])] at hR
      rw [List.filterMap_cons_none (hn m List.mem_cons_self hp)]
      exact ih hR (fun r m hm => hf r m (List.mem_cons_of_mem _ hm)) (fun m hm => hn m (List.mem_cons_of_mem _ hm))
    | true =>
      rw [List.filter_cons_of_pos hp] at hR
      cases hR with
      | @cons r _ rs _ h1 h2 =>
        have := ih h2 (fun r m hm => hf r m (List.mem_cons_of_mem _ hm)) (fun m hm => hn m (List.mem_cons_of_mem _ hm))
        rw [List.filterMap_cons, List.filterMap_cons, hf r m List.mem_cons_self hp h1, this]

theorem forall₂_split {α β : Type} {R : α → β → Prop} {p : β → Bool} :
    ∀ {ms : List β} {A : List α} {r : α} {B : List α}, List.Forall₂ R (A ++ r :: B) (ms.filter p) →
      ∃ ms1 m ms2, ms = ms1 ++ m :: ms2 ∧ List.Forall₂ R A (ms1.filter p) ∧ R r m ∧ p m = true := by
  intro ms
  induction ms with
  | nil => intro A r B h; rw [List.filter_nil, List.forall₂_nil_right_iff] at h; simp at h
  | cons m ms ih =>
    intro A r B h
    cases hp : p m with
    | false =>
      rw [List.filter_cons_of_neg (by simp [hp])] at h
      obtain ⟨ms1, m', ms2, rfl, h1, h2, h3⟩ := ih h
      exact ⟨m :: ms1, m', ms2, rfl, by rw [List.filter_cons_of_neg (by simp [hp])]; exact h1, h2, h3⟩
    | true =>
      rw [List.filter_cons_of_pos hp] at h
      cases A with
      | nil =>
        rw [List.nil_append] at h
        cases h with
        | cons h1 h2 => exact ⟨[], m, ms, rfl, .nil, h1, hp⟩
      | cons a A =>
        rw [List.cons_append] at h
        cases h with
        | cons h1 h2 =>
          obtain ⟨ms1, m', ms2, rfl, h3, h4, h5⟩ := ih h2
          exact ⟨m :: ms1, m', ms2, rfl, by rw [List.filter_cons_of_pos hp]; exact .cons h1 h3, h4, h5⟩

theorem momentsFrom_split {P acts : List (DfsAct V L)} : ∀ {ms1 ms2 : List (List (DfsAct V L) × DfsAct V L)} {m},
    momentsFrom P acts = ms1 ++ m :: ms2 → ∃ a1, m.1 = P ++ a1 ∧ ms1 = momentsFrom P a1 := by
  induction acts generalizing P with
  | nil => intro ms1 ms2 m h; simp [momentsFrom] at h
  | cons a acts ih =>
    intro ms1 ms2 m h
    cases ms1 with
    | nil =>
      simp only [momentsFrom, List.nil_append, List.cons.injEq] at h
      exact ⟨[], by rw [← h.1]; simp, rfl⟩
    | cons m1 ms1 =>
      simp only [momentsFrom, List.cons_append, List.cons.injEq] at h
      obtain ⟨a1, e1, e2⟩ := ih h.2
      exact ⟨a :: a1, by rw [e1]; simp, by rw [e2, ← h.1]; rfl⟩

theorem moments_split {acts : List (DfsAct V L)} {ms1 ms2 : List (List (DfsAct V L) × DfsAct V L)} {m}
    (h : moments acts = ms1 ++ m :: ms2) : ms1 = moments m.1 := by
  obtain ⟨a1, e1, e2⟩ := momentsFrom_split h
  rw [List.nil_append] at e1
  rw [e1, e2]; rfl

theorem momentsFrom_filterMap {γ : Type} (h : DfsAct V L → Option γ) (P acts : List (DfsAct V L)) :
    (momentsFrom P acts).filterMap (fun m => h m.2) = acts.filterMap h := by
  induction acts generalizing P with
  | nil => rfl
  | cons a acts ih => simp only [momentsFrom, List.filterMap_cons, ih]

theorem moments_filterMap {γ : Type} (h : DfsAct V L → Option γ) (acts : List (DfsAct V L)) :
    (moments acts).filterMap (fun m => h m.2) = acts.filterMap h := momentsFrom_filterMap h [] acts

theorem codeEvent_inOut (c : TraceCfg V K L) (pre : List (DfsAct V L)) (a : DfsAct V L) :
    ((codeEvent c pre a).isEntering = true ↔ ∃ q, a = .enter q) ∧
    ((codeEvent c pre a).isLeaving = true ↔ ∃ q, a = .leave q) := by
  cases a with
  | enter q =>
    simp only [codeEvent, enteredEvent]
    split <;> simp [DfsEvent.isEntering, DfsEvent.isLeaving]
  | leave q =>
    simp only [codeEvent]
    split <;> simp [DfsEvent.isEntering, DfsEvent.isLeaving]
  | skip q =>
    simp only [codeEvent]
    repeat' split
    all_goals simp [DfsEvent.isEntering, DfsEvent.isLeaving]

theorem reportInOut_of_match {bp : Prop} {already : S} {r : TraceReport V K L S M ML} {m : List (DfsAct V L) × DfsAct V L}
    (h : TrMatch g c bp already r m) : reportInOut r = (match m.2 with
      | .enter q => some (true, q.last, q.verts)
      | .leave q => some (false, q.last, q.verts)
      | .skip _ => none) := by
  obtain ⟨h1, h2⟩ := codeEvent_inOut c m.1 m.2
  unfold reportInOut
  rw [h.event, h.vertex, h.trace]
  obtain ⟨pre, a⟩ := m
  cases a <;> simp_all [DfsAct.path]

/-! ## C10 -/

variable (g c)

/-- **C10.** At each report, of any prefix of any run, in any mode: the trace is a path of graph edges from a start vertex
to the reported vertex. When a vertex is entered or left, the trace has no repeated vertices (modes `DFS_TREE` and
`ALL_PATHS`), `on_trace` is exactly the set of its ids, and the depth is its number of edges. When a start vertex is
skipped, or a non-tree edge is reported, this vertex is on the trace, but not in `on_trace` and not counted for the
depth. -/
theorem C10_dfs_trace {given : Bool} {already : S} (hso : g.so.Lawful) (hgr : g.so.Grows) (hacc : c.Accepted given)
    (hal : TraceAlready g c given already) (starts : List V) (limit : Option Int) (fuel : Nat) :
    ∀ r ∈ (trRun g c already starts limit fuel).reports,
      ∃ q : SPath V L, q.first ∈ starts ∧ IsPath c.next q.first q.steps ∧ r.trace = q.verts ∧
        r.trace.getLast? = some r.vertex ∧
        ((r.event.isEntering || r.event.isLeaving) = true →
          (c.isTree = false → c.mode ≠ .allWalks → (r.trace.map c.vid).Nodup) ∧
          (c.computeOnTrace = true → ∀ k, g.so.contains r.onTrace k = true ↔ k ∈ r.trace.map c.vid) ∧
          (c.computeDepth = true → r.depth = q.steps.length)) ∧
        ((r.event.isEntering || r.event.isLeaving) = false →
          (c.computeOnTrace = true → ∀ k, g.so.contains r.onTrace k = true ↔ k ∈ r.trace.dropLast.map c.vid) ∧
          (c.computeDepth = true → r.depth = (q.steps.length : Int) - 1)) := by
  intro r hr
  obtain ⟨hist, hf, hm, -⟩ := tr_run hacc.ok (trPathsOk_false (fun _ => True) starts) hso hgr hal.trRange limit fuel
  obtain ⟨⟨pre, a⟩, hma, hrm⟩ := forall₂_mem hm hr
  have hfa := hf _ (List.mem_filter.1 hma).1
  obtain ⟨e1, e2⟩ := codeEvent_inOut c pre a
  rw [hrm.event]
  have hv : (a.path.verts.length : Int) = a.path.steps.length + 1 := by simp [SPath.verts]
  have hi : (a.path.init.length : Int) = a.path.steps.length := by simp [SPath.init, SPath.verts]
  refine ⟨a.path, hfa.gpath.1, hfa.gpath.2, hrm.trace, ?_, ?_, ?_⟩
  · rw [hrm.trace, hrm.vertex]; exact a.path.verts_getLast
  · intro h
    have hon : onVerts a = a.path.verts := by
      rw [Bool.or_eq_true, e1, e2] at h
      rcases h with ⟨q, rfl⟩ | ⟨q, rfl⟩ <;> rfl
    refine ⟨fun ht hmo => ?_, fun ho k => ?_, fun hd => ?_⟩
    · rw [hrm.trace]
      have := hfa.nodup ((rule_ne_walks c).2 ⟨ht, hmo⟩)
      rwa [hon] at this
    · rw [hrm.onTr ho, hrm.trace, hon]
    · have := hrm.depth hd
      rw [this, hon, hv]; omega
  · intro h
    rw [Bool.or_eq_false_iff] at h
    have hon : onVerts a = a.path.init := by
      cases a with
      | skip q => rfl
      | enter q => exact absurd (e1.2 ⟨q, rfl⟩) (by rw [h.1]; simp)
      | leave q => exact absurd (e2.2 ⟨q, rfl⟩) (by rw [h.2]; simp)
    refine ⟨fun ho k => ?_, fun hd => ?_⟩
    · rw [hrm.onTr ho, hrm.trace, hon]; rfl
    · have := hrm.depth hd
      rw [this, hon, hi]

theorem tr_inOut {given : Bool} {already : S} (hso : g.so.Lawful) (hgr : g.so.Grows) (hacc : c.Accepted given)
    (hal : TraceAlready g c given already) (hreq : ∀ e : DfsEvent, (e.isEntering || e.isLeaving) = true → c.report e = true)
    (starts : List V) (limit : Option Int) (fuel : Nat) :
    let run := trRun g c already starts limit fuel
    ∃ acts, (∀ m ∈ moments acts, TrFact g c already starts m.1 m.2) ∧
      BeginsDfs c.next c.vid c.rule c.prune (fun k => g.so.contains already k = true) starts acts ∧
      run.reports.filterMap reportInOut = inOutActs acts ∧
      (run.ending = .done → ∃ vis' n', Dfs c.next c.vid c.rule c.prune (fun k => g.so.contains already k = true) 0
        (starts.map SPath.single) acts vis' n') := by
  intro run
  obtain ⟨hist, hf, hm, hb, he⟩ :=
    tr_run hacc.ok (trPathsOk_false (fun _ => True) starts) hso hgr hal.trRange limit fuel
  refine ⟨hist, hf, hb, ?_, ?_⟩
  · have := forall₂_filterMap (f := reportInOut) (h := fun m : List (DfsAct V L) × DfsAct V L => match m.2 with
      | .enter q => some (true, q.last, q.verts)
      | .leave q => some (false, q.last, q.verts)
      | .skip _ => none) hm (fun r m _ _ h => reportInOut_of_match h) (by
        rintro ⟨pre, a⟩ - hs
        obtain ⟨e1, e2⟩ := codeEvent_inOut c pre a
        cases a with
        | skip q => rfl
        | enter q =>
          have h1 := e1.2 ⟨q, rfl⟩
          have h2 := hreq (codeEvent c pre (.enter q)) (by simp [h1])
          have : codeEvent c pre (.enter q) ≠ .none := by intro e; rw [e] at h1; simp [DfsEvent.isEntering] at h1
          simp [shown, h2, this] at hs
        | leave q =>
          have h1 := e2.2 ⟨q, rfl⟩
          have h2 := hreq (codeEvent c pre (.leave q)) (by simp [h1])
          have : codeEvent c pre (.leave q) ≠ .none := by intro e; rw [e] at h1; simp [DfsEvent.isLeaving] at h1
          simp [shown, h2, this] at hs)
    rw [this]
    exact moments_filterMap (fun a => match a with
      | .enter q => some (true, q.last, q.verts)
      | .leave q => some (false, q.last, q.verts)
      | .skip _ => none) hist
  · intro hd
    have hd' : (trRun g c already starts limit fuel).ending = .done := hd
    rw [hd'] at he
    exact he

/-- **C10, the search.** If all events of entering and leaving are requested, then, at each moment of a run and in any mode,
the reports of entering and leaving are those of the first acts of the recursive search, in the same order, and each one
with the path by which the search has reached the vertex as trace. When the run has ended, these are all acts of the
search. -/
theorem C10_dfs_trace_search {given : Bool} {already : S} (hso : g.so.Lawful) (hgr : g.so.Grows) (hacc : c.Accepted given)
    (hal : TraceAlready g c given already) (hreq : ∀ e : DfsEvent, (e.isEntering || e.isLeaving) = true → c.report e = true)
    (starts : List V) (limit : Option Int) (fuel : Nat) :
    let run := trRun g c already starts limit fuel
    ∃ acts, BeginsDfs c.next c.vid c.rule c.prune (fun k => g.so.contains already k = true) starts acts ∧
      run.reports.filterMap reportInOut = inOutActs acts ∧
      (run.ending = .done → ∃ vis' n', Dfs c.next c.vid c.rule c.prune (fun k => g.so.contains already k = true) 0
        (starts.map SPath.single) acts vis' n') := by
  obtain ⟨acts, -, h⟩ := tr_inOut g c hso hgr hacc hal hreq starts limit fuel
  exact ⟨acts, h⟩

/-! ## C11 -/

theorem inOutActs_map (acts : List (DfsAct V L)) : (inOutActs acts).map (fun x => (x.1, x.2.1)) = inOut acts := by
  induction acts with
  | nil => rfl
  | cons a acts ih => cases a <;> simpa [inOutActs, inOut] using ih

theorem inOutActs_enter (vid : V → K) (acts : List (DfsAct V L)) :
    ((inOutActs acts).filter (fun x => x.1)).map (fun x => vid x.2.1) = enteredIds vid acts := by
  induction acts with
  | nil => rfl
  | cons a acts ih => cases a <;> simpa [inOutActs, enteredIds, entered] using ih

theorem inOutActs_leave (vid : V → K) (acts : List (DfsAct V L)) :
    ((inOutActs acts).filter (fun x => !x.1)).map (fun x => vid x.2.1) = leftIds vid acts := by
  induction acts with
  | nil => rfl
  | cons a acts ih => cases a <;> simpa [inOutActs, leftIds, leftPaths] using ih

/-- **C11, nesting.** If all events of entering and leaving are requested: when a run in any mode has ended, entering and
leaving is properly nested. At each moment of a run, also on infinite graphs, this can still be achieved. -/
theorem C11_dfs_nested {given : Bool} {already : S} (hso : g.so.Lawful) (hgr : g.so.Grows) (hacc : c.Accepted given)
    (hal : TraceAlready g c given already) (hreq : ∀ e : DfsEvent, (e.isEntering || e.isLeaving) = true → c.report e = true)
    (starts : List V) (limit : Option Int) (fuel : Nat) :
    let run := trRun g c already starts limit fuel
    let inOut := (run.reports.filterMap reportInOut).map (fun x => (x.1, x.2.1))
    (run.ending = .done → Bracketed inOut) ∧ ∃ rest, Bracketed (inOut ++ rest) := by
  intro run io
  obtain ⟨acts, -, ⟨pr, -, rest, vis', n', h1⟩, h2, h3⟩ := tr_inOut g c hso hgr hacc hal hreq starts limit fuel
  have e : io = NoGraphs.inOut acts := by
    show (run.reports.filterMap reportInOut).map _ = _
    rw [h2, inOutActs_map]
  rw [e]
  constructor
  · intro hd
    obtain ⟨vis', n', h⟩ := h3 hd
    exact h.nested.bracketed
  · exact ⟨NoGraphs.inOut rest, by rw [← inOut_append]; exact h1.nested.bracketed⟩

theorem Spec.BeginsDfs.nodup {next : V → List (V × L)} {vid : V → K} {prune : Nat → SPath V L → Bool} {vis : K → Prop}
    {starts : List V} {acts : List (DfsAct V L)} (h : BeginsDfs next vid .tree prune vis starts acts) :
    (enteredIds vid acts).Nodup ∧ (leftIds vid acts).Nodup ∧
    ∀ q ∈ entered acts, ¬ vis (vid q.last) ∧ Reachable (Allowed next vid vis) (fun v => v ∈ starts ∧ ¬ vis (vid v)) q.last := by
  obtain ⟨pr, -, rest, vis', n', h1⟩ := h
  have hn := (Spec.Dfs.visited ⟨_, h1, rfl⟩).2.1
  have hr := h1.reach (vis0 := vis) (P := fun v => v ∈ starts ∧ ¬ vis (vid v)) (fun _ h => h) (by
    intro q hq hn
    obtain ⟨v, hv, rfl⟩ := List.mem_map.1 hq
    rw [SPath.last_single] at hn ⊢
    exact .start ⟨hv, hn⟩)
  have hp := h1.nested.perm
  refine ⟨?_, ?_, ?_⟩
  · rw [entered_append, List.map_append] at hn
    exact (List.nodup_append.1 hn).1
  · have : ((leftPaths (acts ++ rest)).map (fun q => vid q.last)).Nodup := (hp.map _).nodup_iff.2 hn
    rw [leftPaths_append, List.map_append] at this
    exact (List.nodup_append.1 this).1
  · intro q hq
    exact hr q (by rw [entered_append]; exact List.mem_append_left _ hq)

/-- **C11, once.** In mode `DFS_TREE`, with all events of entering and leaving requested: at each moment of a run, no id has
been entered twice or left twice. What has been entered was not already visited before, and is reachable by edges to
vertices that were not already visited. -/
theorem C11_dfs_once {given : Bool} {already : S} (hso : g.so.Lawful) (hgr : g.so.Grows) (hacc : c.Accepted given)
    (hal : TraceAlready g c given already) (hreq : ∀ e : DfsEvent, (e.isEntering || e.isLeaving) = true → c.report e = true)
    (ht : c.isTree = false) (hm : c.mode = .dfsTree) (starts : List V) (limit : Option Int) (fuel : Nat) :
    let run := trRun g c already starts limit fuel
    let io := run.reports.filterMap reportInOut
    ((io.filter (fun x => x.1)).map (fun x => c.vid x.2.1)).Nodup ∧
    ((io.filter (fun x => !x.1)).map (fun x => c.vid x.2.1)).Nodup ∧
    ∀ x ∈ io, x.1 = true → ¬ g.so.contains already (c.vid x.2.1) = true ∧
      Reachable (Allowed c.next c.vid (fun k => g.so.contains already k = true))
        (fun v => v ∈ starts ∧ ¬ g.so.contains already (c.vid v) = true) x.2.1 := by
  intro run io
  obtain ⟨acts, -, h1, h2, -⟩ := tr_inOut g c hso hgr hacc hal hreq starts limit fuel
  rw [rule_tree ht hm] at h1
  have e : io = inOutActs acts := h2
  rw [e, inOutActs_enter, inOutActs_leave]
  obtain ⟨h3, h4, h5⟩ := Spec.BeginsDfs.nodup h1
  refine ⟨h3, h4, ?_⟩
  rintro ⟨b, v, p⟩ hx hb
  simp only at hb
  subst hb
  obtain ⟨a, ha, hx⟩ := List.mem_filterMap.1 hx
  cases a with
  | enter q =>
    simp only [Option.some.injEq, Prod.mk.injEq, true_and] at hx
    obtain ⟨rfl, -⟩ := hx
    exact h5 q (List.mem_filterMap.2 ⟨_, ha, rfl⟩)
  | leave q => simp at hx
  | skip q => simp at hx

/-- **C11, all of them.** When a run in mode `DFS_TREE` ends without pruning, each reachable vertex has been entered and
left. (By `C11_dfs_once`, exactly once.) -/
theorem C11_dfs_complete {given : Bool} {already : S} (hso : g.so.Lawful) (hgr : g.so.Grows) (hacc : c.Accepted given)
    (hal : TraceAlready g c given already) (hreq : ∀ e : DfsEvent, (e.isEntering || e.isLeaving) = true → c.report e = true)
    (ht : c.isTree = false) (hm : c.mode = .dfsTree) (hc : Compat (Edge c.next) c.vid) (hskip : ∀ n, c.skip n = false)
    (starts : List V) (limit : Option Int) (fuel : Nat) (hdone : (trRun g c already starts limit fuel).ending = .done)
    (v : V) (hv : Reachable (Allowed c.next c.vid (fun k => g.so.contains already k = true))
      (fun v => v ∈ starts ∧ ¬ g.so.contains already (c.vid v) = true) v) :
    let io := (trRun g c already starts limit fuel).reports.filterMap reportInOut
    (∃ x ∈ io, x.1 = true ∧ c.vid x.2.1 = c.vid v) ∧ ∃ x ∈ io, x.1 = false ∧ c.vid x.2.1 = c.vid v := by
  intro io
  obtain ⟨acts, -, -, h2, h3⟩ := tr_inOut g c hso hgr hacc hal hreq starts limit fuel
  have e : io = inOutActs acts := h2
  obtain ⟨vis', n', h⟩ := h3 hdone
  have hp : c.prune = noPrune := by funext n st; simp [TraceCfg.prune, hskip, noPrune]
  rw [hp, rule_tree ht hm] at h
  obtain ⟨q, hq, e'⟩ := DfsOut.complete hc ⟨acts, h, rfl⟩ hv
  have hl := h.nested.perm.mem_iff.2 hq
  obtain ⟨a, ha, hx⟩ := List.mem_filterMap.1 hq
  obtain ⟨a', ha', hx'⟩ := List.mem_filterMap.1 hl
  have ea : a = .enter q := by cases a <;> simp_all
  have ea' : a' = .leave q := by cases a' <;> simp_all
  rw [e]
  exact ⟨⟨(true, q.last, q.verts), List.mem_filterMap.2 ⟨_, ha, by rw [ea]⟩, rfl, e'⟩,
    ⟨(false, q.last, q.verts), List.mem_filterMap.2 ⟨_, ha', by rw [ea']⟩, rfl, e'⟩⟩

theorem tr_done_of {given : Bool} {already : S} (hso : g.so.Lawful) (hgr : g.so.Grows) (hacc : c.Accepted given)
    (hal : TraceAlready g c given already) (starts : List V)
    (hex : ∃ acts vis' n', Dfs c.next c.vid c.rule c.prune (fun k => g.so.contains already k = true) 0
      (starts.map SPath.single) acts vis' n') :
    ∃ N, ∀ fuel, N ≤ fuel → (∀ limit, (trRun g c already starts limit fuel).ending ≠ .outOfFuel) ∧
      (trRun g c already starts none fuel).ending = .done := by
  obtain ⟨N, h⟩ := tr_terminates hacc.ok (trPathsOk_false (fun _ => True) starts) hso hgr hal.trRange hex
  refine ⟨N, fun fuel hf => ⟨fun limit => h fuel hf _, ?_⟩⟩
  obtain ⟨_, -, -, -, he⟩ := tr_run hacc.ok (trPathsOk_false (fun _ => True) starts) hso hgr hal.trRange none fuel
  have h1 := h fuel hf (prepareLimit none)
  have h1' : (trRun g c already starts none fuel).ending ≠ .outOfFuel := h1
  generalize (trRun g c already starts none fuel).ending = e at he h1'
  cases e with
  | done => rfl
  | outOfFuel => exact absurd rfl h1'
  | raised e => exact absurd rfl he.2

/-- **C11, termination.** In mode `DFS_TREE`, if finitely many ids can be reached, the traversal ends, and without limit it
does not raise an exception. -/
theorem C11_dfs_terminates {given : Bool} {already : S} (hso : g.so.Lawful) (hgr : g.so.Grows) (hacc : c.Accepted given)
    (hal : TraceAlready g c given already) (ht : c.isTree = false) (hm : c.mode = .dfsTree) (starts : List V)
    (hfin : ∃ ids : List K, ∀ v, Reachable (Allowed c.next c.vid (fun k => g.so.contains already k = true))
      (fun v => v ∈ starts ∧ ¬ g.so.contains already (c.vid v) = true) v → c.vid v ∈ ids) :
    ∃ N, ∀ fuel, N ≤ fuel → (∀ limit, (trRun g c already starts limit fuel).ending ≠ .outOfFuel) ∧
      (trRun g c already starts none fuel).ending = .done := by
  refine tr_done_of g c hso hgr hacc hal starts ?_
  rw [rule_tree ht hm]
  exact dfs_exists_tree c.prune _ starts hfin

/-! ## C12 -/

/-- **C12, with restrictions for the requested events.** In mode `DFS_TREE`: at each moment of a run, what has been reported
are exactly the requested events of the first acts of the recursive search, in the same order, with the same vertices
and with the trace (followed by the end vertex, for a non-tree edge). When the run has ended, these are all acts of the
search. What the events mean is defined by `eventOf`.

Missing for the full claim: the event `FORWARD_OR_CROSS_EDGE` (`C12_counterexample_group`), and the event `CROSS_EDGE` in
case that `BACK_EDGE` is not requested (`C12_counterexample_cross`). -/
theorem C12_dfs_events_partial {given : Bool} {already : S} (hso : g.so.Lawful) (hgr : g.so.Grows)
    (hacc : c.Accepted given) (hal : TraceAlready g c given already) (ht : c.isTree = false) (hm : c.mode = .dfsTree)
    (hfc : c.report .forwardOrCrossEdge = false) (hcb : c.report .crossEdge = true → c.report .backEdge = true)
    (starts : List V) (limit : Option Int) (fuel : Nat) :
    let run := trRun g c already starts limit fuel
    ∃ acts, BeginsDfs c.next c.vid .tree c.prune (fun k => g.so.contains already k = true) starts acts ∧
      run.reports.map (fun r => (r.vertex, r.event, r.trace)) = requestedReports c.report c.vid acts ∧
      (run.ending = .done → ∃ vis' n', Dfs c.next c.vid .tree c.prune (fun k => g.so.contains already k = true) 0
        (starts.map SPath.single) acts vis' n') := by
  classical
  intro run
  obtain ⟨hist, hf, hma, hb, he⟩ :=
    tr_run hacc.ok (trPathsOk_false (fun _ => True) starts) hso hgr hal.trRange limit fuel
  rw [rule_tree ht hm] at hb he
  refine ⟨hist, hb, ?_, ?_⟩
  · obtain ⟨pr, -, rest, vis', n', h1⟩ := hb
    have hsub : ∀ m ∈ moments hist, (m.2.path.init.map c.vid).Sublist (enteredIds c.vid m.1) := by
      intro m hm'
      refine h1.init_sublist [] ?_ m ?_
      · intro q hq
        obtain ⟨v, hv, rfl⟩ := List.mem_map.1 hq
        simp
      · obtain ⟨pre, a⟩ := m
        obtain ⟨post, e⟩ := mem_moments.1 hm'
        exact mem_moments.2 ⟨post ++ rest, by rw [e]; simp⟩
    have hcl : ∀ m ∈ moments hist, _ := fun m hm' => classify hacc.ok (rule_tree ht hm) (hf m hm') (hsub m hm') hfc hcb
      (fun hi k => hal.empty_of_index hso hacc hi k)
    unfold requestedReports
    rw [← List.filter_congr (fun m hm' => (hcl m hm').1)]
    refine forall₂_map_eq (Q := fun r m => TrMatch g c False already r m ∧ m ∈ (moments hist).filter (shown c)) ?_ ?_
    · have key : ∀ {rs : List (TraceReport V K L S M ML)} {ms : List (List (DfsAct V L) × DfsAct V L)},
          List.Forall₂ (TrMatch g c False already) rs ms →
          List.Forall₂ (fun r m => TrMatch g c False already r m ∧ m ∈ ms) rs ms := by
        intro rs ms h
        induction h with
        | nil => exact .nil
        | cons h _ ih =>
          exact .cons ⟨h, List.mem_cons_self⟩ (ih.imp (fun _ _ h => ⟨h.1, List.mem_cons_of_mem _ h.2⟩))
      exact key hma
    · rintro r m ⟨h2, h3⟩
      obtain ⟨h4, h5⟩ := List.mem_filter.1 h3
      rw [h2.vertex, h2.event, h2.trace, (hcl m h4).2 h5]
  · intro hd
    have hd' : (trRun g c already starts limit fuel).ending = .done := hd
    rw [hd'] at he
    exact he

/-- **C12, the kinds.** In a depth-first search that starts with no visited vertices, a non-tree edge is of exactly one kind:
a back edge, a forward edge, or a cross edge. So, each of them is reported if its kind is requested. -/
theorem C12_kinds {next : V → List (V × L)} {vid : V → K} {prune : Nat → SPath V L → Bool} {starts : List V}
    {acts pre post : List (DfsAct V L)} {q : SPath V L}
    (h : BeginsDfs next vid .tree prune (fun _ => False) starts acts) (hq : acts = pre ++ .skip q :: post)
    (hs : q.isStart = false) :
    let back := IsBackEdge vid pre q.last
    let forward := IsForwardEdge vid pre q.parent q.last
    let cross := IsCrossEdge vid pre q.parent q.last
    (back ∧ ¬ forward ∧ ¬ cross) ∨ (¬ back ∧ forward ∧ ¬ cross) ∨ (¬ back ∧ ¬ forward ∧ cross) := by
  intro back forward cross
  obtain ⟨pr, -, rest, vis', n', h1⟩ := h
  subst hq
  have hn := (Spec.Dfs.visited ⟨_, h1, rfl⟩).2.1
  have hN : (enteredIds vid pre).Nodup := by
    rw [entered_append, entered_append, List.append_assoc, List.map_append] at hn
    exact (List.nodup_append.1 hn).1
  obtain ⟨-, -, -, h2⟩ := h1.opens [] (by simp) (by simp) (by
    intro q hq k
    obtain ⟨v, hv, rfl⟩ := List.mem_map.1 hq
    simp [OpenId])
  obtain ⟨hent, hopen⟩ := h2 pre q (post ++ rest) (by simp)
  rw [List.nil_append] at hent hopen
  have hsub := h1.init_sublist [] (by
    intro q hq
    obtain ⟨v, hv, rfl⟩ := List.mem_map.1 hq
    simp) (pre, .skip q) (mem_moments.2 ⟨post ++ rest, by simp⟩)
  obtain ⟨A, hA⟩ := SPath_init_parent hs
  have hpar : vid q.parent ∈ q.init.map vid := by rw [hA]; simp
  by_cases hb : vid q.last ∈ leftIds vid pre
  · right
    have hnb : ¬ back := fun h => h.2 hb
    have hne : vid q.parent ≠ vid q.last := by
      intro e
      exact ((hopen _).1 hpar).2 (e ▸ hb)
    rcases before_total (hsub.subset hpar) hent hne with h | h
    · exact .inl ⟨hnb, ⟨hb, h⟩, fun h' => before_asymm hN h h'.2⟩
    · exact .inr ⟨hnb, fun h' => before_asymm hN h h'.2, ⟨hb, h⟩⟩
  · exact .inl ⟨⟨hent, hb⟩, fun h => hb h.1, fun h => hb h.1⟩

/-! ## C13 -/

theorem filter_map_filterMap {α β : Type} (p : α → Bool) (f : α → β) (l : List α) :
    (l.filter p).map f = l.filterMap (fun x => if p x then some (f x) else none) := by
  induction l with
  | nil => rfl
  | cons a l ih => cases hp : p a <;> simp [List.filter_cons, hp, ih]

theorem entered_map_filterMap {β : Type} (f : SPath V L → β) (acts : List (DfsAct V L)) :
    (entered acts).map f = acts.filterMap (fun a => match a with | .enter q => some (f q) | _ => none) := by
  induction acts with
  | nil => rfl
  | cons a acts ih => cases a <;> simp [entered] at ih ⊢ <;> exact ih

theorem tr_entering {bp : Prop} {already : S} {rs : List (TraceReport V K L S M ML)} {hist : List (DfsAct V L)}
    (hent : ∀ e : DfsEvent, e.isEntering = true → c.report e = true)
    (hm : List.Forall₂ (TrMatch g c bp already) rs ((moments hist).filter (shown c))) {β : Type}
    (f : TraceReport V K L S M ML → β) (f' : SPath V L → β)
    (hff : ∀ r pre q, TrMatch g c bp already r (pre, .enter q) → f r = f' q) :
    (rs.filter (fun r => r.event.isEntering)).map f = (entered hist).map f' := by
  rw [filter_map_filterMap, entered_map_filterMap, ← moments_filterMap]
  refine forall₂_filterMap hm ?_ ?_
  · rintro r ⟨pre, a⟩ - - h
    obtain ⟨e1, -⟩ := codeEvent_inOut c pre a
    rw [h.event]
    cases a with
    | enter q => rw [if_pos (e1.2 ⟨q, rfl⟩), hff r pre q h]
    | leave q => rw [if_neg (by rw [e1]; simp)]
    | skip q => rw [if_neg (by rw [e1]; simp)]
  · rintro ⟨pre, a⟩ - hs
    obtain ⟨e1, -⟩ := codeEvent_inOut c pre a
    cases a with
    | leave q => rfl
    | skip q => rfl
    | enter q =>
      have h1 := e1.2 ⟨q, rfl⟩
      have h2 := hent _ h1
      have : codeEvent c pre (.enter q) ≠ .none := by intro e; rw [e] at h1; simp [DfsEvent.isEntering] at h1
      simp [shown, h2, this] at hs

theorem isPath_unique {next : V → List (V × L)} (hn : ∀ v, ((next v).map Prod.fst).Nodup) :
    ∀ (st st' : List (V × L)) (s : V), IsPath next s st → IsPath next s st' → st.map Prod.fst = st'.map Prod.fst →
      st = st' := by
  intro st
  induction st with
  | nil => intro st' s _ _ e; simpa using e.symm
  | cons a st ih =>
    intro st' s h h' e
    cases st' with
    | nil => simp at e
    | cons a' st' =>
      obtain ⟨w, l⟩ := a
      obtain ⟨w', l'⟩ := a'
      simp only [List.map_cons, List.cons.injEq] at e
      obtain ⟨rfl, e⟩ := e
      have : (w, l) = (w, l') := List.inj_on_of_nodup_map (hn s) h.1 h'.1 rfl
      rw [this, ih st' w h.2 h'.2 e]

/-- **C13.** When a run in mode `ALL_PATHS` with one start vertex `s` ends, without pruning, and the events of entering are
requested, then the traces at these events are the simple paths from `s`: There is a list `ps` of paths (as sequences of
labeled edges) such that the traces are their vertices. It contains exactly the simple paths from `s`. If the graph has no
identical parallel edges, it contains each path once. If the graph has no parallel edges, each trace occurs once. -/
theorem C13_dfs_all_paths {given : Bool} (already : S) (hso : g.so.Lawful) (hgr : g.so.Grows) (hacc : c.Accepted given)
    (ht : c.isTree = false) (hm : c.mode = .allPaths) (hent : ∀ e : DfsEvent, e.isEntering = true → c.report e = true)
    (hskip : ∀ n, c.skip n = false) (s : V) (limit : Option Int) (fuel : Nat)
    (hdone : (trRun g c already [s] limit fuel).ending = .done) :
    let entering := (trRun g c already [s] limit fuel).reports.filter (fun r => r.event.isEntering)
    let traces := entering.map (fun r => r.trace)
    ∃ ps : List (SPath V L), traces = ps.map SPath.verts ∧ (∀ p, p ∈ ps ↔ IsSimplePath c.next c.vid s p) ∧
      ((∀ v, (c.next v).Nodup) → ps.Nodup) ∧ ((∀ v, ((c.next v).map Prod.fst).Nodup) → traces.Nodup) := by
  intro entering traces
  have hra : TrRange g c already := fun hr => by rw [rule_paths ht hm] at hr; cases hr
  obtain ⟨hist, hf, hma, -, he⟩ := tr_run hacc.ok (trPathsOk_false (fun _ => True) [s]) hso hgr hra limit fuel
  rw [hdone, rule_paths ht hm] at he
  obtain ⟨vis', n', hd⟩ := he
  have hp : c.prune = noPrune := by funext n st; simp [TraceCfg.prune, hskip, noPrune]
  rw [hp] at hd
  have e : traces = (entered hist).map SPath.verts :=
    tr_entering g c hent hma (fun r => r.trace) SPath.verts (fun r pre q h => h.trace)
  have hq0 : ∀ q ∈ [s].map (SPath.single (L := L)), (q.init.map c.vid).Nodup := by simp
  have hmem : ∀ p, p ∈ entered hist ↔ IsSimplePath c.next c.vid s p := by
    intro p
    rw [hd.simple hq0]
    simp only [List.map_cons, List.map_nil, List.mem_singleton, exists_eq_left, IsSimplePath, Extends]
    constructor
    · rintro ⟨⟨h1, st, h2, h3⟩, h4⟩
      simp only [SPath.single, List.nil_append] at h1 h2
      rw [h2]
      exact ⟨h1, h3, h4⟩
    · rintro ⟨h1, h2, h3⟩
      exact ⟨⟨h1, p.steps, by simp [SPath.single], h2⟩, h3⟩
  have hnd : (∀ v, (c.next v).Nodup) → (entered hist).Nodup := fun hn => hd.simple_nodup hn hq0 (by simp)
  refine ⟨entered hist, e, hmem, hnd, ?_⟩
  intro hn
  rw [e]
  refine List.Nodup.map_on ?_ (hnd (fun v => (hn v).of_map))
  intro p hp p' hp' ev
  obtain ⟨a1, a2, -⟩ := (hmem p).1 hp
  obtain ⟨b1, b2, -⟩ := (hmem p').1 hp'
  obtain ⟨f, st⟩ := p
  obtain ⟨f', st'⟩ := p'
  simp only at a1 b1 a2 b2
  subst a1 b1
  simp only [SPath.verts, List.cons.injEq, true_and] at ev
  rw [isPath_unique hn st st' _ a2 b2 ev]

/-- **C13, termination.** If finitely many ids can be reached, the traversal in mode `ALL_PATHS` ends (for any start
vertices), and without limit it does not raise an exception. -/
theorem C13_dfs_terminates {given : Bool} {already : S} (hso : g.so.Lawful) (hgr : g.so.Grows) (hacc : c.Accepted given)
    (hal : TraceAlready g c given already) (ht : c.isTree = false) (hm : c.mode = .allPaths) (starts : List V)
    (hfin : ∃ ids : List K, ∀ v, Reachable (Edge c.next) (· ∈ starts) v → c.vid v ∈ ids) :
    ∃ N, ∀ fuel, N ≤ fuel → (∀ limit, (trRun g c already starts limit fuel).ending ≠ .outOfFuel) ∧
      (trRun g c already starts none fuel).ending = .done := by
  refine tr_done_of g c hso hgr hacc hal starts ?_
  rw [rule_paths ht hm]
  exact dfs_exists_paths c.prune _ starts hfin

/-! ## C14 -/

theorem exists_snoc {q : SPath V L} (h : q.isStart = false) : ∃ p v l, q = SPath.snoc p v l := by
  obtain ⟨f, st⟩ := q
  rcases List.eq_nil_or_concat st with rfl | ⟨st', e, rfl⟩
  · simp [SPath.isStart] at h
  · exact ⟨⟨f, st'⟩, e.1, e.2, by simp [SPath.snoc]⟩

/-- **C14, with a restriction.** In the modes `DFS_TREE` and `ALL_PATHS`, and, if no edge leads to a start vertex, also in
mode `ALL_WALKS` and for trees: at each moment of a run, what has been reported for entering and leaving are the
requested events of the first acts of the recursive search. `ENTERING_START` and `LEAVING_START` are reported exactly for
paths without edges, i.e., for start vertices taken from the given ones. When the run has ended, these are all acts of
the search.

Missing for the full claim: mode `ALL_WALKS` if an edge leads to a start vertex (`C14_counterexample`). -/
theorem C14_dfs_start_events_partial {given : Bool} {already : S} (hso : g.so.Lawful) (hgr : g.so.Grows)
    (hacc : c.Accepted given) (hal : TraceAlready g c given already) (starts : List V)
    (hw : (c.isTree = false ∧ c.mode ≠ .allWalks) ∨ ∀ s ∈ starts, ∀ u l, (s, l) ∉ c.next u)
    (limit : Option Int) (fuel : Nat) :
    let run := trRun g c already starts limit fuel
    ∃ acts, BeginsDfs c.next c.vid c.rule c.prune (fun k => g.so.contains already k = true) starts acts ∧
      (run.reports.filter (fun r => r.event.isEntering || r.event.isLeaving)).map
        (fun r => (r.vertex, r.event, r.trace)) = inOutEvents c.report acts ∧
      (run.ending = .done → ∃ vis' n', Dfs c.next c.vid c.rule c.prune (fun k => g.so.contains already k = true) 0
        (starts.map SPath.single) acts vis' n') := by
  intro run
  obtain ⟨hist, hf, hma, hb, he⟩ :=
    tr_run hacc.ok (trPathsOk_false (fun _ => True) starts) hso hgr hal.trRange limit fuel
  refine ⟨hist, hb, ?_, ?_⟩
  · have hev : ∀ pre q, (pre, .enter q) ∈ moments hist →
        enteredEvent q = if q.isStart then .enteringStart else .enteringSuccessor := by
      intro pre q hm
      have hfa := hf _ hm
      refine enteredEvent_eq (fun e => ?_)
      rcases hw with hw | hw
      · exact isStart_of_nodup (hfa.nodup ((rule_ne_walks c).2 hw)) e
      · by_contra hs
        rw [Bool.not_eq_true] at hs
        obtain ⟨p, v, l, rfl⟩ := exists_snoc hs
        have h1 := hfa.gpath
        simp only [DfsAct.path] at h1
        have h2 := GPath.snoc_edge h1
        rw [SPath.last_snoc] at e
        exact hw _ h1.1 p.last l (e ▸ h2)
    rw [filter_map_filterMap]
    unfold inOutEvents
    rw [List.filter_filterMap, ← moments_filterMap]
    refine forall₂_filterMap hma ?_ ?_
    · rintro r ⟨pre, a⟩ hm hs h
      obtain ⟨e1, e2⟩ := codeEvent_inOut c pre a
      rw [h.event, h.vertex, h.trace]
      have hs' : c.report (codeEvent c pre a) = true := by
        unfold shown at hs
        rw [Bool.and_eq_true] at hs
        exact hs.2
      cases a with
      | enter q =>
        rw [if_pos (by rw [e1.2 ⟨q, rfl⟩]; rfl)]
        simp only [codeEvent, DfsAct.path] at hs' ⊢
        rw [hev pre q hm] at hs' ⊢
        simp [Option.filter, hs']
      | leave q =>
        rw [if_pos (by rw [e2.2 ⟨q, rfl⟩]; simp)]
        simp only [codeEvent, DfsAct.path] at hs' ⊢
        simp [Option.filter, hs']
      | skip q =>
        have h1 := e1.not.2 (by simp)
        have h2 := e2.not.2 (by simp)
        rw [Bool.not_eq_true] at h1 h2
        rw [h1, h2]
        rfl
    · rintro ⟨pre, a⟩ hm hs
      cases a with
      | skip q => rfl
      | enter q =>
        simp only [shown, codeEvent, hev pre q hm] at hs
        have hne : (if q.isStart then DfsEvent.enteringStart else .enteringSuccessor) ≠ .none := by
          split <;> simp
        simp only [hne, ne_eq, not_false_eq_true, decide_true, Bool.true_and] at hs
        simp [Option.filter, hs]
      | leave q =>
        simp only [shown, codeEvent] at hs
        have hne : (if q.isStart then DfsEvent.leavingStart else .leavingSuccessor) ≠ .none := by
          split <;> simp
        simp only [hne, ne_eq, not_false_eq_true, decide_true, Bool.true_and] at hs
        simp [Option.filter, hs]
  · intro hd
    have hd' : (trRun g c already starts limit fuel).ending = .done := hd
    rw [hd'] at he
    exact he

/-! ## C15, C57 -/

/-- **C15, with an exception.** With labeled edges, at each report of any prefix of any run, in any mode: the trace is a
path `q` of the graph, and `trace_labels` has a label for each of its edges. The labels are the labels of the edges of `q`,
with a possible exception: an edge from a vertex with at least two out-edges, if on the trace, this edge and all edges
before it are first out-edges of their start vertices.

Missing for the full claim: this exception, where the claim is wrong (`C15_counterexample`). -/
theorem C15_dfs_labels_partial {given : Bool} {already : S} (hso : g.so.Lawful) (hgr : g.so.Grows)
    (hacc : c.Accepted given) (hal : TraceAlready g c given already) (hlab : c.labeled = true) (starts : List V)
    (limit : Option Int) (fuel : Nat) :
    ∀ r ∈ (trRun g c already starts limit fuel).reports,
      ∃ q : SPath V L, q.first ∈ starts ∧ IsPath c.next q.first q.steps ∧ r.trace = q.verts ∧
        LabelsAgree c.next q r.traceLabels := by
  intro r hr
  obtain ⟨hist, hf, hm, -⟩ := tr_run hacc.ok (trPathsOk_false (fun _ => True) starts) hso hgr hal.trRange limit fuel
  obtain ⟨⟨pre, a⟩, hma, hrm⟩ := forall₂_mem hm hr
  have hfa := hf _ (List.mem_filter.1 hma).1
  exact ⟨a.path, hfa.gpath.1, hfa.gpath.2, hrm.trace, hrm.labels hlab⟩

/-- **C57, with restrictions.** With `build_paths` and labeled edges, whenever a vertex is entered or left, the `Paths`
object gives for this vertex exactly the trace, with exactly the labels in `trace_labels`, in all its methods.

Restrictions: The predecessor collection is not array based. The mode is `DFS_TREE`, or it is `ALL_PATHS` with one start
vertex (`C57_counterexample`); the case `is_tree=True` is not covered. -/
theorem C57_dfs_paths_partial {given : Bool} {already : S} (hso : g.so.Lawful) (hgr : g.so.Grows)
    (hacc : c.Accepted given) (hal : TraceAlready g c given already) (hlab : c.labeled = true)
    (hb : c.buildPaths = true) (ht : c.isTree = false) (starts : List V)
    (hmode : c.mode = .dfsTree ∨ (c.mode = .allPaths ∧ starts.length ≤ 1)) {validV : V → Prop} {validL : L → Prop}
    (hst : Storable g c.toTravCfg starts validV validL) (hfa : g.mo.Faithful) (limit : Option Int) (fuel : Nat) :
    ∀ r ∈ (trRun g c already starts limit fuel).reports, (r.event.isEntering || r.event.isLeaving) = true →
      ∃ p : SPath V L, p.verts = r.trace ∧ p.steps.map Prod.snd = r.traceLabels ∧
        ShowsPath (pathsView g.mo g.lo c.vid r.preds r.labels) r.vertex p := by
  intro r hr hev
  have hpo : TrPathsOk g c True validL starts := fun _ => ⟨hb, hlab, ⟨validV, hst⟩, hfa, by
    rcases hmode with h | ⟨h1, h2⟩
    · exact .inl (rule_tree ht h)
    · exact .inr ⟨rule_paths ht h1, h2⟩⟩
  obtain ⟨hist, hf, hm, -⟩ := tr_run hacc.ok hpo hso hgr hal.trRange limit fuel
  obtain ⟨⟨pre, a⟩, hma, hrm⟩ := forall₂_mem hm hr
  obtain ⟨e1, e2⟩ := codeEvent_inOut c pre a
  have hns : ∀ q, a ≠ .skip q := by
    rintro q rfl
    rw [hrm.event, Bool.or_eq_true, e1, e2] at hev
    simp at hev
  have h1 := hrm.paths trivial hns
  have h2 := (hrm.labels hlab).1
  refine ⟨a.path.relabel r.traceLabels, ?_, ?_, ?_⟩
  · rw [hrm.trace]; exact relabel_verts h2
  · simp only [SPath.relabel]
    rw [List.map_snd_zip]
    rw [List.length_map]; exact Nat.le_of_eq h2
  · rw [hrm.vertex]
    exact StoredPath.shows hst.mo hst.lo h1

/-! ## C58 -/

theorem indexOf_getElem {ids : List K} (hn : ids.Nodup) {i : Nat} {k : K} (h : ids[i]? = some k) :
    indexOf ids k = i + 1 := by
  induction ids using List.reverseRecOn with
  | nil => simp at h
  | append_singleton l a ih =>
    rw [indexOf_snoc]
    have hn' : l.Nodup ∧ a ∉ l := by
      rw [List.nodup_append] at hn
      exact ⟨hn.1, fun ha => hn.2.2 a ha a (by simp) rfl⟩
    by_cases hi : i < l.length
    · rw [List.getElem?_append_left hi] at h
      have hk : k ∈ l := List.mem_of_getElem? h
      rw [if_neg (fun e : k = a => hn'.2 (e ▸ hk)), ih hn'.1 h]
    · rw [List.getElem?_append_right (by omega)] at h
      have hi' : i - l.length = 0 := by
        by_contra h0
        rw [List.getElem?_eq_none (by simp; omega)] at h
        simp at h
      rw [hi'] at h
      simp only [List.length_singleton, Nat.zero_lt_one, List.getElem?_eq_getElem, List.getElem_cons_zero,
        Option.some.injEq] at h
      rw [if_pos h.symm]; omega

/-- **C58.** In mode `DFS_TREE` with `compute_index` and the events of entering requested: at each report `r`, the index
numbers the ids entered so far, in the order of the reports, starting with 1. Other ids have no number. -/
theorem C58_dfs_index {given : Bool} {already : S} (hso : g.so.Lawful) (hgr : g.so.Grows)
    (hacc : c.Accepted given) (hal : TraceAlready g c given already) (ht : c.isTree = false) (hm : c.mode = .dfsTree)
    (hi : c.computeIndex = true) (hent : ∀ e : DfsEvent, e.isEntering = true → c.report e = true) (starts : List V)
    (limit : Option Int) (fuel : Nat) (A B : List (TraceReport V K L S M ML)) (r : TraceReport V K L S M ML)
    (hr : (trRun g c already starts limit fuel).reports = A ++ r :: B) :
    let ids := ((A ++ [r]).filter (fun r => r.event.isEntering)).map (fun r => c.vid r.vertex)
    ids.Nodup ∧ (∀ i k, ids[i]? = some k → r.index k = i + 1) ∧ ∀ k, k ∉ ids → r.index k = 0 := by
  intro ids
  obtain ⟨hist, hf, hma, hb, -⟩ :=
    tr_run hacc.ok (trPathsOk_false (fun _ => True) starts) hso hgr hal.trRange limit fuel
  rw [hr] at hma
  obtain ⟨ms1, ⟨pre, a⟩, ms2, e, h1, h2, h3⟩ := forall₂_split hma
  have e1 : ms1 = moments pre := moments_split e
  subst e1
  have hA : ((A.filter (fun r => r.event.isEntering)).map (fun r => c.vid r.vertex)) = enteredIds c.vid pre :=
    tr_entering g c hent h1 (fun r => c.vid r.vertex) (fun q => c.vid q.last) (fun r pre q h => by rw [h.vertex]; rfl)
  have hids : ids = enteredIds c.vid (pre ++ [a]) := by
    show ((A ++ [r]).filter _).map _ = _
    rw [List.filter_append, List.map_append, hA, enteredIds_append]
    congr 1
    obtain ⟨e1, -⟩ := codeEvent_inOut c pre a
    cases a with
    | enter q =>
      have : r.event.isEntering = true := by rw [h2.event]; exact e1.2 ⟨q, rfl⟩
      simp [this, h2.vertex, DfsAct.path]
    | leave q =>
      have : ¬ r.event.isEntering = true := by rw [h2.event, e1]; simp
      simp [this]
    | skip q =>
      have : ¬ r.event.isEntering = true := by rw [h2.event, e1]; simp
      simp [this]
  have hnd : ids.Nodup := by
    rw [rule_tree ht hm] at hb
    have := (Spec.BeginsDfs.nodup hb).1
    obtain ⟨post, e2⟩ := mem_moments.1 (show (pre, a) ∈ moments hist by rw [e]; simp)
    rw [hids]
    rw [e2, append_cons_eq, enteredIds_append] at this
    exact (List.nodup_append.1 this).1
  refine ⟨hnd, fun i k hk => ?_, fun k hk => ?_⟩
  · rw [h2.idx hi k]
    show indexOf (enteredIds c.vid (pre ++ [a])) k = i + 1
    rw [← hids]
    exact indexOf_getElem hnd hk
  · rw [h2.idx hi k]
    show indexOf (enteredIds c.vid (pre ++ [a])) k = 0
    rw [← hids]
    exact indexOf_eq_zero hk

/-! ## C59, C53, C05 -/

/-- **C59, with a restriction.** The iteration of a depth-first traversal with trace, with accepted options, in any mode and
at any moment, raises no exception but the `RuntimeError` of an exceeded limit.

Missing for the full claim: the case excluded by `TraceAlready.range`, where the claim is wrong (`C59_counterexample`). -/
theorem C59_dfs_no_failure_partial {given : Bool} {already : S} (hso : g.so.Lawful) (hgr : g.so.Grows)
    (hacc : c.Accepted given) (hal : TraceAlready g c given already) (starts : List V) (limit : Option Int) (fuel : Nat)
    (e : PyErr) (he : (trRun g c already starts limit fuel).ending = .raised e) : e = .runtimeError ∧ limit ≠ none := by
  obtain ⟨_, -, -, -, h⟩ :=
    tr_run hacc.ok (trPathsOk_false (fun _ => True) starts) hso hgr hal.trRange limit fuel
  rw [he] at h
  exact h

/-- **C53, options of depth-first search.** `start_from` raises `RuntimeError` exactly for these combinations:
1. the group of all non-tree edges together with one of its events,
2. the group of forward and cross edges together with one of its events,
3. an event for non-tree edges in mode `ALL_WALKS` or for a tree,
4. the computation of `on_trace` in mode `ALL_WALKS` or for a tree,
5. an event for non-tree edges other than `BACK_EDGE` in mode `ALL_PATHS`,
6. paths in mode `ALL_WALKS`,
7. given visited vertices, if an index is demanded by the option, or by the event `FORWARD_EDGE` or `CROSS_EDGE`. -/
theorem C53_dfs_options_partial (o : DfsOptions) : dfsOptions o = none ↔
    let fwd := o.report .forwardEdge = true
    let back := o.report .backEdge = true
    let cross := o.report .crossEdge = true
    let some := o.report .someNonTreeEdge = true
    let fc := o.report .forwardOrCrossEdge = true
    let treeOrWalks := o.isTree = true ∨ o.mode = .allWalks
    (some ∧ (fwd ∨ back ∨ cross)) ∨
    (fc ∧ (fwd ∨ cross)) ∨
    ((fwd ∨ back ∨ cross ∨ some ∨ fc) ∧ treeOrWalks) ∨
    (o.computeOnTrace = true ∧ treeOrWalks) ∨
    ((fwd ∨ cross ∨ some ∨ fc) ∧ o.mode = .allPaths) ∨
    (o.buildPaths = true ∧ o.mode = .allWalks) ∨
    ((o.computeIndex = true ∨ fwd ∨ cross) ∧ o.alreadyGiven = true) := by
  obtain ⟨t, m, r, b, ct, co, ci, ag⟩ := o
  unfold dfsOptions DfsOptions.nonTree
  dsimp only
  rcases Bool.eq_false_or_eq_true (r .forwardEdge) with h1 | h1 <;>
    rcases Bool.eq_false_or_eq_true (r .backEdge) with h2 | h2 <;>
    rcases Bool.eq_false_or_eq_true (r .crossEdge) with h3 | h3 <;>
    rcases Bool.eq_false_or_eq_true (r .someNonTreeEdge) with h4 | h4 <;>
    rcases Bool.eq_false_or_eq_true (r .forwardOrCrossEdge) with h5 | h5 <;>
    simp only [h1, h2, h3, h4, h5] <;> revert b co ci ag <;> cases t <;> cases m <;> simp <;> decide

/-- **C53 is wrong for trees in mode `ALL_WALKS`**: the documentation says that this mode cannot be used for trees, but the
combination is accepted. -/
theorem C53_counterexample :
    let o : DfsOptions := {
      isTree := true, mode := .allWalks, report := DfsEvent.isEntering, buildPaths := false, computeTrace := false
      computeOnTrace := false, computeIndex := false, alreadyGiven := false }
    (dfsOptions o).isSome = true := by decide

/-- **C05 for depth-first search with trace.** -/
theorem C05_dfs_trace (already : S) (starts : List V) (k fuel : Nat) :
    let full := trRun g c already starts none fuel
    let limited := trRun g c already starts (some k) fuel
    (expsOf full.events ≤ k → limited = full) ∧
    (k < expsOf full.events →
      limited.events = beforeExp k full.events ∧ limited.ending = .raised .runtimeError) ∧
    expsOf limited.events ≤ k :=
  let h := C05_limit_exact (trStep g c) fuel (trInit g already starts) k
  ⟨h.1, h.2, C05_reads_at_most (trStep g c) fuel (trInit g already starts) k⟩

/-! ## Non-vacuity -/

/-- Options for the examples. -/
def exOptions (mode : DfsMode) (report : DfsEvent → Bool) : DfsOptions :=
  ⟨false, mode, report, mode != .allWalks, true, mode != .allWalks, false, false⟩

/-- A traversal with these options, after the check of options. -/
def exTraceCfg (c : TravCfg Nat Nat Char) (o : DfsOptions) : TraceCfg Nat Nat Char :=
  let o := (dfsOptions o).getD o
  ⟨{ c with isTree := o.isTree, buildPaths := o.buildPaths }, true, o.mode, o.report, o.computeOnTrace, o.computeIndex,
    true, fun _ => false⟩

theorem exTraceCfg_accepted (c : TravCfg Nat Nat Char) (o : DfsOptions) (h : (dfsOptions o).isSome = true)
    (h' : ((dfsOptions o).getD o).withTrace = true) : (exTraceCfg c o).Accepted ((dfsOptions o).getD o).alreadyGiven := by
  obtain ⟨o', e⟩ := Option.isSome_iff_exists.1 h
  refine ⟨o, o', e, by rw [e] at h'; exact h', ?_⟩
  simp [exTraceCfg, e]

/-- Requested: all events but the groups. -/
def exAll (e : DfsEvent) : Bool := e ≠ .someNonTreeEdge && e ≠ .forwardOrCrossEdge

/-- Requested: entering and leaving. -/
def exInOut (e : DfsEvent) : Bool := e.isEntering || e.isLeaving

/-- A graph with all kinds of non-tree edges: 0→1 tree edge, 1→2, 0→2 forward or tree edge, 2→0 back edge, 3→1 cross edge. -/
def exKinds : Nat → List (Nat × Char)
  | 0 => [(2, 'f'), (1, 't')]
  | 1 => [(2, 't')]
  | 2 => [(0, 'b')]
  | 3 => [(1, 'c')]
  | _ => []

/-- The options are accepted, and the gears are as needed. -/
example : (exTraceCfg ⟨exKinds, id, false, true⟩ (exOptions .dfsTree exAll)).Accepted false ∧
    (exTraceCfg ⟨exKinds, id, false, true⟩ (exOptions .allPaths exInOut)).Accepted false ∧
    (exTraceCfg ⟨exKinds, id, false, true⟩ (exOptions .allWalks exInOut)).Accepted false ∧
    TraceAlready exHash (exTraceCfg ⟨exKinds, id, false, true⟩ (exOptions .dfsTree exAll)) false exHash.so.empty ∧
    TraceAlready exLists (exTraceCfg ⟨exKinds, id, false, true⟩ (exOptions .dfsTree exAll)) false exLists.so.empty ∧
    exHash.so.Grows ∧ exLists.so.Grows :=
  ⟨exTraceCfg_accepted _ _ (by decide) (by decide), exTraceCfg_accepted _ _ (by decide) (by decide),
    exTraceCfg_accepted _ _ (by decide) (by decide),
    ⟨fun _ => rfl, fun _ k h => by simp [exHash, hashSet] at h⟩,
    ⟨fun _ => rfl, fun _ k h => by
      rw [show exLists.so.contains exLists.so.empty k = false from
        (bitSeqSet_lawful _ rfl (fun _ => by decide) 0).contains_empty k] at h
      simp at h⟩,
    hashSet_grows, bitSeqSet_grows _ (fun _ => by decide) 0⟩

/-- C10 - C12, C58: a run with all kinds of events: vertex, event, trace, depth, index of the vertex. -/
example : ((trRun exHash (exTraceCfg ⟨exKinds, id, false, true⟩ (exOptions .dfsTree exAll)) [] [0, 0, 3] none 200).reports.map
      (fun r => (r.vertex, r.event, r.trace, r.depth, r.index r.vertex)),
    (trRun exHash (exTraceCfg ⟨exKinds, id, false, true⟩ (exOptions .dfsTree exAll)) [] [0, 0, 3] none 200).ending) =
    ([(0, .enteringStart, [0], 0, 1), (1, .enteringSuccessor, [0, 1], 1, 2), (2, .enteringSuccessor, [0, 1, 2], 2, 3),
      (0, .backEdge, [0, 1, 2, 0], 2, 1), (2, .leavingSuccessor, [0, 1, 2], 2, 3), (1, .leavingSuccessor, [0, 1], 1, 2),
      (2, .forwardEdge, [0, 2], 0, 3), (0, .leavingStart, [0], 0, 1), (0, .skippingStart, [0], -1, 1),
      (3, .enteringStart, [3], 0, 4), (1, .crossEdge, [3, 1], 0, 2), (3, .leavingStart, [3], 0, 4)], .done) := by
  decide +kernel

/-- C12: the group of all non-tree edges. -/
example : (trRun exHash (exTraceCfg ⟨exKinds, id, false, true⟩ (exOptions .dfsTree (fun e => e = .someNonTreeEdge)))
      [] [0, 3] none 200).reports.map (fun r => (r.vertex, r.event, r.trace)) =
    [(0, .someNonTreeEdge, [0, 1, 2, 0]), (2, .someNonTreeEdge, [0, 2]), (1, .someNonTreeEdge, [3, 1])] := by
  decide +kernel

/-- C13: the simple paths from vertex 0. -/
example : ((trRun exLists (exTraceCfg ⟨exKinds, id, false, true⟩ (exOptions .allPaths exInOut)) [] [0] none 200).reports.filter
      (fun r => r.event.isEntering)).map (fun r => r.trace) = [[0], [0, 1], [0, 1, 2], [0, 2]] ∧
    (trRun exLists (exTraceCfg ⟨exKinds, id, false, true⟩ (exOptions .allPaths exInOut)) [] [0] none 200).ending = .done := by
  decide +kernel

/-- C13: finitely many reachable ids, and no parallel edges. -/
example : (∃ ids : List Nat, ∀ v, Reachable (Edge exKinds) (· ∈ [0]) v → id v ∈ ids) ∧
    ∀ v, ((exKinds v).map Prod.fst).Nodup := by
  constructor
  · refine ⟨[0, 1, 2], fun v hv => ?_⟩
    refine Reachable.induct (P := fun v => id v ∈ [0, 1, 2]) ?_ ?_ hv
    · intro v hv; simp at hv; simp [hv]
    · rintro u w - hu ⟨l, hl⟩
      simp only [id_eq, List.mem_cons, List.not_mem_nil, or_false] at hu
      rcases hu with rfl | rfl | rfl <;> simp [exKinds] at hl <;> simp <;> omega
  · intro v
    match v with
    | 0 => decide
    | 1 => decide
    | 2 => decide
    | 3 => decide
    | n + 4 => exact List.nodup_nil

/-- C14: in mode `ALL_WALKS` with a graph in which no edge leads to the start vertex. -/
example : (∀ s ∈ [3], ∀ u l, (s, l) ∉ exKinds u) ∧
    (trRun exHash (exTraceCfg ⟨exKinds, id, false, true⟩ (exOptions .allWalks exInOut)) [] [3] none 40).reports.map
      (fun r => (r.event, r.trace)) = [(.enteringStart, [3]), (.enteringSuccessor, [3, 1]),
        (.enteringSuccessor, [3, 1, 2]), (.enteringSuccessor, [3, 1, 2, 0]), (.enteringSuccessor, [3, 1, 2, 0, 1]),
        (.enteringSuccessor, [3, 1, 2, 0, 1, 2]), (.enteringSuccessor, [3, 1, 2, 0, 1, 2, 0]),
        (.enteringSuccessor, [3, 1, 2, 0, 1, 2, 0, 1]), (.enteringSuccessor, [3, 1, 2, 0, 1, 2, 0, 1, 2]),
        (.enteringSuccessor, [3, 1, 2, 0, 1, 2, 0, 1, 2, 0])] := by
  constructor
  · intro s hs u l h
    rw [List.mem_singleton] at hs
    subst hs
    match u with
    | 0 => simp [exKinds] at h
    | 1 => simp [exKinds] at h
    | 2 => simp [exKinds] at h
    | 3 => simp [exKinds] at h
    | n + 4 => simp [exKinds] at h
  · decide +kernel

/-- C15, C57: trace labels and stored paths. -/
example : ((trRun exLists (exTraceCfg ⟨exKinds, id, false, true⟩ (exOptions .dfsTree exInOut)) [] [3] none 200).reports.filter
      (fun r => r.event.isEntering)).map (fun r => (r.trace, r.traceLabels,
      ((pathsView exLists.mo exLists.lo id r.preds r.labels).iterLabeledEdgesFromStart 9 r.vertex).1)) =
    [([3], [], []), ([3, 1], ['c'], [(3, 1, 'c')]), ([3, 1, 2], ['c', 't'], [(3, 1, 'c'), (1, 2, 't')]),
     ([3, 1, 2, 0], ['c', 't', 'b'], [(3, 1, 'c'), (1, 2, 't'), (2, 0, 'b')])] := by decide +kernel

example : Storable exLists (exTraceCfg ⟨exKinds, id, false, true⟩ (exOptions .dfsTree exInOut)).toTravCfg [3]
    (fun _ => True) (fun _ => True) :=
  ⟨listMap_lawful _ rfl (fun _ => by decide) 3, listMap_lawful _ rfl (fun _ => by decide) 0, fun _ _ => trivial,
    fun _ _ _ _ => trivial, fun s _ t _ h => h⟩

/-- C59: a given set of visited ids with a bit-packed set, in the pre-allocated range. -/
example : TraceAlready { exLists with so := bitSeqSet ⟨0, 2, true⟩ 2 }
    (exTraceCfg ⟨exKinds, id, false, true⟩ { exOptions .dfsTree exInOut with alreadyGiven := true }) true
    ((bitSeqSet ⟨0, 2, true⟩ 2).add (bitSeqSet ⟨0, 2, true⟩ 2).empty 9) := by
  refine ⟨by simp, fun _ k hk => ?_⟩
  rw [(bitSeqSet_lawful ⟨0, 2, true⟩ rfl (fun _ => by decide) 2).contains_add,
    (bitSeqSet_lawful ⟨0, 2, true⟩ rfl (fun _ => by decide) 2).contains_empty] at hk
  have : k = 9 := by simpa using hk
  subst this
  decide

/-- C05: with limit 2 the run raises when the third vertex would be expanded. -/
example : ((trRun exHash (exTraceCfg ⟨exKinds, id, false, true⟩ (exOptions .dfsTree exInOut)) [] [0] (some 2) 100).reports.map
      (fun r => r.vertex),
    (trRun exHash (exTraceCfg ⟨exKinds, id, false, true⟩ (exOptions .dfsTree exInOut)) [] [0] (some 2) 100).ending) =
    ([0, 1, 2], .raised .runtimeError) := by decide +kernel

/-- C53: accepted and rejected options. -/
example : (dfsOptions (exOptions .dfsTree exAll)).isSome = true ∧ dfsOptions (exOptions .allWalks exAll) = none ∧
    dfsOptions (exOptions .allPaths exAll) = none := by decide

/-! ## Counterexamples -/

/-- **C12 is wrong for the event `FORWARD_OR_CROSS_EDGE`**: the options are accepted, and the graph has a forward edge (0→2)
and a cross edge (3→1), but nothing is reported. -/
theorem C12_counterexample_group :
    (dfsOptions (exOptions .dfsTree (fun e => e = .forwardOrCrossEdge))).isSome = true ∧
    (trRun exHash (exTraceCfg ⟨exKinds, id, false, true⟩ (exOptions .dfsTree (fun e => e = .forwardOrCrossEdge)))
      [] [0, 3] none 200).reports.map (fun r => (r.vertex, r.event)) = [] ∧
    (trRun exHash (exTraceCfg ⟨exKinds, id, false, true⟩ (exOptions .dfsTree (fun e => e = .forwardOrCrossEdge)))
      [] [0, 3] none 200).ending = .done := by decide +kernel

/-- **C12 is wrong for the event `CROSS_EDGE`, if `BACK_EDGE` is not requested**: the options are accepted, and the graph has
exactly one non-tree edge, the back edge 1→0. It is reported as cross edge. -/
theorem C12_counterexample_cross :
    let next : Nat → List (Nat × Char) := fun v => if v = 0 then [(1, 'a')] else if v = 1 then [(0, 'b')] else []
    (dfsOptions (exOptions .dfsTree (fun e => e = .crossEdge))).isSome = true ∧
    (trRun exHash (exTraceCfg ⟨next, id, false, true⟩ (exOptions .dfsTree (fun e => e = .crossEdge)))
      [] [0] none 200).reports.map (fun r => (r.vertex, r.event, r.trace)) = [(0, .crossEdge, [0, 1, 0])] := by
  decide +kernel

/-- **C14 is wrong in mode `ALL_WALKS`**: the vertex 0 is entered along the edge 1→0, but the event is `ENTERING_START`. -/
theorem C14_counterexample :
    let next : Nat → List (Nat × Char) := fun v => if v = 0 then [(1, 'a')] else if v = 1 then [(0, 'b')] else []
    (dfsOptions (exOptions .allWalks exInOut)).isSome = true ∧
    ((trRun exHash (exTraceCfg ⟨next, id, false, true⟩ (exOptions .allWalks exInOut)) [] [0] none 40).reports.take 3).map
      (fun r => (r.vertex, r.event, r.trace)) =
      [(0, .enteringStart, [0]), (1, .enteringSuccessor, [0, 1]), (0, .enteringStart, [0, 1, 0])] := by decide +kernel

/-- **C15 is wrong**: the label of the edge 0→1 is 'a', but `trace_labels` and the stored path give the label 'b'. -/
theorem C15_counterexample :
    let next : Nat → List (Nat × Char) := fun v => if v = 0 then [(1, 'a'), (2, 'b')] else []
    ((trRun exHash (exTraceCfg ⟨next, id, false, true⟩ (exOptions .dfsTree exInOut)) [] [0] none 200).reports.filter
      (fun r => r.event.isEntering)).map (fun r => (r.trace, r.traceLabels,
        ((pathsView exHash.mo exHash.lo id r.preds r.labels).iterLabeledEdgesFromStart 9 r.vertex).1)) =
      [([0], [], []), ([0, 2], ['b'], [(0, 2, 'b')]), ([0, 1], ['b'], [(0, 1, 'b')])] := by decide +kernel

/-- **C57 is wrong in mode `ALL_PATHS` with several start vertices**: the start vertices 0 and 1 are connected by edges in
both directions. When the start vertex 1 is entered, the stored path for it is not the empty one. When vertex 0 is
entered from there, the stored predecessors of 0 and 1 are 1 and 0, and the iteration of the path of 0 does not end. -/
theorem C57_counterexample :
    let next : Nat → List (Nat × Char) := fun v => if v = 0 then [(1, 'a')] else if v = 1 then [(0, 'b')] else []
    ((trRun exHash (exTraceCfg ⟨next, id, false, true⟩ (exOptions .allPaths exInOut)) [] [0, 1] none 200).reports.filter
      (fun r => r.event.isEntering)).map (fun r => (r.trace,
        ((pathsView exHash.mo exHash.lo id r.preds r.labels).iterEdgesToStart 5 r.vertex).1)) =
      [([0], []), ([0, 1], [(0, 1)]), ([1], [(0, 1)]), ([1, 0], [(1, 0), (0, 1), (1, 0), (0, 1), (1, 0)])] := by
  decide +kernel

/-- **C59 is wrong for given visited ids**: sets of ids are stored as bit-packed sequences, `BACK_EDGE` is requested, and the
id 40 is given as already visited. The edge 0→40 leads to an `AssertionError`. -/
theorem C59_counterexample :
    let next : Nat → List (Nat × Char) := fun v => if v = 0 then [(40, 'a')] else []
    let o := { exOptions .dfsTree (fun e => e = .backEdge) with alreadyGiven := true }
    (dfsOptions o).isSome = true ∧
    (trRun exLists (exTraceCfg ⟨next, id, false, true⟩ o) (exLists.so.add exLists.so.empty 40) [0] none 200).ending =
      .raised .assertionError := by decide +kernel

end NoGraphs
