import Verif.Model.DepthFirstBoth
import Verif.Proofs.DfsAgree
import Verif.Props.DepthFirstTrace

/-! # C88: the options of depth-first search for additional bookkeeping do not change the search -/

set_option linter.unusedSectionVars false

namespace NoGraphs

open Spec

variable {V K L S M ML : Type} [DecidableEq V] [DecidableEq K]

/-- The rule of the search in a mode. -/
def DfsMode.rule : DfsMode → DfsRule
  | .dfsTree => .tree
  | .allPaths => .paths
  | .allWalks => .walks

/-- The reports of entering a vertex: vertex, event and depth. -/
def DfsSeenRun.entering (run : DfsSeenRun V K S) : List (V × DfsEvent × Int) :=
  (run.reports.filter (fun r => r.event.isEntering)).map (fun r => (r.vertex, r.event, r.depth))

/-- The consumer prunes the search at the `n`-th entered path: it can do so only if this is reported. -/
def DfsGraph.prune (f : DfsGraph V K L) (report : DfsEvent → Bool) (n : Nat) (q : SPath V L) : Bool :=
  report (enteredEvent q) && f.skip n

/-- What is to be reported for entered paths: the vertex, the event (whether the vertex is the start vertex of the
path) and the number of edges of the path. -/
def enterings (report : DfsEvent → Bool) (qs : List (SPath V L)) : List (V × DfsEvent × Int) :=
  (qs.filter (fun q => report (enteredEvent q))).map (fun q => (q.last, enteredEvent q, (q.steps.length : Int)))

theorem dfsOptions_same {o o' : DfsOptions} (h : dfsOptions o = some o') : o'.isTree = o.isTree ∧ o'.mode = o.mode ∧
    o'.report = o.report ∧ o'.buildPaths = o.buildPaths ∧ o'.alreadyGiven = o.alreadyGiven := by
  unfold dfsOptions at h
  dsimp only at h
  repeat' split at h
  all_goals first | cases h; done | (simp only [Option.some.injEq] at h; subst h; exact ⟨rfl, rfl, rfl, rfl, rfl⟩)

/-- Options accepted without a trace: only entering is reported. -/
theorem dfsOptions_plain {o o' : DfsOptions} (h : dfsOptions o = some o') (ht : o'.withTrace = false) :
    o.mode = .dfsTree ∧ ∀ e, o.report e = true → e.isEntering = true ∨ e = .none := by
  obtain ⟨-, e2, -⟩ := dfsOptions_same h
  simp only [DfsOptions.withTrace, Bool.or_eq_false_iff, bne_eq_false_iff_eq] at ht
  refine ⟨e2 ▸ ht.2, ?_⟩
  unfold dfsOptions at h
  dsimp only at h
  repeat' split at h
  all_goals first | cases h; done | skip
  simp only [Option.some.injEq] at h
  subst h
  have h1 := ht.1
  simp only [Bool.or_eq_false_iff, Bool.not_eq_false'] at h1
  intro e he
  cases e <;> simp_all [DfsEvent.isEntering]

/-- The entering reports of the variant with trace. -/
theorem tr_entering_some {g : TravGear V K L S M ML} {c : TraceCfg V K L} {bp : Prop} {already : S}
    {rs : List (TraceReport V K L S M ML)} {hist : List (DfsAct V L)}
    (hm : List.Forall₂ (TrMatch g c bp already) rs ((moments hist).filter (shown c))) {β : Type}
    (f : TraceReport V K L S M ML → β) (f' : SPath V L → β)
    (hff : ∀ r pre q, TrMatch g c bp already r (pre, .enter q) → f r = f' q) :
    (rs.filter (fun r => r.event.isEntering)).map f =
      ((entered hist).filter (fun q => c.report (enteredEvent q))).map f' := by
  rw [filter_map_filterMap, filter_map_filterMap]
  have e : (entered hist).filterMap (fun q => if c.report (enteredEvent q) then some (f' q) else none) =
      (moments hist).filterMap (fun m => match m.2 with
        | .enter q => if c.report (enteredEvent q) then some (f' q) else none
        | _ => none) := by
    rw [moments_filterMap (fun a : DfsAct V L => match a with
        | .enter q => if c.report (enteredEvent q) then some (f' q) else none
        | _ => none)]
    unfold entered
    rw [List.filterMap_filterMap]
    congr 1
    funext a
    cases a <;> rfl
  rw [e]
  refine forall₂_filterMap hm ?_ ?_
  · rintro r ⟨pre, a⟩ - hs h
    obtain ⟨e1, -⟩ := codeEvent_inOut c pre a
    rw [h.event]
    cases a with
    | enter q =>
      rw [if_pos (e1.2 ⟨q, rfl⟩), hff r pre q h]
      simp only [shown, codeEvent, Bool.and_eq_true] at hs
      simp only [hs.2, if_true]
    | leave q => rw [if_neg (by rw [e1]; simp)]
    | skip q => rw [if_neg (by rw [e1]; simp)]
  · rintro ⟨pre, a⟩ - hs
    obtain ⟨e1, -⟩ := codeEvent_inOut c pre a
    cases a with
    | leave q => rfl
    | skip q => rfl
    | enter q =>
      have h1 := e1.2 ⟨q, rfl⟩
      have : codeEvent c pre (.enter q) ≠ .none := by intro e; rw [e] at h1; simp [DfsEvent.isEntering] at h1
      cases hr : c.report (enteredEvent q) with
      | false => simp [hr]
      | true =>
        simp only [codeEvent] at this
        simp [shown, codeEvent, this, hr] at hs

/-- The entered paths up to some point are those of some first acts. -/
theorem entered_take (acts : List (DfsAct V L)) (n : Nat) (h : n ≤ (entered acts).length) :
    ∃ A B, acts = A ++ B ∧ entered A = (entered acts).take n := by
  induction acts generalizing n with
  | nil => exact ⟨[], [], rfl, by simp [entered]⟩
  | cons a acts ih =>
    cases n with
    | zero => exact ⟨[], _, rfl, by simp [entered]⟩
    | succ n =>
      cases a with
      | enter q =>
        obtain ⟨A, B, e1, e2⟩ := ih n (by simpa using h)
        exact ⟨.enter q :: A, B, by rw [e1]; rfl, by simp [e2]⟩
      | leave q =>
        obtain ⟨A, B, e1, e2⟩ := ih (n + 1) (by simpa using h)
        exact ⟨.leave q :: A, B, by rw [e1]; rfl, by simp [e2]⟩
      | skip q =>
        obtain ⟨A, B, e1, e2⟩ := ih (n + 1) (by simpa using h)
        exact ⟨.skip q :: A, B, by rw [e1]; rfl, by simp [e2]⟩

theorem forall₂_map_eq' {α β γ : Type} {R : α → β → Prop} {f : α → γ} {f' : β → γ} {l : List α} {l' : List β}
    (h : List.Forall₂ R l l') (hf : ∀ a b, b ∈ l' → R a b → f a = f' b) : l.map f = l'.map f' := by
  induction h with
  | nil => rfl
  | cons h _ ih =>
    rw [List.map_cons, List.map_cons, hf _ _ List.mem_cons_self h, ih (fun a b hb => hf a b (List.mem_cons_of_mem _ hb))]

theorem enteredEvent_start {q : SPath V L} {vid : V → K} (h : q.isStart = true ∨ vid q.last ≠ vid q.first) :
    enteredEvent q = enterEvent q := by
  unfold enteredEvent enterEvent
  by_cases hs : q.isStart = true
  · have : q.steps = [] := by simpa [SPath.isStart] using hs
    simp [hs, SPath.last, this]
  · have : q.last ≠ q.first := by
      rcases h with h | h
      · exact absurd h hs
      · exact fun e => h (by rw [e])
    simp [hs, this]

variable (g : TravGear V K L S M ML) (f : DfsGraph V K L)

/-- **C88, the search.** Depth-first search with any options that are accepted by `start_from`, in any mode, at each moment
of the run: the reports of entering vertices are those of the first vertices that the recursive search of the mode
enters, restricted to the requested events; and when the run has ended, all vertices that it enters. So it does not
matter which of both implementations is used. -/
theorem C88_dfs_search (hso : g.so.Lawful) (hgr : g.so.Grows) (o : DfsOptions) (ht : o.isTree = false) (already : S)
    (hgiven : o.alreadyGiven = false → already = g.so.empty)
    (hrange : o.report .backEdge = true → ∀ k, g.so.contains already k = true → (g.so.mustContain g.so.empty k).isSome = true)
    (hdep : f.computeDepth = true)
    (starts : List V) (limit : Option Int) (fuel : Nat) {run : DfsSeenRun V K S}
    (hrun : depthFirstRun g f o already starts limit fuel = some run) :
    ∃ acts, BeginsDfs f.next f.vid o.mode.rule (f.prune o.report) (fun k => g.so.contains already k = true) starts acts ∧
      run.entering = enterings o.report (entered acts) ∧
      (run.ending = .done → ∃ vis' n', Dfs f.next f.vid o.mode.rule (f.prune o.report)
        (fun k => g.so.contains already k = true) 0 (starts.map SPath.single) acts vis' n') := by
  unfold depthFirstRun at hrun
  split at hrun
  · cases hrun
  · rename_i o' ho
    obtain ⟨e1, e2, e3, e4, e5⟩ := dfsOptions_same ho
    split at hrun
    · rename_i hw
      simp only [Option.some.injEq] at hrun
      subst hrun
      have hacc : (f.traced o').Accepted o.alreadyGiven := ⟨o, o', ho, hw, rfl, rfl, rfl, rfl, rfl, rfl, e5⟩
      have hal : TraceAlready g (f.traced o') o.alreadyGiven already := ⟨hgiven, fun h => hrange (by rw [← e3]; exact h)⟩
      obtain ⟨hist, hf, hm, hb, he⟩ :=
        tr_run hacc.ok (trPathsOk_false (fun _ => True) starts) hso hgr hal.trRange limit fuel
      have hru : (f.traced o').rule = o.mode.rule := by
        unfold TraceCfg.rule
        have h1 : (f.traced o').isTree = false := e1.trans ht
        have h2 : (f.traced o').mode = o.mode := e2
        rw [h1, h2]
        cases o.mode <;> rfl
      have hpr : (f.traced o').prune = f.prune o.report := by
        funext n q
        show (o'.report _ && _) = _
        rw [e3]; rfl
      rw [hru, hpr] at hb he
      refine ⟨hist, hb, ?_, ?_⟩
      · have := tr_entering_some hm (fun r => (r.vertex, r.event, r.depth))
          (fun q => (q.last, enteredEvent q, (q.steps.length : Int))) (fun r pre q h => by
            have hd := h.depth hdep
            simp only [onVerts, SPath.verts, List.length_cons, List.length_map] at hd
            rw [h.vertex, h.event, hd]
            simp [codeEvent, DfsAct.path])
        have h3 : (f.traced o').report = o.report := e3
        rw [h3] at this
        rw [enterings, ← this]
        simp only [DfsSeenRun.entering, List.filter_map, Function.comp_def, List.map_map]
      · intro hd
        dsimp only at hd
        rw [hd] at he
        exact he
    · rename_i hw
      simp only [Option.some.injEq] at hrun
      subst hrun
      obtain ⟨hmode, honly⟩ := dfsOptions_plain ho (by simpa using hw)
      have ht' : (f.plain o').isTree = false := e1.trans ht
      have hone : ∀ q ∈ starts.map (SPath.single (L := L)), q.isStart = true ∨
          g.so.contains already (f.vid q.first) = true := by
        intro q hq
        obtain ⟨v, -, rfl⟩ := List.mem_map.1 hq
        exact .inl rfl
      have hrep : ∀ q : SPath V L, (f.plain o').reported q = o.report (enterEvent q) := by
        intro q
        show (if q.isStart then o'.report _ else o'.report _) = _
        rw [e3]
        unfold enterEvent
        split <;> rfl
      have hpr : ∀ n (q : SPath V L), (q.isStart = true ∨ f.vid q.last ≠ f.vid q.first) →
          f.prune o.report n q = (f.plain o').prune n q := by
        intro n q h
        show (_ && _) = (_ && _)
        rw [hrep, enteredEvent_start h]; rfl
      have hent : ∀ {rs : List (DfsReport V S M ML)} {outs : List (SPath V L)},
          List.Forall₂ (DfsMatch g (f.plain o') False starts) rs (outs.filter (f.plain o').reported) →
          (∀ q ∈ outs, q.isStart = true ∨ f.vid q.last ≠ f.vid q.first) →
          (rs.filter (fun r => r.event.isEntering)).map (fun r => (r.vertex, r.event, r.depth)) =
            enterings o.report outs := by
        intro rs outs hm hq
        have hall : rs.filter (fun r => r.event.isEntering) = rs := by
          refine List.filter_eq_self.2 fun r hr => ?_
          obtain ⟨q, -, h⟩ := forall₂_mem hm hr
          rw [h.event]
          unfold enterEvent
          split <;> rfl
        rw [hall]
        have e : outs.filter (f.plain o').reported = outs.filter (fun q => o.report (enteredEvent q)) := by
          refine List.filter_congr fun q h => ?_
          rw [hrep, enteredEvent_start (hq q h)]
        rw [e] at hm
        refine forall₂_map_eq' hm fun r q hqm h => ?_
        rw [h.vertex, h.event, h.depth hdep, enteredEvent_start (hq q (List.mem_filter.1 hqm).1)]
      have hmp : ∀ rs : List (DfsReport V S M ML),
          (DfsSeenRun.mk (rs.map (fun r => (⟨r.vertex, r.event, r.depth, [], g.so.empty, fun _ => 0⟩ : DfsView V K S)))
            (dfsRun g (f.plain o') already starts limit fuel).ending).entering =
          (rs.filter (fun r => r.event.isEntering)).map (fun r => (r.vertex, r.event, r.depth)) := by
        intro rs
        simp only [DfsSeenRun.entering, List.filter_map, Function.comp_def, List.map_map]
      rw [hmode]
      by_cases hdone : (dfsRun g (f.plain o') already starts limit fuel).ending = .done
      · obtain ⟨outs, ⟨acts, h1, rfl⟩, h2, -⟩ :=
          dfs_run_done g (f.plain o') hso ht' (dfsPathsOk_false g _ starts) already limit fuel hdone
        have hst := h1.entered_start hone
        have h1' := h1.congr_start hone hpr
        refine ⟨acts, ⟨_, fun _ _ _ => rfl, [], _, _, by rw [List.append_nil]; exact h1'⟩, ?_, fun _ => ⟨_, _, h1'⟩⟩
        rw [hmp]
        exact hent h2 hst
      · obtain ⟨s, G, outs, q, inv, -⟩ :=
          dfs_run g (f.plain o') hso ht' (dfsPathsOk_false g _ starts) already limit fuel
        obtain ⟨acts, vis', n', h1, -⟩ := Spec.Dfs.exists_of_bound (next := f.next) (vid := f.vid) (rule := .tree)
          (prune := fun n st => (f.plain o').prune n st || decide (outs.length ≤ n)) outs.length
          (by intro n st h; simp [h]) (fun k => g.so.contains already k = true) 0 (starts.map SPath.single)
        obtain ⟨os, h2, -⟩ := (inv.cont (fun n st => (f.plain o').prune n st || decide (outs.length ≤ n))
          (by intro n st h; simp; omega) (entered acts) vis' n').1 ⟨acts, h1, rfl⟩
        have hst := h1.entered_start hone
        have h1' := h1.congr_start (pr1 := fun n st => f.prune o.report n st || decide (outs.length ≤ n)) hone
          (fun n q h => by rw [hpr n q h])
        obtain ⟨A, B, e6, e7⟩ := entered_take acts outs.length (by rw [h2]; simp)
        rw [h2, List.take_left] at e7
        rw [e6] at h1'
        refine ⟨A, ⟨_, fun m q hm => ?_, B, _, _, h1'⟩, ?_, fun h => absurd h hdone⟩
        · rw [e7] at hm
          simp [hm]
        · rw [hmp, e7]
          exact hent inv.reps (fun q hq => hst q (by rw [h2]; exact List.mem_append_left _ hq))

/-- **C88.** Two depth-first traversals of the same graph from the same start vertices, with the same already visited
ids, in the same mode, with the same requested events of entering vertices, and with a consumer that skips the expansion
of the same vertices. They may differ in everything else: other requested events, `build_paths`, `compute_trace`,
`compute_on_trace`, `compute_index`, labeled or unlabeled edges, the gear, the calculation limit, and how far they have
been iterated. Then both enter the same vertices in the same order, with the same events and depths: at each moment,
the entering reports of one of them are the first ones of the other, and if both have ended, they are the same. -/
theorem C88_dfs_options_agree {S' M' ML' : Type} (g' : TravGear V K L S' M' ML') (hso : g.so.Lawful) (hgr : g.so.Grows)
    (hso' : g'.so.Lawful) (hgr' : g'.so.Grows) (o o' : DfsOptions) (ht : o.isTree = false) (ht' : o'.isTree = false)
    (hmode : o'.mode = o.mode) (hrep : ∀ e, e.isEntering = true → o'.report e = o.report e) (hdep : f.computeDepth = true)
    (already : S) (already' : S') (hsame : ∀ k, g'.so.contains already' k = g.so.contains already k)
    (hgiven : o.alreadyGiven = false → already = g.so.empty) (hgiven' : o'.alreadyGiven = false → already' = g'.so.empty)
    (hrange : o.report .backEdge = true → ∀ k, g.so.contains already k = true → (g.so.mustContain g.so.empty k).isSome = true)
    (hrange' : o'.report .backEdge = true → ∀ k, g'.so.contains already' k = true →
      (g'.so.mustContain g'.so.empty k).isSome = true)
    (labeled : Bool) (starts : List V) (limit limit' : Option Int) (fuel fuel' : Nat) {run : DfsSeenRun V K S} {run' : DfsSeenRun V K S'}
    (hrun : depthFirstRun g f o already starts limit fuel = some run)
    (hrun' : depthFirstRun g' { f with labeled := labeled } o' already' starts limit' fuel' = some run') :
    (run.entering <+: run'.entering ∨ run'.entering <+: run.entering) ∧
    (run.ending = .done → run'.ending = .done → run'.entering = run.entering) := by
  have hev : ∀ q : SPath V L, (enteredEvent q).isEntering = true := by
    intro q
    unfold enteredEvent
    split <;> rfl
  have hq : ∀ q : SPath V L, o'.report (enteredEvent q) = o.report (enteredEvent q) := fun q => hrep _ (hev q)
  have hpr : { f with labeled := labeled }.prune o'.report = f.prune o.report := by
    funext n q
    show (_ && _) = (_ && _)
    rw [hq]
  have hen : ∀ qs : List (SPath V L), enterings o'.report qs = enterings o.report qs := by
    intro qs
    simp only [enterings, hq]
  have hmono : ∀ qs qs' : List (SPath V L), qs <+: qs' → enterings o.report qs <+: enterings o.report qs' :=
    fun _ _ h => (h.filter _).map _
  obtain ⟨a, b1, e1, d1⟩ := C88_dfs_search g f hso hgr o ht already hgiven hrange hdep starts limit fuel hrun
  obtain ⟨a', b2, e2, d2⟩ := C88_dfs_search g' { f with labeled := labeled } hso' hgr' o' ht' already' hgiven' hrange' hdep
    starts limit' fuel' hrun'
  have hvis : (fun k => g'.so.contains already' k = true) = fun k => g.so.contains already k = true := by
    funext k
    rw [hsame]
  rw [hpr, hmode, hvis] at b2 d2
  rw [e1, e2, hen]
  refine ⟨?_, fun h h' => ?_⟩
  · rcases Nat.le_total (entered a).length (entered a').length with h | h
    · exact .inl (hmono _ _ (b1.comparable b2 h))
    · exact .inr (hmono _ _ (b2.comparable b1 h))
  · obtain ⟨v, n, h1⟩ := d1 h
    obtain ⟨v', n', h2⟩ := d2 h'
    rw [(h1.det h2).1]

/-- In mode `DFS_TREE`, the event `ENTERING_START` stands for start vertices only: if the search enters a vertex, and this
is reported as start vertex, the path has no edges. -/
theorem C88_start_event {prune : Nat → SPath V L → Bool} {vis : K → Prop} {starts : List V} {acts : List (DfsAct V L)}
    (h : BeginsDfs f.next f.vid .tree prune vis starts acts) :
    ∀ q ∈ entered acts, enteredEvent q = if q.isStart then .enteringStart else .enteringSuccessor := by
  obtain ⟨pr, -, rest, v, n, h⟩ := h
  intro q hq
  refine enteredEvent_start (h.entered_start (fun p hp => ?_) q (by rw [entered_append]; exact List.mem_append_left _ hq))
  obtain ⟨v, -, rfl⟩ := List.mem_map.1 hp
  exact .inl rfl

/-- **C88, termination.** In mode `DFS_TREE`, if finitely many ids can be reached, the traversal ends with any accepted
options, without exception if there is no limit. -/
theorem C88_dfs_terminates (hso : g.so.Lawful) (hgr : g.so.Grows) (o : DfsOptions) (ht : o.isTree = false)
    (hm : o.mode = .dfsTree) (already : S) (hgiven : o.alreadyGiven = false → already = g.so.empty)
    (hrange : o.report .backEdge = true → ∀ k, g.so.contains already k = true → (g.so.mustContain g.so.empty k).isSome = true)
    (hacc : (dfsOptions o).isSome = true) (starts : List V)
    (hfin : ∃ ids : List K, ∀ v, Reachable (Allowed f.next f.vid (fun k => g.so.contains already k = true))
      (fun v => v ∈ starts ∧ ¬ g.so.contains already (f.vid v) = true) v → f.vid v ∈ ids) :
    ∃ N, ∀ fuel, N ≤ fuel → ∃ run, depthFirstRun g f o already starts none fuel = some run ∧ run.ending = .done := by
  obtain ⟨o', ho⟩ := Option.isSome_iff_exists.1 hacc
  obtain ⟨e1, e2, e3, e4, e5⟩ := dfsOptions_same ho
  simp only [depthFirstRun, ho]
  by_cases hw : o'.withTrace = true
  · have hac : (f.traced o').Accepted o.alreadyGiven := ⟨o, o', ho, hw, rfl, rfl, rfl, rfl, rfl, rfl, e5⟩
    have hal : TraceAlready g (f.traced o') o.alreadyGiven already := ⟨hgiven, fun h => hrange (by rw [← e3]; exact h)⟩
    obtain ⟨N, h⟩ := C11_dfs_terminates g (f.traced o') hso hgr hac hal (e1.trans ht) (e2.trans hm) starts hfin
    refine ⟨N, fun fuel hf => ?_⟩
    simp only [hw, if_true]
    exact ⟨_, rfl, (h fuel hf).2⟩
  · obtain ⟨N, h⟩ := C08_dfs_terminates g (f.plain o') hso (e1.trans ht) already starts hfin
    refine ⟨N, fun fuel hf => ?_⟩
    simp only [hw, Bool.false_eq_true, if_false]
    exact ⟨_, rfl, (h fuel hf).2⟩

/-- The trace has been requested: directly, or by requesting other data or events that need it. -/
def DfsOptions.NeedsTrace (o : DfsOptions) : Prop :=
  o.computeTrace = true ∨ o.computeOnTrace = true ∨ o.computeIndex = true ∨
    ∃ e, e ≠ .none ∧ e.isEntering = false ∧ o.report e = true

theorem dfsOptions_trace {o o' : DfsOptions} (h : dfsOptions o = some o') (hn : o.NeedsTrace ∨ o.mode ≠ .dfsTree) :
    o'.withTrace = true := by
  obtain ⟨-, e2, -⟩ := dfsOptions_same h
  simp only [DfsOptions.withTrace, Bool.or_eq_true, bne_iff_ne, e2]
  rcases hn with hn | hn
  · left
    unfold dfsOptions at h
    dsimp only at h
    repeat' split at h
    all_goals first | cases h; done | skip
    simp only [Option.some.injEq] at h
    subst h
    simp only [Bool.or_eq_true, Bool.not_eq_true']
    rcases hn with hn | hn | hn | ⟨e, h1, h2, h3⟩
    · simp [hn]
    · simp [hn]
    · simp [hn]
    · left; left; right
      cases e <;> simp_all [DfsEvent.isEntering]
  · exact .inr hn

/-- What is requested to be computed, is computed. -/
theorem dfsOptions_keeps {o o' : DfsOptions} (h : dfsOptions o = some o') :
    (o.computeOnTrace = true → o'.computeOnTrace = true) ∧ (o.computeIndex = true → o'.computeIndex = true) := by
  unfold dfsOptions at h
  dsimp only at h
  repeat' split at h
  all_goals first | cases h; done | skip
  simp only [Option.some.injEq] at h
  subst h
  exact ⟨fun h => by simp [h], fun h => by simp [h]⟩

/-- **C88, bookkeeping.** If the trace has been requested (directly, or by other requests that need it), or the mode is not
`DFS_TREE`, then at each report the trace is a path of graph edges from a start vertex to the reported vertex. At each
entering or leaving of a vertex, if the on-trace set has been requested, it consists of the ids of the trace. And if
indices have been requested (mode `DFS_TREE`, entering events requested), then at each report the index numbers the ids
entered so far. -/
theorem C88_dfs_bookkeeping (hso : g.so.Lawful) (hgr : g.so.Grows) (o : DfsOptions) (ht : o.isTree = false) (already : S)
    (hgiven : o.alreadyGiven = false → already = g.so.empty)
    (hrange : o.report .backEdge = true → ∀ k, g.so.contains already k = true → (g.so.mustContain g.so.empty k).isSome = true)
    (hn : o.NeedsTrace ∨ o.mode ≠ .dfsTree)
    (starts : List V) (limit : Option Int) (fuel : Nat) {run : DfsSeenRun V K S}
    (hrun : depthFirstRun g f o already starts limit fuel = some run) {A B : List (DfsView V K S)} {r : DfsView V K S}
    (hr : run.reports = A ++ r :: B) :
    (∃ q : SPath V L, q.first ∈ starts ∧ IsPath f.next q.first q.steps ∧ r.trace = q.verts ∧
      r.trace.getLast? = some r.vertex) ∧
    ((r.event.isEntering || r.event.isLeaving) = true → o.computeOnTrace = true →
      ∀ k, g.so.contains r.onTrace k = true ↔ k ∈ r.trace.map f.vid) ∧
    (o.computeIndex = true → o.mode = .dfsTree → (∀ e : DfsEvent, e.isEntering = true → o.report e = true) →
      let ids := ((A ++ [r]).filter (fun r => r.event.isEntering)).map (fun r => f.vid r.vertex)
      ids.Nodup ∧ (∀ i k, ids[i]? = some k → r.index k = i + 1) ∧ ∀ k, k ∉ ids → r.index k = 0) := by
  unfold depthFirstRun at hrun
  split at hrun
  · cases hrun
  rename_i o' ho
  obtain ⟨e1, e2, e3, e4, e5⟩ := dfsOptions_same ho
  obtain ⟨k1, k2⟩ := dfsOptions_keeps ho
  have hw := dfsOptions_trace ho hn
  simp only [hw, if_true, Option.some.injEq] at hrun
  subst hrun
  have hacc : (f.traced o').Accepted o.alreadyGiven := ⟨o, o', ho, hw, rfl, rfl, rfl, rfl, rfl, rfl, e5⟩
  have hal : TraceAlready g (f.traced o') o.alreadyGiven already := ⟨hgiven, fun h => hrange (by rw [← e3]; exact h)⟩
  obtain ⟨A', B', h1, h2, h3⟩ := List.map_eq_append_iff.1 hr
  obtain ⟨r', B'', h4, h5, h6⟩ := List.map_eq_cons_iff.1 h3
  subst h4 h2 h5
  have hmem : r' ∈ (trRun g (f.traced o') already starts limit fuel).reports := by rw [h1]; simp
  obtain ⟨q, q1, q2, q3, q4, q5, -⟩ := C10_dfs_trace g (f.traced o') hso hgr hacc hal starts limit fuel r' hmem
  refine ⟨⟨q, q1, q2, q3, q4⟩, fun hio ho => (q5 hio).2.1 (k1 ho), fun hi hm hent => ?_⟩
  have := C58_dfs_index g (f.traced o') hso hgr hacc hal (e1.trans ht) (e2.trans hm) (k2 hi)
    (fun e he => by show o'.report e = true; rw [e3]; exact hent e he) starts limit fuel A' B'' r' h1
  intro ids
  have hids : ids = ((A' ++ [r']).filter (fun r => r.event.isEntering)).map (fun r => f.vid r.vertex) := by
    show ((A'.map _ ++ [_]).filter _).map _ = _
    simp only [List.filter_append, List.map_append, List.filter_map, List.map_map, Function.comp_def]
    congr 1
    simp only [List.filter_cons, List.filter_nil]
    split <;> rfl
  rw [hids]
  exact this

/-! ## Non-vacuity (gears: see `Verif/Props/Bfs.lean`) -/

/-- The graph of `exKinds`, where the expansion of the second entered vertex is skipped if `b`. -/
def exBoth (b labeled : Bool) : DfsGraph Nat Nat Char := ⟨exKinds, id, labeled, true, fun n => b && n == 1⟩

/-- Only entering is requested, and no bookkeeping: this uses the variant without trace. -/
def exPlain (mode : DfsMode) : DfsOptions := ⟨false, mode, fun e => e.isEntering, false, false, false, false, false⟩

/-- All events and all bookkeeping. -/
def exFull : DfsOptions := ⟨false, .dfsTree, exAll, true, true, true, true, false⟩

/-- The choices of the variant. -/
example : ((dfsOptions (exPlain .dfsTree)).map DfsOptions.withTrace, (dfsOptions exFull).map DfsOptions.withTrace,
    (dfsOptions (exPlain .allPaths)).map DfsOptions.withTrace) = (some false, some true, some true) := by
  decide +kernel

/-- Both variants, without and with a skipped expansion: the entering reports are the same, but depend on what is skipped. -/
example :
    (depthFirstRun exHash (exBoth false false) (exPlain .dfsTree) [] [0, 3] none 100).map DfsSeenRun.entering =
      some [(0, .enteringStart, 0), (1, .enteringSuccessor, 1), (2, .enteringSuccessor, 2), (3, .enteringStart, 0)] ∧
    (depthFirstRun exBits (exBoth false true) exFull exBits.so.empty [0, 3] none 200).map DfsSeenRun.entering =
      some [(0, .enteringStart, 0), (1, .enteringSuccessor, 1), (2, .enteringSuccessor, 2), (3, .enteringStart, 0)] ∧
    (depthFirstRun exHash (exBoth true false) (exPlain .dfsTree) [] [0, 3] none 100).map DfsSeenRun.entering =
      some [(0, .enteringStart, 0), (1, .enteringSuccessor, 1), (2, .enteringSuccessor, 1), (3, .enteringStart, 0)] ∧
    (depthFirstRun exBits (exBoth true true) exFull exBits.so.empty [0, 3] none 200).map DfsSeenRun.entering =
      some [(0, .enteringStart, 0), (1, .enteringSuccessor, 1), (2, .enteringSuccessor, 1), (3, .enteringStart, 0)] := by
  refine ⟨?_, ?_, ?_, ?_⟩ <;> decide +kernel

/-- The other hypotheses of the theorems, and the runs have ended. -/
example : (exPlain .dfsTree).mode = exFull.mode ∧
    (∀ e : DfsEvent, e.isEntering = true → (exPlain .dfsTree).report e = exFull.report e) ∧
    (depthFirstRun exHash (exBoth false false) (exPlain .dfsTree) [] [0, 3] none 100).map DfsSeenRun.ending = some .done ∧
    (depthFirstRun exBits (exBoth false true) exFull exBits.so.empty [0, 3] none 200).map DfsSeenRun.ending = some .done := by
  refine ⟨rfl, fun e he => ?_, ?_, ?_⟩
  · cases e <;> simp_all [exPlain, exFull, exAll, DfsEvent.isEntering]
  · decide +kernel
  · decide +kernel

/-- Requested is only the on-trace set: the trace is computed, too. -/
example : (DfsOptions.mk false .dfsTree (fun e => e.isEntering) false false true false false).NeedsTrace ∧
    (depthFirstRun exHash (exBoth false false) ⟨false, .dfsTree, fun e => e.isEntering, false, false, true, false, false⟩
      [] [0, 3] none 200).map (fun r => r.reports.map (fun r => (r.vertex, r.trace))) =
      some [(0, [0]), (1, [0, 1]), (2, [0, 1, 2]), (3, [3])] := by
  refine ⟨.inr (.inl rfl), ?_⟩
  decide +kernel

/-- Mode `ALL_PATHS`, though only entering is requested. -/
example : (depthFirstRun exHash (exBoth false false) (exPlain .allPaths) [] [0, 3] none 300).map
      (fun r => r.entering.map (fun x => (x.1, x.2.2))) =
      some [(0, 0), (1, 1), (2, 2), (2, 1), (3, 0), (1, 1), (2, 2), (0, 3)] := by
  decide +kernel

end NoGraphs
