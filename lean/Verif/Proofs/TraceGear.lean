import Verif.Proofs.TopoGear
import Verif.Model.DepthFirstTrace

/-! # Depth-first search with trace with different gears -/

set_option linter.unusedSectionVars false

namespace NoGraphs

open Spec

variable {V K L : Type} [DecidableEq V] [DecidableEq K]
variable {S M ML S' M' ML' : Type}

/-- The same state with other collections. -/
@[reducible] def TraceState.coll (s : TraceState V K L S M ML) (vi ot : S') (pr : M') (la : ML') : TraceState V K L S' M' ML' :=
  ⟨s.pc, s.starts, s.cur, s.toVisit, s.toLabels, s.markers, s.lab, s.depth, s.n, s.event, s.time, vi, ot, s.trace,
    s.traceLabels, s.index, pr, la⟩

variable {g : TravGear V K L S M ML} {g' : TravGear V K L S' M' ML'} {c : TraceCfg V K L} {starts : List V}

/-- What the position in the code says. -/
def TrPcOk (c : TraceCfg V K L) (starts : List V) : TracePc V L → Prop
  | .entered v _ => Reachable (Edge c.next) (· ∈ starts) v
  | .edges v es => Reachable (Edge c.next) (· ∈ starts) v ∧ ∀ e ∈ es, e ∈ c.next v
  | _ => True

/-- The label of an edge of a reachable vertex. -/
def TrLabel (c : TraceCfg V K L) (starts : List V) (l : L) : Prop :=
  ∃ u, ∃ e ∈ c.next u, Reachable (Edge c.next) (· ∈ starts) u ∧ e.2 = l

/-- The vertices and labels in the variables belong to the reachable part of the graph. -/
structure TrIn (c : TraceCfg V K L) (starts : List V) (s : TraceState V K L S M ML) : Prop where
  begin' : ∀ v ∈ s.starts, v ∈ starts
  cur : ∀ v, s.cur = some v → v ∈ starts
  toVisit : ∀ v ∈ s.toVisit, Reachable (Edge c.next) (· ∈ starts) v
  trace : ∀ v ∈ s.trace, Reachable (Edge c.next) (· ∈ starts) v
  lab : ∀ l, s.lab = some l → TrLabel c starts l
  toLabels : ∀ l ∈ s.toLabels, TrLabel c starts l
  pc : TrPcOk c starts s.pc

/-- The collections have the same content. -/
structure TrContSame (g : TravGear V K L S M ML) (g' : TravGear V K L S' M' ML') (bp : Bool)
    (s : TraceState V K L S M ML) (vi ot : S') (pr : M') (la : ML') : Prop where
  same : DfsSame g g' bp s.visited s.preds s.labels vi pr la
  on : ∀ k, g.so.contains s.onTrace k = g'.so.contains ot k

/-- The states of the two runs. -/
def TrSame (g : TravGear V K L S M ML) (g' : TravGear V K L S' M' ML') (c : TraceCfg V K L) (starts : List V)
    (s : TraceState V K L S M ML) (s' : TraceState V K L S' M' ML') : Prop :=
  ∃ vi ot pr la, s' = s.coll vi ot pr la ∧ TrIn c starts s ∧ TrContSame g g' c.buildPaths s vi ot pr la

/-- The reports of the two runs. -/
def TrSameRep (g : TravGear V K L S M ML) (g' : TravGear V K L S' M' ML') (bp : Bool)
    (r : TraceReport V K L S M ML) (r' : TraceReport V K L S' M' ML') : Prop :=
  r.vertex = r'.vertex ∧ r.depth = r'.depth ∧ r.event = r'.event ∧ r.trace = r'.trace ∧ r.traceLabels = r'.traceLabels ∧
  r.index = r'.index ∧ (∀ k, g.so.contains r.onTrace k = g'.so.contains r'.onTrace k) ∧
  DfsSame g g' bp r.visited r.preds r.labels r'.visited r'.preds r'.labels

/-- The relation of steps. -/
abbrev TrStepRel (g : TravGear V K L S M ML) (g' : TravGear V K L S' M' ML') (c : TraceCfg V K L) (starts : List V) :=
  StepRel (TrSame g g' c starts) (TrSame g g' c starts) (TrSameRep g g' c.buildPaths)

theorem yield_same {s : TraceState V K L S M ML} {vi ot : S'} {pr : M'} {la : ML'} (hi : TrIn c starts s)
    (hc : TrContSame g g' c.buildPaths s vi ot pr la) (v : V) :
    TrStepRel g g' c starts (s.yield v) ((s.coll vi ot pr la).yield v) :=
  .emit ⟨rfl, rfl, rfl, rfl, rfl, rfl, hc.on, hc.same⟩ ⟨vi, ot, pr, la, rfl, hi, hc⟩

/-- What is required of the gears. -/
def TrGears (g : TravGear V K L S M ML) (g' : TravGear V K L S' M' ML') (c : TraceCfg V K L) (starts : List V)
    (validV validV' : V → Prop) (validL validL' : L → Prop) : Prop :=
  g.so.Lawful ∧ g'.so.Lawful ∧
  (c.buildPaths = true → Storable g c.toTravCfg starts validV validL ∧
    Storable g' c.toTravCfg starts validV' validL' ∧ g.mo.Faithful ∧ g'.mo.Faithful)

variable {validV validV' : V → Prop} {validL validL' : L → Prop}

theorem trEnter_same (H : TrGears g g' c starts validV validV' validL validL') {s : TraceState V K L S M ML}
    {vi ot : S'} {pr : M'} {la : ML'} (hi : TrIn c starts s) (hc : TrContSame g g' c.buildPaths s vi ot pr la) {v : V}
    (hv : Reachable (Edge c.next) (· ∈ starts) v) :
    TrStepRel g g' c starts (trEnter g c s v) (trEnter g' c (s.coll vi ot pr la) v) := by
  obtain ⟨pc, st, cu, tv, tl, mk, lb, d, n, ev, ti, vis, on, tr, trl, ix, prd, lbs⟩ := s
  have hi1 := hi.trace
  have hi2 := hi.cur
  have hi3 := hi.lab
  have hsame := hc.same
  simp only at hi1 hi2 hi3 hsame
  unfold trEnter
  dsimp only
  by_cases hf : (c.labeled && !tr.isEmpty && lb.isNone) = true
  · rw [if_pos hf, if_pos hf]; exact .fail
  · rw [if_neg hf, if_neg hf]
    have hin : ∀ (x : TraceState V K L S M ML), x.starts = st → x.cur = cu → x.toVisit = tv → x.trace = v :: tr →
        x.lab = lb → x.toLabels = tl → (∃ b, x.pc = .entered v b) → TrIn c starts x := by
      intro x e1 e2 e3 e4 e5 e6 ⟨b, e7⟩
      refine ⟨?_, ?_, ?_, ?_, ?_, ?_, ?_⟩
      · rw [e1]; exact hi.begin'
      · rw [e2]; exact hi2
      · rw [e3]; exact hi.toVisit
      · rw [e4]
        intro w hw
        rcases List.mem_cons.1 hw with rfl | hw
        exacts [hv, hi1 w hw]
      · rw [e5]; exact hi3
      · rw [e6]; exact hi.toLabels
      · rw [e7]; exact hv
    generalize hev : (if some v = cu then DfsEvent.enteringStart else DfsEvent.enteringSuccessor) = event
    by_cases hr : c.report event = true
    · rw [if_pos hr, if_pos hr]
      refine yield_same (g := g) (g' := g') (vi := vi) (ot := ot) (s := ⟨_, _, _, _, _, _, _, _, _, _, _, _, _, _, _, _, _, _⟩) ?_ ?_ v
      · exact hin _ rfl rfl rfl rfl rfl rfl ⟨_, rfl⟩
      · refine ⟨⟨hsame.1, fun hb => ?_⟩, hc.on⟩
        obtain ⟨hS, hS', hF, hF'⟩ := H.2.2 hb
        obtain ⟨h1, h2⟩ := hsame.2 hb
        simp only [hb, if_true]
        refine ⟨fun k => ?_, fun k => ?_⟩
        · cases tr with
          | cons u us =>
            have hu := hi1 u List.mem_cons_self
            dsimp only
            rw [hS.mo.get_set _ _ _ _ (hS.verts u hu), hS'.mo.get_set _ _ _ _ (hS'.verts u hu), h1]
          | nil =>
            cases cu with
            | none => exact h1 k
            | some x =>
              have hx := hi2 x rfl
              exact setStart_same hS.mo hS'.mo hF hF' h1 (hS.verts x (.start hx)) (hS'.verts x (.start hx)) _ k
        · cases tr with
          | nil => exact h2 k
          | cons u us =>
            rcases Bool.eq_false_or_eq_true c.labeled with hl | hl
            · simp only [hl]
              cases lb with
              | none => exact h2 k
              | some l =>
                obtain ⟨u', e, he, hu', rfl⟩ := hi3 l rfl
                dsimp only
                rw [hS.lo.get_set _ _ _ _ (hS.labs u' e hu' he), hS'.lo.get_set _ _ _ _ (hS'.labs u' e hu' he), h2]
            · simp only [hl]
              exact h2 k
    · rw [if_neg hr, if_neg hr]
      refine .tau ⟨_, _, _, _, rfl, ?_, ?_⟩
      · exact hin _ rfl rfl rfl rfl rfl rfl ⟨_, rfl⟩
      · refine ⟨⟨hsame.1, fun hb => ?_⟩, hc.on⟩
        obtain ⟨hS, hS', hF, hF'⟩ := H.2.2 hb
        obtain ⟨h1, h2⟩ := hsame.2 hb
        simp only [hb, if_true]
        refine ⟨fun k => ?_, fun k => ?_⟩
        · cases tr with
          | cons u us =>
            have hu := hi1 u List.mem_cons_self
            dsimp only
            rw [hS.mo.get_set _ _ _ _ (hS.verts u hu), hS'.mo.get_set _ _ _ _ (hS'.verts u hu), h1]
          | nil =>
            cases cu with
            | none => exact h1 k
            | some x =>
              have hx := hi2 x rfl
              exact setStart_same hS.mo hS'.mo hF hF' h1 (hS.verts x (.start hx)) (hS'.verts x (.start hx)) _ k
        · cases tr with
          | nil => exact h2 k
          | cons u us =>
            rcases Bool.eq_false_or_eq_true c.labeled with hl | hl
            · simp only [hl]
              cases lb with
              | none => exact h2 k
              | some l =>
                obtain ⟨u', e, he, hu', rfl⟩ := hi3 l rfl
                dsimp only
                rw [hS.lo.get_set _ _ _ _ (hS.labs u' e hu' he), hS'.lo.get_set _ _ _ _ (hS'.labs u' e hu' he), h2]
            · simp only [hl]
              exact h2 k

theorem trShowEdge_same {s : TraceState V K L S M ML}
    {vi ot : S'} {pr : M'} {la : ML'} (hi : TrIn c starts s) (hc : TrContSame g g' c.buildPaths s vi ot pr la) {v : V}
    (hv : Reachable (Edge c.next) (· ∈ starts) v) (event : DfsEvent) :
    TrStepRel g g' c starts (trShowEdge c s v event) (trShowEdge c (s.coll vi ot pr la) v event) := by
  unfold trShowEdge
  split
  · by_cases hf : (c.labeled && s.lab.isNone) = true
    · rw [if_pos hf, if_pos (show (c.labeled && (s.coll vi ot pr la).lab.isNone) = true from hf)]; exact .fail
    · rw [if_neg hf, if_neg (show ¬ (c.labeled && (s.coll vi ot pr la).lab.isNone) = true from hf)]
      refine yield_same (g := g) (g' := g') (vi := vi) (ot := ot) (pr := pr) (la := la)
        (s := { s with
          event := event
          trace := v :: s.trace
          traceLabels := if c.labeled then s.lab.toList ++ s.traceLabels else s.traceLabels
          pc := .edgeShown }) ⟨hi.begin', hi.cur, hi.toVisit, ?_, hi.lab, hi.toLabels, trivial⟩ ⟨hc.same, hc.on⟩ v
      intro w hw
      rcases List.mem_cons.1 hw with rfl | hw
      exacts [hv, hi.trace w hw]
  · exact .tau ⟨vi, ot, pr, la, rfl, ⟨hi.begin', hi.cur, hi.toVisit, hi.trace, hi.lab, hi.toLabels, trivial⟩,
      ⟨hc.same, hc.on⟩⟩

theorem trRevisit_same (H : TrGears g g' c starts validV validV' validL validL') {s : TraceState V K L S M ML}
    {vi ot : S'} {pr : M'} {la : ML'} (hi : TrIn c starts s) (hc : TrContSame g g' c.buildPaths s vi ot pr la) {v : V}
    (hv : Reachable (Edge c.next) (· ∈ starts) v) (event : DfsEvent) :
    trRevisit g c s v event = .fail .assertionError ∨ trRevisit g' c (s.coll vi ot pr la) v event = .fail .assertionError ∨
    TrStepRel g g' c starts (trRevisit g c s v event) (trRevisit g' c (s.coll vi ot pr la) v event) := by
  have hrest : ∀ e, TrStepRel g g' c starts
      (if e = DfsEvent.none && (c.report .forwardEdge || c.report .crossEdge) then
        match s.trace with
        | [] => .fail .indexError
        | u :: _ =>
          let event :=
            if s.index (c.vid u) < s.index (c.vid v) then (if c.report .forwardEdge then DfsEvent.forwardEdge else .none)
            else (if c.report .crossEdge then .crossEdge else .none)
          trShowEdge c s v event
      else trShowEdge c s v e)
      (if e = DfsEvent.none && (c.report .forwardEdge || c.report .crossEdge) then
        match (s.coll vi ot pr la).trace with
        | [] => .fail .indexError
        | u :: _ =>
          let event :=
            if (s.coll vi ot pr la).index (c.vid u) < (s.coll vi ot pr la).index (c.vid v) then
              (if c.report .forwardEdge then DfsEvent.forwardEdge else .none)
            else (if c.report .crossEdge then .crossEdge else .none)
          trShowEdge c (s.coll vi ot pr la) v event
      else trShowEdge c (s.coll vi ot pr la) v e) := by
    intro e
    split
    · have : (s.coll vi ot pr la).trace = s.trace := rfl
      rw [this]
      cases s.trace with
      | nil => exact .fail
      | cons u us => exact trShowEdge_same hi hc hv _
    · exact trShowEdge_same hi hc hv _
  unfold trRevisit
  by_cases h1 : c.report .someNonTreeEdge = true
  · rw [if_pos h1, if_pos h1]; exact .inr (.inr (trShowEdge_same hi hc hv _))
  · rw [if_neg h1, if_neg h1]
    by_cases h2 : (c.report .backEdge || c.report .forwardEdge || c.report .crossEdge || c.report .forwardOrCrossEdge) = true
    · rw [if_pos h2, if_pos h2]
      by_cases h3 : (c.report .backEdge && decide (event ≠ .backEdge)) = true
      · dsimp only
        rw [if_pos h3, if_pos h3]
        cases hm : g.so.mustContain s.onTrace (c.vid v) with
        | none => exact .inl rfl
        | some b =>
          cases hm' : g'.so.mustContain (s.coll vi ot pr la).onTrace (c.vid v) with
          | none => exact .inr (.inl rfl)
          | some b' =>
            right; right
            have hb : b = b' := by
              rw [H.1.mustContain_some _ _ _ hm, H.2.1.mustContain_some _ _ _ hm', hc.on]
            subst hb
            exact hrest _
      · dsimp only
        rw [if_neg h3, if_neg h3]
        exact .inr (.inr (hrest _))
    · rw [if_neg h2, if_neg h2]
      exact .inr (.inr (.tau ⟨vi, ot, pr, la, rfl, ⟨hi.begin', hi.cur, hi.toVisit, hi.trace, hi.lab, hi.toLabels, trivial⟩,
        ⟨hc.same, hc.on⟩⟩))

theorem trTry_same (H : TrGears g g' c starts validV validV' validL validL') {s : TraceState V K L S M ML}
    {vi ot : S'} {pr : M'} {la : ML'} (hi : TrIn c starts s) (hc : TrContSame g g' c.buildPaths s vi ot pr la) {v : V}
    (hv : Reachable (Edge c.next) (· ∈ starts) v) :
    trTry g c s v = .fail .assertionError ∨ trTry g' c (s.coll vi ot pr la) v = .fail .assertionError ∨
    TrStepRel g g' c starts (trTry g c s v) (trTry g' c (s.coll vi ot pr la) v) := by
  have hg := H.1
  have hg' := H.2.1
  unfold trTry
  by_cases ht : c.isTree = true
  · rw [if_pos ht, if_pos ht]; exact .inr (.inr (trEnter_same H hi hc hv))
  · rw [if_neg ht, if_neg ht]
    cases c.mode with
    | allWalks => exact .inr (.inr (trEnter_same H hi hc hv))
    | dfsTree =>
      dsimp only
      rw [hg.checkAdd_fst, hg'.checkAdd_fst, show g'.so.contains (s.coll vi ot pr la).visited (c.vid v) =
        g.so.contains s.visited (c.vid v) from (hc.same.1 _).symm, show (s.coll vi ot pr la).trace = s.trace from rfl]
      by_cases h1 : g.so.contains s.visited (c.vid v) = true
      · rw [if_pos h1, if_pos h1]
        by_cases h2 : s.trace.isEmpty = true
        · rw [if_pos h2, if_pos h2]
          right; right
          by_cases h3 : c.report .skippingStart = true
          · rw [if_pos h3, if_pos h3]
            refine yield_same (g := g) (g' := g') (vi := vi) (ot := ot) (pr := pr) (la := la)
              (s := { s with event := .skippingStart, trace := [v], pc := .startShown })
              ⟨hi.begin', hi.cur, hi.toVisit, ?_, hi.lab, hi.toLabels, trivial⟩ ⟨hc.same, hc.on⟩ v
            intro w hw
            rw [List.mem_singleton.1 hw]; exact hv
          · rw [if_neg h3, if_neg h3]
            exact .tau ⟨vi, ot, pr, la, rfl, ⟨hi.begin', hi.cur, hi.toVisit, hi.trace, hi.lab, hi.toLabels, trivial⟩,
              ⟨hc.same, hc.on⟩⟩
        · rw [if_neg h2, if_neg h2]; exact trRevisit_same H hi hc hv _
      · rw [if_neg h1, if_neg h1]
        right; right
        refine trEnter_same (vi := (g'.so.checkAdd vi (c.vid v)).2)
          (ot := if c.computeOnTrace then g'.so.add ot (c.vid v) else ot) (pr := pr) (la := la)
          (s := { s with
            visited := (g.so.checkAdd s.visited (c.vid v)).2
            onTrace := if c.computeOnTrace then g.so.add s.onTrace (c.vid v) else s.onTrace }) H
          ⟨hi.begin', hi.cur, hi.toVisit, hi.trace, hi.lab, hi.toLabels, hi.pc⟩ ⟨⟨fun k => ?_, hc.same.2⟩, fun k => ?_⟩ hv
        · simp only [hg.contains_checkAdd, hg'.contains_checkAdd, hc.same.1]
        · dsimp only
          split
          · simp only [hg.contains_add, hg'.contains_add, hc.on]
          · exact hc.on k
    | allPaths =>
      dsimp only
      rw [hg.checkAdd_fst, hg'.checkAdd_fst, show g'.so.contains (s.coll vi ot pr la).onTrace (c.vid v) =
        g.so.contains s.onTrace (c.vid v) from (hc.on _).symm]
      by_cases h1 : g.so.contains s.onTrace (c.vid v) = true
      · rw [if_pos h1, if_pos h1]; exact trRevisit_same H hi hc hv _
      · rw [if_neg h1, if_neg h1]
        right; right
        refine trEnter_same (vi := vi)
          (ot := if c.computeOnTrace then g'.so.add (g'.so.checkAdd ot (c.vid v)).2 (c.vid v)
            else (g'.so.checkAdd ot (c.vid v)).2) (pr := pr) (la := la)
          (s := { s with
            onTrace := if c.computeOnTrace then g.so.add (g.so.checkAdd s.onTrace (c.vid v)).2 (c.vid v)
              else (g.so.checkAdd s.onTrace (c.vid v)).2 }) H
          ⟨hi.begin', hi.cur, hi.toVisit, hi.trace, hi.lab, hi.toLabels, hi.pc⟩ ⟨hc.same, fun k => ?_⟩ hv
        dsimp only
        split
        · simp only [hg.contains_add, hg'.contains_add, hg.contains_checkAdd, hg'.contains_checkAdd, hc.on]
        · simp only [hg.contains_checkAdd, hg'.contains_checkAdd, hc.on]

theorem trPop_same (H : TrGears g g' c starts validV validV' validL validL') {s : TraceState V K L S M ML}
    {vi ot : S'} {pr : M'} {la : ML'} (hi : TrIn c starts s) (hc : TrContSame g g' c.buildPaths s vi ot pr la) :
    trPop g c s = .fail .assertionError ∨ trPop g' c (s.coll vi ot pr la) = .fail .assertionError ∨
    TrStepRel g g' c starts (trPop g c s) (trPop g' c (s.coll vi ot pr la)) := by
  unfold trPop
  rw [show (s.coll vi ot pr la).toVisit = s.toVisit from rfl, show (s.coll vi ot pr la).toLabels = s.toLabels from rfl]
  cases htv : s.toVisit with
  | nil => exact .inr (.inr .fail)
  | cons v tv =>
    have hv := hi.toVisit v (by rw [htv]; exact List.mem_cons_self)
    have htv' : ∀ w ∈ tv, Reachable (Edge c.next) (· ∈ starts) w :=
      fun w hw => hi.toVisit w (by rw [htv]; exact List.mem_cons_of_mem _ hw)
    dsimp only
    by_cases h1 : (c.labeled && !tv.isEmpty) = true
    · rw [if_pos h1, if_pos h1]
      cases htl : s.toLabels with
      | nil => exact .inr (.inr .fail)
      | cons l tl =>
        refine trTry_same H (s := { s with toVisit := tv, lab := some l, toLabels := tl }) (vi := vi) (ot := ot) (pr := pr)
          (la := la) ⟨hi.begin', hi.cur, htv', hi.trace, ?_, ?_, hi.pc⟩ ⟨hc.same, hc.on⟩ hv
        · intro x hx
          cases hx
          exact hi.toLabels l (by rw [htl]; exact List.mem_cons_self)
        · exact fun x hx => hi.toLabels x (by rw [htl]; exact List.mem_cons_of_mem _ hx)
    · rw [if_neg h1, if_neg h1]
      exact trTry_same H (s := { s with toVisit := tv }) (vi := vi) (ot := ot) (pr := pr) (la := la)
        ⟨hi.begin', hi.cur, htv', hi.trace, hi.lab, hi.toLabels, hi.pc⟩ ⟨hc.same, hc.on⟩ hv

/-- A vertex that is left is in the set of vertices on the trace. -/
def TrLeaveOn (g : TravGear V K L S M ML) (c : TraceCfg V K L) (s : TraceState V K L S M ML) : Prop :=
  ∀ v last nl, s.pc = .leave v last nl → c.computeOnTrace = true → g.so.contains s.onTrace (c.vid v) = true

theorem tr_gear_step (H : TrGears g g' c starts validV validV' validL validL') (s : TraceState V K L S M ML)
    (s' : TraceState V K L S' M' ML') (h : TrSame g g' c starts s s') (hlv : TrLeaveOn g c s) :
    trStep g c s = .fail .assertionError ∨ trStep g' c s' = .fail .assertionError ∨
    TrStepRel g g' c starts (trStep g c s) (trStep g' c s') := by
  obtain ⟨vi, ot, pr, la, rfl, hi, hc⟩ := h
  have hg := H.1
  have hg' := H.2.1
  unfold trStep
  rw [show (s.coll vi ot pr la).pc = s.pc from rfl]
  cases hpc : s.pc with
  | start =>
    right; right
    dsimp only
    rw [show (s.coll vi ot pr la).starts = s.starts from rfl]
    cases hst : s.starts with
    | nil => exact .stop ⟨vi, ot, pr, la, rfl, hi, hc⟩
    | cons v rest =>
      have hv := hi.begin' v (by rw [hst]; exact List.mem_cons_self)
      refine .tau ⟨vi, ot, pr, la, rfl, ⟨fun w hw => hi.begin' w (by rw [hst]; exact List.mem_cons_of_mem _ hw), ?_, ?_,
        hi.trace, hi.lab, hi.toLabels, trivial⟩, ⟨hc.same, hc.on⟩⟩
      · intro w hw; cases hw; exact hv
      · intro w hw
        rcases List.mem_cons.1 hw with rfl | hw
        exacts [.start hv, hi.toVisit w hw]
  | loop nl =>
    dsimp only
    rw [show (s.coll vi ot pr la).markers = s.markers from rfl]
    cases hmk : s.markers with
    | nil =>
      exact .inr (.inr (.tau ⟨vi, ot, pr, la, rfl, ⟨hi.begin', hi.cur, hi.toVisit, hi.trace, hi.lab, hi.toLabels, trivial⟩,
        ⟨hc.same, hc.on⟩⟩))
    | cons b ms =>
      cases b with
      | false =>
        exact trPop_same H (s := { s with markers := ms }) (vi := vi) (ot := ot) (pr := pr) (la := la)
          ⟨hi.begin', hi.cur, hi.toVisit, hi.trace, hi.lab, hi.toLabels, hi.pc⟩ ⟨hc.same, hc.on⟩
      | true =>
        right; right
        dsimp only
        rw [show (s.coll vi ot pr la).trace = s.trace from rfl]
        cases htr : s.trace with
        | nil => exact .fail
        | cons v tr =>
          have htr' : ∀ w ∈ v :: tr, Reachable (Edge c.next) (· ∈ starts) w := by rw [← htr]; exact hi.trace
          dsimp only
          by_cases h1 : (!ms.isEmpty) = true
          · rw [if_pos h1, if_pos h1]
            by_cases h2 : c.report .leavingSuccessor = true
            · rw [if_pos h2, if_pos h2]
              exact yield_same (g := g) (g' := g') (vi := vi) (ot := ot) (pr := pr) (la := la)
                (s := { s with
                  markers := ms
                  trace := v :: tr
                  event := if nl then .leavingSuccessor else s.event
                  pc := .leave v false false })
                ⟨hi.begin', hi.cur, hi.toVisit, htr', hi.lab, hi.toLabels, trivial⟩ ⟨hc.same, hc.on⟩ v
            · rw [if_neg h2, if_neg h2]
              exact .tau ⟨vi, ot, pr, la, rfl, ⟨hi.begin', hi.cur, hi.toVisit, htr', hi.lab, hi.toLabels, trivial⟩,
                ⟨hc.same, hc.on⟩⟩
          · rw [if_neg h1, if_neg h1]
            by_cases h2 : c.report .leavingStart = true
            · rw [if_pos h2, if_pos h2]
              exact yield_same (g := g) (g' := g') (vi := vi) (ot := ot) (pr := pr) (la := la)
                (s := { s with markers := ms, trace := v :: tr, event := .leavingStart, pc := .leave v true nl })
                ⟨hi.begin', hi.cur, hi.toVisit, htr', hi.lab, hi.toLabels, trivial⟩ ⟨hc.same, hc.on⟩ v
            · rw [if_neg h2, if_neg h2]
              exact .tau ⟨vi, ot, pr, la, rfl, ⟨hi.begin', hi.cur, hi.toVisit, htr', hi.lab, hi.toLabels, trivial⟩,
                ⟨hc.same, hc.on⟩⟩
  | leave v last nl =>
    right; right
    dsimp only
    rw [show (s.coll vi ot pr la).traceLabels = s.traceLabels from rfl]
    by_cases h1 : (c.labeled && !last && s.traceLabels.isEmpty) = true
    · rw [if_pos h1, if_pos h1]; exact .fail
    · rw [if_neg h1, if_neg h1]
      have key : ∃ o o', (if c.computeOnTrace then g.so.drop s.onTrace (c.vid v) else .ok s.onTrace) = Except.ok o ∧
          (if c.computeOnTrace then g'.so.drop ot (c.vid v) else .ok ot) = Except.ok o' ∧
          ∀ k, g.so.contains o k = g'.so.contains o' k := by
        by_cases ho : c.computeOnTrace = true
        · simp only [if_pos ho]
          have hin := hlv v last nl hpc ho
          obtain ⟨o, h2, h3⟩ := hg.drop_ok _ _ hin
          obtain ⟨o', h4, h5⟩ := hg'.drop_ok ot (c.vid v) (by rw [← hc.on]; exact hin)
          exact ⟨o, o', h2, h4, fun k => by rw [h3, h5, hc.on]⟩
        · simp only [if_neg ho]
          exact ⟨_, _, rfl, rfl, hc.on⟩
      obtain ⟨o, o', h2, h3, h4⟩ := key
      simp only [h2, h3]
      exact .tau ⟨vi, o', pr, la, rfl,
        ⟨hi.begin', hi.cur, hi.toVisit, fun w hw => hi.trace w (List.mem_of_mem_tail hw), hi.lab, hi.toLabels, trivial⟩,
        ⟨hc.same, h4⟩⟩
  | startShown =>
    exact .inr (.inr (.tau ⟨vi, ot, pr, la, rfl, ⟨hi.begin', hi.cur, hi.toVisit,
      fun w hw => hi.trace w (List.mem_of_mem_tail hw), hi.lab, hi.toLabels, trivial⟩, ⟨hc.same, hc.on⟩⟩))
  | edgeShown =>
    exact .inr (.inr (.tau ⟨vi, ot, pr, la, rfl, ⟨hi.begin', hi.cur, hi.toVisit,
      fun w hw => hi.trace w (List.mem_of_mem_tail hw), hi.lab, hi.toLabels, trivial⟩, ⟨hc.same, hc.on⟩⟩))
  | entered v rep =>
    right; right
    have hv : Reachable (Edge c.next) (· ∈ starts) v := by have := hi.pc; rw [hpc] at this; exact this
    dsimp only
    rw [show (s.coll vi ot pr la).n = s.n from rfl]
    by_cases h1 : (rep && c.skip s.n) = true
    · rw [if_pos h1, if_pos h1]
      exact .tau ⟨vi, ot, pr, la, rfl, ⟨hi.begin', hi.cur, hi.toVisit, hi.trace, hi.lab, hi.toLabels, trivial⟩,
        ⟨hc.same, hc.on⟩⟩
    · rw [if_neg h1, if_neg h1]
      exact .expand ⟨vi, ot, pr, la, rfl, ⟨hi.begin', hi.cur, hi.toVisit, hi.trace, hi.lab, hi.toLabels,
        hv, fun _ hx => hx⟩, ⟨hc.same, hc.on⟩⟩
  | edges v es =>
    right; right
    have hp : TrPcOk c starts (.edges v es) := by rw [← hpc]; exact hi.pc
    cases es with
    | nil =>
      exact .tau ⟨vi, ot, pr, la, rfl, ⟨hi.begin', hi.cur, hi.toVisit, hi.trace, hi.lab, hi.toLabels, trivial⟩,
        ⟨hc.same, hc.on⟩⟩
    | cons e es =>
      have he := hp.2 e List.mem_cons_self
      have hl : TrLabel c starts e.2 := ⟨v, e, he, hp.1, rfl⟩
      refine .tau ⟨vi, ot, pr, la, rfl, ⟨hi.begin', hi.cur, ?_, hi.trace, ?_, ?_,
        ⟨hp.1, fun x hx => hp.2 x (List.mem_cons_of_mem _ hx)⟩⟩, ⟨hc.same, hc.on⟩⟩
      · intro w hw
        rcases List.mem_cons.1 hw with rfl | hw
        exacts [hp.1.step ⟨e.2, he⟩, hi.toVisit w hw]
      · intro l hx
        dsimp only at hx
        split at hx
        · cases hx; exact hl
        · exact hi.lab l hx
      · intro l hx
        dsimp only at hx
        split at hx
        · rcases List.mem_cons.1 hx with rfl | hx
          exacts [hl, hi.toLabels l hx]
        · exact hi.toLabels l hx

theorem tr_gear_sim (H : TrGears g g' c starts validV validV' validL validL') (already : S) (already' : S')
    (ha : ∀ k, g.so.contains already k = g'.so.contains already' k)
    (hlv : ∀ h s, Reaches (trStep g c) (trInit g already starts) h s → TrLeaveOn g c s) (limit : Option Int) (fuel : Nat) :
    let run := trRun g c already starts limit fuel
    let run' := trRun g' c already' starts limit fuel
    run.ending = .raised .assertionError ∨ run'.ending = .raised .assertionError ∨
    (List.Forall₂ (EvRel (TrSameRep g g' c.buildPaths)) run.events run'.events ∧ run.ending = run'.ending) := by
  intro run run'
  refine (run_sim_either_reach (TrSame g g' c starts) (TrSame g g' c starts) (TrSameRep g g' c.buildPaths) .assertionError
    _ (fun h s s' hr hR => tr_gear_step H s s' hR (hlv h s hr)) fuel (prepareLimit limit) _ ?_)
  refine ⟨already', g'.so.empty, g'.mo.empty, g'.lo.empty, rfl, ⟨fun v hv => hv, by simp [trInit], by simp [trInit],
    by simp [trInit], by simp [trInit], by simp [trInit], trivial⟩, ⟨⟨ha, fun hb => ?_⟩, fun k => ?_⟩⟩
  · obtain ⟨hS, hS', -⟩ := H.2.2 hb
    exact ⟨fun k => by simp only [trInit, hS.mo.get_empty, hS'.mo.get_empty],
      fun k => by simp only [trInit, hS.lo.get_empty, hS'.lo.get_empty]⟩
  · simp only [trInit, H.1.contains_empty, H.2.1.contains_empty]

end NoGraphs
