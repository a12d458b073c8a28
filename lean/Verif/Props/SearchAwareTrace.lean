import Verif.Model.SearchAwareTrace
import Verif.Props.DepthFirstTrace
import Verif.Props.ReadsDepth
import Verif.Props.SearchAwareDepth

/-! # Search-aware graphs: C70 for depth-first search with trace -/

set_option linter.unusedSectionVars false

namespace NoGraphs

open Spec

variable {V K L S M ML : Type} [DecidableEq V] [DecidableEq K]
variable {g : TravGear V K L S M ML} {c : TraceCfg V K L}

/-- No id is expanded twice; `X` holds the ids expanded so far. -/
structure TrOnce (g : TravGear V K L S M ML) (c : TraceCfg V K L) (X : List K) (s : TraceState V K L S M ML) : Prop where
  vis : ∀ k ∈ X, g.so.contains s.visited k = true
  ent : ∀ v rep, s.pc = .entered v rep → c.vid v ∉ X ∧ g.so.contains s.visited (c.vid v) = true

/-- The step is no expansion, and the next state fulfils `P`. -/
def Step.Moves {σ ρ : Type} (P : σ → Prop) : Step σ ρ → Prop
  | .tau s | .emit _ s => P s
  | .expand _ => False
  | .stop _ | .fail _ => True

theorem trEnter_once {X : List K} {s : TraceState V K L S M ML} {v : V} (h : ∀ k ∈ X, g.so.contains s.visited k = true)
    (hv : c.vid v ∉ X) (hs : g.so.contains s.visited (c.vid v) = true) : (trEnter g c s v).Moves (TrOnce g c X) := by
  unfold trEnter
  simp only
  split_ifs <;> simp only [Step.Moves, TraceState.yield]
  all_goals
    refine ⟨h, fun u rep e => ?_⟩
    simp only [TracePc.entered.injEq] at e
    obtain ⟨rfl, -⟩ := e
    exact ⟨hv, hs⟩

theorem trShowEdge_once {X : List K} {s : TraceState V K L S M ML} {v : V} {e : DfsEvent}
    (h : ∀ k ∈ X, g.so.contains s.visited k = true) : (trShowEdge c s v e).Moves (TrOnce g c X) := by
  unfold trShowEdge
  split_ifs <;> simp only [Step.Moves, TraceState.yield]
  all_goals exact ⟨h, by simp⟩

theorem trRevisit_once {X : List K} {s : TraceState V K L S M ML} {v : V} {e : DfsEvent}
    (h : ∀ k ∈ X, g.so.contains s.visited k = true) : (trRevisit g c s v e).Moves (TrOnce g c X) := by
  unfold trRevisit
  simp only
  split
  · exact trShowEdge_once h
  · split
    · split
      · trivial
      · split
        · split
          · trivial
          · exact trShowEdge_once h
        · exact trShowEdge_once h
    · exact ⟨h, by simp⟩

theorem trTry_once (hg : g.so.Lawful) (ht : c.isTree = false) (hm : c.mode = .dfsTree) {X : List K}
    {s : TraceState V K L S M ML} {v : V} (h : ∀ k ∈ X, g.so.contains s.visited k = true) :
    (trTry g c s v).Moves (TrOnce g c X) := by
  unfold trTry
  simp only [ht, hm, Bool.false_eq_true, if_false]
  split
  · split
    · split
      · exact ⟨h, by simp⟩
      · exact ⟨h, by simp⟩
    · exact trRevisit_once h
  · rename_i hc
    rw [hg.checkAdd_fst] at hc
    refine trEnter_once ?_ (fun hx => hc (h _ hx)) ?_
    · intro k hk
      simp [hg.contains_checkAdd, h k hk]
    · simp [hg.contains_checkAdd]

theorem trPop_once (hg : g.so.Lawful) (ht : c.isTree = false) (hm : c.mode = .dfsTree) {X : List K}
    {s : TraceState V K L S M ML} (h : ∀ k ∈ X, g.so.contains s.visited k = true) :
    (trPop g c s).Moves (TrOnce g c X) := by
  unfold trPop
  split
  · trivial
  · split
    · split
      · trivial
      · exact trTry_once hg ht hm h
    · exact trTry_once hg ht hm h

/-- A step either expands a vertex with a new id, or it is no expansion. -/
theorem trOnce_step (hg : g.so.Lawful) (ht : c.isTree = false) (hm : c.mode = .dfsTree) (f : V → List (V × L))
    (X : List K) (s : TraceState V K L S M ML) (h : TrOnce g c X s) :
    (trStep g { c with next := f } s).Moves (TrOnce g c X) ∨
    ∃ v s', trStep g { c with next := f } s = .expand s' ∧ trWho c s = some v ∧ c.vid v ∉ X ∧
      TrOnce g c (c.vid v :: X) s' := by
  obtain ⟨h1, h2⟩ := h
  unfold trStep
  rcases hpc : s.pc with _ | nl | ⟨v, last, nl⟩ | _ | _ | ⟨v, rep⟩ | ⟨v, es⟩
  · left
    simp only
    split
    · trivial
    · exact ⟨h1, by simp⟩
  · left
    simp only
    split
    · exact ⟨h1, by simp⟩
    · rename_i ms _
      have hP := trPop_once (c := { c with next := f }) hg ht hm (s := { s with pc := .loop nl, markers := ms }) (X := X) h1
      have hT : ∀ t, TrOnce g { c with next := f } X t → TrOnce g c X t := fun t h => ⟨h.vis, h.ent⟩
      revert hP
      generalize trPop g { c with next := f } { s with pc := .loop nl, markers := ms } = st
      intro hP
      cases st <;> first | exact hT _ hP | exact hP
    · split
      · trivial
      · split
        · split <;> exact ⟨h1, by simp⟩
        · split <;> exact ⟨h1, by simp⟩
  · left
    simp only
    split
    · trivial
    · generalize (if c.computeOnTrace = true then g.so.drop s.onTrace (c.vid _) else Except.ok s.onTrace) = o
      rcases o with _ | _
      · trivial
      · exact ⟨h1, by simp⟩
  · exact .inl ⟨h1, by simp⟩
  · exact .inl ⟨h1, by simp⟩
  · simp only [trWho, hpc]
    split
    · exact .inl ⟨h1, by simp⟩
    · obtain ⟨k1, k2⟩ := h2 v rep hpc
      refine .inr ⟨v, _, rfl, rfl, k1, ?_, by simp⟩
      intro k hk
      rcases List.mem_cons.1 hk with rfl | hk
      · exact k2
      · exact h1 k hk
  · left
    rcases es with _ | ⟨e, es⟩
    · exact ⟨h1, by simp⟩
    · exact ⟨h1, by simp⟩

/-- Two calls of the edges function are for vertices with different ids. -/
theorem trAware_once (hg : g.so.Lawful) (ht : c.isTree = false) (hm : c.mode = .dfsTree)
    (F : Nat → TraceReport V K L S M ML → List (V × L)) (already : S) (starts : List V) (limit : Option Int) (fuel : Nat) :
    ((trAwareCalls g c F already starts limit fuel).map (fun call => c.vid call.1.vertex)).Nodup := by
  refine (aware_once c.vid TraceReport.vertex (fun _ _ => rfl) (fun _ => True) (fun _ _ => trivial) (TrOnce g c)
    ?_ ?_ ?_ ?_ fuel (prepareLimit limit) (trInit g already starts, 0) [] ?_).1
  · intro f _ X s s' h e
    rcases trOnce_step hg ht hm f X s h with h' | ⟨v, s'', e', -⟩
    · rw [e] at h'
      exact h'
    · rw [e] at e'
      cases e'
  · intro f _ X s r s' h e
    rcases trOnce_step hg ht hm f X s h with h' | ⟨v, s'', e', -⟩
    · rw [e] at h'
      exact h'
    · rw [e] at e'
      cases e'
  · intro f _ X s s' h hw e
    rcases trOnce_step hg ht hm f X s h with h' | ⟨v, s'', e', hv, -⟩
    · rw [e] at h'
      exact h'.elim
    · rw [hv] at hw
      cases hw
  · intro f _ X s v s' h hw e
    rcases trOnce_step hg ht hm f X s h with h' | ⟨u, s'', e', hu, k1, k2⟩
    · rw [e] at h'
      exact h'.elim
    · rw [hu] at hw
      cases hw
      rw [e] at e'
      cases e'
      exact ⟨k1, k2⟩
  · exact ⟨by simp, by simp [trInit]⟩

/-- **C70 for depth-first search with trace** (mode `DFS_TREE`, all events; start vertices may be repeated). With any edges
function, the traversal behaves exactly as in the ordinary graph of the edges that the function returned, and the function
is called at most once for an id. When it is called for a vertex, the trace that it sees is a path to this vertex in that
graph without repeated ids, the depth (option `compute_depth`) is the number of edges of this path, and the on-trace set
(if computed) holds exactly the ids of the trace. With labeled edges, the labels of the trace that it sees are those of the
edges of this path, with the exception described at `LabelsAgree` (see C15). The set of visited vertices that it sees
contains the ids of the path and those given as already visited, and all further ids in it belong to vertices that are
reachable from the start vertices. -/
theorem C70_dfs_trace_search_aware {given : Bool} {already : S} (hso : g.so.Lawful) (hgr : g.so.Grows)
    (hacc : c.Accepted given) (hal : TraceAlready g c given already) (ht : c.isTree = false) (hm : c.mode = .dfsTree)
    (F : Nat → TraceReport V K L S M ML → List (V × L)) (starts : List V) (limit : Option Int) (fuel : Nat) :
    let run := trAwareRun g c F already starts limit fuel
    let calls := trAwareCalls g c F already starts limit fuel
    let graph := graphOfCalls c.vid TraceReport.vertex calls
    let ordinary := trRun g { c with next := graph } already starts limit fuel
    (run.events = ordinary.events ∧ run.ending = ordinary.ending ∧ run.final.1 = ordinary.final) ∧
    (calls.map (fun call => c.vid call.1.vertex)).Nodup ∧
    (∀ call ∈ calls, graph call.1.vertex = call.2 ∧ (∃ n, call.2 = F n call.1) ∧
      ∃ p : SPath V L, p.first ∈ starts ∧ IsPath graph p.first p.steps ∧ p.verts.getLast? = some call.1.vertex ∧
        call.1.trace = p.verts ∧ (p.verts.map c.vid).Nodup ∧
        (c.computeDepth = true → call.1.depth = p.steps.length) ∧
        (c.computeOnTrace = true → ∀ k, g.so.contains call.1.onTrace k = true ↔ k ∈ p.verts.map c.vid) ∧
        (c.labeled = true → LabelsAgree graph p call.1.traceLabels) ∧
        (∀ k, g.so.contains already k = true ∨ k ∈ p.verts.map c.vid → g.so.contains call.1.visited k = true) ∧
        (∀ k, g.so.contains call.1.visited k = true →
          g.so.contains already k = true ∨ ∃ v, Reachable (Edge graph) (· ∈ starts) v ∧ c.vid v = k)) := by
  intro run calls graph ordinary
  have hnd := trAware_once (g := g) (c := c) hso ht hm F already starts limit fuel
  obtain ⟨h1, h2⟩ := aware_static (F := F) (view := trView) c.vid TraceReport.vertex (fun _ _ => rfl)
    (tr_readsOne (g := g) (c := c)) fuel (prepareLimit limit) (trInit g already starts) (calls := calls) rfl hnd
  refine ⟨h2, hnd, fun call hc => ⟨(h1 call hc).1, awareCalls_returned _ _ _ call hc, ?_⟩⟩
  obtain ⟨-, h', s, hr, hw, hv⟩ := h1 call hc
  obtain ⟨Fr, x, q, lv, hist, hcore, -⟩ := tr_inv (c := { c with next := graph }) (bp := False)
    (TraceCfg.Accepted.ok (c := { c with next := graph }) hacc)
    (trPathsOk_false (fun _ => True) starts) hso hgr
    (TraceAlready.trRange (c := { c with next := graph }) ⟨hal.notGiven, hal.range⟩) hr
  unfold trWho at hw
  rcases hpc : s.pc with _ | nl | ⟨v, last, nl⟩ | _ | _ | ⟨v, rep⟩ | ⟨v, es⟩ <;> simp only [hpc] at hw <;>
    try (simp at hw; done)
  have hu : v = call.1.vertex := by
    split at hw
    · simp at hw
    · simpa using hw
  have hctl := hcore.ctl
  unfold TrCtl at hctl
  rw [hpc] at hctl
  obtain ⟨-, rfl, rfl, p, F0, rfl, hp, -⟩ := hctl
  have hd := hcore.data
  have hverts := hd.frames.verts (p, []) F0 rfl
  have hlast : ((frameTrace ((p, []) :: F0)).reverse) = s.trace.reverse := by
    rw [hd.trace]
    simp [frameTrace, Function.comp_def]
  have hids : (onPaths (L := L) none false ((p, []) :: F0)).map (fun p => c.vid p.last) = (p.verts.map c.vid).reverse := by
    rw [hverts]
    simp [onPaths, frameTrace, Function.comp_def]
  have hgp := hd.frames.gpath _ List.mem_cons_self
  have hvis := hd.vis (rule_tree (c := { c with next := graph }) ht hm)
  refine ⟨p, hgp.1, hgp.2, ?_, ?_, ?_, ?_, ?_, ?_, ?_, ?_⟩
  · rw [p.verts_getLast, hp, hu]
  · rw [← hv, hverts, hlast]
    rfl
  · have := hd.nodup (by rw [rule_tree (c := { c with next := graph }) ht hm]; simp)
    rw [hids] at this
    exact List.nodup_reverse.1 this
  · intro hcd
    have := hd.depth hcd
    rw [← hv]
    simp only [trView]
    rw [this]
    have hl := congrArg List.length hids
    simp only [List.length_map, List.length_reverse] at hl
    rw [hl]
    simp [SPath.verts]
  · intro hot k
    have := hd.onTr hot k
    rw [hids] at this
    rw [← hv]
    simpa [trView] using this
  · intro hlab
    have := hd.agree hlab
    rw [← hv]
    simpa [trView] using this
  · intro k hk
    rw [← hv]
    refine (hvis k).2 ?_
    rcases hk with hk | hk
    · exact .inl hk
    · right
      rw [← List.mem_reverse, ← hids] at hk
      obtain ⟨p', hp', rfl⟩ := List.mem_map.1 hk
      exact List.mem_map_of_mem (f := fun p => c.vid p.last) (hd.opens p' hp')
  · intro k hk
    rw [← hv] at hk
    rcases (hvis k).1 hk with h | h
    · exact .inl h
    · right
      obtain ⟨p', hp', rfl⟩ := List.mem_map.1 h
      obtain ⟨a, ha, hq⟩ := List.mem_filterMap.1 hp'
      cases a <;> simp only [Option.some.injEq, reduceCtorEq] at hq
      subst hq
      obtain ⟨pre, post, e⟩ := List.append_of_mem ha
      exact ⟨_, (hd.facts _ (mem_moments.2 ⟨post, e⟩)).gpath.reachable, rfl⟩

end NoGraphs
