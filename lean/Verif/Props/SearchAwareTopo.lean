import Verif.Model.SearchAwareTopo
import Verif.Props.ReadsDepth
import Verif.Props.SearchAwareTrace
import Verif.Props.Topological

/-! # Search-aware graphs: C70 for topological sorting -/

set_option linter.unusedSectionVars false

namespace NoGraphs

open Spec

variable {V K L S M ML : Type} [DecidableEq V] [DecidableEq K]
variable {g : TravGear V K L S M ML} {c : TravCfg V K L}

/-- No vertex of the marked stack has the id of a trace vertex below. -/
def TopoFresh (c : TravCfg V K L) : List (V × Bool) → Prop
  | [] => True
  | x :: G => c.vid x.1 ∉ (traceOf G).map c.vid ∧ TopoFresh c G

/-- No id is expanded twice; `X` holds the ids expanded so far. `A` is the part of the stack above the start vertices that
are not expanded so far (`rest`), with marks for the vertices on the trace. -/
structure TopoOnceAt (g : TravGear V K L S M ML) (c : TravCfg V K L) (X : List K) (s : TopoState V L S M ML)
    (A : List (V × Bool)) (rest : List V) : Prop where
  stack : s.stack = A.map (·.1) ++ rest
  trace : ∀ k, g.so.contains s.trace k = true ↔ k ∈ (traceOf A).map c.vid
  fresh : TopoFresh c A
  form : A = [] ∨ ∃ A' s0, A = A' ++ [(s0, true)]
  depth : s.pc = .loop → s.depth = (traceOf A).length
  depthE : ∀ u es, s.pc = .edges u es → 0 ≤ s.depth ∧ s.depth + 1 = (traceOf A).length
  vis : ∀ k ∈ X, g.so.contains s.visited k = true
  visT : ∀ k ∈ (traceOf A).map c.vid, g.so.contains s.visited k = true
  restVis : ∀ k ∈ rest.map c.vid, g.so.contains s.visited k = true ∧ k ∉ X
  nodup : (rest.map c.vid).Nodup

/-- No id is expanded twice; `X` holds the ids expanded so far. -/
def TopoOnce (g : TravGear V K L S M ML) (c : TravCfg V K L) (X : List K) (s : TopoState V L S M ML) : Prop :=
  s.pc = .cycle ∨ ∃ A rest, TopoOnceAt g c X s A rest

theorem topoForm_tail {x : V × Bool} {R : List (V × Bool)} (h : x :: R = [] ∨ ∃ A' s0, x :: R = A' ++ [(s0, true)]) :
    (R = [] ∧ x.2 = true) ∨ ∃ A' s0, R = A' ++ [(s0, true)] := by
  rcases h with h | ⟨A', s0, h⟩
  · simp at h
  · rcases A' with _ | ⟨y, A'⟩
    · left
      simp only [List.nil_append, List.cons.injEq] at h
      obtain ⟨rfl, rfl⟩ := h
      exact ⟨rfl, rfl⟩
    · right
      simp only [List.cons_append, List.cons.injEq] at h
      exact ⟨A', s0, h.2⟩

theorem topoOnce_step (hg : g.so.Lawful) (f : V → List (V × L)) (X : List K) (s : TopoState V L S M ML)
    (h : TopoOnce g c X s) :
    (topoStep g { c with next := f } s).Moves (TopoOnce g c X) ∨
    ∃ v s', topoStep g { c with next := f } s = .expand s' ∧ topoWho g c s = some v ∧ c.vid v ∉ X ∧
      TopoOnce g c (c.vid v :: X) s' := by
  rcases h with hpc | ⟨A, rest, h⟩
  · left
    unfold topoStep
    simp only [hpc]
    trivial
  obtain ⟨hst, htr, hfr, hform, hdep, hdepE, hvis, hvisT, hrv, hnd⟩ := h
  unfold topoStep topoWho
  rcases hpc : s.pc with _ | ⟨v, _ | ⟨e, es⟩⟩ | _ <;> simp only
  · have hd := hdep hpc
    rcases A with _ | ⟨⟨v, b⟩, R⟩
    · simp only [List.map_nil, List.nil_append] at hst
      rcases rest with _ | ⟨v, rest⟩ <;> simp only [hst]
      · left; trivial
      · right
        have hc : g.so.contains s.trace (c.vid v) = false := by
          rw [Bool.eq_false_iff]
          intro hc
          simpa using (htr _).1 hc
        have hd : s.depth = 0 := by simpa using hd
        simp only [hc, Bool.false_eq_true, if_false, hd, Int.lt_irrefl]
        simp only [List.map_cons, List.nodup_cons] at hnd
        refine ⟨v, _, rfl, rfl, (hrv _ (by simp)).2, .inr ⟨[(v, true)], rest, ?_⟩⟩
        refine ⟨by simpa using hst, ?_, by simp [TopoFresh], .inr ⟨[], v, rfl⟩, by simp, by simp, ?_, ?_, ?_, hnd.2⟩
        · intro k
          have : g.so.contains s.trace k = false := by
            rw [Bool.eq_false_iff]
            intro hc
            simpa using (htr _).1 hc
          simp [hg.contains_add, this]
        · intro k hk
          rcases List.mem_cons.1 hk with rfl | hk
          · exact (hrv _ (by simp)).1
          · exact hvis k hk
        · intro k hk
          simp only [traceOf_true, traceOf_nil, List.map_cons, List.map_nil, List.mem_singleton] at hk
          subst hk
          exact (hrv _ (by simp)).1
        · intro k hk
          refine ⟨(hrv k (by simp [hk])).1, ?_⟩
          rw [List.mem_cons]
          rintro (rfl | hk')
          · exact hnd.1 hk
          · exact (hrv k (by simp [hk])).2 hk'
    · simp only [List.map_cons, List.cons_append] at hst
      simp only [hst]
      have hf := hfr
      simp only [TopoFresh] at hf
      cases b
      · have hc : g.so.contains s.trace (c.vid v) = false := by
          rw [Bool.eq_false_iff]
          intro hc
          exact hf.1 (by simpa using (htr _).1 hc)
        obtain ⟨A', s0, hR⟩ : ∃ A' s0, R = A' ++ [(s0, true)] := by
          rcases topoForm_tail hform with ⟨-, h⟩ | h
          · simp at h
          · exact h
        have hpos : 0 < s.depth := by
          rw [hd, hR]
          simp
        simp only [hc, Bool.false_eq_true, if_false, hpos, if_true]
        rcases hchk : (g.so.checkAdd s.visited (c.vid v)).1 with _ | _ <;> simp only [Bool.false_eq_true, if_false, if_true]
        · right
          rw [hg.checkAdd_fst] at hchk
          have hx : c.vid v ∉ X := fun hx => by simp [hvis _ hx] at hchk
          refine ⟨v, _, rfl, rfl, hx, .inr ⟨(v, true) :: R, rest, ?_⟩⟩
          refine ⟨by simpa using hst, ?_, ⟨hf.1, hf.2⟩, .inr ⟨(v, true) :: A', s0, by simp [hR]⟩, by simp, ?_, ?_, ?_, ?_, hnd⟩
          · intro k
            have := htr k
            simp only [traceOf_false] at this
            simp [hg.contains_add, this]
          · intro u es _
            simp only [traceOf_false] at hd
            simp only [traceOf_true, List.length_cons]
            exact ⟨le_of_lt hpos, by rw [hd]; simp⟩
          · intro k hk
            simp only [hg.contains_checkAdd, Bool.or_eq_true, decide_eq_true_eq]
            rcases List.mem_cons.1 hk with rfl | hk
            · exact .inl rfl
            · exact .inr (hvis k hk)
          · intro k hk
            simp only [hg.contains_checkAdd, Bool.or_eq_true, decide_eq_true_eq]
            simp only [traceOf_true, List.map_cons, List.mem_cons] at hk
            rcases hk with rfl | hk
            · exact .inl rfl
            · exact .inr (hvisT k (by simpa using hk))
          · intro k hk
            simp only [hg.contains_checkAdd, Bool.or_eq_true, decide_eq_true_eq]
            refine ⟨.inr (hrv k hk).1, ?_⟩
            rw [List.mem_cons]
            rintro (rfl | hk')
            · simp [(hrv _ hk).1] at hchk
            · exact (hrv k hk).2 hk'
        · left
          refine .inr ⟨R, rest, rfl, fun k => by simpa using htr k, hf.2, .inr ⟨A', s0, hR⟩, fun _ => by simpa using hd,
            by simp, hvis, fun k hk => hvisT k (by simpa using hk), hrv, hnd⟩
      · have hc : g.so.contains s.trace (c.vid v) = true := (htr _).2 (by simp)
        simp only [hc, if_true]
        left
        refine .inr ⟨R, rest, rfl, ?_, hf.2, ?_, ?_, by simp, hvis, fun k hk => hvisT k (by simp at hk ⊢; exact .inr hk),
          hrv, hnd⟩
        · intro k
          have := htr k
          simp only [traceOf_true, List.map_cons, List.mem_cons] at this
          simp only [hg.contains_discard _ _ hc, Bool.and_eq_true, Bool.not_eq_true', decide_eq_false_iff_not, this]
          constructor
          · rintro ⟨h1, h2 | h2⟩
            · exact absurd h2 h1
            · exact h2
          · intro h2
            exact ⟨fun e => hf.1 (e ▸ h2), .inr h2⟩
        · rcases topoForm_tail hform with ⟨h, -⟩ | h
          · exact .inl h
          · exact .inr h
        · intro _
          simp only [traceOf_true, List.length_cons] at hd
          simp only [hd]
          push_cast
          omega
  · left
    obtain ⟨h1, h2⟩ := hdepE _ _ hpc
    exact .inr ⟨A, rest, hst, htr, hfr, hform, fun _ => h2, by simp, hvis, hvisT, hrv, hnd⟩
  · left
    obtain ⟨h1, h2⟩ := hdepE _ _ hpc
    rcases hv : g.so.contains s.visited (c.vid e.1) with _ | _ <;> simp only [Bool.false_eq_true, if_false, if_true]
    · refine .inr ⟨(e.1, false) :: A, rest, by simp [topoPush, hst], by simpa [topoPush] using htr, ⟨?_, hfr⟩, ?_,
        by simp [topoPush], ?_, hvis, by simpa [topoPush] using hvisT, hrv, hnd⟩
      · intro hk
        simp [hvisT _ hk] at hv
      · rcases hform with rfl | ⟨A', s0, rfl⟩
        · simp at h2
          omega
        · exact .inr ⟨(e.1, false) :: A', s0, rfl⟩
      · intro u es' _
        simpa [topoPush] using ⟨h1, h2⟩
    · rcases hm : g.so.mustContain s.trace (c.vid e.1) with _ | _ | _ <;> simp only
      · trivial
      · exact .inr ⟨A, rest, hst, htr, hfr, hform, by simp, fun u es' _ => ⟨h1, h2⟩, hvis, hvisT, hrv, hnd⟩
      · exact .inl rfl
  · left; trivial

/-- Two calls of the edges function are for vertices with different ids. -/
theorem topoAware_once (hg : g.so.Lawful) (ht : c.isTree = false) (F : Nat → TopoReport V S M ML → List (V × L))
    (already : S) (starts : List V) (hs : (starts.map c.vid).Nodup) (limit : Option Int) (fuel : Nat) :
    ((topoAwareCalls g c F already starts limit fuel).map (fun call => c.vid call.1.vertex)).Nodup := by
  refine (aware_once c.vid TopoReport.vertex (fun _ _ => rfl) (fun _ => True) (fun _ _ => trivial) (TopoOnce g c)
    ?_ ?_ ?_ ?_ fuel (prepareLimit limit) (topoInit g c already starts, 0) [] ?_).1
  · intro f _ X s s' h e
    rcases topoOnce_step hg f X s h with h' | ⟨v, s'', e', -⟩
    · rw [e] at h'
      exact h'
    · rw [e] at e'
      cases e'
  · intro f _ X s r s' h e
    rcases topoOnce_step hg f X s h with h' | ⟨v, s'', e', -⟩
    · rw [e] at h'
      exact h'
    · rw [e] at e'
      cases e'
  · intro f _ X s s' h hw e
    rcases topoOnce_step hg f X s h with h' | ⟨v, s'', e', hv, -⟩
    · rw [e] at h'
      exact h'.elim
    · rw [hv] at hw
      cases hw
  · intro f _ X s v s' h hw e
    rcases topoOnce_step hg f X s h with h' | ⟨u, s'', e', hu, k1, k2⟩
    · rw [e] at h'
      exact h'.elim
    · rw [hu] at hw
      cases hw
      rw [e] at e'
      cases e'
      exact ⟨k1, k2⟩
  · refine .inr ⟨[], starts.reverse, rfl, by simp [topoInit, hg.contains_empty], trivial, .inl rfl, by simp [topoInit],
      by simp [topoInit], by simp, by simp, ?_, ?_⟩
    · intro k hk
      simp only [topoInit, ht, Bool.false_eq_true, if_false, hg.contains_addAll, Bool.or_eq_true, decide_eq_true_eq]
      refine ⟨.inl ?_, by simp⟩
      simpa using hk
    · rw [List.map_reverse]
      exact List.nodup_reverse.2 hs

/-- The trace is a walk from a start vertex. -/
theorem TopoOwned.walkN {already : S} {starts : List V} {G : List (V × Bool)} (h : TopoOwned g c already starts G) {t : V}
    {T : List V} (ht : traceOf G = t :: T) : WalkN (topoE g c already starts) (· ∈ starts) T.length t := by
  induction G generalizing t T with
  | nil => simp at ht
  | cons x G ih =>
    obtain ⟨v, b⟩ := x
    cases b with
    | false => exact ih h.2.2 ht
    | true =>
      simp only [traceOf_true, List.cons.injEq] at ht
      obtain ⟨rfl, rfl⟩ := ht
      have ho := h.1
      unfold TopoOwn at ho
      cases hT : traceOf G with
      | nil =>
        rw [hT] at ho
        exact .start ho.1
      | cons t' T' =>
        rw [hT] at ho
        exact (ih h.2.2 hT).step ho.1

/-- What the expansion step for a vertex changes. -/
theorem topo_expands (s : TopoState V L S M ML) (v : V) (hw : topoWho g c s = some v) :
    ∃ s', topoStep g c s = .expand s' ∧ s'.pc = .edges v (c.next v) ∧ s'.preds = s.preds ∧ s'.labels = s.labels ∧
      s'.depth = s.depth ∧ s'.visited = (topoView g c s v).visited := by
  unfold topoWho at hw
  unfold topoStep
  rcases hpc : s.pc with _ | ⟨u, es⟩ | _ <;> simp only [hpc] at hw
  · rcases hst : s.stack with _ | ⟨u, rest⟩ <;> simp only [hst] at hw
    · simp at hw
    · simp only
      split at hw
      · simp at hw
      · rename_i hc
        simp only [hc]
        split at hw
        · rename_i hd
          split at hw
          · simp at hw
          · rename_i hk
            simp only [Option.some.injEq] at hw
            subst hw
            simp only [hd, hk, if_true]
            exact ⟨_, rfl, rfl, rfl, rfl, rfl, by simp [topoView, hd]⟩
        · rename_i hd
          simp only [Option.some.injEq] at hw
          subst hw
          simp only [hd, if_false]
          exact ⟨_, rfl, rfl, rfl, rfl, rfl, by simp [topoView, hd]⟩
  · simp at hw
  · simp at hw

/-- **C70 for topological sorting.** If the edges function is arbitrary (it may use the attributes of the traversal, and it
may behave differently at each call), then the traversal behaves as in the ordinary graph that consists of the edges that the
function has returned: same reports, same end (also if a cycle is reported), same final attributes. It calls the function
for each vertex at most once, so that the function does define a graph. The depth that the function sees is the number of
edges of a walk from a start vertex to the vertex, along edges that the function has returned. The function sees the vertex
as visited already. With `build_paths`, the paths that the function sees show a path to the vertex with this number of
edges. The start vertices have to be different, compare `C16_counterexample_duplicate`. -/
theorem C70_topo_search_aware (hg : g.so.Lawful) (hgr : g.so.Grows) (ht : c.isTree = false)
    (F : Nat → TopoReport V S M ML → List (V × L)) {validV : V → Prop} {validL : L → Prop}
    (already : S) (starts : List V) (hs : (starts.map c.vid).Nodup) (limit : Option Int) (fuel : Nat) :
    let run := topoAwareRun g c F already starts limit fuel
    let calls := topoAwareCalls g c F already starts limit fuel
    let graph := graphOfCalls c.vid TopoReport.vertex calls
    let ordinary := topoRun g { c with next := graph } already starts limit fuel
    (run.events = ordinary.events ∧ run.ending = ordinary.ending ∧ run.final.1 = ordinary.final) ∧
    (calls.map (fun call => c.vid call.1.vertex)).Nodup ∧
    (∀ call ∈ calls, graph call.1.vertex = call.2 ∧ g.so.contains call.1.visited (c.vid call.1.vertex) = true ∧
      ∃ d : Nat, call.1.depth = d ∧
      WalkN (Allowed graph c.vid (fun k => g.so.contains already k = true ∧ k ∉ starts.map c.vid)) (· ∈ starts) d
        call.1.vertex) ∧
    (c.buildPaths = true → g.mo.Lawful validV → g.lo.Lawful validL → (∀ v ∈ starts, validV v) →
      (∀ call ∈ calls, ∀ e ∈ call.2, validV e.1 ∧ validL e.2) →
      ∀ call ∈ calls, ∃ p : SPath V L, p.first ∈ starts ∧ IsPath graph p.first p.steps ∧
        p.verts.getLast? = some call.1.vertex ∧ call.1.depth = p.steps.length ∧
        ShowsPath (pathsView g.mo g.lo c.vid call.1.preds call.1.labels) call.1.vertex p) := by
  intro run calls graph ordinary
  have hnd := topoAware_once (g := g) (c := c) hg ht F already starts hs limit fuel
  obtain ⟨h1, h2⟩ := aware_static (F := F) (view := topoView g c) c.vid TopoReport.vertex (fun _ _ => rfl)
    (topo_readsOne (g := g) (c := c)) fuel (prepareLimit limit) (topoInit g c already starts) (calls := calls) rfl hnd
  have hrun : ordinary = runMachine (topoStep g { c with next := graph }) fuel (prepareLimit limit)
      (topoInit g c already starts) := by
    simp only [ordinary]
    rw [topoRun_eq g { c with next := graph } ht]
    rfl
  refine ⟨by rw [hrun]; exact h2, hnd, fun call hc => ⟨(h1 call hc).1, ?_⟩, ?_⟩
  · obtain ⟨-, h', s, hr, hw, hv⟩ := h1 call hc
    obtain ⟨s', e1, e2, e3, e4, e5, e6⟩ := topo_expands (c := { c with next := graph }) s _ hw
    obtain ⟨G, inv⟩ := topo_inv (c := { c with next := graph }) hg hgr ht hs (hr.expand e1)
    obtain ⟨A, B, rfl, hA, -⟩ := inv.ed _ _ e2
    have hT : traceOf (A ++ (call.1.vertex, true) :: B) = call.1.vertex :: traceOf B := by simp [hA]
    refine ⟨?_, (traceOf B).length, ?_, inv.own.walkN hT⟩
    · have := (inv.vis (c.vid call.1.vertex)).2 (.inr (.inr (.inl (by rw [hT]; simp))))
      rw [e6] at this
      rw [← hv]
      exact this
    · have := inv.depthE _ _ e2
      rw [hT, e5, List.length_cons] at this
      rw [← hv]
      simp only [topoView]
      omega
  · intro hb hmo hlo hsv hcalls call hc
    have hst : Storable g { c with next := graph } starts validV validL := by
      refine ⟨hmo, hlo, fun v hv => ?_, fun u e _ he => ?_, fun s hs' t ht' e => List.inj_on_of_nodup_map hs hs' ht' e⟩
      · obtain ⟨n, hv⟩ := hv
        cases hv with
        | start h => exact hsv _ h
        | step _ h =>
          obtain ⟨l, hl⟩ := h
          obtain ⟨call, hc, -, he⟩ := mem_graphOfCalls hl
          exact (hcalls call hc _ he).1
      · obtain ⟨call, hc, -, he⟩ := mem_graphOfCalls he
        exact (hcalls call hc _ he).2
    obtain ⟨-, h', s, hr, hw, hv⟩ := h1 call hc
    obtain ⟨s', e1, e2, e3, e4, e5, e6⟩ := topo_expands (c := { c with next := graph }) s _ hw
    obtain ⟨G, inv, pinv⟩ := topo_path_inv (c := { c with next := graph }) hg hgr ht hb hs hst (hr.expand e1)
    obtain ⟨A, B, rfl, hA, -⟩ := inv.ed _ _ e2
    have hT : traceOf (A ++ (call.1.vertex, true) :: B) = call.1.vertex :: traceOf B := by simp [hA]
    obtain ⟨p, k1, k2⟩ := pinv.tr _ _ _ rfl
    rw [e3, e4] at k2
    have hsh := k2.1.2.2.shows hmo hlo
    refine ⟨p, k2.1.1, k2.1.2.1, k2.1.2.2.last, ?_, ?_⟩
    · have := inv.depthE _ _ e2
      rw [hT, e5, List.length_cons] at this
      rw [← hv]
      simp only [topoView]
      omega
    · have hp : call.1.preds = s.preds ∧ call.1.labels = s.labels := by rw [← hv]; exact ⟨rfl, rfl⟩
      rw [hp.1, hp.2]
      exact hsh

/-! ## Non-vacuity (gears: see `Verif/Props/Bfs.lean`) -/

/-- Edges function on an infinite graph that ends at depth 2 of the search. -/
def exAwareT {S M ML : Type} (_ : Nat) (t : TopoReport Nat S M ML) : List (Nat × Char) :=
  if t.depth < 2 then [(t.vertex + 1, 'a'), (2 * t.vertex + 3, 'b')] else []

/-- Edges function whose edges lead back if the search has become deep. -/
def exAwareTC {S M ML : Type} (n : Nat) (t : TopoReport Nat S M ML) : List (Nat × Char) :=
  if t.depth < 2 then [(t.vertex + 1, 'a')] else [(n - 1, 'b')]

example : (topoAwareCalls exBits (exCfg true) exAwareT [] [0] none 60).map (fun x => (x.1.vertex, x.1.depth, x.2)) =
      [(0, 0, [(1, 'a'), (3, 'b')]), (3, 1, [(4, 'a'), (9, 'b')]), (9, 2, []), (4, 2, []),
       (1, 1, [(2, 'a'), (5, 'b')]), (5, 2, []), (2, 2, [])] ∧
    (topoAwareRun exBits (exCfg true) exAwareT [] [0] none 60).reports.map (fun r => (r.vertex, r.depth)) =
      [(9, 2), (4, 2), (3, 1), (5, 2), (2, 2), (1, 1), (0, 0)] := by
  refine ⟨?_, ?_⟩ <;> decide +kernel

example : (topoAwareRun exBits (exCfg true) exAwareTC [] [0] none 60).ending = .raised .runtimeError ∧
    (topoAwareRun exBits (exCfg true) exAwareTC [] [0] none 60).final.1.cycleFromStart = [0, 1, 2, 1] := by
  refine ⟨?_, ?_⟩ <;> decide +kernel

end NoGraphs
