import Verif.Proofs.TopologicalPaths
import Verif.Proofs.Forest

/-! Topological sorting of forests: `is_tree=True` gives the same reports. -/

set_option linter.unusedSectionVars false

namespace NoGraphs

open Spec

variable {V K L S M ML : Type} [DecidableEq V] [DecidableEq K]
variable {g : TravGear V K L S M ML} {c : TravCfg V K L} {starts : List V}

/-- Invariant of the general mode on a forest. -/
structure TopoTreeInv (c : TravCfg V K L) (starts : List V) (h : List (Ev (TopoReport V S M ML)))
    (s : TopoState V L S M ML) (G : List (V × Bool)) : Prop where
  nd : (idsOf c G).Nodup
  dj : ∀ k ∈ idsOf c G, k ∉ repIds c h
  fresh : ∀ u, Reachable (Edge c.next) (· ∈ starts) u → c.vid u ∉ (traceOf G).map c.vid → c.vid u ∉ repIds c h →
    ∀ w, Edge c.next u w → c.vid w ∉ idsOf c G ∧ c.vid w ∉ repIds c h
  cur : ∀ u es, s.pc = .edges u es → (es.map (fun e => c.vid e.1)).Nodup ∧
    ∀ e ∈ es, c.vid e.1 ∉ idsOf c G ∧ c.vid e.1 ∉ repIds c h

theorem topoE_edge {already : S} {u w : V} (h : topoE g c already starts u w) : Edge c.next u w := h.1

/-- The vertices of the stack are reachable. -/
theorem TopoOwned.reach {already : S} {G : List (V × Bool)} (h : TopoOwned g c already starts G) {x : V × Bool}
    (hx : x ∈ G) : Reachable (Edge c.next) (· ∈ starts) x.1 := by
  induction G with
  | nil => simp at hx
  | cons y G ih =>
    rcases List.mem_cons.1 hx with rfl | hx
    · have ho := h.1
      unfold TopoOwn at ho
      cases hT : traceOf G with
      | nil => rw [hT] at ho; exact .start ho.1
      | cons t T =>
        rw [hT] at ho
        obtain ⟨s0, hs0, -, hr⟩ := h.2.2.bottom hT
        exact Reachable.step (reach_of_bottom hs0 (Reachable.mono (fun _ _ h => h.1) hr)) ho.1.1
    · exact ih h.2.2 hx

/-- A step of the general mode on a forest does not skip and does not fail. -/
theorem topo_tree_move (hg : g.so.Lawful) (hgr : g.so.Grows) (hf : IsForest c.next c.vid starts)
    {h : List (Ev (TopoReport V S M ML))} {s : TopoState V L S M ML} {G G' : List (V × Bool)}
    (inv : TopoInv g c g.so.empty starts h s G) (ti : TopoTreeInv c starts h s G)
    {st : Step (TopoState V L S M ML) (TopoReport V S M ML)} (hm : TopoMove g c s G st G')
    (hcy : s.pc ≠ .cycle) :
    (∀ s', st = .tau s' → TopoTreeInv c starts h s' G' ∧ s'.pc ≠ .cycle) ∧
    (∀ r s', st = .emit r s' → TopoTreeInv c starts (h ++ [.rep r]) s' G' ∧ s'.pc ≠ .cycle) ∧
    (∀ s', st = .expand s' → TopoTreeInv c starts (h ++ [.exp]) s' G' ∧ s'.pc ≠ .cycle) ∧
    (∀ v R, G = (v, false) :: R → s.pc = .loop → traceOf R ≠ [] → g.so.contains s.visited (c.vid v) = false) ∧
    (∀ v e es, s.pc = .edges v (e :: es) → g.so.contains s.visited (c.vid e.1) = false) := by
  have hns : ∀ v R, G = (v, false) :: R → s.pc = .loop → traceOf R ≠ [] →
      g.so.contains s.visited (c.vid v) = false := by
    intro v R hG hpc hT
    by_contra hv
    have hv : g.so.contains s.visited (c.vid v) = true := by simpa using hv
    rw [inv.vis] at hv
    subst hG
    rcases hv with hv | hv | hv | hv
    · rw [hg.contains_empty] at hv; simp at hv
    · have ho := inv.own.1
      unfold TopoOwn at ho
      cases hT' : traceOf R with
      | nil => exact hT hT'
      | cons t T => rw [hT'] at ho; exact ho.2 hv
    · exact inv.own.2.1 hv
    · exact ti.dj _ (by simp [idsOf]) hv
  have hcur : ∀ v es, s.pc = .edges v es → Reachable (Edge c.next) (· ∈ starts) v ∧
      c.vid v ∈ (traceOf G).map c.vid ∧ ∀ e ∈ es, e ∈ c.next v := by
    intro v es hpc
    obtain ⟨A, B, hG, -, hes⟩ := inv.ed v es hpc
    exact ⟨inv.own.reach (x := (v, true)) (by rw [hG]; simp), by rw [hG]; simp, hes⟩
  have hne : ∀ v e es, s.pc = .edges v (e :: es) → g.so.contains s.visited (c.vid e.1) = false := by
    intro v e es hpc
    obtain ⟨hrv, -, hes⟩ := hcur v _ hpc
    have hee : Edge c.next v e.1 := ⟨e.2, hes e List.mem_cons_self⟩
    obtain ⟨-, hc2⟩ := ti.cur v _ hpc
    have hc2 := hc2 e List.mem_cons_self
    by_contra hv
    have hv : g.so.contains s.visited (c.vid e.1) = true := by simpa using hv
    rw [inv.vis] at hv
    rcases hv with hv | hv | hv | hv
    · rw [hg.contains_empty] at hv; simp at hv
    · exact hf.no_edge_to_start v e.1 hrv hee hv
    · exact hc2.1 (mem_idsOf_of_trace hv)
    · exact hc2.2 hv
  refine ⟨?_, ?_, ?_, hns, hne⟩
  · rintro s' rfl
    cases hm with
    | skip v _ hpc hT hv => rw [hns v _ rfl hpc hT] at hv; simp at hv
    | edgeCycle _ v e es hpc hv _ => rw [hne v e es hpc] at hv; simp at hv
    | edgeSkip _ v e es hpc hv _ => rw [hne v e es hpc] at hv; simp at hv
    | endEdges _ v hpc => exact ⟨⟨ti.nd, ti.dj, ti.fresh, fun u es hp => by simp at hp⟩, by simp⟩
    | push _ v e es hpc hv =>
      obtain ⟨hrv, htv, hes⟩ := hcur v _ hpc
      have hee : Edge c.next v e.1 := ⟨e.2, hes e List.mem_cons_self⟩
      obtain ⟨hc1, hc2⟩ := ti.cur v _ hpc
      rw [List.map_cons, List.nodup_cons] at hc1
      refine ⟨⟨?_, ?_, ?_, ?_⟩, by simp [topoPush]⟩
      · rw [idsOf_cons, List.nodup_cons]; exact ⟨(hc2 e List.mem_cons_self).1, ti.nd⟩
      · intro k hk
        rw [idsOf_cons, List.mem_cons] at hk
        rcases hk with rfl | hk
        · exact (hc2 e List.mem_cons_self).2
        · exact ti.dj k hk
      · intro u hu h1 h2 w hw
        obtain ⟨q1, q2⟩ := ti.fresh u hu h1 h2 w hw
        refine ⟨?_, q2⟩
        rw [idsOf_cons, List.mem_cons, not_or]
        refine ⟨fun e1 => ?_, q1⟩
        have := hf.one_parent u v w e.1 hu hrv hw hee e1
        subst this
        exact h1 htv
      · intro u es' hp
        simp only [topoPush, TopoPc.edges.injEq] at hp
        obtain ⟨rfl, rfl⟩ := hp
        refine ⟨hc1.2, fun e' he' => ?_⟩
        obtain ⟨q1, q2⟩ := hc2 e' (List.mem_cons_of_mem _ he')
        refine ⟨?_, q2⟩
        rw [idsOf_cons, List.mem_cons, not_or]
        exact ⟨fun e1 => hc1.1 (List.mem_map.2 ⟨e', he', e1⟩), q1⟩
  · rintro r s' rfl
    cases hm with
    | leave v _ hpc =>
      have hrep : ∀ k, k ∈ repIds c (h ++ [.rep ⟨v, s.depth - 1, s.visited, s.preds, s.labels⟩]) ↔
          k ∈ repIds c h ∨ k = c.vid v := by
        intro k; simp [repIds]
      have hnd := ti.nd
      rw [idsOf_cons, List.nodup_cons] at hnd
      refine ⟨⟨hnd.2, ?_, ?_, fun u es hp => ?_⟩, by rw [show _ = TopoPc.loop from hpc]; simp⟩
      · intro k hk
        rw [hrep, not_or]
        refine ⟨ti.dj k (by rw [idsOf_cons]; exact List.mem_cons_of_mem _ hk), ?_⟩
        rintro rfl; exact hnd.1 hk
      · intro u hu h1 h2 w hw
        rw [hrep, not_or] at h2
        obtain ⟨q1, q2⟩ := ti.fresh u hu (by
          rw [traceOf_true, List.map_cons, List.mem_cons, not_or]; exact ⟨h2.2, h1⟩) h2.1 w hw
        rw [idsOf_cons, List.mem_cons, not_or] at q1
        rw [hrep, not_or]
        exact ⟨q1.2, q2, q1.1⟩
      · rw [show s.pc = _ from hp] at hpc; simp at hpc
  · rintro s' rfl
    have aux : ∀ v R, G = (v, false) :: R → ∀ s'' : TopoState V L S M ML, s''.pc = .edges v (c.next v) →
        TopoTreeInv c starts (h ++ [.exp]) s'' ((v, true) :: R) ∧ s''.pc ≠ .cycle := by
      rintro v R rfl s'' hp
      refine ⟨⟨ti.nd, by rw [repIds_exp]; exact ti.dj, ?_, ?_⟩, by rw [hp]; simp⟩
      · intro u hu h1 h2 w hw
        rw [repIds_exp] at h2 ⊢
        refine ti.fresh u hu (fun h => h1 ?_) h2 w hw
        rw [traceOf_true, List.map_cons]; exact List.mem_cons_of_mem _ h
      · intro u es hp'
        rw [hp] at hp'
        simp only [TopoPc.edges.injEq] at hp'
        obtain ⟨rfl, rfl⟩ := hp'
        have hrv := inv.own.reach (x := (v, false)) List.mem_cons_self
        refine ⟨hf.children_nodup v hrv, fun e he => ?_⟩
        rw [repIds_exp]
        exact ti.fresh v hrv inv.own.2.1 (ti.dj _ (by simp [idsOf])) e.1 ⟨e.2, he⟩
    cases hm with
    | enterStart v R hpc hT => exact aux v R rfl _ rfl
    | enter v R hpc hT hv => exact aux v R rfl _ rfl

theorem topo_tree_sim (hg : g.so.Lawful) (hgr : g.so.Grows) (ht : c.isTree = false)
    (hf : IsForest c.next c.vid starts) (fuel : Nat) (lim : Option Int) :
    let c' : TravCfg V K L := { c with isTree := true }
    List.Forall₂ (EvRel (fun r r' : TopoReport V S M ML => r'.vertex = r.vertex ∧ r'.depth = r.depth ∧
        r'.preds = r.preds ∧ r'.labels = r.labels))
      (runMachine (topoStep g c) fuel lim (topoInit g c g.so.empty starts)).events
      (runMachine (topoTreeStep g c') fuel lim (topoInit g c' g.so.empty starts)).events ∧
    (runMachine (topoStep g c) fuel lim (topoInit g c g.so.empty starts : TopoState V L S M ML)).ending =
      (runMachine (topoTreeStep g c') fuel lim (topoInit g c' g.so.empty starts)).ending := by
  intro c'
  have := run_sim (m := topoStep g c) (m' := topoTreeStep g c')
    (R := fun s s' => ∃ h G, TopoInv g c g.so.empty starts h s G ∧ TopoTreeInv c starts h s G ∧ s.pc ≠ .cycle ∧
      s'.pc = s.pc ∧ s'.stack = s.stack ∧ s'.leave = G.map (·.2) ∧ s'.depth = s.depth ∧ s'.preds = s.preds ∧
      s'.labels = s.labels)
    (F := fun _ _ => True)
    (Q := fun r r' : TopoReport V S M ML => r'.vertex = r.vertex ∧ r'.depth = r.depth ∧
        r'.preds = r.preds ∧ r'.labels = r.labels) ?_ fuel lim (topoInit g c g.so.empty starts)
    (topoInit g c' g.so.empty starts) ?_
  · exact ⟨this.1, this.2.1⟩
  · rintro s s' ⟨h, G, inv, ti, hcy, e1, e2, e3, e4, e5, e6⟩
    obtain ⟨G', hm⟩ := inv.move hg
    obtain ⟨m1, m2, m3, hns, hne⟩ := topo_tree_move hg hgr hf inv ti hm hcy
    have i1 := fun s' (e : topoStep g c s = .tau s') => inv.tau hg (e ▸ hm)
    have i2 := fun r s' (e : topoStep g c s = .emit r s') => inv.emit hg hgr (e ▸ hm)
    have i3 := fun s' (e : topoStep g c s = .expand s') => inv.expand hg hgr (e ▸ hm)
    obtain ⟨pc', stack', leave', trace', depth', visited', preds', labels', cyc'⟩ := s'
    simp only at e1 e2 e3 e4 e5 e6
    subst e1 e2 e3 e4 e5 e6
    have hst := inv.stack
    generalize hstep : topoStep g c s = st at *
    unfold topoTreeStep
    obtain ⟨pc, stack, leave, trace, depth, visited, preds, labels, cyc⟩ := s
    simp only at hst
    subst hst
    cases hm with
    | stop hpc => simp only at hpc; subst hpc; exact .stop trivial
    | raise _ hpc => exact absurd hpc hcy
    | skip v R hpc hT hv => rw [hns v _ rfl hpc hT] at hv; simp at hv
    | edgeBad _ v e es hpc hv _ => rw [hne v e es hpc] at hv; simp at hv
    | edgeCycle _ v e es hpc hv _ => rw [hne v e es hpc] at hv; simp at hv
    | edgeSkip _ v e es hpc hv _ => rw [hne v e es hpc] at hv; simp at hv
    | leave v R hpc =>
      simp only at hpc; subst hpc
      exact .emit ⟨rfl, rfl, rfl, rfl⟩
        ⟨_, _, i2 _ _ rfl, (m2 _ _ rfl).1, (m2 _ _ rfl).2, rfl, rfl, rfl, rfl, rfl, rfl⟩
    | enterStart v R hpc hT =>
      simp only at hpc; subst hpc
      exact .expand ⟨_, _, i3 _ rfl, (m3 _ rfl).1, (m3 _ rfl).2, rfl, rfl, rfl, rfl, rfl, rfl⟩
    | enter v R hpc hT hv =>
      simp only at hpc; subst hpc
      exact .expand ⟨_, _, i3 _ rfl, (m3 _ rfl).1, (m3 _ rfl).2, rfl, rfl, rfl, rfl, rfl, rfl⟩
    | push _ v e es hpc hv =>
      simp only at hpc; subst hpc
      exact .tau ⟨_, _, i1 _ rfl, (m1 _ rfl).1, (m1 _ rfl).2, rfl, rfl, rfl, rfl, rfl, rfl⟩
    | endEdges _ v hpc =>
      simp only at hpc; subst hpc
      exact .tau ⟨_, _, i1 _ rfl, (m1 _ rfl).1, (m1 _ rfl).2, rfl, rfl, rfl, rfl, rfl, rfl⟩
  · refine ⟨[], _, .init hg ht hf.starts_nodup, ⟨?_, ?_, ?_, ?_⟩, by simp [topoInit], rfl, rfl, ?_, rfl, rfl, rfl⟩
    · rw [idsOf_pending, List.map_reverse, List.nodup_reverse]; exact hf.starts_nodup
    · intro k _; simp [repIds]
    · intro u hu _ _ w hw
      refine ⟨?_, by simp [repIds]⟩
      rw [idsOf_pending, List.map_reverse, List.mem_reverse]
      exact hf.no_edge_to_start u w hu hw
    · intro u es hp; simp [topoInit] at hp
    · simp only [topoInit, List.map_map, List.map_reverse]
      symm
      rw [List.reverse_eq_iff]
      clear hf ht
      have : ∀ l : List V, l.map (fun _ => false) = List.replicate l.length false := by simp
      simp [Function.comp_def]

end NoGraphs
