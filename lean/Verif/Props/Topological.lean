import Verif.Proofs.TopologicalTree
import Verif.Props.BfsModes
import Mathlib.Data.List.Perm.Subperm

/-! # Properties of topological sorting: C16, C17, C56; C05 and C52 for it

Edges are those to vertices that are not excluded by `already_visited` (`Allowed`, `Spec/Graph.lean`);
without `already_visited`, these are all edges. `Independent` and `ReachableCycle` are defined in
`Verif/Spec/Order.lean` on the graph alone. -/

set_option linter.unusedSectionVars false

namespace NoGraphs

open Spec

variable {V K L S M ML : Type} [DecidableEq V] [DecidableEq K]
variable (g : TravGear V K L S M ML) (c : TravCfg V K L)

theorem topoE_empty (hg : g.so.Lawful) (starts : List V) : topoE g c g.so.empty starts = Edge c.next := by
  funext u v
  simp [topoE, Allowed, hg.contains_empty]

theorem topoRun_eq (ht : c.isTree = false) (already : S) (starts : List V) (limit : Option Int) (fuel : Nat) :
    topoRun g c already starts limit fuel =
      runMachine (topoStep g c) fuel (prepareLimit limit) (topoInit g c already starts : TopoState V L S M ML) := by
  unfold topoRun; rw [ht]; rfl

/-- The edges that count: those to vertices that are neither excluded by `already_visited`, nor are
starts. -/
abbrev TopoEdges (already : S) (starts : List V) : V → V → Prop :=
  Allowed c.next c.vid (fun k => g.so.contains already k = true ∧ k ∉ starts.map c.vid)

/-! ## C16 -/

/-- **C16 for arbitrary distinct start vertices.** When a vertex `r` is reported, it is reachable from some
start vertex `s0`, and each vertex its edges lead to has been reported strictly before, *except for other
start vertices than `s0`*. No id is reported twice. This holds at each moment, for every graph (with or
without cycles). Missing for the full claim: the exception for other start vertices (see
`C16_counterexample_starts`). -/
theorem C16_topo_order_partial (hg : g.so.Lawful) (hgr : g.so.Grows) (ht : c.isTree = false) (already : S)
    (starts : List V) (hn : (starts.map c.vid).Nodup) (limit : Option Int) (fuel : Nat) :
    let reports := (topoRun g c already starts limit fuel).reports
    (∀ before r after, reports = before ++ r :: after → ∃ s0 ∈ starts,
      Reachable (TopoEdges g c already starts) (· = s0) r.vertex ∧
      ∀ w, TopoEdges g c already starts r.vertex w → c.vid w ∈ before.map (fun r' => c.vid r'.vertex) ∨
        (c.vid w ∈ starts.map c.vid ∧ c.vid w ≠ c.vid s0)) ∧
    (reports.map (fun r => c.vid r.vertex)).Nodup := by
  intro reports
  obtain ⟨s, hs, -⟩ := run_reaches (topoStep g c) fuel (prepareLimit limit) (topoInit g c already starts)
  obtain ⟨G, inv⟩ := topo_inv hg hgr ht hn hs
  refine ⟨fun b r a h => inv.reps b r a ?_, ?_⟩
  · rw [show reports = _ from congrArg RunResult.reports (topoRun_eq g c ht already starts limit fuel)] at h
    exact h
  · rw [show reports = _ from congrArg RunResult.reports (topoRun_eq g c ht already starts limit fuel)]
    exact inv.nodup

/-- **C16, order.** With start vertices such that no walk leads from one of them to another one (for
example: with one start vertex): when a vertex is reported, it is reachable, and all vertices its edges lead
to have been reported strictly before. No id is reported twice. -/
theorem C16_topo_order (hg : g.so.Lawful) (hgr : g.so.Grows) (ht : c.isTree = false) (already : S)
    (starts : List V) (hn : (starts.map c.vid).Nodup)
    (hi : Independent (TopoEdges g c already starts) c.vid starts) (limit : Option Int) (fuel : Nat) :
    let reports := (topoRun g c already starts limit fuel).reports
    (∀ before r after, reports = before ++ r :: after →
      Reachable (TopoEdges g c already starts) (· ∈ starts) r.vertex ∧
      ∀ w, TopoEdges g c already starts r.vertex w → c.vid w ∈ before.map (fun r' => c.vid r'.vertex)) ∧
    (reports.map (fun r => c.vid r.vertex)).Nodup := by
  intro reports
  obtain ⟨h1, h2⟩ := C16_topo_order_partial g c hg hgr ht already starts hn limit fuel
  refine ⟨fun b r a h => ?_, h2⟩
  obtain ⟨s0, hs0, hr, hw⟩ := h1 b r a h
  refine ⟨reach_of_bottom hs0 hr, fun w hw' => ?_⟩
  rcases hw w hw' with h | ⟨h3, h4⟩
  · exact h
  · obtain ⟨t, ht', e⟩ := List.mem_map.1 h3
    have := hi s0 hs0 t ht' w (hr.step hw') e.symm
    exact absurd (e.symm.trans this) h4

/-- The positions of reports decrease along edges. -/
theorem topo_done (hg : g.so.Lawful) (hgr : g.so.Grows) (ht : c.isTree = false) (already : S)
    (starts : List V) (hn : (starts.map c.vid).Nodup)
    (limit : Option Int) (fuel : Nat)
    (hdone : (topoRun g c already starts limit fuel).ending = .done) :
    ∀ s ∈ starts, c.vid s ∈ (topoRun g c already starts limit fuel).reports.map (fun r => c.vid r.vertex) := by
  rw [topoRun_eq g c ht] at hdone ⊢
  obtain ⟨s, hs, he⟩ := run_reaches (topoStep g c) fuel (prepareLimit limit) (topoInit g c already starts)
  rw [hdone] at he
  obtain ⟨G, inv⟩ := topo_inv hg hgr ht hn hs
  obtain ⟨G', hm⟩ := inv.move hg
  rw [he] at hm
  generalize (runMachine (topoStep g c) fuel (prepareLimit limit) (topoInit g c already starts)).final = fs at hm
  cases hm with
  | stop hpc =>
    intro v hv
    rcases inv.scov _ (List.mem_map_of_mem hv) with h | h
    · exact h
    · simp [idsOf] at h

/-- **C16, completeness.** When the sorting ends without exception, each reachable vertex has been
reported (with the other theorems: exactly once). For arbitrary distinct start vertices. -/
theorem C16_topo_complete (hg : g.so.Lawful) (hgr : g.so.Grows) (ht : c.isTree = false)
    (hc : Compat (Edge c.next) c.vid) (already : S) (starts : List V) (hn : (starts.map c.vid).Nodup)
    (limit : Option Int) (fuel : Nat)
    (hdone : (topoRun g c already starts limit fuel).ending = .done) :
    ∀ v, Reachable (TopoEdges g c already starts) (· ∈ starts) v →
      ∃ r ∈ (topoRun g c already starts limit fuel).reports, c.vid r.vertex = c.vid v := by
  intro v hv
  have hst := topo_done g c hg hgr ht already starts hn limit fuel hdone
  have hc' := Allowed.compat (excl := fun k => g.so.contains already k = true ∧ k ∉ starts.map c.vid) hc
  refine Reachable.induct (P := fun v => ∃ r ∈ (topoRun g c already starts limit fuel).reports,
    c.vid r.vertex = c.vid v) ?_ ?_ hv
  · intro v hv
    obtain ⟨r, hr, e⟩ := List.mem_map.1 (hst v hv)
    exact ⟨r, hr, e⟩
  · rintro u w - ⟨r, hr, e⟩ he
    obtain ⟨w', hw', e'⟩ := hc' u r.vertex w e.symm he
    obtain ⟨b, a, hba⟩ := List.append_of_mem hr
    obtain ⟨s0, hs0, -, hall⟩ :=
      (C16_topo_order_partial g c hg hgr ht already starts hn limit fuel).1 b r a hba
    rcases hall w' hw' with h | ⟨h, -⟩
    · obtain ⟨r', hr', e2⟩ := List.mem_map.1 h
      exact ⟨r', by rw [hba]; exact List.mem_append_left _ hr', e2.trans e'⟩
    · obtain ⟨t, ht', e2⟩ := List.mem_map.1 h
      obtain ⟨r', hr', e3⟩ := List.mem_map.1 (hst t ht')
      exact ⟨r', hr', e3.trans (e2.trans e')⟩

/-! ## C17 -/

/-- The state when the cycle is reported. -/
theorem topo_raised (hg : g.so.Lawful) (hgr : g.so.Grows) (ht : c.isTree = false) (already : S)
    (starts : List V) (hn : (starts.map c.vid).Nodup) (fuel : Nat)
    (hraise : (topoRun g c already starts none fuel).ending = .raised .runtimeError) :
    ∃ h G, TopoInv g c already starts h (topoRun g c already starts none fuel).final G ∧
      (topoRun g c already starts none fuel).final.pc = .cycle := by
  rw [topoRun_eq g c ht] at hraise ⊢
  obtain ⟨hs, he⟩ := run_raised (topoStep g c) fuel (topoInit g c already starts) hraise
  obtain ⟨G, inv⟩ := topo_inv hg hgr ht hn hs
  obtain ⟨G', hm⟩ := inv.move hg
  rw [he] at hm
  refine ⟨_, G, inv, ?_⟩
  revert hm
  change _ → (runMachine (topoStep g c) fuel none (topoInit g c already starts)).final.pc = _
  generalize (runMachine (topoStep g c) fuel none (topoInit g c already starts)).final = fs
  intro hm
  cases hm with
  | raise _ hpc => exact hpc

theorem walkList_walkN {E : V → V → Prop} (l : List V) (a w : V) (h : WalkList E (a :: l ++ [w])) :
    WalkN E (· = a) (l.length + 1) w := by
  have gen : ∀ (l : List V) (x : V) (n : Nat), WalkN E (· = a) n x → WalkList E (x :: l ++ [w]) →
      WalkN E (· = a) (n + l.length + 1) w := by
    intro l
    induction l with
    | nil => intro x n hx h; exact .step hx h.1
    | cons y l ih =>
      intro x n hx h
      have := ih y (n + 1) (.step hx h.1) h.2
      rw [List.length_cons]
      rw [show n + (l.length + 1) + 1 = n + 1 + l.length + 1 by omega]
      exact this
  have := gen l a 0 (.start rfl) h
  rwa [Nat.zero_add] at this

theorem walkList_suffix {E : V → V → Prop} : ∀ (A B : List V), WalkList E (A ++ B) → WalkList E B
  | [], _, h => h
  | [x], B, h => by
    cases B with
    | nil => trivial
    | cons b B => exact h.2
  | x :: y :: A, B, h => walkList_suffix (y :: A) B h.2

/-- **C17, soundness.** If the sorting (without limit) raises `RuntimeError`, a cycle can be reached from
the start vertices. -/
theorem C17_topo_cycle_sound (hg : g.so.Lawful) (hgr : g.so.Grows) (ht : c.isTree = false) (already : S)
    (starts : List V) (hn : (starts.map c.vid).Nodup) (fuel : Nat)
    (hraise : (topoRun g c already starts none fuel).ending = .raised .runtimeError) :
    ReachableCycle (TopoEdges g c already starts) starts c.vid := by
  obtain ⟨h, G, inv, hpc⟩ := topo_raised g c hg hgr ht already starts hn fuel hraise
  obtain ⟨t, T, n, hT, hE, hin, -⟩ := inv.cyc hpc
  have hw := inv.own.walk n (fun t' T' hT' => by
    rw [hT] at hT'
    simp only [List.cons.injEq] at hT'
    obtain ⟨rfl, rfl⟩ := hT'
    exact hE)
  obtain ⟨x, hx, e⟩ := List.mem_map.1 hin
  obtain ⟨A, B, hAB⟩ := List.append_of_mem (List.mem_reverse.2 hx)
  rw [hAB, List.append_assoc] at hw
  have hwx := walkList_suffix A _ hw
  refine ⟨x, ?_, B.length, n, walkList_walkN B x n hwx, e.symm⟩
  obtain ⟨y, hy, rfl⟩ := List.mem_map.1 hx
  obtain ⟨hy1, hy2⟩ := List.mem_filter.1 hy
  have : ∀ G : List (V × Bool), TopoOwned g c already starts G → y ∈ G →
      Reachable (topoE g c already starts) (· ∈ starts) y.1 := by
    intro G hG hy
    induction G with
    | nil => simp at hy
    | cons z G ih =>
      rcases List.mem_cons.1 hy with rfl | hy
      · have ho := hG.1
        unfold TopoOwn at ho
        cases hT : traceOf G with
        | nil => rw [hT] at ho; exact .start ho.1
        | cons t T =>
          rw [hT] at ho
          obtain ⟨s0, hs0, -, hr⟩ := hG.2.2.bottom hT
          exact Reachable.step (reach_of_bottom hs0 hr) ho.1
      · exact ih hG.2.2 hy
  exact this G inv.own hy1

/-- No `AssertionError`: in each reachable state, under one of the conditions. -/
theorem topo_no_assert (hg : g.so.Lawful) (hgr : g.so.Grows) (ht : c.isTree = false) (already : S)
    (starts : List V) (hn : (starts.map c.vid).Nodup)
    (hx : (∀ k, (g.so.mustContain g.so.empty k).isSome) ∨
      (Independent (TopoEdges g c already starts) c.vid starts ∧
        ∀ k, g.so.contains already k = true → (g.so.mustContain g.so.empty k).isSome))
    {h : List (Ev (TopoReport V S M ML))} {s : TopoState V L S M ML}
    (hr : Reaches (topoStep g c) (topoInit g c already starts) h s) :
    topoStep g c s ≠ .fail .assertionError := by
  intro hf
  obtain ⟨G, inv⟩ := topo_inv hg hgr ht hn hr
  obtain ⟨G', hm⟩ := inv.move hg
  rw [hf] at hm
  cases hm with
  | edgeBad _ v e es hpc hv hmc =>
    have hsome : (g.so.mustContain s.trace (c.vid e.1)).isSome := by
      apply inv.grown
      rcases hx with hx | ⟨hi, hal⟩
      · exact .inr (.inr (hx _))
      · rcases (inv.vis _).1 hv with h1 | h1 | h1 | h1
        · exact .inr (.inr (hal _ h1))
        · obtain ⟨A, B, hG, hA, hes⟩ := inv.ed v _ hpc
          have hT : traceOf G = v :: traceOf B := by rw [hG]; simp [hA]
          obtain ⟨s0, hs0, hlast, hreach⟩ := inv.own.bottom hT
          obtain ⟨t, htm, et⟩ := List.mem_map.1 h1
          have hE : TopoEdges g c already starts v e.1 :=
            ⟨⟨e.2, hes e List.mem_cons_self⟩, fun hh => hh.2 h1⟩
          have := hi s0 hs0 t htm e.1 (hreach.step hE) et.symm
          left
          rw [← et, this, hT]
          apply List.mem_map_of_mem
          exact List.mem_of_getLast? hlast
        · exact .inl h1
        · exact .inr (.inl h1)
    rw [hmc] at hsome; simp at hsome

/-- Steps raise `RuntimeError` or `AssertionError` only. -/
theorem topo_fail_kind (s : TopoState V L S M ML) (e : PyErr) (h : topoStep g c s = .fail e) :
    e = .runtimeError ∨ e = .assertionError := by
  unfold topoStep at h
  split at h
  · simp only [Step.fail.injEq] at h; exact .inl h.symm
  · split at h
    · simp at h
    · simp only at h
      split at h
      · simp at h
      · split at h
        · split at h <;> simp at h
        · simp at h
  · split at h
    · split at h
      · simp only [Step.fail.injEq] at h; exact .inr h.symm
      · simp at h
      · simp at h
    · simp at h
  · simp at h

theorem topo_ending (hg : g.so.Lawful) (hgr : g.so.Grows) (ht : c.isTree = false) (already : S)
    (starts : List V) (hn : (starts.map c.vid).Nodup)
    (hx : (∀ k, (g.so.mustContain g.so.empty k).isSome) ∨
      (Independent (TopoEdges g c already starts) c.vid starts ∧
        ∀ k, g.so.contains already k = true → (g.so.mustContain g.so.empty k).isSome))
    (hfin : FinitelyReachable (TopoEdges g c already starts) (· ∈ starts) c.vid) :
    ∃ N, ∀ fuel, N ≤ fuel → (topoRun g c already starts none fuel).ending = .done ∨
      (topoRun g c already starts none fuel).ending = .raised .runtimeError := by
  obtain ⟨N, hN⟩ := topo_terminates (M := M) (ML := ML) hg hgr ht hn hfin
  refine ⟨N, fun fuel hf => ?_⟩
  rw [topoRun_eq g c ht]
  obtain ⟨s, hs, he⟩ := run_reaches (topoStep g c) fuel (prepareLimit none) (topoInit g c already starts)
  have hnf := hN fuel hf (prepareLimit none)
  cases hend : (runMachine (topoStep g c) fuel (prepareLimit none) (topoInit g c already starts)).ending with
  | outOfFuel => exact absurd hend hnf
  | done => exact .inl rfl
  | raised e =>
    right
    rw [hend] at he
    rcases he with he | ⟨-, hk, -⟩
    · rcases topo_fail_kind g c s e he with rfl | rfl
      · rfl
      · exact absurd he (topo_no_assert g c hg hgr ht already starts hn hx hs)
    · exact absurd rfl hk

/-- If the order holds for all reports and all reachable vertices are reported, there is no cycle. -/
theorem no_cycle_of_order {E : V → V → Prop} {vid : V → K} {starts : List V} {ρ : Type} (vx : ρ → V)
    (hc : Compat E vid) (reports : List ρ) (hnd : (reports.map (fun r => vid (vx r))).Nodup)
    (hord : ∀ before r after, reports = before ++ r :: after → ∀ w, E (vx r) w →
      vid w ∈ before.map (fun r' => vid (vx r')))
    (hall : ∀ v, Reachable E (· ∈ starts) v → ∃ r ∈ reports, vid (vx r) = vid v) :
    ¬ ReachableCycle E starts vid := by
  -- the position of an id
  let pos := fun k : K => (reports.map (fun r => vid (vx r))).idxOf k
  have hpos : ∀ b r a, reports = b ++ r :: a → pos (vid (vx r)) = b.length := by
    intro b r a h
    simp only [pos]
    rw [h] at hnd ⊢
    rw [List.map_append, List.map_cons] at hnd ⊢
    rw [List.idxOf_append_of_notMem, List.idxOf_cons_self]
    · simp
    · intro hm
      rw [List.nodup_append] at hnd
      exact hnd.2.2 _ hm _ List.mem_cons_self rfl
  have hedge : ∀ u w, Reachable E (· ∈ starts) u → E u w → pos (vid w) < pos (vid u) := by
    intro u w hu he
    obtain ⟨r, hr, e⟩ := hall u hu
    obtain ⟨w', hw', e'⟩ := hc u (vx r) w e.symm he
    obtain ⟨b, a, hba⟩ := List.append_of_mem hr
    have hw := hord b r a hba w' hw'
    rw [← e, hpos b r a hba, ← e']
    simp only [pos]
    rw [hba, List.map_append, List.idxOf_append_of_mem hw]
    have := List.idxOf_lt_length_of_mem hw
    simpa using this
  rintro ⟨v, hv, n, w, hw, e⟩
  have : ∀ m x, WalkN E (· = v) m x → Reachable E (· ∈ starts) x ∧ pos (vid x) + m ≤ pos (vid v) := by
    intro m x hx
    induction hx with
    | start h => subst h; exact ⟨hv, by omega⟩
    | step _ he ih => exact ⟨ih.1.step he, by have := hedge _ _ ih.1 he; omega⟩
  have := (this _ _ hw).2
  rw [e] at this
  omega

/-- **C17, completeness, and C16, termination.** If finitely many vertices are reachable (start vertices
not reachable from each other): without a reachable cycle, the sorting (without limit) comes to its end
without exception; with a reachable cycle, it raises `RuntimeError`. -/
theorem C17_topo_cycle_complete (hg : g.so.Lawful) (hgr : g.so.Grows) (ht : c.isTree = false)
    (hc : Compat (Edge c.next) c.vid) (already : S) (starts : List V) (hn : (starts.map c.vid).Nodup)
    (hi : Independent (TopoEdges g c already starts) c.vid starts)
    (hal : ∀ k, g.so.contains already k = true → (g.so.mustContain g.so.empty k).isSome)
    (hfin : FinitelyReachable (TopoEdges g c already starts) (· ∈ starts) c.vid) :
    ∃ N, ∀ fuel, N ≤ fuel →
      (¬ ReachableCycle (TopoEdges g c already starts) starts c.vid →
        (topoRun g c already starts none fuel).ending = .done) ∧
      (ReachableCycle (TopoEdges g c already starts) starts c.vid →
        (topoRun g c already starts none fuel).ending = .raised .runtimeError) := by
  obtain ⟨N, hN⟩ := topo_ending g c hg hgr ht already starts hn (.inr ⟨hi, hal⟩) hfin
  refine ⟨N, fun fuel hf => ⟨fun hnc => ?_, fun hcyc => ?_⟩⟩
  · rcases hN fuel hf with h | h
    · exact h
    · exact absurd (C17_topo_cycle_sound g c hg hgr ht already starts hn fuel h) hnc
  · rcases hN fuel hf with h | h
    · have h1 := C16_topo_order g c hg hgr ht already starts hn hi none fuel
      exact absurd hcyc (no_cycle_of_order (fun r : TopoReport V S M ML => r.vertex) (Allowed.compat hc) _ h1.2
        (fun b r a hb => (h1.1 b r a hb).2)
        (C16_topo_complete g c hg hgr ht hc already starts hn none fuel h))
    · exact h

/-- Without `already_visited`: a single start vertex, all edges count. **C16 + C17** in one statement. -/
theorem C17_topo_single_start (hg : g.so.Lawful) (hgr : g.so.Grows) (ht : c.isTree = false)
    (hc : Compat (Edge c.next) c.vid) (start : V)
    (hfin : FinitelyReachable (Edge c.next) (· ∈ [start]) c.vid) :
    ∃ N, ∀ fuel, N ≤ fuel →
      let run := topoRun g c g.so.empty [start] none fuel
      (ReachableCycle (Edge c.next) [start] c.vid ∧ run.ending = .raised .runtimeError) ∨
      (¬ ReachableCycle (Edge c.next) [start] c.vid ∧ run.ending = .done ∧
        (run.reports.map (fun r => c.vid r.vertex)).Nodup ∧
        (∀ k, k ∈ run.reports.map (fun r => c.vid r.vertex) ↔
          ∃ v, Reachable (Edge c.next) (· ∈ [start]) v ∧ c.vid v = k) ∧
        ∀ before r after, run.reports = before ++ r :: after → ∀ w, Edge c.next r.vertex w →
          c.vid w ∈ before.map (fun r' => c.vid r'.vertex)) := by
  have hE := topoE_empty g c hg [start]
  unfold topoE at hE
  have hn : ([start].map c.vid).Nodup := by simp
  have hi : Independent (TopoEdges g c g.so.empty [start]) c.vid [start] := by
    intro s hs t ht v _ _
    simp at hs ht; rw [hs, ht]
  obtain ⟨N, hN⟩ := C17_topo_cycle_complete g c hg hgr ht hc g.so.empty [start] hn hi
    (fun k hk => by rw [hg.contains_empty] at hk; simp at hk) (by unfold TopoEdges; rw [hE]; exact hfin)
  refine ⟨N, fun fuel hf => ?_⟩
  intro run
  obtain ⟨h1, h2⟩ := hN fuel hf
  unfold TopoEdges at h1 h2
  rw [hE] at h1 h2
  by_cases hcyc : ReachableCycle (Edge c.next) [start] c.vid
  · exact .inl ⟨hcyc, h2 hcyc⟩
  · right
    have hd := h1 hcyc
    have ho := C16_topo_order g c hg hgr ht g.so.empty [start] hn hi none fuel
    have hco := C16_topo_complete g c hg hgr ht hc g.so.empty [start] hn none fuel hd
    unfold TopoEdges at ho hco
    rw [hE] at ho hco
    refine ⟨hcyc, hd, ho.2, fun k => ⟨fun hk => ?_, ?_⟩, fun b r a hb => (ho.1 b r a hb).2⟩
    · obtain ⟨r, hr, rfl⟩ := List.mem_map.1 hk
      obtain ⟨b, a, hba⟩ := List.append_of_mem hr
      exact ⟨r.vertex, (ho.1 b r a hba).1, rfl⟩
    · rintro ⟨v, hv, rfl⟩
      obtain ⟨r, hr, e⟩ := hco v hv
      exact List.mem_map.2 ⟨r, hr, e⟩

/-- **C17, `cycle_from_start`, partial.** When `RuntimeError` is raised (without limit), `cycle_from_start`
contains as a sub-list, with the same last vertex, a walk of edges from a start vertex whose last vertex
occurs earlier in it; and it *is* this walk if no id occurs twice in it before its last vertex. Missing for
the full claim: `cycle_from_start` can have additional vertices (`C17_counterexample_cycle`). -/
theorem C17_topo_cycle_from_start_partial (hg : g.so.Lawful) (hgr : g.so.Grows) (ht : c.isTree = false)
    (already : S) (starts : List V) (hn : (starts.map c.vid).Nodup) (fuel : Nat)
    (hraise : (topoRun g c already starts none fuel).ending = .raised .runtimeError) :
    let shown := (topoRun g c already starts none fuel).final.cycleFromStart
    ∃ w : List V, ∃ last : V, (w ++ [last]).Sublist shown ∧ shown.getLast? = some last ∧
      (∃ s ∈ starts, w.head? = some s) ∧ WalkList (TopoEdges g c already starts) (w ++ [last]) ∧
      c.vid last ∈ w.map c.vid ∧
      ((shown.dropLast.map c.vid).Nodup → shown = w ++ [last]) := by
  intro shown
  obtain ⟨h, G, inv, hpc⟩ := topo_raised g c hg hgr ht already starts hn fuel hraise
  obtain ⟨t, T, n, hT, hE, hin, hsh⟩ := inv.cyc hpc
  have hw := inv.own.walk n (fun t' T' hT' => by
    rw [hT] at hT'
    simp only [List.cons.injEq] at hT'
    obtain ⟨rfl, rfl⟩ := hT'
    exact hE)
  have hshown : shown = topoReportCycle g c n (topoRun g c already starts none fuel).final.stack
    (topoRun g c already starts none fuel).final.trace := hsh
  unfold topoReportCycle at hshown
  have hsub : (traceOf G).reverse.Sublist ((topoRun g c already starts none fuel).final.stack.reverse.filter
      (fun v => g.so.contains (topoRun g c already starts none fuel).final.trace (c.vid v))) := by
    have h1 : (traceOf G).Sublist ((topoRun g c already starts none fuel).final.stack) := by
      rw [inv.stack]; exact List.Sublist.map _ List.filter_sublist
    have h2 := h1.reverse.filter
      (fun v => g.so.contains (topoRun g c already starts none fuel).final.trace (c.vid v))
    rw [List.filter_eq_self.2] at h2
    · exact h2
    · intro x hx
      rw [List.mem_reverse] at hx
      exact (inv.trace _).2 (List.mem_map_of_mem hx)
  refine ⟨(traceOf G).reverse, n, ?_, ?_, ?_, hw, ?_, ?_⟩
  · rw [hshown]; exact hsub.append (List.Sublist.refl _)
  · rw [hshown]; simp
  · obtain ⟨s0, hs0, hl, -⟩ := inv.own.bottom hT
    exact ⟨s0, hs0, by rw [List.head?_reverse, hT]; exact hl⟩
  · rw [List.map_reverse, List.mem_reverse]; exact hin
  · intro hnd
    rw [hshown, List.dropLast_concat] at hnd
    rw [hshown]
    congr 1
    refine (hsub.eq_of_length_le ?_).symm
    rw [← List.length_map (f := c.vid)]
    have hss : ∀ k ∈ ((topoRun g c already starts none fuel).final.stack.reverse.filter
        (fun v => g.so.contains (topoRun g c already starts none fuel).final.trace (c.vid v))).map c.vid,
        k ∈ ((traceOf G).reverse).map c.vid := by
      intro k hk
      obtain ⟨x, hx, rfl⟩ := List.mem_map.1 hk
      have := (List.mem_filter.1 hx).2
      rw [List.map_reverse, List.mem_reverse]
      exact (inv.trace _).1 this
    have := (List.Nodup.subperm hnd hss).length_le
    simpa using this

/-! ## C56: paths and depths -/

/-- **C56.** With `build_paths`, when a vertex is reported, `paths` shows for it a path of labeled edges of
the graph from a start vertex, of as many edges as `depth` says; and `paths` shows the same path at each later
report. -/
theorem C56_topo_paths (hg : g.so.Lawful) (hgr : g.so.Grows) (ht : c.isTree = false) (hb : c.buildPaths = true)
    {validV : V → Prop} {validL : L → Prop} (already : S)
    (starts : List V) (hn : (starts.map c.vid).Nodup) (hst : Storable g c starts validV validL)
    (limit : Option Int) (fuel : Nat)
    {before after : List (TopoReport V S M ML)} {r : TopoReport V S M ML}
    (hr : (topoRun g c already starts limit fuel).reports = before ++ r :: after) :
    ∃ p : SPath V L, p.first ∈ starts ∧ IsPath c.next p.first p.steps ∧
      p.verts.getLast? = some r.vertex ∧ (p.steps.length : Int) = r.depth ∧
      ∀ r' ∈ r :: after, ShowsPath (pathsView g.mo g.lo c.vid r'.preds r'.labels) r.vertex p := by
  rw [topoRun_eq g c ht] at hr
  obtain ⟨s, hs, -⟩ := run_reaches (topoStep g c) fuel (prepareLimit limit) (topoInit g c already starts)
  obtain ⟨G, -, inv⟩ := topo_path_inv hg hgr ht hb hn hst hs
  have hr' : repsOf (runMachine (topoStep g c) fuel (prepareLimit limit)
      (topoInit g c already starts)).events = before ++ r :: after := hr
  obtain ⟨p, h1, h2⟩ := inv.reps r (by rw [hr']; simp)
  refine ⟨p, h2.1.1, h2.1.2.1, h2.1.2.2.last, h1, fun r' hm => ?_⟩
  rcases List.mem_cons.1 hm with rfl | hm
  · exact h2.1.2.2.shows hst.mo hst.lo
  · have := inv.later
    rw [hr', List.pairwise_append] at this
    have := (List.pairwise_cons.1 this.2.1).1 r' hm p h2
    exact this.1.2.2.shows hst.mo hst.lo

/-! ## C05 and C52 -/

/-- **C05 for topological sorting** (instance of the theorem for all machines; both modes). -/
theorem C05_topo (already : S) (starts : List V) (fuel : Nat) (k : Nat) :
    let unlimited := topoRun g c already starts none fuel
    let limited := topoRun g c already starts (some k) fuel
    (expsOf unlimited.events ≤ k → limited = unlimited) ∧
    (k < expsOf unlimited.events →
      limited.events = beforeExp k unlimited.events ∧ limited.ending = .raised .runtimeError) ∧
    expsOf limited.events ≤ k :=
  let m := if c.isTree then topoTreeStep g c else topoStep g c
  let h := C05_limit_exact m fuel (topoInit g c already starts) k
  ⟨h.1, h.2, C05_reads_at_most m fuel (topoInit g c already starts) k⟩

/-- **C52 for topological sorting.** If the reachable part of the graph is a forest rooted at the start
vertices, then with `is_tree=True` the sorting makes the same reports (vertex, depth, and stored paths) as with
`is_tree=False`, and ends in the same way. -/
theorem C52_topo_tree (hg : g.so.Lawful) (hgr : g.so.Grows) (ht : c.isTree = false) (starts : List V)
    (hf : IsForest c.next c.vid starts) (limit : Option Int) (fuel : Nat) :
    let general := topoRun g c g.so.empty starts limit fuel
    let tree := topoRun g { c with isTree := true } g.so.empty starts limit fuel
    tree.reports.map (fun r => (r.vertex, r.depth, r.preds, r.labels)) =
      general.reports.map (fun r => (r.vertex, r.depth, r.preds, r.labels)) ∧
    tree.ending = general.ending := by
  intro general tree
  have hgen : general = _ := topoRun_eq g c ht g.so.empty starts limit fuel
  have htree : tree = runMachine (topoTreeStep g { c with isTree := true }) fuel (prepareLimit limit)
    (topoInit g { c with isTree := true } g.so.empty starts) := rfl
  rw [hgen, htree]
  obtain ⟨h1, h2⟩ := topo_tree_sim (M := M) (ML := ML) hg hgr ht hf fuel (prepareLimit limit)
  refine ⟨?_, h2.symm⟩
  exact (forall₂_map_eq (repsOf_forall₂ h1) (fun a b h => by rw [h.1, h.2.1, h.2.2.1, h.2.2.2])).symm

/-! ## Non-vacuity, and counterexamples -/

/-- An acyclic graph with a diamond and a shortcut. -/
def exDag : Nat → List (Nat × Char)
  | 0 => [(1, 'a'), (2, 'b'), (4, 'x')]
  | 1 => [(3, 'c')]
  | 2 => [(3, 'd'), (1, 'e')]
  | 3 => [(4, 'f')]
  | 5 => [(6, 'g')]
  | _ => []

def exDagCfg (buildPaths : Bool) : TravCfg Nat Nat Char := ⟨exDag, id, false, buildPaths⟩

theorem exDag_reach {v : Nat} (h : Reachable (Edge exDag) (· ∈ [0]) v) : v ≤ 4 := by
  refine Reachable.induct (P := fun v => v ≤ 4) ?_ ?_ h
  · intro v hv; simp at hv; omega
  · rintro u w - hu ⟨l, hl⟩
    have : u = 0 ∨ u = 1 ∨ u = 2 ∨ u = 3 ∨ u = 4 := by omega
    rcases this with rfl | rfl | rfl | rfl | rfl <;> simp [exDag] at hl <;> omega

example : ((topoRun exHash (exDagCfg true) [] [0] none 100).reports.map (fun r => (r.vertex, r.depth)),
    (topoRun exHash (exDagCfg true) [] [0] none 100).ending) =
    ([(4, 1), (3, 3), (1, 2), (2, 1), (0, 0)], .done) := by decide +kernel

/-- The paths that are shown have the reported depth. -/
example : (topoRun exBits (exDagCfg true) [] [0] none 100).reports.map (fun r => (r.vertex, r.depth,
      ((pathsView exBits.mo exBits.lo id r.preds r.labels).iterLabeledEdgesFromStart 9 r.vertex).1)) =
    [(4, 1, [(0, 4, 'x')]), (3, 3, [(0, 2, 'b'), (2, 1, 'e'), (1, 3, 'c')]),
     (1, 2, [(0, 2, 'b'), (2, 1, 'e')]), (2, 1, [(0, 2, 'b')]), (0, 0, [])] := by decide +kernel

/-- The hypotheses of C16, C17, C56 hold for concrete gears and graphs. -/
example : exHash.so.Grows ∧ exBits.so.Grows ∧ FinitelyReachable (Edge exDag) (· ∈ [0]) (id : Nat → Nat) ∧
    Compat (Edge exDag) (id : Nat → Nat) :=
  ⟨hashSet_grows, bitSeqSet_grows _ (fun _ => by decide) 0,
   ⟨[0, 1, 2, 3, 4], fun v hv => by
      have := exDag_reach hv
      have : v = 0 ∨ v = 1 ∨ v = 2 ∨ v = 3 ∨ v = 4 := by omega
      simpa using this⟩,
   Compat.of_injective _ _ (fun _ _ h => h)⟩

example : Storable exBits (exDagCfg true) [0] (fun x => x ≠ 255) (fun _ => True) where
  mo := arrayMap_lawful _ (fun _ => by decide) 0
  lo := listMap_lawful _ rfl (fun _ => by decide) 0
  verts v hv := by have := exDag_reach hv; omega
  labs _ _ _ _ := trivial
  distinct s hs t ht _ := by simp at hs ht; omega

/-- Two start vertices that are not reachable from each other (`Independent`): 0 and 5. -/
example : Independent (Edge exDag) (id : Nat → Nat) [0, 5] := by
  have h5 : ∀ v, Reachable (Edge exDag) (· = 5) v → v = 5 ∨ v = 6 := by
    intro v hv
    refine Reachable.induct (P := fun v => v = 5 ∨ v = 6) (fun v hv => .inl hv) ?_ hv
    rintro u w - (rfl | rfl) ⟨l, hl⟩ <;> simp [exDag] at hl
    exact .inr hl.1
  intro s hs t ht v hv e
  simp only [id_eq] at e ⊢
  subst e
  simp only [List.mem_cons, List.not_mem_nil, or_false] at hs ht
  rcases hs with rfl | rfl
  · have := exDag_reach (reach_of_bottom (starts := [0]) (by simp) hv)
    omega
  · have := h5 v hv
    omega

example : ((topoRun exHash (exDagCfg false) [] [0, 5] none 100).reports.map (fun r => r.vertex),
    (topoRun exHash (exDagCfg false) [] [0, 5] none 100).ending) = ([6, 5, 4, 3, 1, 2, 0], .done) := by
  decide +kernel

/-- A graph with a cycle `1 → 3 → 1`, reported as the walk `0 → 1 → 3 → 1`. -/
def exCyc : Nat → List (Nat × Char)
  | 0 => [(2, 'a'), (1, 'b')]
  | 1 => [(3, 'c')]
  | 3 => [(1, 'd')]
  | _ => []

example : (topoRun exHash ⟨exCyc, id, false, false⟩ [] [0] none 100).ending = .raised .runtimeError ∧
    (topoRun exHash ⟨exCyc, id, false, false⟩ [] [0] none 100).final.cycleFromStart = [0, 1, 3, 1] := by
  decide +kernel

/-- With limit 2, the edges of the third vertex are not read. -/
example : ((topoRun exHash (exDagCfg false) [] [0] (some 2) 100).reports.map (fun r => r.vertex),
    (topoRun exHash (exDagCfg false) [] [0] (some 2) 100).ending) = ([4], .raised .runtimeError) := by
  decide +kernel

/-- The two modes on a tree. -/
example : (topoRun exHash ⟨exTree, id, true, false⟩ [] [0] none 100).reports.map (fun r => (r.vertex, r.depth)) =
    [(5, 2), (2, 1), (4, 2), (3, 2), (1, 1), (0, 0)] := by decide +kernel

/-- **C16 does not hold for all start vertices.** With start vertices `0, 1` and the edge `1 → 0`, vertex `1`
is reported before vertex `0`. -/
theorem C16_counterexample_starts :
    let next : Nat → List (Nat × Char) := fun v => if v = 1 then [(0, 'a')] else []
    let run := topoRun exHash ⟨next, id, false, false⟩ [] [0, 1] none 50
    run.ending = .done ∧ run.reports.map (fun r => r.vertex) = [1, 0] := by decide +kernel

/-- **C16 does not hold for a start vertex that is given twice:** it is reported twice. -/
theorem C16_counterexample_duplicate :
    let run := topoRun exHash (exDagCfg false) [] [5, 5] none 50
    run.ending = .done ∧ run.reports.map (fun r => r.vertex) = [6, 5, 5] := by decide +kernel

/-- **C17, completeness, does not hold for all start vertices.** With start vertices `0, 1` and the edges
`1 → 0` and `0 → 1`, the cycle is not detected. -/
theorem C17_counterexample_starts :
    let next : Nat → List (Nat × Char) := fun v => if v = 1 then [(0, 'a')] else if v = 0 then [(1, 'b')] else []
    let run := topoRun exHash ⟨next, id, false, false⟩ [] [0, 1] none 50
    ReachableCycle (Edge next) [0, 1] (id : Nat → Nat) ∧
    run.ending = .done ∧ run.reports.map (fun r => r.vertex) = [1, 0] := by
  refine ⟨⟨0, .start (by simp), 1, 0, ?_, rfl⟩, by decide +kernel⟩
  exact .step (u := 1) (.step (u := 0) (.start rfl) ⟨'b', by simp⟩) ⟨'a', by simp⟩

/-- **C16/C17 with a gear for integer ids do not hold for all start vertices:** the sorting stops with an
`AssertionError`, for an acyclic graph. (Start vertices `200` and `1`, edge `1 → 200`: id `200` is visited, but beyond the
end of the sequence that represents the trace.) -/
theorem C17_counterexample_assertion :
    let next : Nat → List (Nat × Char) := fun v => if v = 1 then [(200, 'a')] else []
    (topoRun exBits ⟨next, id, false, false⟩ [] [200, 1] none 50).ending = .raised .assertionError := by
  decide +kernel

/-- **The third part of C17 does not hold.** The graph `0 → 1, 2; 2 → 3; 3 → 1; 1 → 0`, start vertex `0`:
`cycle_from_start` is `[0, 1, 2, 3, 1, 0]`, but there is no edge from `1` to `2`. -/
theorem C17_counterexample_cycle :
    let next : Nat → List (Nat × Char) := fun v =>
      if v = 0 then [(1, 'a'), (2, 'b')] else if v = 2 then [(3, 'c')] else if v = 3 then [(1, 'd')]
      else if v = 1 then [(0, 'e')] else []
    let run := topoRun exHash ⟨next, id, false, false⟩ [] [0] none 50
    run.ending = .raised .runtimeError ∧ run.final.cycleFromStart = [0, 1, 2, 3, 1, 0] ∧
    ¬ WalkList (Edge next) run.final.cycleFromStart := by
  intro next run
  have h : run.ending = .raised .runtimeError ∧ run.final.cycleFromStart = [0, 1, 2, 3, 1, 0] := by
    decide +kernel
  refine ⟨h.1, h.2, ?_⟩
  rw [h.2]
  rintro ⟨-, ⟨l, hl⟩, -⟩
  simp [next] at hl

end NoGraphs
