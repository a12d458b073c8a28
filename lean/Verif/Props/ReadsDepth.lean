import Verif.Proofs.Topological
import Verif.Props.Reads

/-! # Reading edges on demand: C79 for depth-first search and topological sorting -/

set_option linter.unusedSectionVars false

namespace NoGraphs

open Spec

variable {V K L S M ML : Type} [DecidableEq V] [DecidableEq K]

/-- The neighbors of a vertex. -/
def nbrs (next : V → List (V × L)) (v : V) : List V := (next v).map (·.1)

/-- A start vertex, or a neighbor of a vertex whose edges have been read so far. -/
def Linked (starts : List V) (ns : V → List V) (t : List (Act V)) (v : V) : Prop :=
  v ∈ starts ∨ ∃ u, Act.read u ∈ t ∧ v ∈ ns u

theorem Linked.mono {starts : List V} {ns : V → List V} {t : List (Act V)} {v : V} (h : Linked starts ns t v)
    (t' : List (Act V)) : Linked starts ns (t ++ t') v :=
  h.imp id (fun ⟨u, hu, hv⟩ => ⟨u, List.mem_append_left _ hu, hv⟩)

/-- What holds for the stack of vertices to be visited: `rs` says that entered successors are reported. -/
structure DepthCore (starts0 : List V) (ns : V → List V) (rs : Prop) (t : List (Act V)) (starts : List V) (cur : Option V)
    (toVisit : List V) : Prop where
  demand : rs → OnDemand starts0 t
  connected : Connected starts0 ns t
  starts : ∀ v ∈ starts, v ∈ starts0
  cur : ∀ v, cur = some v → v ∈ starts0
  visit : ∀ v ∈ toVisit, Linked starts0 ns t v

section
variable {starts0 : List V} {ns : V → List V} {rs : Prop} {t : List (Act V)} {starts : List V} {cur : Option V}
  {toVisit : List V}

theorem DepthCore.report (h : DepthCore starts0 ns rs t starts cur toVisit) (v : V) :
    DepthCore starts0 ns rs (t ++ [.reported v]) starts cur toVisit :=
  ⟨fun hr => (h.demand hr).report v, h.connected.report v, h.starts, h.cur, fun v hv => (h.visit v hv).mono _⟩

theorem DepthCore.read (h : DepthCore starts0 ns rs t starts cur toVisit) {v : V} (h1 : Linked starts0 ns t v)
    (h2 : rs → Known starts0 t v) : DepthCore starts0 ns rs (t ++ [.read v]) starts cur toVisit :=
  ⟨fun hr => (h.demand hr).read (h2 hr), h.connected.read h1, h.starts, h.cur, fun v hv => (h.visit v hv).mono _⟩

theorem DepthCore.pop {v : V} (h : DepthCore starts0 ns rs t starts cur (v :: toVisit)) :
    DepthCore starts0 ns rs t starts cur toVisit :=
  ⟨h.demand, h.connected, h.starts, h.cur, fun u hu => h.visit u (List.mem_cons_of_mem _ hu)⟩

theorem DepthCore.push {v : V} (h : DepthCore starts0 ns rs t starts cur toVisit) (hv : Linked starts0 ns t v) :
    DepthCore starts0 ns rs t starts cur (v :: toVisit) := by
  refine ⟨h.demand, h.connected, h.starts, h.cur, fun u hu => ?_⟩
  rcases List.mem_cons.1 hu with rfl | hu
  · exact hv
  · exact h.visit u hu

theorem DepthCore.next {v : V} (h : DepthCore starts0 ns rs t (v :: starts) cur toVisit) :
    DepthCore starts0 ns rs t starts (some v) (v :: toVisit) := by
  have hv : v ∈ starts0 := h.starts v List.mem_cons_self
  have h' : DepthCore starts0 ns rs t starts (some v) toVisit :=
    ⟨h.demand, h.connected, fun u hu => h.starts u (List.mem_cons_of_mem _ hu), by rintro u ⟨⟩; exact hv, h.visit⟩
  exact h'.push (.inl hv)

end

/-! ## Depth-first search without trace -/

section
variable {g : TravGear V K L S M ML} {c : DfsCfg V K L}

/-- What holds at the program counter. -/
def DfsReadPcOk (c : DfsCfg V K L) (starts0 : List V) (t : List (Act V)) : DfsPc V L → Prop
  | .entered v _ => Linked starts0 (nbrs c.next) t v ∧ (c.reportSucc = true → Known starts0 t v)
  | .edges v es => ∀ e ∈ es, Act.read v ∈ t ∧ e.1 ∈ nbrs c.next v
  | _ => True

/-- Invariant of the actions and the state. -/
def DfsReadInv (c : DfsCfg V K L) (starts0 : List V) (t : List (Act V)) (s : DfsState V L S M ML) : Prop :=
  DepthCore starts0 (nbrs c.next) (c.reportSucc = true) t s.starts s.cur s.toVisit ∧ DfsReadPcOk c starts0 t s.pc

/-- The result of a step keeps the invariant. -/
def DfsReadPost (c : DfsCfg V K L) (starts0 : List V) (t : List (Act V)) (s : DfsState V L S M ML) :
    Step (DfsState V L S M ML) (DfsReport V S M ML) → Prop
  | .stop _ => True
  | .fail _ => True
  | .tau s' => DfsReadInv c starts0 t s'
  | .emit r s' => DfsReadInv c starts0 (t ++ [.reported r.vertex]) s'
  | .expand s' => ∃ v, dfsWho c s = some v ∧ DfsReadInv c starts0 (t ++ [.read v]) s'

theorem dfsEnter_read {starts0 : List V} {t : List (Act V)} {s : DfsState V L S M ML} {v : V}
    (h : DepthCore starts0 (nbrs c.next) (c.reportSucc = true) t s.starts s.cur s.toVisit)
    (hv : Linked starts0 (nbrs c.next) t v) (s0 : DfsState V L S M ML) :
    DfsReadPost c starts0 t s0 (dfsEnter c s v) := by
  unfold dfsEnter
  simp only
  split
  · rename_i hc
    have hs : v ∈ starts0 := h.cur v hc.symm
    split
    · exact ⟨h.report v, hv.mono _, fun _ => .last⟩
    · exact ⟨h, hv, fun _ => .inl hs⟩
  · split
    · exact ⟨h.report v, hv.mono _, fun _ => .last⟩
    · rename_i hr
      exact ⟨h, hv, fun hr' => absurd hr' hr⟩

theorem dfsPop_same (s : DfsState V L S M ML) :
    (dfsPop c s).starts = s.starts ∧ (dfsPop c s).cur = s.cur ∧ (dfsPop c s).toVisit = s.toVisit := by
  unfold dfsPop; split <;> exact ⟨rfl, rfl, rfl⟩

theorem dfs_read_step {starts0 : List V} {t : List (Act V)} {s : DfsState V L S M ML} (h : DfsReadInv c starts0 t s) :
    DfsReadPost c starts0 t s (dfsStep g c s) := by
  obtain ⟨h, hp⟩ := h
  unfold dfsStep
  rcases hpc : s.pc with _ | _ | ⟨v, rep⟩ | ⟨v, es⟩ <;> simp only [hpc] at hp ⊢
  · rcases hx : s.starts with _ | ⟨v, rest⟩
    · trivial
    · rw [hx] at h
      exact ⟨h.next, trivial⟩
  · obtain ⟨e1, e2, e3⟩ := dfsPop_same (c := c) s
    rw [← e1, ← e2, ← e3] at h
    rcases hx : (dfsPop c s).toVisit with _ | ⟨v, rest⟩
    · rw [hx] at h
      exact ⟨h, trivial⟩
    · rw [hx] at h
      have hv := h.visit v List.mem_cons_self
      simp only
      split
      · exact dfsEnter_read (s := { dfsPop c s with toVisit := rest }) h.pop hv _
      · split
        · exact ⟨h.pop, by simp only [dfsPop]; split <;> simp only [hpc] <;> trivial⟩
        · exact dfsEnter_read (s := { dfsPop c s with toVisit := rest, visited := _ }) h.pop hv _
  · split
    · exact ⟨h, trivial⟩
    · rename_i hs
      refine ⟨v, by simp only [dfsWho, hpc, if_neg hs], h.read hp.1 hp.2, fun e he => ⟨by simp, List.mem_map_of_mem he⟩⟩
  · rcases es with _ | ⟨e, es⟩
    · exact ⟨h, trivial⟩
    · have he := hp e List.mem_cons_self
      have hes : DfsReadPcOk c starts0 t (.edges v es) := fun e' he' => hp e' (List.mem_cons_of_mem _ he')
      simp only
      split
      · exact ⟨h, hes⟩
      · exact ⟨h.push (.inr ⟨v, he.1, he.2⟩), hes⟩

theorem dfs_read_all (already : S) (starts : List V) (limit : Option Int) (fuel : Nat) :
    (c.reportSucc = true → OnDemand starts (dfsActs g c already starts limit fuel)) ∧
    Connected starts (nbrs c.next) (dfsActs g c already starts limit fuel) := by
  obtain ⟨s, h⟩ := acts_inv (m := dfsStep g c) (who := dfsWho c) (vert := fun r : DfsReport V S M ML => r.vertex)
    (DfsReadInv c starts)
    (fun t s s' h hm => by have := dfs_read_step (g := g) h; rw [hm] at this; exact this)
    (fun t s r s' h hm => by have := dfs_read_step (g := g) h; rw [hm] at this; exact this)
    (fun t s s' h hm => by have := dfs_read_step (g := g) h; rw [hm] at this; exact this)
    fuel (prepareLimit limit) [] (dfsInit g c already starts)
    ⟨⟨fun _ => .nil, .nil, fun _ h => h, by simp [dfsInit], by simp [dfsInit]⟩, trivial⟩
  exact ⟨h.1.demand, h.1.connected⟩

/-- **C79 for depth-first search without trace, on demand.** If the event `ENTERING_SUCCESSOR` is reported (as it is by default),
the traversal reads the edges of a vertex only if this is a start vertex or has been reported before. -/
theorem C79_dfs_on_demand (hr : c.reportSucc = true) (already : S) (starts : List V) (limit : Option Int) (fuel : Nat) :
    OnDemand starts (dfsActs g c already starts limit fuel) := (dfs_read_all already starts limit fuel).1 hr

/-- **C79 for depth-first search without trace, connected.** Whatever is reported, the edges of a vertex are only read if it is a
start vertex or a neighbor of a vertex whose edges have been read before. -/
theorem C79_dfs_connected (already : S) (starts : List V) (limit : Option Int) (fuel : Nat) :
    Connected starts (fun v => (c.next v).map (·.1)) (dfsActs g c already starts limit fuel) :=
  (dfs_read_all already starts limit fuel).2

/-- **C79 for depth-first search without trace, locality.** -/
theorem C79_dfs_local (next' : V → List (V × L)) (already : S) (starts : List V) (limit : Option Int) (fuel : Nat)
    (h : ∀ v, Act.read v ∈ dfsActs g c already starts limit fuel → c.next v = next' v) :
    (dfsRun g c already starts limit fuel).events = (dfsRun g { c with next := next' } already starts limit fuel).events ∧
    (dfsRun g c already starts limit fuel).ending = (dfsRun g { c with next := next' } already starts limit fuel).ending :=
  run_local (vert := fun r : DfsReport V S M ML => r.vertex) (dfs_readsOne (g := g) (c := c)) c.next next' fuel
    (prepareLimit limit) (dfsInit g c already starts) h

theorem C79_dfs_actions (already : S) (starts : List V) (limit : Option Int) (fuel : Nat) :
    reportedOf (dfsActs g c already starts limit fuel) =
      (dfsRun g c already starts limit fuel).reports.map (fun r => r.vertex) := acts_reported _ _ _

end

/-! ## Depth-first search with trace -/

section
variable {g : TravGear V K L S M ML} {c : TraceCfg V K L}

/-- What holds at the program counter. -/
def TrReadPcOk (c : TraceCfg V K L) (starts0 : List V) (t : List (Act V)) : TracePc V L → Prop
  | .entered v _ => Linked starts0 (nbrs c.next) t v ∧ (c.report .enteringSuccessor = true → Known starts0 t v)
  | .edges v es => ∀ e ∈ es, Act.read v ∈ t ∧ e.1 ∈ nbrs c.next v
  | _ => True

/-- Invariant of the actions and the state. -/
def TrReadInv (c : TraceCfg V K L) (starts0 : List V) (t : List (Act V)) (s : TraceState V K L S M ML) : Prop :=
  DepthCore starts0 (nbrs c.next) (c.report .enteringSuccessor = true) t s.starts s.cur s.toVisit ∧ TrReadPcOk c starts0 t s.pc

/-- The result of a step keeps the invariant. -/
def TrReadPost (c : TraceCfg V K L) (starts0 : List V) (t : List (Act V)) (s : TraceState V K L S M ML) :
    Step (TraceState V K L S M ML) (TraceReport V K L S M ML) → Prop
  | .stop _ => True
  | .fail _ => True
  | .tau s' => TrReadInv c starts0 t s'
  | .emit r s' => TrReadInv c starts0 (t ++ [.reported r.vertex]) s'
  | .expand s' => ∃ v, trWho c s = some v ∧ TrReadInv c starts0 (t ++ [.read v]) s'

variable {starts0 : List V} {t : List (Act V)}

/-- The part of the invariant without program counter. -/
abbrev TrReadCore (c : TraceCfg V K L) (starts0 : List V) (t : List (Act V)) (s : TraceState V K L S M ML) : Prop :=
  DepthCore starts0 (nbrs c.next) (c.report .enteringSuccessor = true) t s.starts s.cur s.toVisit

theorem trEnter_read {s : TraceState V K L S M ML} {v : V} (h : TrReadCore c starts0 t s)
    (hv : Linked starts0 (nbrs c.next) t v) (s0 : TraceState V K L S M ML) :
    TrReadPost c starts0 t s0 (trEnter g c s v) := by
  unfold trEnter
  split
  · trivial
  · simp only
    by_cases hc : some v = s.cur
    · have hs : v ∈ starts0 := h.cur v hc.symm
      simp only [if_pos hc]
      split
      · exact ⟨h.report v, hv.mono _, fun _ => .last⟩
      · exact ⟨h, hv, fun _ => .inl hs⟩
    · simp only [if_neg hc]
      split
      · exact ⟨h.report v, hv.mono _, fun _ => .last⟩
      · rename_i hr
        exact ⟨h, hv, fun hr' => absurd hr' hr⟩

theorem trShowEdge_read {s : TraceState V K L S M ML} (v : V) (event : DfsEvent) (h : TrReadCore c starts0 t s)
    (s0 : TraceState V K L S M ML) : TrReadPost c starts0 t s0 (trShowEdge c s v event) := by
  unfold trShowEdge
  split
  · split
    · trivial
    · exact ⟨h.report v, trivial⟩
  · exact ⟨h, trivial⟩

theorem trRevisit_read {s : TraceState V K L S M ML} (v : V) (event : DfsEvent) (h : TrReadCore c starts0 t s)
    (s0 : TraceState V K L S M ML) : TrReadPost c starts0 t s0 (trRevisit g c s v event) := by
  unfold trRevisit
  split
  · exact trShowEdge_read _ _ h _
  · split
    · simp only
      split
      · trivial
      · split
        · split
          · trivial
          · exact trShowEdge_read _ _ h _
        · exact trShowEdge_read _ _ h _
    · exact ⟨h, trivial⟩

theorem trTry_read {s : TraceState V K L S M ML} {v : V} (h : TrReadCore c starts0 t s)
    (hv : Linked starts0 (nbrs c.next) t v) (s0 : TraceState V K L S M ML) :
    TrReadPost c starts0 t s0 (trTry g c s v) := by
  unfold trTry
  split
  · exact trEnter_read h hv _
  · split
    · exact trEnter_read h hv _
    · simp only
      split
      · split
        · split
          · exact ⟨h.report v, trivial⟩
          · exact ⟨h, trivial⟩
        · exact trRevisit_read _ _ h _
      · exact trEnter_read (by exact h) hv _
    · simp only
      split
      · exact trRevisit_read _ _ h _
      · exact trEnter_read (by exact h) hv _

theorem trPop_read {s : TraceState V K L S M ML} (h : TrReadCore c starts0 t s) (s0 : TraceState V K L S M ML) :
    TrReadPost c starts0 t s0 (trPop g c s) := by
  unfold trPop
  unfold TrReadCore at h
  rcases hx : s.toVisit with _ | ⟨v, tv⟩
  · trivial
  · rw [hx] at h
    have hv := h.visit v List.mem_cons_self
    simp only
    split
    · split
      · trivial
      · exact trTry_read (s := { s with toVisit := tv, lab := _, toLabels := _ }) h.pop hv _
    · exact trTry_read (s := { s with toVisit := tv }) h.pop hv _

theorem tr_read_step {s : TraceState V K L S M ML} (h : TrReadInv c starts0 t s) :
    TrReadPost c starts0 t s (trStep g c s) := by
  obtain ⟨h, hp⟩ := h
  unfold trStep
  rcases hpc : s.pc with _ | nl | ⟨v, last, nl⟩ | _ | _ | ⟨v, rep⟩ | ⟨v, es⟩ <;> simp only [hpc] at hp ⊢
  · rcases hx : s.starts with _ | ⟨v, rest⟩
    · trivial
    · rw [hx] at h
      exact ⟨h.next, trivial⟩
  · rcases hx : s.markers with _ | ⟨_ | _, ms⟩
    · exact ⟨h, trivial⟩
    · exact trPop_read (s := { s with markers := ms }) h _
    · simp only
      rcases hy : s.trace with _ | ⟨v, rest⟩
      · trivial
      · simp only
        split
        · split
          · exact ⟨h.report v, trivial⟩
          · exact ⟨h, trivial⟩
        · split
          · exact ⟨h.report v, trivial⟩
          · exact ⟨h, trivial⟩
  · split
    · trivial
    · generalize (if c.computeOnTrace = true then g.so.drop s.onTrace (c.vid _) else Except.ok s.onTrace) = o
      rcases o with _ | _
      · trivial
      · exact ⟨h, trivial⟩
  · exact ⟨h, trivial⟩
  · exact ⟨h, trivial⟩
  · split
    · exact ⟨h, trivial⟩
    · rename_i hs
      refine ⟨v, by simp only [trWho, hpc, if_neg hs], h.read hp.1 hp.2, fun e he => ⟨by simp, List.mem_map_of_mem he⟩⟩
  · rcases es with _ | ⟨e, es⟩
    · exact ⟨h, trivial⟩
    · have he := hp e List.mem_cons_self
      exact ⟨h.push (.inr ⟨v, he.1, he.2⟩), fun e' he' => hp e' (List.mem_cons_of_mem _ he')⟩

theorem tr_read_all (already : S) (starts : List V) (limit : Option Int) (fuel : Nat) :
    (c.report .enteringSuccessor = true → OnDemand starts (trActs g c already starts limit fuel)) ∧
    Connected starts (nbrs c.next) (trActs g c already starts limit fuel) := by
  obtain ⟨s, h⟩ := acts_inv (m := trStep g c) (who := trWho c) (vert := fun r : TraceReport V K L S M ML => r.vertex)
    (TrReadInv c starts)
    (fun t s s' h hm => by have := tr_read_step (g := g) h; rw [hm] at this; exact this)
    (fun t s r s' h hm => by have := tr_read_step (g := g) h; rw [hm] at this; exact this)
    (fun t s s' h hm => by have := tr_read_step (g := g) h; rw [hm] at this; exact this)
    fuel (prepareLimit limit) [] (trInit g already starts)
    ⟨⟨fun _ => .nil, .nil, fun _ h => h, by simp [trInit], by simp [trInit]⟩, trivial⟩
  exact ⟨h.1.demand, h.1.connected⟩

/-- **C79 for depth-first search with trace, on demand**: in all modes and for all events to be reported that include
`ENTERING_SUCCESSOR`. -/
theorem C79_dfs_trace_on_demand (hr : c.report .enteringSuccessor = true) (already : S) (starts : List V)
    (limit : Option Int) (fuel : Nat) :
    OnDemand starts (trActs g c already starts limit fuel) := (tr_read_all already starts limit fuel).1 hr

/-- **C79 for depth-first search with trace, connected.** -/
theorem C79_dfs_trace_connected (already : S) (starts : List V) (limit : Option Int) (fuel : Nat) :
    Connected starts (fun v => (c.next v).map (·.1)) (trActs g c already starts limit fuel) :=
  (tr_read_all already starts limit fuel).2

theorem tr_readsOne : ReadsOne (fun next => trStep g { c with next := next }) (trWho c) := by
  constructor
  · intro f f' s h
    unfold trWho at h
    unfold trStep
    rcases hpc : s.pc with _ | nl | ⟨v, last, nl⟩ | _ | _ | ⟨v, rep⟩ | ⟨v, es⟩
    · rfl
    · rfl
    · rfl
    · rfl
    · rfl
    · simp only [hpc] at h ⊢
      split
      · rfl
      · rename_i hc
        rw [if_neg hc] at h
        simp only [h v rfl]
    · rcases es with _ | ⟨e, es⟩ <;> rfl
  · intro f s v h
    unfold trWho at h
    unfold trStep
    rcases hpc : s.pc with _ | nl | ⟨u, last, nl⟩ | _ | _ | ⟨u, rep⟩ | ⟨u, es⟩ <;> simp only [hpc] at h ⊢ <;>
      try (simp at h; done)
    split at h
    · simp at h
    · rename_i hc
      rw [if_neg hc]
      exact ⟨_, rfl⟩

/-- **C79 for depth-first search with trace, locality.** -/
theorem C79_dfs_trace_local (next' : V → List (V × L)) (already : S) (starts : List V) (limit : Option Int) (fuel : Nat)
    (h : ∀ v, Act.read v ∈ trActs g c already starts limit fuel → c.next v = next' v) :
    (trRun g c already starts limit fuel).events = (trRun g { c with next := next' } already starts limit fuel).events ∧
    (trRun g c already starts limit fuel).ending = (trRun g { c with next := next' } already starts limit fuel).ending :=
  run_local (vert := fun r : TraceReport V K L S M ML => r.vertex) (tr_readsOne (g := g) (c := c)) c.next next' fuel
    (prepareLimit limit) (trInit g already starts) h

end

/-! ## Topological sorting -/

section
variable {g : TravGear V K L S M ML} {c : TravCfg V K L}

/-- What holds at the program counter. -/
def TopoReadPcOk (c : TravCfg V K L) (t : List (Act V)) : TopoPc V L → Prop
  | .edges v es => ∀ e ∈ es, Act.read v ∈ t ∧ e.1 ∈ nbrs c.next v
  | _ => True

/-- Invariant of the actions and the state. -/
structure TopoReadInv (g : TravGear V K L S M ML) (c : TravCfg V K L) (starts0 : List V) (t : List (Act V))
    (s : TopoState V L S M ML) : Prop where
  connected : Connected starts0 (nbrs c.next) t
  first : ReadFirst c.vid t
  stack : ∀ v ∈ s.stack, Linked starts0 (nbrs c.next) t v
  pc : TopoReadPcOk c t s.pc
  trace : c.isTree = false → ∀ k, g.so.contains s.trace k = true → ∃ u, Act.read u ∈ t ∧ c.vid u = k
  leave : c.isTree = true → ∀ p ∈ s.stack.zip s.leave, p.2 = true → Act.read p.1 ∈ t

theorem read_mono {t t' : List (Act V)} {v : V} (h : Act.read v ∈ t) : Act.read v ∈ t ++ t' := List.mem_append_left _ h

theorem topo_read_tau (hg : g.so.Lawful) {starts0 : List V} {t : List (Act V)} {s s' : TopoState V L S M ML}
    (ht : c.isTree = false) (h : TopoReadInv g c starts0 t s) (hm : topoStep g c s = .tau s') :
    TopoReadInv g c starts0 t s' := by
  have hp := h.pc
  unfold topoStep at hm
  rcases hpc : s.pc with _ | ⟨v, _ | ⟨e, es⟩⟩ | _ <;> simp only [hpc] at hm hp
  · rcases hx : s.stack with _ | ⟨v, rest⟩ <;> simp only [hx, reduceCtorEq] at hm
    split at hm
    · simp at hm
    · split at hm
      · split at hm <;> cases hm
        refine ⟨h.connected, h.first, fun u hu => h.stack u (by rw [hx]; exact List.mem_cons_of_mem _ hu), ?_, h.trace,
          fun ht' => by simp [ht] at ht'⟩
        simp only [hpc]; trivial
      · simp at hm
  · cases hm
    exact ⟨h.connected, h.first, h.stack, trivial, h.trace, fun ht' => by simp [ht] at ht'⟩
  · have he := hp e List.mem_cons_self
    have hes : TopoReadPcOk c t (.edges v es) := fun e' he' => hp e' (List.mem_cons_of_mem _ he')
    split at hm
    · split at hm <;> cases hm
      · exact ⟨h.connected, h.first, h.stack, trivial, h.trace, fun ht' => by simp [ht] at ht'⟩
      · exact ⟨h.connected, h.first, h.stack, hes, h.trace, fun ht' => by simp [ht] at ht'⟩
    · cases hm
      refine ⟨h.connected, h.first, fun u hu => ?_, hes, h.trace, fun ht' => by simp [ht] at ht'⟩
      rcases List.mem_cons.1 hu with rfl | hu
      · exact .inr ⟨v, he.1, he.2⟩
      · exact h.stack u hu
  · simp at hm

theorem topo_read_emit (hg : g.so.Lawful) {starts0 : List V} {t : List (Act V)} {s s' : TopoState V L S M ML}
    {r : TopoReport V S M ML} (ht : c.isTree = false) (h : TopoReadInv g c starts0 t s)
    (hm : topoStep g c s = .emit r s') : TopoReadInv g c starts0 (t ++ [.reported r.vertex]) s' := by
  unfold topoStep at hm
  rcases hpc : s.pc with _ | ⟨v, _ | ⟨e, es⟩⟩ | _ <;> simp only [hpc] at hm
  · rcases hx : s.stack with _ | ⟨v, rest⟩ <;> simp only [hx, reduceCtorEq] at hm
    split at hm
    · rename_i hc
      cases hm
      obtain ⟨u, hu, e⟩ := h.trace ht _ hc
      refine ⟨h.connected.report _, h.first.report ⟨u, hu, e⟩,
        fun u hu => (h.stack u (by rw [hx]; exact List.mem_cons_of_mem _ hu)).mono _, by simp only [hpc]; trivial,
        fun _ k hk => ?_, fun ht' => by simp [ht] at ht'⟩
      rw [hg.contains_discard _ _ hc] at hk
      obtain ⟨u, hu, e⟩ := h.trace ht k (by simp at hk; exact hk.2)
      exact ⟨u, read_mono hu, e⟩
    · split at hm
      · split at hm <;> cases hm
      · simp at hm
  · simp at hm
  · split at hm
    · split at hm <;> cases hm
    · simp at hm
  · simp at hm

theorem topo_read_expand (hg : g.so.Lawful) {starts0 : List V} {t : List (Act V)} {s s' : TopoState V L S M ML}
    (ht : c.isTree = false) (h : TopoReadInv g c starts0 t s) (hm : topoStep g c s = .expand s') :
    ∃ v, topoWho g c s = some v ∧ TopoReadInv g c starts0 (t ++ [.read v]) s' := by
  unfold topoStep at hm
  rcases hpc : s.pc with _ | ⟨v, _ | ⟨e, es⟩⟩ | _ <;> simp only [hpc] at hm
  · rcases hx : s.stack with _ | ⟨v, rest⟩ <;> simp only [hx, reduceCtorEq] at hm
    have hst : ∀ u ∈ v :: rest, Linked starts0 (nbrs c.next) (t ++ [.read v]) u := fun u hu =>
      (h.stack u (by rw [hx]; exact hu)).mono _
    have hv : Linked starts0 (nbrs c.next) t v := h.stack v (by rw [hx]; exact List.mem_cons_self)
    have hes : TopoReadPcOk c (t ++ [.read v]) (.edges v (c.next v)) := fun e he => ⟨by simp, List.mem_map_of_mem he⟩
    have htr : ∀ k, g.so.contains (g.so.add s.trace (c.vid v)) k = true →
        ∃ u, Act.read u ∈ t ++ [.read v] ∧ c.vid u = k := by
      intro k hk
      rw [hg.contains_add, Bool.or_eq_true, decide_eq_true_eq] at hk
      rcases hk with rfl | hk
      · exact ⟨v, by simp, rfl⟩
      · obtain ⟨u, hu, e⟩ := h.trace ht k hk
        exact ⟨u, read_mono hu, e⟩
    split at hm
    · simp at hm
    · rename_i hc
      split at hm
      · rename_i hd
        split at hm
        · simp at hm
        · rename_i hch
          cases hm
          refine ⟨v, by simp only [topoWho, hpc, hx, if_neg hc, if_pos hd, if_neg hch], h.connected.read hv, h.first.read v,
            hst, hes, fun _ => htr, fun ht' => by simp [ht] at ht'⟩
      · rename_i hd
        cases hm
        refine ⟨v, by simp only [topoWho, hpc, hx, if_neg hc, if_neg hd], h.connected.read hv, h.first.read v,
          hst, hes, fun _ => htr, fun ht' => by simp [ht] at ht'⟩
  · simp at hm
  · split at hm
    · split at hm <;> cases hm
    · simp at hm
  · simp at hm

theorem topoTree_read_tau {starts0 : List V} {t : List (Act V)} {s s' : TopoState V L S M ML}
    (ht : c.isTree = true) (h : TopoReadInv g c starts0 t s) (hm : topoTreeStep g c s = .tau s') :
    TopoReadInv g c starts0 t s' := by
  have hp := h.pc
  unfold topoTreeStep at hm
  rcases hpc : s.pc with _ | ⟨v, _ | ⟨e, es⟩⟩ | _ <;> simp only [hpc] at hm hp
  · rcases hx : s.stack with _ | ⟨v, rest⟩ <;> rcases hy : s.leave with _ | ⟨_ | _, ls⟩ <;>
      simp only [hx, hy, reduceCtorEq] at hm
  · cases hm
    exact ⟨h.connected, h.first, h.stack, trivial, h.trace, h.leave⟩
  · have he := hp e List.mem_cons_self
    cases hm
    refine ⟨h.connected, h.first, fun u hu => ?_, fun e' he' => hp e' (List.mem_cons_of_mem _ he'), h.trace,
      fun _ p hpp hpt => ?_⟩
    · rcases List.mem_cons.1 hu with rfl | hu
      · exact .inr ⟨v, he.1, he.2⟩
      · exact h.stack u hu
    · simp only [topoPush, List.zip_cons_cons] at hpp
      rcases List.mem_cons.1 hpp with rfl | hpp
      · simp at hpt
      · exact h.leave ht p hpp hpt
  · simp at hm

theorem topoTree_read_emit {starts0 : List V} {t : List (Act V)} {s s' : TopoState V L S M ML}
    {r : TopoReport V S M ML} (ht : c.isTree = true) (h : TopoReadInv g c starts0 t s)
    (hm : topoTreeStep g c s = .emit r s') : TopoReadInv g c starts0 (t ++ [.reported r.vertex]) s' := by
  unfold topoTreeStep at hm
  rcases hpc : s.pc with _ | ⟨v, _ | ⟨e, es⟩⟩ | _ <;> simp only [hpc] at hm
  · rcases hx : s.stack with _ | ⟨v, rest⟩ <;> rcases hy : s.leave with _ | ⟨_ | _, ls⟩ <;>
      simp only [hx, hy, reduceCtorEq] at hm
    cases hm
    have hl := h.leave ht
    rw [hx, hy, List.zip_cons_cons] at hl
    refine ⟨h.connected.report _, h.first.report ⟨v, hl (v, true) List.mem_cons_self rfl, rfl⟩,
      fun u hu => (h.stack u (by rw [hx]; exact List.mem_cons_of_mem _ hu)).mono _, by simp only [hpc]; trivial,
      fun ht' => by simp [ht] at ht', fun _ p hp hpt => read_mono (hl p (List.mem_cons_of_mem _ hp) hpt)⟩
  all_goals simp at hm

theorem topoTree_read_expand {starts0 : List V} {t : List (Act V)} {s s' : TopoState V L S M ML}
    (ht : c.isTree = true) (h : TopoReadInv g c starts0 t s) (hm : topoTreeStep g c s = .expand s') :
    ∃ v, topoTreeWho s = some v ∧ TopoReadInv g c starts0 (t ++ [.read v]) s' := by
  unfold topoTreeStep at hm
  rcases hpc : s.pc with _ | ⟨v, _ | ⟨e, es⟩⟩ | _ <;> simp only [hpc] at hm
  · rcases hx : s.stack with _ | ⟨v, rest⟩ <;> rcases hy : s.leave with _ | ⟨_ | _, ls⟩ <;>
      simp only [hx, hy, reduceCtorEq] at hm
    cases hm
    have hl := h.leave ht
    rw [hx, hy, List.zip_cons_cons] at hl
    refine ⟨v, by simp only [topoTreeWho, hpc, hx, hy],
      h.connected.read (h.stack v (by rw [hx]; exact List.mem_cons_self)), h.first.read v,
      fun u hu => (h.stack u (by rw [hx]; exact hu)).mono _, fun e he => ⟨by simp, List.mem_map_of_mem he⟩,
      fun ht' => by simp [ht] at ht', fun _ p hp hpt => ?_⟩
    simp only [List.zip_cons_cons] at hp
    rcases List.mem_cons.1 hp with rfl | hp
    · simp
    · exact read_mono (hl p (List.mem_cons_of_mem _ hp) hpt)
  all_goals simp at hm

/-- **C79 for topological sorting.** The edges of a vertex are only read if it is a start vertex or a neighbor of a vertex whose
edges have been read before; and a vertex is only reported after its edges have been read. -/
theorem C79_topological_sort (hg : g.so.Lawful) (already : S) (starts : List V) (limit : Option Int) (fuel : Nat) :
    Connected starts (fun v => (c.next v).map (·.1)) (topoActs g c already starts limit fuel) ∧
    ReadFirst c.vid (topoActs g c already starts limit fuel) := by
  have hinit : TopoReadInv g c starts [] (topoInit g c already starts) := by
    refine ⟨.nil, .nil, fun v hv => .inl (by simpa [topoInit] using hv), trivial,
      fun _ k hk => by simp [topoInit, hg.contains_empty] at hk, fun _ p hp hpt => ?_⟩
    have := (List.of_mem_zip hp).2
    simp [topoInit] at this
    simp [this.2] at hpt
  unfold topoActs
  cases ht : c.isTree
  · obtain ⟨s, h⟩ := acts_inv (m := topoStep g c) (who := topoWho g c) (vert := fun r : TopoReport V S M ML => r.vertex)
      (TopoReadInv g c starts) (fun t s s' h hm => topo_read_tau hg ht h hm)
      (fun t s r s' h hm => topo_read_emit hg ht h hm) (fun t s s' h hm => topo_read_expand hg ht h hm)
      fuel (prepareLimit limit) [] (topoInit g c already starts) hinit
    exact ⟨h.connected, h.first⟩
  · obtain ⟨s, h⟩ := acts_inv (m := topoTreeStep g c) (who := topoTreeWho) (vert := fun r : TopoReport V S M ML => r.vertex)
      (TopoReadInv g c starts) (fun t s s' h hm => topoTree_read_tau ht h hm)
      (fun t s r s' h hm => topoTree_read_emit ht h hm) (fun t s s' h hm => topoTree_read_expand ht h hm)
      fuel (prepareLimit limit) [] (topoInit g c already starts) hinit
    exact ⟨h.connected, h.first⟩

theorem topo_readsOne : ReadsOne (fun next => topoStep g { c with next := next }) (topoWho g c) := by
  constructor
  · intro f f' s h
    unfold topoWho at h
    unfold topoStep
    rcases hpc : s.pc with _ | ⟨v, _ | ⟨e, es⟩⟩ | _ <;> simp only [hpc] at h ⊢
    · rcases hx : s.stack with _ | ⟨v, rest⟩ <;> simp only [hx] at h ⊢
      by_cases h1 : g.so.contains s.trace (c.vid v) = true <;> simp only [h1, if_true, if_false, Bool.false_eq_true] at h ⊢
      by_cases h2 : 0 < s.depth <;> simp only [h2, if_true, if_false] at h ⊢
      · by_cases h3 : (g.so.checkAdd s.visited (c.vid v)).1 = true <;>
          simp only [h3, if_true, if_false, Bool.false_eq_true] at h ⊢
        simp only [h v rfl]
      · simp only [h v rfl]
    · rfl
  · intro f s v h
    unfold topoWho at h
    unfold topoStep
    rcases hpc : s.pc with _ | ⟨u, es⟩ | _ <;> simp only [hpc, reduceCtorEq] at h ⊢
    rcases hx : s.stack with _ | ⟨u, rest⟩ <;> simp only [hx, reduceCtorEq] at h ⊢
    by_cases h1 : g.so.contains s.trace (c.vid u) = true <;>
      simp only [h1, if_true, if_false, Bool.false_eq_true, reduceCtorEq] at h ⊢
    by_cases h2 : 0 < s.depth <;> simp only [h2, if_true, if_false] at h ⊢
    · by_cases h3 : (g.so.checkAdd s.visited (c.vid u)).1 = true <;>
        simp only [h3, if_true, if_false, Bool.false_eq_true, reduceCtorEq] at h ⊢
      exact ⟨_, rfl⟩
    · exact ⟨_, rfl⟩

theorem topoTree_readsOne : ReadsOne (fun next => topoTreeStep g { c with next := next }) topoTreeWho := by
  constructor
  · intro f f' s h
    unfold topoTreeWho at h
    unfold topoTreeStep
    rcases hpc : s.pc with _ | ⟨v, _ | ⟨e, es⟩⟩ | _ <;> simp only [hpc] at h ⊢
    · rcases hx : s.stack with _ | ⟨v, rest⟩ <;> rcases hy : s.leave with _ | ⟨_ | _, ls⟩ <;> simp only [hx, hy] at h ⊢
      simp only [h v rfl]
    · rfl
  · intro f s v h
    unfold topoTreeWho at h
    unfold topoTreeStep
    rcases hpc : s.pc with _ | ⟨u, es⟩ | _ <;> simp only [hpc, reduceCtorEq] at h ⊢
    rcases hx : s.stack with _ | ⟨u, rest⟩ <;> rcases hy : s.leave with _ | ⟨_ | _, ls⟩ <;>
      simp only [hx, hy, reduceCtorEq] at h ⊢
    exact ⟨_, rfl⟩

/-- **C79 for topological sorting, locality.** -/
theorem C79_topological_sort_local (next' : V → List (V × L)) (already : S) (starts : List V) (limit : Option Int) (fuel : Nat)
    (h : ∀ v, Act.read v ∈ topoActs g c already starts limit fuel → c.next v = next' v) :
    (topoRun g c already starts limit fuel).events = (topoRun g { c with next := next' } already starts limit fuel).events ∧
    (topoRun g c already starts limit fuel).ending = (topoRun g { c with next := next' } already starts limit fuel).ending := by
  unfold topoActs at h
  unfold topoRun
  by_cases ht : c.isTree = true
  · rw [if_pos ht] at h
    rw [if_pos ht, if_pos (show ({ c with next := next' } : TravCfg V K L).isTree = true from ht)]
    exact run_local (vert := fun r : TopoReport V S M ML => r.vertex) (topoTree_readsOne (g := g) (c := c)) c.next next' fuel
      (prepareLimit limit) (topoInit g c already starts) h
  · rw [if_neg ht] at h
    rw [if_neg ht, if_neg (show ¬ ({ c with next := next' } : TravCfg V K L).isTree = true from ht)]
    exact run_local (vert := fun r : TopoReport V S M ML => r.vertex) (topo_readsOne (g := g) (c := c)) c.next next' fuel
      (prepareLimit limit) (topoInit g c already starts) h

end

/-! ## Examples -/

/-- An infinite graph with edges to larger numbers. -/
def exReadsDfs (succ : Bool) : DfsCfg Nat Nat Char := ⟨exReadsCfg, true, true, succ, fun n => n == 2⟩

/-- The third entered vertex is skipped: its edges are not read. -/
example : dfsActs exBits (exReadsDfs true) [] [1] none 24 =
    [.reported 1, .read 1, .reported 3, .read 3, .reported 5, .reported 4, .read 4, .reported 6, .read 6] := by
  decide +kernel

/-- Without reports of successors, only connectedness remains. -/
example : dfsActs exBits (exReadsDfs false) [] [1] none 10 = [.reported 1, .read 1, .read 3] ∧
    ¬ OnDemand [1] (dfsActs exBits (exReadsDfs false) [] [1] none 10) := by
  have e : dfsActs exBits (exReadsDfs false) [] [1] none 10 = [.reported 1, .read 1, .read 3] := by decide +kernel
  refine ⟨e, fun h => ?_⟩
  rw [e] at h
  have := h [.reported 1, .read 1] 3 [] rfl
  simp at this

/-- A finite acyclic graph, sorted. -/
def exReadsDag : TravCfg Nat Nat Char :=
  ⟨fun v => if v < 4 then [(v + 1, 'a'), (v + 2, 'b')] else [], id, false, false⟩

example : topoActs exBits exReadsDag [] [2] none 60 =
    [.read 2, .read 4, .reported 4, .read 3, .read 5, .reported 5, .reported 3, .reported 2] := by decide +kernel

end NoGraphs
