import Verif.Model.Shared
import Verif.Proofs.Bfs
import Verif.Spec.Graph

/-! # Invariants for traversals that share a set of visited vertices -/

set_option linter.unusedSectionVars false
set_option linter.unusedSimpArgs false

namespace NoGraphs

open Spec

variable {V K L S M ML : Type} [DecidableEq V] [DecidableEq K]

/-- The generator works on this graph, and is_tree is not set. -/
def Gen.Fits (next : V → List (V × L)) (vid : V → K) : Gen V K L S M ML → Prop
  | .bfs c _ => c.next = next ∧ c.vid = vid ∧ c.isTree = false
  | .ntd c _ => c.next = next ∧ c.vid = vid ∧ c.isTree = false
  | .dfs c _ => c.next = next ∧ c.vid = vid ∧ c.isTree = false

/-- The expansion of vertices is not skipped. -/
def Gen.NoSkip : Gen V K L S M ML → Prop
  | .dfs c _ => ∀ n, c.skip n = false
  | _ => True

/-- All vertices are reported, up to start vertices. -/
def Gen.RepAll : Gen V K L S M ML → Prop
  | .dfs c _ => c.reportSucc = true
  | _ => True

/-- The edge from `u` to `v` still has to be regarded by this generator. -/
def Gen.Owes : Gen V K L S M ML → V → V → Prop
  | .bfs _ s, u, v => u ∈ s.toExpand ∨ u ∈ s.nextToExpand ∨ ∃ es l, s.pc = .edges u es ∧ (v, l) ∈ es
  | .ntd _ s, u, v => u ∈ s.toExpand ∨ ∃ es l, s.pc = .edges u es ∧ (v, l) ∈ es
  | .dfs _ s, u, v => v ∈ s.toVisit ∨ (∃ r, s.pc = .entered u r) ∨ ∃ es l, s.pc = .edges u es ∧ (v, l) ∈ es

/-- A start vertex that still has to be regarded. -/
def Gen.Pend : Gen V K L S M ML → V → Prop
  | .dfs _ s, v => v ∈ s.starts ∨ v ∈ s.toVisit
  | _, _ => False

/-- The vertices the generator knows are reachable, up to start vertices with an id in `A0`. -/
def Gen.Good (next : V → List (V × L)) (B R : V → Prop) (starts : List V) : Gen V K L S M ML → Prop
  | .bfs _ s => (∀ v ∈ s.toExpand, R v) ∧ (∀ v ∈ s.nextToExpand, R v) ∧ (s.pc = .check → s.nextToExpand = []) ∧
      (s.pc = .levelEnd → s.toExpand = []) ∧
      ∀ u es, s.pc = .edges u es → R u ∧ ∀ e ∈ es, e ∈ next u
  | .ntd _ s => (∀ v ∈ s.toExpand, R v) ∧ ∀ u es, s.pc = .edges u es → R u ∧ ∀ e ∈ es, e ∈ next u
  | .dfs _ s => (s.pc = .start → s.toVisit = []) ∧ (∀ v ∈ s.starts, v ∈ starts) ∧ (∀ v, s.cur = some v → v ∈ starts) ∧ (∀ v ∈ s.toVisit, R v ∨ B v) ∧
      (∀ u r, s.pc = .entered u r → R u) ∧ ∀ u es, s.pc = .edges u es → R u ∧ ∀ e ∈ es, e ∈ next u

variable {g : TravGear V K L S M ML} {next : V → List (V × L)} {vid : V → K} {A0 : K → Prop} {B R : V → Prop}
  {starts : List V}

/-- What holds for each step of a generator. -/
structure StepOk (g : TravGear V K L S M ML) (next : V → List (V × L)) (vid : V → K) (B R : V → Prop) (starts : List V)
    (visited : S) (t : Gen V K L S M ML) (o : StepOut V K L S M ML) : Prop where
  mono : ∀ k, g.so.contains visited k = true → g.so.contains o.visited k = true
  new : ∀ k, g.so.contains o.visited k = true → g.so.contains visited k = true ∨
    ∃ w, vid w = k ∧ R w ∧ (o.report = some w ∨ (t.RepAll → w ∈ starts)) ∧
      ∀ v, Edge next w v → o.gen.Owes w v
  rep : ∀ w, o.report = some w → g.so.contains visited (vid w) = false ∧ g.so.contains o.visited (vid w) = true ∧ R w
  owes : t.NoSkip → ∀ u v, t.Owes u v → Edge next u v → o.gen.Owes u v ∨ g.so.contains o.visited (vid v) = true
  pend : ∀ v, t.Pend v → o.gen.Pend v ∨ g.so.contains o.visited (vid v) = true
  good : o.gen.Good next B R starts
  done : o.status = .done → (∀ u v, ¬ o.gen.Owes u v) ∧ ∀ v, ¬ o.gen.Pend v
  fits : o.gen.Fits next vid
  noSkip : t.NoSkip → o.gen.NoSkip
  repAll : t.RepAll → o.gen.RepAll

/-- Steps without report that do not change the set. -/
theorem StepOk.quiet {visited : S} {t : Gen V K L S M ML} {o : StepOut V K L S M ML} (hv : o.visited = visited)
    (hr : o.report = none)
    (owes : t.NoSkip → ∀ u v, t.Owes u v → Edge next u v → o.gen.Owes u v ∨ g.so.contains visited (vid v) = true)
    (pend : ∀ v, t.Pend v → o.gen.Pend v ∨ g.so.contains visited (vid v) = true)
    (good : o.gen.Good next B R starts) (done : o.status = .done → (∀ u v, ¬ o.gen.Owes u v) ∧ ∀ v, ¬ o.gen.Pend v)
    (fits : o.gen.Fits next vid) (noSkip : t.NoSkip → o.gen.NoSkip) (repAll : t.RepAll → o.gen.RepAll) :
    StepOk g next vid B R starts visited t o where
  mono k h := by rw [hv]; exact h
  new k h := by rw [hv] at h; exact .inl h
  rep w h := by rw [hr] at h; simp at h
  owes := by rw [hv]; exact owes
  pend := by rw [hv]; exact pend
  good := good
  done := done
  fits := fits
  noSkip := noSkip
  repAll := repAll

theorem bfs_stepOk (hg : g.so.Lawful) (hR : ∀ u v, R u → Edge next u v → ¬ A0 (vid v) → R v) {visited : S}
    (hA : ∀ k, A0 k → g.so.contains visited k = true) {c : TravCfg V K L} {s : BfsState V L S M ML}
    (hf : (Gen.bfs c s).Fits next vid) (hgood : (Gen.bfs c s).Good next B R starts) :
    StepOk g next vid B R starts visited (.bfs c s) ((Gen.bfs c s).step g visited) := by
  obtain ⟨rfl, rfl, ht⟩ := hf
  obtain ⟨h1, h2, h3, h5, h4⟩ := hgood
  unfold Gen.step bfsStep
  dsimp only
  rcases hpc : s.pc with _ | _ | ⟨u, _ | ⟨e, es⟩⟩ | _
  · dsimp only
    have h3 := h3 hpc
    rcases hx : s.toExpand with _ | ⟨a, rest⟩
    · refine .quiet rfl rfl ?_ (fun _ h => h.elim) ?_ ?_ ⟨rfl, rfl, ht⟩ (fun _ => trivial) (fun _ => trivial)
      · intro _ a b h _
        simp [Gen.Owes, stepOut, hx, hpc, h3] at h
      · simp [Gen.Good, stepOut, h3, hpc]
      · intro _
        simp [Gen.Owes, Gen.Pend, stepOut, h3, hpc]
    · refine .quiet rfl rfl ?_ (fun _ h => h.elim) ?_ ?_ ⟨rfl, rfl, ht⟩ (fun _ => trivial) (fun _ => trivial)
      · intro _ a b h _
        exact .inl (by simpa [Gen.Owes, stepOut, hx, hpc, h3] using h)
      · rw [hx] at h1
        simpa [Gen.Good, stepOut, h3, hpc] using h1
      · intro h
        simp [stepOut] at h
  · dsimp only
    rcases hx : s.toExpand with _ | ⟨a, rest⟩
    · refine .quiet rfl rfl ?_ (fun _ h => h.elim) ?_ ?_ ⟨rfl, rfl, ht⟩ (fun _ => trivial) (fun _ => trivial)
      · intro _ a b h _
        exact .inl (by simpa [Gen.Owes, stepOut, hx, hpc] using h)
      · simpa [Gen.Good, stepOut, hpc] using h2
      · intro h
        simp [stepOut] at h
    · rw [hx] at h1
      refine .quiet rfl rfl ?_ (fun _ h => h.elim) ?_ ?_ ⟨rfl, rfl, ht⟩ (fun _ => trivial) (fun _ => trivial)
      · rintro _ u v h ⟨l, hl⟩
        simp only [Gen.Owes, hx, hpc, List.mem_cons] at h
        simp only [Gen.Owes, stepOut, BfsPc.edges.injEq]
        rcases h with (rfl | h) | h | ⟨es, l, h, -⟩
        · exact .inl (.inr (.inr ⟨_, l, ⟨rfl, rfl⟩, hl⟩))
        · exact .inl (.inl h)
        · exact .inl (.inr (.inl h))
        · simp at h
      · simp only [Gen.Good, stepOut, BfsPc.edges.injEq, reduceCtorEq, false_implies, true_and]
        refine ⟨fun v hv => h1 v (by simp [hv]), h2, ?_⟩
        rintro u es ⟨rfl, rfl⟩
        exact ⟨h1 _ (by simp), fun e he => he⟩
      · intro h
        simp [stepOut] at h
  · refine .quiet rfl rfl ?_ (fun _ h => h.elim) ?_ ?_ ⟨rfl, rfl, ht⟩ (fun _ => trivial) (fun _ => trivial)
    · intro _ a b h _
      simp only [Gen.Owes, hpc, BfsPc.edges.injEq] at h
      simp only [Gen.Owes, stepOut]
      rcases h with h | h | ⟨es, l, ⟨rfl, rfl⟩, h⟩
      · exact .inl (.inl h)
      · exact .inl (.inr (.inl h))
      · simp at h
    · simp only [Gen.Good, stepOut, reduceCtorEq, false_implies, true_and, implies_true, and_true]
      exact ⟨h1, h2⟩
    · intro h
      simp [stepOut] at h
  · obtain ⟨hu, hes⟩ := h4 u _ hpc
    dsimp only
    rw [ht]
    rcases hb : bfsVisit g false c.buildPaths c.vid visited s.preds s.labels u e with _ | ⟨vis, pr, la⟩
    · have hvis := bfsVisit_none hg hb
      refine .quiet rfl rfl ?_ (fun _ h => h.elim) ?_ ?_ ⟨rfl, rfl, ht⟩ (fun _ => trivial) (fun _ => trivial)
      · intro _ a b h _
        simp only [Gen.Owes, hpc, BfsPc.edges.injEq] at h
        simp only [Gen.Owes, stepOut, BfsPc.edges.injEq]
        rcases h with h | h | ⟨es', l, ⟨rfl, rfl⟩, h⟩
        · exact .inl (.inl h)
        · exact .inl (.inr (.inl h))
        · rcases List.mem_cons.1 h with rfl | h
          · exact .inr hvis
          · exact .inl (.inr (.inr ⟨es, l, ⟨rfl, rfl⟩, h⟩))
      · simp only [Gen.Good, stepOut, BfsPc.edges.injEq, reduceCtorEq, false_implies, true_and]
        refine ⟨h1, h2, ?_⟩
        rintro u' es' ⟨rfl, rfl⟩
        exact ⟨hu, fun e' he' => hes e' (List.mem_cons_of_mem _ he')⟩
      · intro h
        simp [stepOut] at h
    · obtain ⟨hno, hadd, -⟩ := bfsVisit_some hg hb
      have hRe : R e.1 := hR u e.1 hu ⟨e.2, hes _ List.mem_cons_self⟩ (fun h => by rw [hA _ h] at hno; simp at hno)
      refine ⟨?_, ?_, ?_, ?_, fun _ h => h.elim, ?_, ?_, ⟨rfl, rfl, ht⟩, fun _ => trivial, fun _ => trivial⟩
      · intro k hk
        simp only [stepOut, hadd, hk, Bool.or_true]
      · intro k hk
        simp only [stepOut, hadd, Bool.or_eq_true, decide_eq_true_eq] at hk
        rcases hk with rfl | hk
        · refine .inr ⟨e.1, rfl, hRe, .inl rfl, fun v _ => ?_⟩
          simp [Gen.Owes, stepOut]
        · exact .inl hk
      · intro w hw
        simp only [stepOut, Option.some.injEq] at hw
        subst hw
        refine ⟨hno, ?_, hRe⟩
        simp only [stepOut, hadd, decide_true, Bool.true_or]
      · intro _ a b h _
        simp only [Gen.Owes, hpc, BfsPc.edges.injEq] at h
        simp only [Gen.Owes, stepOut, BfsPc.edges.injEq, hadd, List.mem_append, List.mem_singleton]
        rcases h with h | h | ⟨es', l, ⟨rfl, rfl⟩, h⟩
        · exact .inl (.inl h)
        · exact .inl (.inr (.inl (.inl h)))
        · rcases List.mem_cons.1 h with rfl | h
          · exact .inr (by simp)
          · exact .inl (.inr (.inr ⟨es, l, ⟨rfl, rfl⟩, h⟩))
      · simp only [Gen.Good, stepOut, BfsPc.edges.injEq, reduceCtorEq, false_implies, true_and, List.mem_append,
          List.mem_singleton]
        refine ⟨h1, ?_, ?_⟩
        · rintro v (hv | rfl)
          · exact h2 v hv
          · exact hRe
        · rintro u' es' ⟨rfl, rfl⟩
          exact ⟨hu, fun e' he' => hes e' (List.mem_cons_of_mem _ he')⟩
      · intro h
        simp [stepOut] at h
  · refine .quiet rfl rfl ?_ (fun _ h => h.elim) ?_ ?_ ⟨rfl, rfl, ht⟩ (fun _ => trivial) (fun _ => trivial)
    · intro _ a b h _
      exact .inl (by simpa [Gen.Owes, stepOut, h5 hpc, hpc] using h)
    · simpa [Gen.Good, stepOut] using h2
    · intro h
      simp [stepOut] at h

theorem ntd_stepOk (hg : g.so.Lawful) (hR : ∀ u v, R u → Edge next u v → ¬ A0 (vid v) → R v) {visited : S}
    (hA : ∀ k, A0 k → g.so.contains visited k = true) {c : NtdCfg V K L} {s : NtdState V L S M ML}
    (hf : (Gen.ntd c s).Fits next vid) (hgood : (Gen.ntd c s).Good next B R starts) :
    StepOk g next vid B R starts visited (.ntd c s) ((Gen.ntd c s).step g visited) := by
  obtain ⟨rfl, rfl, ht⟩ := hf
  have hgood' := hgood
  obtain ⟨h1, h4⟩ := hgood
  have expand : ∀ (a : V) (rest : List V) (s' : NtdState V L S M ML), s.toExpand = a :: rest → s.pc = .loop →
      s'.visited = visited → s'.toExpand = rest → s'.pc = .edges a (c.next a) →
      StepOk g c.next c.vid B R starts visited (.ntd c s)
        (stepOut visited (.ntd c s) (fun s => s.visited) (.ntd c) (fun r : NtdReport V S M ML => r.vertex) (.expand s')) := by
    intro a rest s' hx hpc e1 e2 e3
    rw [hx] at h1
    refine .quiet e1 rfl ?_ (fun _ h => h.elim) ?_ ?_ ⟨rfl, rfl, ht⟩ (fun _ => trivial) (fun _ => trivial)
    · rintro _ u v h ⟨l, hl⟩
      simp only [Gen.Owes, hx, hpc, List.mem_cons] at h
      simp only [Gen.Owes, stepOut, e2, e3, NtdPc.edges.injEq]
      rcases h with (rfl | h) | ⟨es, l, h, -⟩
      · exact .inl (.inr ⟨_, l, ⟨rfl, rfl⟩, hl⟩)
      · exact .inl (.inl h)
      · simp at h
    · simp only [Gen.Good, stepOut, e2, e3, NtdPc.edges.injEq]
      refine ⟨fun v hv => h1 v (by simp [hv]), ?_⟩
      rintro u es ⟨rfl, rfl⟩
      exact ⟨h1 _ (by simp), fun e he => he⟩
    · intro h
      simp [stepOut] at h
  unfold Gen.step ntdStep
  dsimp only
  rcases hpc : s.pc with _ | ⟨u, _ | ⟨e, es⟩⟩
  · dsimp only
    rcases hx : s.toExpand with _ | ⟨a, rest⟩
    · refine .quiet rfl rfl ?_ (fun _ h => h.elim) ?_ ?_ ⟨rfl, rfl, ht⟩ (fun _ => trivial) (fun _ => trivial)
      · intro _ a b h _
        simp [Gen.Owes, hx, hpc] at h
      · simp [Gen.Good, stepOut]
      · intro _
        simp [Gen.Owes, Gen.Pend, stepOut]
    · dsimp only
      split
      · split
        · refine .quiet rfl rfl ?_ (fun _ h => h.elim) ?_ ?_ ⟨rfl, rfl, ht⟩ (fun _ => trivial) (fun _ => trivial)
          · intro _ a b h _
            exact .inl h
          · exact hgood'
          · intro h
            simp [stepOut] at h
        · exact expand a rest _ hx hpc rfl rfl rfl
      · exact expand a rest _ hx hpc rfl rfl rfl
  · refine .quiet rfl rfl ?_ (fun _ h => h.elim) ?_ ?_ ⟨rfl, rfl, ht⟩ (fun _ => trivial) (fun _ => trivial)
    · intro _ a b h _
      simp only [Gen.Owes, hpc, NtdPc.edges.injEq] at h
      simp only [Gen.Owes, stepOut]
      rcases h with h | ⟨es, l, ⟨rfl, rfl⟩, h⟩
      · exact .inl (.inl h)
      · simp at h
    · simp only [Gen.Good, stepOut, reduceCtorEq, false_implies, true_and, implies_true, and_true]
      exact h1
    · intro h
      simp [stepOut] at h
  · obtain ⟨hu, hes⟩ := h4 u _ hpc
    dsimp only
    rw [ht]
    rcases hb : bfsVisit g false c.buildPaths c.vid visited s.preds s.labels u e with _ | ⟨vis, pr, la⟩
    · have hvis := bfsVisit_none hg hb
      refine .quiet rfl rfl ?_ (fun _ h => h.elim) ?_ ?_ ⟨rfl, rfl, ht⟩ (fun _ => trivial) (fun _ => trivial)
      · intro _ a b h _
        simp only [Gen.Owes, hpc, NtdPc.edges.injEq] at h
        simp only [Gen.Owes, stepOut, NtdPc.edges.injEq]
        rcases h with h | ⟨es', l, ⟨rfl, rfl⟩, h⟩
        · exact .inl (.inl h)
        · rcases List.mem_cons.1 h with rfl | h
          · exact .inr hvis
          · exact .inl (.inr ⟨es, l, ⟨rfl, rfl⟩, h⟩)
      · simp only [Gen.Good, stepOut, NtdPc.edges.injEq]
        refine ⟨h1, ?_⟩
        rintro u' es' ⟨rfl, rfl⟩
        exact ⟨hu, fun e' he' => hes e' (List.mem_cons_of_mem _ he')⟩
      · intro h
        simp [stepOut] at h
    · obtain ⟨hno, hadd, -⟩ := bfsVisit_some hg hb
      have hRe : R e.1 := hR u e.1 hu ⟨e.2, hes _ List.mem_cons_self⟩ (fun h => by rw [hA _ h] at hno; simp at hno)
      refine ⟨?_, ?_, ?_, ?_, fun _ h => h.elim, ?_, ?_, ⟨rfl, rfl, ht⟩, fun _ => trivial, fun _ => trivial⟩
      · intro k hk
        simp only [stepOut, hadd, hk, Bool.or_true]
      · intro k hk
        simp only [stepOut, hadd, Bool.or_eq_true, decide_eq_true_eq] at hk
        rcases hk with rfl | hk
        · refine .inr ⟨e.1, rfl, hRe, .inl rfl, fun v _ => ?_⟩
          simp [Gen.Owes, stepOut]
        · exact .inl hk
      · intro w hw
        simp only [stepOut, Option.some.injEq] at hw
        subst hw
        refine ⟨hno, ?_, hRe⟩
        simp only [stepOut, hadd, decide_true, Bool.true_or]
      · intro _ a b h _
        simp only [Gen.Owes, hpc, NtdPc.edges.injEq] at h
        simp only [Gen.Owes, stepOut, NtdPc.edges.injEq, hadd, List.mem_cons]
        rcases h with h | ⟨es', l, ⟨rfl, rfl⟩, h⟩
        · exact .inl (.inl (.inr h))
        · rcases List.mem_cons.1 h with rfl | h
          · exact .inr (by simp)
          · exact .inl (.inr ⟨es, l, ⟨rfl, rfl⟩, h⟩)
      · simp only [Gen.Good, stepOut, NtdPc.edges.injEq, List.mem_cons]
        refine ⟨?_, ?_⟩
        · rintro v (rfl | hv)
          · exact hRe
          · exact h1 v hv
        · rintro u' es' ⟨rfl, rfl⟩
          exact ⟨hu, fun e' he' => hes e' (List.mem_cons_of_mem _ he')⟩
      · intro h
        simp [stepOut] at h

/-- Entering a vertex that has not been visited before. -/
theorem dfsEnter_stepOk {visited visited' : S} {c : DfsCfg V K L} {s s0 : DfsState V L S M ML} {v : V} {rest : List V}
    (ht : c.isTree = false) (hB : ¬ B v) (hno : g.so.contains visited (c.vid v) = false)
    (hadd : ∀ k, g.so.contains visited' k = (decide (k = c.vid v) || g.so.contains visited k))
    (hpc : s0.pc = .loop) (hto : s0.toVisit = v :: rest)
    (e1 : s.starts = s0.starts) (e2 : s.cur = s0.cur) (e3 : s.toVisit = rest) (e4 : s.visited = visited')
    (hgood : (Gen.dfs c s0).Good c.next B R starts) :
    StepOk g c.next c.vid B R starts visited (.dfs c s0)
      (stepOut visited (.dfs c s0) (fun s => s.visited) (.dfs c) (fun r => r.vertex) (dfsEnter c s v)) := by
  obtain ⟨-, h1, h2, h3, h4, h5⟩ := hgood
  have hRv : R v := (h3 v (by simp [hto])).resolve_right hB
  have key : ∀ (s' : DfsState V L S M ML) (r : Bool) (rep : Option V), s'.starts = s0.starts → s'.cur = s0.cur →
      s'.toVisit = rest → s'.visited = visited' → s'.pc = .entered v r →
      (rep = some v ∨ rep = none ∧ ((Gen.dfs c s0 : Gen V K L S M ML).RepAll → v ∈ starts)) →
      StepOk g c.next c.vid B R starts visited (.dfs c s0) ⟨s'.visited, .dfs c s', .running, rep⟩ := by
    intro s' r rep e1 e2 e3 e4 e5 hrep
    refine ⟨?_, ?_, ?_, ?_, ?_, ?_, by simp, ⟨rfl, rfl, ht⟩, fun h => h, fun h => h⟩
    · intro k hk
      simp only [e4, hadd, hk, Bool.or_true]
    · intro k hk
      simp only [e4, hadd, Bool.or_eq_true, decide_eq_true_eq] at hk
      rcases hk with rfl | hk
      · refine .inr ⟨v, rfl, hRv, ?_, fun w _ => .inr (.inl ⟨r, e5⟩)⟩
        rcases hrep with h | ⟨-, h⟩
        · exact .inl h
        · exact .inr h
      · exact .inl hk
    · rintro w hw
      dsimp only at hw
      rcases hrep with h | ⟨h, -⟩
      · rw [h] at hw
        cases hw
        exact ⟨hno, by simp only [e4, hadd, decide_true, Bool.true_or], hRv⟩
      · rw [h] at hw
        simp at hw
    · intro _ a b h _
      simp only [Gen.Owes, hpc, hto, List.mem_cons, reduceCtorEq, exists_false, false_or, false_and, or_false] at h
      simp only [Gen.Owes, e3, e4, hadd]
      rcases h with rfl | h
      · exact .inr (by simp)
      · exact .inl (.inl h)
    · intro b h
      simp only [Gen.Pend, hto, List.mem_cons] at h
      simp only [Gen.Pend, e1, e3, e4, hadd]
      rcases h with h | rfl | h
      · exact .inl (.inl h)
      · exact .inr (by simp)
      · exact .inl (.inr h)
    · refine ⟨by simp [e5], ?_, ?_, ?_, ?_, ?_⟩
      · rw [e1]; exact h1
      · rw [e2]; exact h2
      · rw [e3]; exact fun w hw => h3 w (by simp [hto, hw])
      · rw [e5]
        rintro u r' ⟨⟩
        exact hRv
      · simp [e5]
  unfold dfsEnter
  dsimp only
  split
  · rename_i hc
    have hv : v ∈ starts := h2 v (by rw [← e2, ← hc])
    split
    · exact key _ c.reportStart _ e1 e2 e3 e4 rfl (.inl rfl)
    · exact key _ c.reportStart _ e1 e2 e3 e4 rfl (.inr ⟨rfl, fun _ => hv⟩)
  · split
    · exact key _ c.reportSucc _ e1 e2 e3 e4 rfl (.inl rfl)
    · rename_i hr
      exact key _ c.reportSucc _ e1 e2 e3 e4 rfl (.inr ⟨rfl, fun h => absurd h hr⟩)

theorem dfsPop_eq (c : DfsCfg V K L) (s : DfsState V L S M ML) : (dfsPop c s).starts = s.starts ∧
    (dfsPop c s).cur = s.cur ∧ (dfsPop c s).toVisit = s.toVisit ∧ (dfsPop c s).visited = s.visited ∧
    (dfsPop c s).pc = s.pc := by
  unfold dfsPop
  split <;> simp

theorem dfs_stepOk (hg : g.so.Lawful) (hS : ∀ v ∈ starts, R v ∨ B v) (hB : ∀ v, B v → A0 (vid v))
    (hR : ∀ u v, R u → Edge next u v → ¬ A0 (vid v) → R v) {visited : S}
    (hA : ∀ k, A0 k → g.so.contains visited k = true) {c : DfsCfg V K L} {s : DfsState V L S M ML}
    (hf : (Gen.dfs c s).Fits next vid) (hgood : (Gen.dfs c s).Good next B R starts) :
    StepOk g next vid B R starts visited (.dfs c s) ((Gen.dfs c s).step g visited) := by
  obtain ⟨rfl, rfl, ht⟩ := hf
  have hgood' := hgood
  obtain ⟨h0, h1, h2, h3, h4, h5⟩ := hgood
  unfold Gen.step dfsStep
  dsimp only
  rcases hpc : s.pc with _ | _ | ⟨u, r⟩ | ⟨u, _ | ⟨e, es⟩⟩
  · dsimp only
    have h0 := h0 hpc
    rcases hx : s.starts with _ | ⟨a, rest⟩
    · refine .quiet rfl rfl ?_ ?_ ?_ ?_ ⟨rfl, rfl, ht⟩ (fun h => h) (fun h => h)
      · intro _ a b h _
        simp [Gen.Owes, h0, hpc] at h
      · intro v h
        simp [Gen.Pend, h0, hx] at h
      · simpa [Gen.Good, stepOut, h0, hx, hpc] using h2
      · intro _
        simp [Gen.Owes, Gen.Pend, stepOut, h0, hx, hpc]
    · rw [hx] at h1
      refine .quiet rfl rfl ?_ ?_ ?_ ?_ ⟨rfl, rfl, ht⟩ (fun h => h) (fun h => h)
      · intro _ a b h _
        simp [Gen.Owes, h0, hpc] at h
      · intro v h
        simp only [Gen.Pend, h0, hx, List.mem_cons, List.not_mem_nil, or_false] at h
        simp only [Gen.Pend, stepOut, List.mem_cons]
        rcases h with rfl | h
        · exact .inl (.inr (.inl rfl))
        · exact .inl (.inl h)
      · have ha : a ∈ starts := h1 a (by simp)
        refine ⟨by simp, fun v hv => h1 v (by simp [hv]), ?_, ?_, by simp, by simp⟩
        · rintro v ⟨⟩
          exact ha
        · simpa [h0] using hS a ha
      · intro h
        simp [stepOut] at h
  · dsimp only
    obtain ⟨p1, p2, p3, p4, p5⟩ := dfsPop_eq c { s with visited, pc := .loop }
    dsimp only at p1 p2 p3 p4 p5
    generalize dfsPop c _ = p at *
    rw [p3, p4]
    rcases hx : s.toVisit with _ | ⟨a, rest⟩
    · refine .quiet rfl rfl ?_ ?_ ?_ ?_ ⟨rfl, rfl, ht⟩ (fun h => h) (fun h => h)
      · intro _ a b h _
        simp [Gen.Owes, hx, hpc] at h
      · intro v h
        simp only [Gen.Pend, hx, List.not_mem_nil, or_false] at h
        exact .inl (by simpa [Gen.Pend, stepOut, p1, p3, hx] using h)
      · refine ⟨fun _ => by simp [p3, hx], ?_, ?_, ?_, by simp, by simp⟩
        · simpa [p1] using h1
        · simpa [p2] using h2
        · simp [p3, hx]
      · intro h
        simp [stepOut] at h
    · dsimp only
      simp only [ht, Bool.false_eq_true, if_false]
      split
      · rename_i hc
        rw [hg.checkAdd_fst] at hc
        refine .quiet rfl rfl ?_ ?_ ?_ ?_ ⟨rfl, rfl, ht⟩ (fun h => h) (fun h => h)
        · intro _ u b h _
          simp only [Gen.Owes, hpc, hx, List.mem_cons, reduceCtorEq, exists_false, false_or, false_and, or_false] at h
          rcases h with rfl | h
          · exact .inr hc
          · exact .inl (.inl h)
        · intro v h
          simp only [Gen.Pend, hx, List.mem_cons] at h
          simp only [Gen.Pend, stepOut, p1]
          rcases h with h | rfl | h
          · exact .inl (.inl h)
          · exact .inr hc
          · exact .inl (.inr h)
        · refine ⟨by simp [p5, hpc], ?_, ?_, ?_, by simp [p5, hpc], by simp [p5, hpc]⟩
          · simpa [p1] using h1
          · simpa [p2] using h2
          · exact fun v hv => h3 v (by simp [hx, hv])
        · intro h
          simp [stepOut] at h
      · rename_i hc
        rw [hg.checkAdd_fst, Bool.not_eq_true] at hc
        exact dfsEnter_stepOk ht (fun hb => by rw [hA _ (hB _ hb)] at hc; simp at hc) hc (fun k => hg.contains_checkAdd _ _ _) hpc hx p1 p2 rfl rfl hgood'
  · dsimp only
    have hu := h4 u r hpc
    split
    · rename_i hs
      refine .quiet rfl rfl ?_ ?_ ?_ ?_ ⟨rfl, rfl, ht⟩ (fun h => h) (fun h => h)
      · intro h
        have : c.skip s.n = false := h s.n
        simp [this] at hs
      · exact fun v h => .inl h
      · exact ⟨by simp, h1, h2, h3, by simp, by simp⟩
      · intro h
        simp [stepOut] at h
    · refine .quiet rfl rfl ?_ ?_ ?_ ?_ ⟨rfl, rfl, ht⟩ (fun h => h) (fun h => h)
      · rintro - a b h ⟨l, hl⟩
        simp only [Gen.Owes, hpc] at h
        simp only [Gen.Owes, stepOut]
        rcases h with h | ⟨r', h⟩ | ⟨es, l, h, -⟩
        · exact .inl (.inl h)
        · cases h
          exact .inl (.inr (.inr ⟨_, l, rfl, hl⟩))
        · cases h
      · exact fun v h => .inl h
      · refine ⟨by simp, h1, h2, h3, by simp, ?_⟩
        rintro u' es ⟨⟩
        exact ⟨hu, fun e he => he⟩
      · intro h
        simp [stepOut] at h
  · dsimp only
    refine .quiet rfl rfl ?_ ?_ ?_ ?_ ⟨rfl, rfl, ht⟩ (fun h => h) (fun h => h)
    · rintro - a b h -
      simp only [Gen.Owes, hpc] at h
      simp only [Gen.Owes, stepOut]
      rcases h with h | ⟨r', h⟩ | ⟨es, l, h, h'⟩
      · exact .inl (.inl h)
      · cases h
      · cases h
        simp at h'
    · exact fun v h => .inl h
    · exact ⟨by simp, h1, h2, h3, by simp, by simp⟩
    · intro h
      simp [stepOut] at h
  · obtain ⟨hu, hes⟩ := h5 u _ hpc
    dsimp only
    simp only [ht, Bool.not_false, Bool.true_or, Bool.true_and]
    split
    · rename_i hc
      refine .quiet rfl rfl ?_ ?_ ?_ ?_ ⟨rfl, rfl, ht⟩ (fun h => h) (fun h => h)
      · rintro - a b h -
        simp only [Gen.Owes, hpc] at h
        simp only [Gen.Owes, stepOut]
        rcases h with h | ⟨r', h⟩ | ⟨es, l, h, h'⟩
        · exact .inl (.inl h)
        · cases h
        · cases h
          rcases List.mem_cons.1 h' with rfl | h'
          · exact .inr hc
          · exact .inl (.inr (.inr ⟨_, l, rfl, h'⟩))
      · exact fun v h => .inl h
      · refine ⟨by simp, h1, h2, h3, by simp, ?_⟩
        rintro u' es ⟨⟩
        exact ⟨hu, fun e' he' => hes e' (List.mem_cons_of_mem _ he')⟩
      · intro h
        simp [stepOut] at h
    · rename_i hc
      have hRe : R e.1 := hR u e.1 hu ⟨e.2, hes _ List.mem_cons_self⟩ (fun h => hc (hA _ h))
      refine .quiet rfl rfl ?_ ?_ ?_ ?_ ⟨rfl, rfl, ht⟩ (fun h => h) (fun h => h)
      · rintro - a b h -
        simp only [Gen.Owes, hpc] at h
        simp only [Gen.Owes, stepOut, List.mem_cons]
        rcases h with h | ⟨r', h⟩ | ⟨es, l, h, h'⟩
        · exact .inl (.inl (.inr h))
        · cases h
        · cases h
          rcases List.mem_cons.1 h' with rfl | h'
          · exact .inl (.inl (.inl rfl))
          · exact .inl (.inr (.inr ⟨_, l, rfl, h'⟩))
      · intro v h
        simp only [Gen.Pend] at h
        simp only [Gen.Pend, stepOut, List.mem_cons]
        rcases h with h | h
        · exact .inl (.inl h)
        · exact .inl (.inr (.inr h))
      · refine ⟨by simp, h1, h2, ?_, by simp, ?_⟩
        · rintro v hv
          rcases List.mem_cons.1 hv with rfl | hv
          · exact .inl hRe
          · exact h3 v hv
        · rintro u' es ⟨⟩
          exact ⟨hu, fun e' he' => hes e' (List.mem_cons_of_mem _ he')⟩
      · intro h
        simp [stepOut] at h

/-- What holds for each step of a generator. -/
theorem gen_stepOk (hg : g.so.Lawful) (hS : ∀ v ∈ starts, R v ∨ B v) (hB : ∀ v, B v → A0 (vid v))
    (hR : ∀ u v, R u → Edge next u v → ¬ A0 (vid v) → R v) {visited : S}
    (hA : ∀ k, A0 k → g.so.contains visited k = true) {t : Gen V K L S M ML}
    (hf : t.Fits next vid) (hgood : t.Good next B R starts) :
    StepOk g next vid B R starts visited t (t.step g visited) := by
  cases t with
  | bfs c s => exact bfs_stepOk hg hR hA hf hgood
  | ntd c s => exact ntd_stepOk hg hR hA hf hgood
  | dfs c s => exact dfs_stepOk hg hS hB hR hA hf hgood

end NoGraphs
