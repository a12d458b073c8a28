import Verif.Proofs.StartSource
import Verif.Props.SearchAwareTrace

/-!
# C81: search-aware start vertices

Depth-first search takes its start vertices one by one from a generator. The theorems say: the traversal is the one for the
list of the start vertices that the generator returned; and whenever the generator is asked for a further start vertex, the
traversal from the start vertices returned before is complete, and the generator sees its results.
-/

set_option linter.unusedSectionVars false

namespace NoGraphs

open Spec

variable {V K L S M ML : Type} [DecidableEq V] [DecidableEq K]

section
variable {g : TravGear V K L S M ML} {c : DfsCfg V K L}

/-- **C81, depth-first search without trace.** Let `G` be any source of start vertices: it can use the results of the
traversal and everything else. The traversal behaves exactly as for the list of the start vertices that the source returned
(same reports with the same attributes, same edges read, same end). -/
theorem C81_dfs_as_list (G : Nat → DfsState V L S M ML → Option V) (already : S) (limit : Option Int) (fuel : Nat) :
    let run := dfsSourceRun g c G already limit fuel
    let ordinary := dfsRun g c already (gotOf (dfsDemands g c G already limit fuel)) limit fuel
    run.events = ordinary.events ∧ run.ending = ordinary.ending ∧ run.final.1 = ordinary.final :=
  source_run (dfs_takesStarts c) fuel (prepareLimit limit) (dfsInit g c already []) 0 [] rfl

/-- **C81, depth-first search without trace, the moments.** When the source is asked for a further start vertex (`d`), after
it has been asked `A.length` times before: each of these times, it has returned a start vertex; the traversal from these
start vertices is complete, without exception; exactly what belongs to this traversal has happened so far; and the visited
ids and the paths that the source sees are its results. -/
theorem C81_dfs_moment (G : Nat → DfsState V L S M ML → Option V) (already : S) (limit : Option Int) (fuel : Nat)
    (A B : List (Demand (DfsState V L S M ML) (DfsReport V S M ML) V)) (d : Demand (DfsState V L S M ML) (DfsReport V S M ML) V)
    (hd : dfsDemands g c G already limit fuel = A ++ d :: B) :
    let before := dfsRun g c already (gotOf A) limit fuel
    d.got = G A.length d.seen ∧ (gotOf A).length = A.length ∧
    before.ending = .done ∧ d.past = before.events ∧ d.past <+: (dfsSourceRun g c G already limit fuel).events ∧
    d.seen.visited = before.final.visited ∧ d.seen.preds = before.final.preds ∧ d.seen.labels = before.final.labels := by
  intro before
  obtain ⟨h1, h2, h3, h4, h5, h6⟩ := source_moment (dfs_takesStarts c) fuel (prepareLimit limit) (dfsInit g c already [])
    0 [] rfl A B d hd
  have hp := demand_past fuel (prepareLimit limit) (dfsInit g c already [], 0) ([] : List (Ev (DfsReport V S M ML)))
    (m := dfsStep g c) (lp := dfsLoop) (G := G) d (by
      have : d ∈ dfsDemands g c G already limit fuel := by rw [hd]; simp
      exact this)
  have hf : ∀ s, dfsStep g c d.seen = .stop s → s.visited = d.seen.visited ∧ s.preds = d.seen.preds ∧
      s.labels = d.seen.labels := by
    intro s e
    unfold dfsStep at e
    rcases hpc : d.seen.pc with _ | _ | ⟨v, rep⟩ | ⟨v, es⟩ <;> simp [dfsLoop, hpc] at h4
    rcases hs : d.seen.starts with _ | ⟨v, vs⟩
    · simp only [hpc, hs, Step.stop.injEq] at e
      subst e
      exact ⟨rfl, rfl, rfl⟩
    · simp only [hpc, hs] at e
      cases e
  obtain ⟨e1, e2, e3⟩ := hf _ h3
  exact ⟨by simpa using h5, h6.symm, h2, h1.symm, hp, e1.symm, e2.symm, e3.symm⟩

/-- **C81, what has been traversed.** If vertices with the same id have edges to the same ids, and the consumer has not
pruned the traversal: when the source is asked for a further start vertex, exactly the ids of the vertices that can be
reached from the start vertices returned before are visited, in addition to those that have been given as already visited. -/
theorem C81_dfs_reached (hg : g.so.Lawful) (ht : c.isTree = false) (hc : Compat (Edge c.next) c.vid)
    (hskip : ∀ n, c.skip n = false)
    (G : Nat → DfsState V L S M ML → Option V) (already : S) (limit : Option Int) (fuel : Nat)
    (A B : List (Demand (DfsState V L S M ML) (DfsReport V S M ML) V)) (d : Demand (DfsState V L S M ML) (DfsReport V S M ML) V)
    (hd : dfsDemands g c G already limit fuel = A ++ d :: B) (k : K) :
    g.so.contains d.seen.visited k = true ↔ g.so.contains already k = true ∨
      ∃ v, c.vid v = k ∧ Reachable (Allowed c.next c.vid (fun k => g.so.contains already k = true))
        (fun v => v ∈ gotOf A ∧ ¬ g.so.contains already (c.vid v) = true) v := by
  obtain ⟨-, -, hdone, -, -, hvis, -⟩ := C81_dfs_moment G already limit fuel A B d hd
  rw [hvis]
  obtain ⟨acts, vis', n', hD, -, hv⟩ := C08_dfs_order g c hg ht already (gotOf A) limit fuel hdone
  have hp : c.prune = noPrune := by funext n st; simp [DfsCfg.prune, hskip, noPrune]
  rw [hp] at hD
  have hO : DfsOut c.next c.vid noPrune (fun k => g.so.contains already k = true) 0 ((gotOf A).map SPath.single)
      (entered acts) vis' n' := ⟨acts, hD, rfl⟩
  rw [hv]
  obtain ⟨h1, -⟩ := Spec.Dfs.visited hO
  rw [h1]
  refine or_congr_right ⟨fun hm => ?_, ?_⟩
  · obtain ⟨q, hq, rfl⟩ := List.mem_map.1 hm
    have hB : BeginsDfs c.next c.vid .tree noPrune (fun k => g.so.contains already k = true) (gotOf A) acts :=
      ⟨noPrune, fun _ _ _ => rfl, [], vis', n', by rwa [List.append_nil]⟩
    exact ⟨_, rfl, (hB.nodup.2.2 q hq).2⟩
  · rintro ⟨v, rfl, hr⟩
    obtain ⟨q, hq, e⟩ := hO.complete hc hr
    exact List.mem_map.2 ⟨q, hq, e⟩

/-- **C81 in a search-aware graph, without trace.** Both the edges function and the source of start vertices are arbitrary.
The traversal behaves exactly as in the ordinary graph of the edges that the function returned, for the list of the start
vertices that the source returned. -/
theorem C81_dfs_search_aware (hg : g.so.Lawful) (ht : c.isTree = false) (F : Nat → DfsReport V S M ML → List (V × L))
    (G : Nat → DfsState V L S M ML × Nat → Option V) (already : S) (limit : Option Int) (fuel : Nat) :
    let run := dfsBothRun g c F G already limit fuel
    let starts := gotOf (dfsBothDemands g c F G already limit fuel)
    let calls := dfsAwareCalls g c F already starts limit fuel
    let graph := graphOfCalls c.vid DfsReport.vertex calls
    let ordinary := dfsRun g { c with next := graph } already starts limit fuel
    (run.events = ordinary.events ∧ run.ending = ordinary.ending ∧ run.final.1.1 = ordinary.final) ∧
    (calls.map (fun call => c.vid call.1.vertex)).Nodup ∧
    ∀ call ∈ calls, graph call.1.vertex = call.2 ∧ ∃ n, call.2 = F n call.1 := by
  intro run starts calls graph ordinary
  have h1 := source_run (m := awareStep (fun next => dfsStep g { c with next := next }) dfsView F) (G := G)
    (TakesStarts.aware (fun next => dfs_takesStarts { c with next := next }) (fun _ _ => rfl)) fuel (prepareLimit limit)
    (dfsInit g c already [], 0) 0 [] rfl
  obtain ⟨h2, h3, h4, -⟩ := C70_dfs_search_aware (validV := fun _ => True) (validL := fun _ => True) hg ht F already starts
    limit fuel
  refine ⟨⟨h1.1.trans h2.1, h1.2.1.trans h2.2.1, ?_⟩, h3, fun call hc => ⟨(h4 call hc).1, awareCalls_returned _ _ _ call hc⟩⟩
  exact (congrArg Prod.fst h1.2.2).trans h2.2.2

end

section
variable {g : TravGear V K L S M ML} {c : TraceCfg V K L}

/-- **C81, depth-first search with trace**, in all modes and for all events. -/
theorem C81_dfs_trace_as_list (G : Nat → TraceState V K L S M ML → Option V) (already : S) (limit : Option Int) (fuel : Nat) :
    let run := trSourceRun g c G already limit fuel
    let ordinary := trRun g c already (gotOf (trDemands g c G already limit fuel)) limit fuel
    run.events = ordinary.events ∧ run.ending = ordinary.ending ∧ run.final.1 = ordinary.final :=
  source_run (tr_takesStarts c) fuel (prepareLimit limit) (trInit g already []) 0 [] rfl

/-- **C81, depth-first search with trace, the moments** (compare `C81_dfs_moment`). Here, the source sees the final state
of the traversal from the start vertices returned before. -/
theorem C81_dfs_trace_moment (G : Nat → TraceState V K L S M ML → Option V) (already : S) (limit : Option Int) (fuel : Nat)
    (A B : List (Demand (TraceState V K L S M ML) (TraceReport V K L S M ML) V))
    (d : Demand (TraceState V K L S M ML) (TraceReport V K L S M ML) V)
    (hd : trDemands g c G already limit fuel = A ++ d :: B) :
    let before := trRun g c already (gotOf A) limit fuel
    d.got = G A.length d.seen ∧ (gotOf A).length = A.length ∧
    before.ending = .done ∧ d.past = before.events ∧ d.past <+: (trSourceRun g c G already limit fuel).events ∧
    d.seen = before.final := by
  intro before
  obtain ⟨h1, h2, h3, h4, h5, h6⟩ := source_moment (tr_takesStarts c) fuel (prepareLimit limit) (trInit g already [])
    0 [] rfl A B d hd
  have hp := demand_past fuel (prepareLimit limit) (trInit g already [], 0) ([] : List (Ev (TraceReport V K L S M ML)))
    (m := trStep g c) (lp := trLoop) (G := G) d (by
      have : d ∈ trDemands g c G already limit fuel := by rw [hd]; simp
      exact this)
  refine ⟨by simpa using h5, h6.symm, h2, h1.symm, hp, ?_⟩
  have hf : ∀ s, trStep g c d.seen = .stop s → d.seen = s := by
    intro s e
    unfold trStep at e
    rcases hpc : d.seen.pc with _ | nl | ⟨v, last, nl⟩ | _ | _ | ⟨v, rep⟩ | ⟨v, es⟩ <;> simp [trLoop, hpc] at h4
    rcases hs : d.seen.starts with _ | ⟨v, vs⟩
    · simpa only [hpc, hs, Step.stop.injEq] using e
    · simp only [hpc, hs] at e
      cases e
  exact hf _ h3

/-- **C81 in a search-aware graph, with trace** (mode `DFS_TREE`). -/
theorem C81_dfs_trace_search_aware {given : Bool} {already : S} (hso : g.so.Lawful) (hgr : g.so.Grows)
    (hacc : c.Accepted given) (hal : TraceAlready g c given already) (ht : c.isTree = false) (hm : c.mode = .dfsTree)
    (F : Nat → TraceReport V K L S M ML → List (V × L))
    (G : Nat → TraceState V K L S M ML × Nat → Option V) (limit : Option Int) (fuel : Nat) :
    let run := trBothRun g c F G already limit fuel
    let starts := gotOf (trBothDemands g c F G already limit fuel)
    let calls := trAwareCalls g c F already starts limit fuel
    let graph := graphOfCalls c.vid TraceReport.vertex calls
    let ordinary := trRun g { c with next := graph } already starts limit fuel
    (run.events = ordinary.events ∧ run.ending = ordinary.ending ∧ run.final.1.1 = ordinary.final) ∧
    (calls.map (fun call => c.vid call.1.vertex)).Nodup ∧
    ∀ call ∈ calls, graph call.1.vertex = call.2 ∧ ∃ n, call.2 = F n call.1 := by
  intro run starts calls graph ordinary
  have h1 := source_run (m := awareStep (fun next => trStep g { c with next := next }) trView F) (G := G)
    (TakesStarts.aware (fun next => tr_takesStarts { c with next := next }) (fun _ _ => rfl)) fuel (prepareLimit limit)
    (trInit g already [], 0) 0 [] rfl
  obtain ⟨h2, h3, h4⟩ := C70_dfs_trace_search_aware hso hgr hacc hal ht hm F starts limit fuel
  refine ⟨⟨h1.1.trans h2.1, h1.2.1.trans h2.2.1, ?_⟩, h3, fun call hc => ⟨(h4 call hc).1, (h4 call hc).2.1⟩⟩
  exact (congrArg Prod.fst h1.2.2).trans h2.2.2

end

/-! ## Non-vacuity -/

/-- A graph with edges from each number below 5 to the number plus 3. -/
def exJump (v : Nat) : List (Nat × Char) := if v < 5 then [(v + 3, 'a')] else []

/-- A search-aware source of start vertices: the first number below 7 that has not been visited so far. -/
def exUnvisited (seen : Nat → Bool) : Option Nat := (List.range 7).find? (fun v => !seen v)

def exJumpDfs : DfsCfg Nat Nat Char := ⟨⟨exJump, id, false, true⟩, true, true, true, fun _ => false⟩

/-- Only 0, 1 and 2 are returned as start vertices, since all other numbers are found in time. -/
example : (dfsDemands exHash exJumpDfs (fun _ s => exUnvisited (exHash.so.contains s.visited)) [] none 60).map
      (fun d => (d.past.length, (List.range 9).filter (exHash.so.contains d.seen.visited), d.got)) =
      [(0, [], some 0), (6, [0, 3, 6], some 1), (12, [0, 1, 3, 4, 6, 7], some 2),
       (16, [0, 1, 2, 3, 4, 5, 6, 7], none)] ∧
    (dfsSourceRun exHash exJumpDfs (fun _ s => exUnvisited (exHash.so.contains s.visited)) [] none 60).reports.map
      (fun r => (r.vertex, r.depth)) = [(0, 0), (3, 1), (6, 2), (1, 0), (4, 1), (7, 2), (2, 0), (5, 1)] ∧
    (dfsSourceRun exHash exJumpDfs (fun _ s => exUnvisited (exHash.so.contains s.visited)) [] none 60).ending = .done := by
  refine ⟨?_, ?_, ?_⟩ <;> decide +kernel

example : Compat (Edge exJumpDfs.next) exJumpDfs.vid ∧ (∀ n, exJumpDfs.skip n = false) ∧ exHash.so.Lawful :=
  ⟨Compat.of_injective _ _ (fun _ _ h => h), fun _ => rfl, hashSet_lawful⟩

example : (trSourceRun exHash (exTraceCfg ⟨exJump, id, false, true⟩ (exOptions .dfsTree exInOut))
      (fun _ s => exUnvisited (exHash.so.contains s.visited)) [] none 80).reports.map (fun r => (r.vertex, r.trace)) =
      [(0, [0]), (3, [0, 3]), (6, [0, 3, 6]), (6, [0, 3, 6]), (3, [0, 3]), (0, [0]),
       (1, [1]), (4, [1, 4]), (7, [1, 4, 7]), (7, [1, 4, 7]), (4, [1, 4]), (1, [1]),
       (2, [2]), (5, [2, 5]), (5, [2, 5]), (2, [2])] := by decide +kernel

/-- Edges and start vertices depend on the state of the search. -/
example : gotOf (dfsBothDemands exHash exJumpDfs
      (fun n t => if t.depth < 1 then [(t.vertex + n + 1, 'x'), (t.vertex + 4, 'y')] else [])
      (fun k s => if k < 3 then some (2 * s.2 + k) else none) [] none 60) = [0, 7, 12] ∧
    (dfsBothRun exHash exJumpDfs
      (fun n t => if t.depth < 1 then [(t.vertex + n + 1, 'x'), (t.vertex + 4, 'y')] else [])
      (fun k s => if k < 3 then some (2 * s.2 + k) else none) [] none 60).reports.map (fun r => (r.vertex, r.depth)) =
      [(0, 0), (4, 1), (1, 1), (7, 0), (11, 1), (12, 0), (16, 1), (18, 1)] := by
  refine ⟨?_, ?_⟩ <;> decide +kernel

/-- The edges function sees the trace. -/
example : (trAwareCalls exHash (exTraceCfg ⟨fun _ => [], id, false, true⟩ (exOptions .dfsTree exInOut))
      (fun _ t => if t.trace.length < 3 then [(t.vertex + 1, 'a'), (2 * t.vertex + 3, 'b')] else []) [] [0] none 80).map
      (fun x => (x.1.trace, x.2.map (·.1))) =
    [([0], [1, 3]), ([0, 3], [4, 9]), ([0, 3, 9], []), ([0, 3, 4], []), ([0, 1], [2, 5]), ([0, 1, 5], []),
     ([0, 1, 2], [])] := by decide +kernel

end NoGraphs
