import Verif.Model.Start
import Verif.Props.InfBranching

/-! # Creation and start of strategies: C53, C69 -/

set_option linter.unusedSectionVars false

namespace NoGraphs

variable {V K L S M ML F : Type}

/-! ## Specification -/

/-- The vertices an iterable contains. -/
def PyIter.content : PyIter V → List V
  | .collection xs => xs
  | .reiterable xs => xs
  | .iterator xs => xs

/-- The iterable can be iterated again and again. -/
def PyIter.rereadable : PyIter V → Bool
  | .iterator _ => false
  | _ => true

/-- The start vertices the parameters `start_vertex` and `start_vertices` stand for, if exactly one of them is given. -/
def givenStarts : Option V → Option (PyIter V) → Option (List V)
  | some v, none => some [v]
  | none, some it => some it.content
  | _, _ => none

/-- `RuntimeError` unless start vertices are given in exactly one way; otherwise the result for the vertices. -/
def startedWith {α : Type} (startVertex : Option V) (startVertices : Option (PyIter V)) (run : List V → α) : Except PyErr α :=
  match givenStarts startVertex startVertices with
  | none => .error .runtimeError
  | some starts => .ok (run starts)

/-! ## Proofs -/

theorem PyIter.read_fst (it : PyIter V) : it.read.1 = it.content := by cases it <;> rfl

theorem PyIter.read_again (it : PyIter V) (h : it.isCollection = true) : it.read.2 = it := by
  cases it <;> first | rfl | simp [PyIter.isCollection] at h

/-- What the start of a traversal with visited set yields. -/
theorem startWithVisited_spec (sv : Option V) (svs : Option (PyIter V)) (b t : Bool) :
    ∃ it : List V → PyIter V, (∀ xs, (it xs).read.1 = xs) ∧
    startWithVisited sv svs b true t true =
      startedWith sv svs (fun xs => (it xs, if b then xs else [], if t then [] else xs)) := by
  refine ⟨.collection, fun _ => rfl, ?_⟩
  rcases sv with _ | v <;> rcases svs with _ | it <;> try rfl
  · rcases it with xs | xs | xs <;> cases b <;> cases t <;> rfl
  · cases b <;> cases t <;> rfl

/-- What the start of a depth-first traversal yields. -/
theorem startWithVisited_dfs (sv : Option V) (svs : Option (PyIter V)) (b t : Bool) :
    ∃ it : List V → PyIter V, (∀ xs, givenStarts sv svs = some xs → (it xs).read.1 = xs) ∧
    startWithVisited sv svs b false t false = startedWith sv svs (fun xs => (it xs, [], [])) := by
  refine ⟨fun xs => svs.getD (.collection xs), ?_, ?_⟩
  · rcases sv with _ | v <;> rcases svs with _ | it <;> intro xs h <;> cases h
    · exact it.read_fst
    · rfl
  · rcases sv with _ | v <;> rcases svs with _ | it <;> try rfl
    rcases it with xs | xs | xs <;> cases b <;> cases t <;> rfl

/-- What the start of a traversal with weights yields. -/
theorem startFrom_spec (sv : Option V) (svs : Option (PyIter V)) (b : Bool) :
    ∃ it : List V → PyIter V, (∀ xs, givenStarts sv svs = some xs → (it xs).read.1 = xs) ∧
    startFrom sv svs b true = startedWith sv svs (fun xs => (it xs, if b then xs else [])) := by
  cases b
  · refine ⟨fun xs => svs.getD (.collection xs), ?_, ?_⟩
    · rcases sv with _ | v <;> rcases svs with _ | it <;> intro xs h <;> cases h
      · exact it.read_fst
      · rfl
    · rcases sv with _ | v <;> rcases svs with _ | it <;> rfl
  · refine ⟨.collection, fun _ _ => rfl, ?_⟩
    rcases sv with _ | v <;> rcases svs with _ | it <;> try rfl
    rcases it with xs | xs | xs <;> rfl

theorem startPreds_eq (b : Bool) (vid : V → K) (mo : MapOps M K V) (xs : List V) :
    startPreds b vid mo (if b then xs else []) =
      if b then mo.setAll mo.empty (xs.map (fun v => (vid v, v))) else mo.empty := by cases b <;> rfl

theorem startVisited_eq (so : SetOps S K) (t : Bool) (vid : V → K) (already : S) (xs : List V) :
    so.addAll already ((if t then [] else xs).map vid) = if t then already else so.addAll already (xs.map vid) := by
  cases t <;> rfl

/-! ## C53: edge functions -/

/-- **C53, edge functions of traversals without weights and of the bidirectional breadth-first search.** The creation
raises `RuntimeError` unless exactly one of the three (pairs of) functions is given. If it succeeds, the given function is
used; edges carry data exactly if it is not `next_vertices`, and labels exactly if it is `next_labeled_edges`. -/
theorem C53_edge_functions (nv ne nl : Option F) :
    createUnifiedNext nv ne nl =
      match nv, ne, nl with
      | some f, none, none => .ok (f, false, false)
      | none, some f, none => .ok (f, true, false)
      | none, none, some f => .ok (f, true, true)
      | _, _, _ => .error .runtimeError := by
  rcases nv with _ | _ <;> rcases ne with _ | _ <;> rcases nl with _ | _ <;> rfl

/-- **C53, edge functions of traversals with weights and of the bidirectional shortest path search.** -/
theorem C53_weighted_edge_functions (ne nl : Option F) :
    createUnifiedNextWeighted ne nl =
      match ne, nl with
      | some f, none => .ok (f, false)
      | none, some f => .ok (f, true)
      | _, _ => .error .runtimeError := by
  rcases ne with _ | _ <;> rcases nl with _ | _ <;> rfl

/-! ## C53 and C69: start vertices -/

section
variable (g : TravGear V K L S M ML)

/-- **C53, C69, breadth-first search.** Starting and iterating raises `RuntimeError` at the start unless exactly one of
`start_vertex` and `start_vertices` is given. Otherwise the run is the run for the list of the given vertices, no matter
what kind of iterable they are given by. -/
theorem C69_bfs_start (c : TravCfg V K L) (already : S) (sv : Option V) (svs : Option (PyIter V)) (limit : Option Int)
    (fuel : Nat) :
    bfsStartRun g c already sv svs limit fuel = startedWith sv svs (fun starts => bfsRun g c already starts limit fuel) := by
  obtain ⟨it, h, e⟩ := startWithVisited_spec sv svs c.buildPaths c.isTree
  unfold bfsStartRun
  rw [e]
  unfold startedWith
  cases givenStarts sv svs
  · rfl
  · simp only [h, startPreds_eq, startVisited_eq]
    rfl

/-- **C53, C69, neighbors-then-depth.** -/
theorem C69_ntd_start (c : NtdCfg V K L) (already : S) (sv : Option V) (svs : Option (PyIter V)) (limit : Option Int)
    (fuel : Nat) :
    ntdStartRun g c already sv svs limit fuel = startedWith sv svs (fun starts => ntdRun g c already starts limit fuel) := by
  obtain ⟨it, h, e⟩ := startWithVisited_spec sv svs c.buildPaths c.isTree
  unfold ntdStartRun
  rw [e]
  unfold startedWith
  cases givenStarts sv svs
  · rfl
  · simp only [h, startPreds_eq, startVisited_eq]
    rfl

/-- **C53, C69, topological sort.** -/
theorem C69_topo_start (c : TravCfg V K L) (already : S) (sv : Option V) (svs : Option (PyIter V)) (limit : Option Int)
    (fuel : Nat) :
    topoStartRun g c already sv svs limit fuel =
      startedWith sv svs (fun starts => topoRun g c already starts limit fuel) := by
  obtain ⟨it, h, e⟩ := startWithVisited_spec sv svs c.buildPaths c.isTree
  unfold topoStartRun
  rw [e]
  unfold startedWith
  cases givenStarts sv svs
  · rfl
  · simp only [h, startPreds_eq, startVisited_eq]
    rfl

/-- **C53, C69, depth-first search without trace.** -/
theorem C69_dfs_start [DecidableEq V] (c : DfsCfg V K L) (already : S) (sv : Option V) (svs : Option (PyIter V))
    (limit : Option Int) (fuel : Nat) :
    dfsStartRun g c already sv svs limit fuel = startedWith sv svs (fun starts => dfsRun g c already starts limit fuel) := by
  obtain ⟨it, h, e⟩ := startWithVisited_dfs sv svs c.buildPaths c.isTree
  unfold dfsStartRun
  rw [e]
  unfold startedWith
  cases hg : givenStarts sv svs
  · rfl
  · simp only [h _ hg]
    have : startPreds c.buildPaths c.vid g.mo [] = g.mo.empty := by cases hb : c.buildPaths <;> rfl
    simp only [this]
    rfl

/-- **C53, C69, depth-first search with trace.** -/
theorem C69_dfs_trace_start [DecidableEq V] [DecidableEq K] (c : TraceCfg V K L) (already : S) (sv : Option V)
    (svs : Option (PyIter V)) (limit : Option Int) (fuel : Nat) :
    trStartRun g c already sv svs limit fuel = startedWith sv svs (fun starts => trRun g c already starts limit fuel) := by
  obtain ⟨it, h, e⟩ := startWithVisited_dfs sv svs c.buildPaths c.isTree
  unfold trStartRun
  rw [e]
  unfold startedWith
  cases hg : givenStarts sv svs
  · rfl
  · simp only [h _ hg]
    have : startPreds c.buildPaths c.vid g.mo [] = g.mo.empty := by cases hb : c.buildPaths <;> rfl
    simp only [this]
    rfl

end

section
variable {W D : Type} [AddCommMonoid W] [LinearOrder W] (g : WGear V K L W M ML D)

/-- **C53, C69, shortest paths.** -/
theorem C69_sp_start (c : WCfg V K L W) (known : Option D) (sv : Option V) (svs : Option (PyIter V)) (limit : Option Int)
    (fuel : Nat) :
    spStartRun g c known sv svs limit fuel = startedWith sv svs (fun starts => spRun g c known starts limit fuel) := by
  obtain ⟨it, h, e⟩ := startFrom_spec sv svs c.buildPaths
  unfold spStartRun
  rw [e]
  unfold startedWith
  cases hg : givenStarts sv svs
  · rfl
  · simp only [h _ hg, startPreds_eq]
    rfl

/-- **C53, C69, A*.** -/
theorem C69_astar_start (c : AStarCfg V K L W) (known guesses : Option D) (sv : Option V) (svs : Option (PyIter V))
    (limit : Option Int) (fuel : Nat) :
    aStartRun g c known guesses sv svs limit fuel =
      startedWith sv svs (fun starts => aRun g c known guesses starts limit fuel) := by
  obtain ⟨it, h, e⟩ := startFrom_spec sv svs c.buildPaths
  unfold aStartRun
  rw [e]
  unfold startedWith
  cases hg : givenStarts sv svs
  · rfl
  · simp only [h _ hg, startPreds_eq]
    rfl

/-- **C53, C69, minimum spanning tree.** -/
theorem C69_mst_start (g : TravGear V K L S M ML) (c : MstCfg V K L W) (sv : Option V) (svs : Option (PyIter V))
    (limit : Option Int) (fuel : Nat) :
    mstStartRun g c sv svs limit fuel = startedWith sv svs (fun starts => mstRun g c starts limit fuel) := by
  obtain ⟨it, h, e⟩ := startFrom_spec sv svs c.buildPaths
  unfold mstStartRun
  rw [e]
  unfold startedWith
  cases hg : givenStarts sv svs with
  | none => rfl
  | some xs =>
    simp only [h _ hg, startPreds_eq, mstRun]
    split <;> rfl

/-- **C53, C69, shortest paths with infinite branching**: for a single start vertex, and for start vertices given by an
iterable that can be iterated again, or if it is not needed twice. Otherwise, the claim C69 is wrong (see
`C68_counterexample`). -/
theorem C69_ib_start_partial {Mo Do : Type} [DecidableEq V] (g : WGear (V × Nat) (V × Nat) Unit W M ML D)
    (o : IbGear V W Mo Do) (c : IbCfg V W) (sv : Option V) (svs : Option (PyIter V))
    (hone : c.storeDistances = false ∨ c.buildPaths = true ∨ ∀ xs, svs ≠ some (.iterator xs)) (limit : Option Int)
    (fuel : Nat) :
    ibStartRun g o c sv svs limit fuel = startedWith sv svs (fun starts => ibRun g o c true starts limit fuel) := by
  unfold ibStartRun ibRun ibInit ibStarts
  cases hb : c.buildPaths <;> cases hd : c.storeDistances <;> rcases sv with _ | v <;> rcases svs with _ | it <;>
    try rfl
  all_goals rcases it with xs | xs | xs <;> try rfl
  rcases hone with h | h | h
  · rw [h] at hd; simp at hd
  · rw [h] at hb; simp at hb
  · exact absurd rfl (h xs)

/-- The kinds of start vertices in the model of C68 are what the start does with them. -/
theorem ibStartRun_iterator {Mo Do : Type} [DecidableEq V] (g : WGear (V × Nat) (V × Nat) Unit W M ML D)
    (o : IbGear V W Mo Do) (c : IbCfg V W) (xs : List V) (limit : Option Int) (fuel : Nat) :
    ibStartRun g o c none (some (.iterator xs)) limit fuel = .ok (ibRun g o c false xs limit fuel) := by
  unfold ibStartRun ibRun ibInit ibStarts
  cases hb : c.buildPaths <;> cases hd : c.storeDistances <;> rfl

end

/-! ## The bidirectional searches -/

/-- The start and goal vertices that the parameters stand for, if exactly one of them is given. -/
def givenStartsGoals : Option (V × V) → Option (PyIter V × PyIter V) → Option (List V × List V)
  | some (s, t), none => some ([s], [t])
  | none, some (fi, bi) => some (fi.content, bi.content)
  | _, _ => none

/-- **C53, C69, bidirectional shortest path.** -/
theorem C69_bidijkstra_start {W D : Type} [AddCommMonoid W] [LinearOrder W] [DecidableEq V] [DecidableEq K]
    (g : WGear V K L W M ML D) (c : BdCfg V K L W) (pair : Option (V × V)) (vertices : Option (PyIter V × PyIter V))
    (limit : Option Int) (fuel pathFuel : Nat) :
    bdStartSearch g c pair vertices limit fuel pathFuel =
      match givenStartsGoals pair vertices with
      | none => .error .runtimeError
      | some (starts, goals) => .ok (bdSearch g c starts goals limit fuel pathFuel) := by
  have key : ∀ (xs ys : List V),
      (match xs, ys with
        | [], _ => .notFound
        | _, [] => .notFound
        | start :: _, _ :: _ =>
          match biCommon c.vid xs ys true true with
          | some v => .found 0 (.fromVertex v)
          | none =>
            let s := bdInit g c start xs ys limit
            let s := { s with
              fw := { s.fw with preds := startPreds c.buildPath c.vid g.mo (if c.buildPath then xs else []) }
              bw := { s.bw with preds := startPreds c.buildPath c.vid g.mo (if c.buildPath then ys else []) } }
            let r := runMachine (bdStep g c) fuel none s
            match r.ending with
            | .done => if r.final.found then .found r.final.best (bdPath g c r.final pathFuel) else .notFound
            | .raised e => .raised e
            | .outOfFuel => .outOfFuel) = bdSearch g c xs ys limit fuel pathFuel := by
    intro xs ys
    simp only [startPreds_eq]
    rcases xs with _ | ⟨x, xs⟩
    · rfl
    rcases ys with _ | ⟨y, ys⟩ <;> rfl
  rcases pair with _ | ⟨s, t⟩ <;> rcases vertices with _ | ⟨fi, bi⟩ <;> try rfl
  · simp only [givenStartsGoals, ← key]
    unfold bdStartSearch bdStartGoal
    cases hb : c.buildPath <;> rcases fi with xs | xs | xs <;> rcases bi with ys | ys | ys <;> rfl
  · simp only [givenStartsGoals, ← key]
    unfold bdStartSearch bdStartGoal
    cases hb : c.buildPath <;> rfl

/-- **C53, C69, bidirectional breadth-first search**, with the second read of the iterables as in `biSearch` (see C30 for
what this means). -/
theorem C69_bibfs_start [DecidableEq V] [DecidableEq K] (g : TravGear V K L S M ML) (c : BiCfg V K L)
    (pair : Option (V × V)) (vertices : Option (PyIter V × PyIter V)) (limit : Option Int) (fuel : Nat) :
    biStartSearch g c pair vertices limit fuel =
      match givenStartsGoals pair vertices with
      | none => .error .runtimeError
      | some (starts, goals) => .ok (biSearch g c starts goals
        (vertices.all (fun its => its.1.rereadable)) (vertices.all (fun its => its.2.rereadable)) limit fuel) := by
  have hs : ∀ it : PyIter V, startWithVisited none (some it) c.buildPath true false true =
      .ok (.collection it.content, if c.buildPath then it.content else [], it.content) := by
    intro it
    cases hb : c.buildPath <;> rcases it with xs | xs | xs <;> rfl
  rcases pair with _ | ⟨s, t⟩ <;> rcases vertices with _ | ⟨fi, bi⟩ <;> try rfl
  · unfold biStartSearch bdStartGoal
    simp only [hs, startPreds_eq]
    rcases fi with xs | xs | xs <;> rcases bi with ys | ys | ys <;> rfl
  · unfold biStartSearch bdStartGoal
    simp only [hs, startPreds_eq]
    rfl

/-! ## Examples -/

/-- A graph with a cycle. -/
def exStartCfg (build : Bool) : TravCfg Nat Nat Unit :=
  ⟨fun v => if v < 3 then [(v + 1, ()), (0, ())] else [], id, false, build⟩

/-- Hash-based collections. -/
def exStartGear : TravGear Nat Nat Unit (List Nat) (Nat → Option Nat) (Nat → Option Unit) := ⟨hashSet, dictMap, dictMap⟩

/-- C53: two functions, or none, are rejected; one is accepted. -/
example : createUnifiedNext (some 1) (some 2) none = .error .runtimeError ∧
    createUnifiedNext (none : Option Nat) none none = .error .runtimeError ∧
    createUnifiedNext none none (some 3) = .ok (3, true, true) ∧
    createUnifiedNextWeighted (some 1) (some 2) = .error .runtimeError ∧
    createUnifiedNextWeighted none (some 2) = .ok (2, true) := ⟨rfl, rfl, rfl, rfl, rfl⟩

/-- C69: a run started from an iterator that can be used only once, with paths. -/
example :
    (match bfsStartRun exStartGear (exStartCfg true) [] none (some (.iterator [1, 3])) none 100 with
      | .ok r => r.reports.map (fun r => (r.vertex, r.depth))
      | .error _ => []) = [(2, 1), (0, 1)] ∧
    (match bfsStartRun exStartGear (exStartCfg true) [] (some 0) (some (.iterator [1, 3])) none 100 with
      | .ok _ => none
      | .error e => some e) = some .runtimeError := by
  constructor <;> decide +kernel

/-- **C69 is wrong for two strategies**, for iterators that can be used only once: with stored distances and without paths,
the traversal for infinite branching reports nothing (but vertices, if they are given as collection), and the bidirectional
breadth-first search does not find the path between equal vertices. -/
theorem C69_counterexample :
    (∃ r, ibStartRun exIbGear exIbOut (exIbCfg false true) none (some (.iterator [0, 7])) none 100 = .ok r ∧
      r.ending = .done ∧ r.reports.length = 0) ∧
    (∃ r, ibStartRun exIbGear exIbOut (exIbCfg false true) none (some (.collection [0, 7])) none 20 = .ok r ∧
      0 < r.reports.length) ∧
    (let c : BiCfg Nat Nat Unit := ⟨fun _ => [], fun _ => [], id, true⟩
    biStartSearch exStartGear c none (some (.collection [0], .collection [0])) none 100 =
      .ok (.found 0 (.fromVertex 0)) ∧
    biStartSearch exStartGear c none (some (.iterator [0], .iterator [0])) none 100 = .ok .notFound) := by
  refine ⟨⟨_, ibStartRun_iterator .., ?_, ?_⟩, ⟨_, C69_ib_start_partial _ _ _ _ _ (.inr (.inr fun _ => by simp)) .., ?_⟩,
    ?_, ?_⟩
  · decide +kernel
  · decide +kernel
  · decide +kernel
  · rw [C69_bibfs_start]
    exact congrArg Except.ok (by decide +kernel)
  · rw [C69_bibfs_start]
    exact congrArg Except.ok (by decide +kernel)

/-- C69: the hypothesis of `C69_ib_start_partial` holds for an iterator that can be used only once, if distances are not
stored, and there is something to report. -/
example : ((exIbCfg false false).storeDistances = false) ∧
    ∃ r, ibStartRun exIbGear exIbOut (exIbCfg false false) none (some (.iterator [0, 7])) none 20 = .ok r ∧
      0 < r.reports.length :=
  ⟨rfl, _, C69_ib_start_partial _ _ _ _ _ (.inl rfl) .., by decide +kernel⟩

end NoGraphs
