import Verif.Props.AStar
import Verif.Props.BiDijkstra
import Verif.Props.DepthFirst
import Verif.Props.MinimumSpanningTree
import Verif.Props.NeighborsThenDepth
import Verif.Props.Topological

/-! # C96: requesting paths changes nothing else

For each strategy, a run with `build_paths=True` is compared with a run with `build_paths=False`, on the same graph and with
the same other arguments. The collections for predecessors and for labels of the two runs are arbitrary: nothing is
assumed about them. -/

set_option linter.unusedSectionVars false

namespace NoGraphs

open NoGraphs.Spec

/-- The run `on` (with paths) and the run `off` (without paths) read edges and make reports in the same order, with the same
values of what `view` and `view'` show, and end in the same way; and in all reports of `off`, `Clean` holds. -/
structure SameButPaths {σ σ' ρ ρ' X : Type} (view : ρ → X) (view' : ρ' → X) (Clean : ρ' → Prop) (on : RunResult σ ρ)
    (off : RunResult σ' ρ') : Prop where
  /-- reports and reads of edges, in order -/
  events : List.Forall₂ (EvRel (fun r r' => view r = view' r')) on.events off.events
  reports : on.reports.map view = off.reports.map view'
  reads : expsOf on.events = expsOf off.events
  ending : on.ending = off.ending
  clean : ∀ r ∈ off.reports, Clean r

theorem sameButPaths_of_sim {σ σ' ρ ρ' X : Type} {m : σ → Step σ ρ} {m' : σ' → Step σ' ρ'} {view : ρ → X} {view' : ρ' → X}
    {Clean : ρ' → Prop} {R F : σ → σ' → Prop}
    (hsim : ∀ s s', R s s' → StepRel R F (fun r r' => view r = view' r' ∧ Clean r') (m s) (m' s')) (fuel : Nat)
    (lim : Option Int) (s : σ) (s' : σ') (h : R s s') :
    SameButPaths view view' Clean (runMachine m fuel lim s) (runMachine m' fuel lim s') ∧
    ((runMachine m fuel lim s).ending = .done → F (runMachine m fuel lim s).final (runMachine m' fuel lim s').final) := by
  obtain ⟨h1, h2, h3⟩ := run_sim R F _ hsim fuel lim s s' h
  refine ⟨?_, h3⟩
  suffices key : ∀ (a : List (Ev ρ)) (b : List (Ev ρ')),
      List.Forall₂ (EvRel (fun r r' => view r = view' r' ∧ Clean r')) a b →
      List.Forall₂ (EvRel (fun r r' => view r = view' r')) a b ∧ (repsOf a).map view = (repsOf b).map view' ∧
        expsOf a = expsOf b ∧ ∀ r ∈ repsOf b, Clean r by
    obtain ⟨k1, k2, k3, k4⟩ := key _ _ h1
    exact ⟨k1, k2, k3, h2, k4⟩
  intro a b hab
  induction hab with
  | nil => exact ⟨.nil, rfl, rfl, by simp [repsOf]⟩
  | @cons x y a b hxy _ ih =>
    obtain ⟨k1, k2, k3, k4⟩ := ih
    cases x <;> cases y
    · refine ⟨.cons hxy.1 k1, ?_, ?_, ?_⟩
      · simp only [repsOf, List.filterMap_cons, List.map_cons] at k2 ⊢; rw [k2, hxy.1]
      · simpa [expsOf] using k3
      · intro r hr
        simp only [repsOf, List.filterMap_cons, List.mem_cons] at hr
        rcases hr with rfl | hr
        · exact hxy.2
        · exact k4 r hr
    · exact hxy.elim
    · exact hxy.elim
    · refine ⟨.cons hxy k1, ?_, ?_, ?_⟩
      · simpa [repsOf] using k2
      · simpa [expsOf] using k3
      · intro r hr
        exact k4 r (by simpa [repsOf] using hr)

variable {V K L S M ML M' ML' W D : Type} [DecidableEq V] [DecidableEq K]

section Unweighted

variable (so : SetOps S K) (mo : MapOps M K V) (lo : MapOps ML K L) (mo' : MapOps M' K V) (lo' : MapOps ML' K L)

/-- The state of a breadth-first search without what is stored for paths. -/
def BfsState.noPaths (s : BfsState V L S M ML) (m : M') (ml : ML') : BfsState V L S M' ML' :=
  ⟨s.pc, s.toExpand, s.nextToExpand, s.depth, s.visited, m, ml⟩

theorem bfs_off (next : V → List (V × L)) (vid : V → K) (isTree rdi : Bool) (s : BfsState V L S M ML)
    (s' : BfsState V L S M' ML') (h : s' = s.noPaths mo'.empty lo'.empty) :
    StepRel (fun (s : BfsState V L S M ML) (s' : BfsState V L S M' ML') => s' = s.noPaths mo'.empty lo'.empty)
      (fun s s' => s' = s.noPaths mo'.empty lo'.empty)
      (fun (r : BfsReport V S M ML) (r' : BfsReport V S M' ML') => (r.vertex, r.depth, r.visited) =
        (r'.vertex, r'.depth, r'.visited) ∧ r'.preds = mo'.empty ∧ r'.labels = lo'.empty)
      (bfsStep ⟨so, mo, lo⟩ ⟨next, vid, isTree, true⟩ rdi s) (bfsStep ⟨so, mo', lo'⟩ ⟨next, vid, isTree, false⟩ rdi s') := by
  subst h
  obtain ⟨pc, te, ne, d, vi, pr, la⟩ := s
  cases pc with
  | check => cases te; exacts [.stop rfl, .tau rfl]
  | loop =>
    cases te with
    | nil =>
      simp only [bfsStep, BfsState.noPaths]
      cases rdi
      · exact .tau rfl
      · cases ne.getLast? with
        | none => exact .tau rfl
        | some x => exact .emit ⟨rfl, rfl, rfl⟩ rfl
    | cons v r => exact .expand rfl
  | levelEnd => exact .tau rfl
  | edges u es =>
    cases es with
    | nil => exact .tau rfl
    | cons e es =>
      cases isTree
      · cases h : (so.checkAdd vi (vid e.1)).1
        · simp only [bfsStep, bfsVisit, BfsState.noPaths, reduceIte, Bool.false_eq_true, h]
          exact .emit ⟨rfl, rfl, rfl⟩ rfl
        · simp only [bfsStep, bfsVisit, BfsState.noPaths, reduceIte, Bool.false_eq_true, h]
          exact .tau rfl
      · exact .emit ⟨rfl, rfl, rfl⟩ rfl

/-- **C96, breadth-first.** -/
theorem C96_bfs (next : V → List (V × L)) (vid : V → K) (isTree : Bool) (already : S) (starts : List V)
    (limit : Option Int) (fuel : Nat) :
    SameButPaths (fun r => (r.vertex, r.depth, r.visited)) (fun r => (r.vertex, r.depth, r.visited))
      (fun r => r.preds = mo'.empty ∧ r.labels = lo'.empty)
      (bfsRun ⟨so, mo, lo⟩ ⟨next, vid, isTree, true⟩ already starts limit fuel)
      (bfsRun ⟨so, mo', lo'⟩ ⟨next, vid, isTree, false⟩ already starts limit fuel) := by
  exact (sameButPaths_of_sim (bfs_off so mo lo mo' lo' next vid isTree false) _ _ _ _ rfl).1

/-- **C96, neighbors-then-depth.** -/
theorem C96_ntd (next : V → List (V × L)) (vid : V → K) (isTree computeDepth : Bool) (already : S) (starts : List V)
    (limit : Option Int) (fuel : Nat) :
    SameButPaths (fun r => (r.vertex, r.depth, r.visited)) (fun r => (r.vertex, r.depth, r.visited))
      (fun r => r.preds = mo'.empty ∧ r.labels = lo'.empty)
      (ntdRun ⟨so, mo, lo⟩ ⟨⟨next, vid, isTree, true⟩, computeDepth⟩ already starts limit fuel)
      (ntdRun ⟨so, mo', lo'⟩ ⟨⟨next, vid, isTree, false⟩, computeDepth⟩ already starts limit fuel) := by
  refine (sameButPaths_of_sim (F := fun _ _ => True) (R := fun (s : NtdState V L S M ML) (s' : NtdState V L S M' ML') =>
    s' = ⟨s.pc, s.toExpand, s.markers, s.depth, s.selfDepth, s.visited, mo'.empty, lo'.empty⟩) ?_ _ _ _ _ ?_).1
  · rintro ⟨pc, te, ms, d, sd, vi, pr, la⟩ s' rfl
    cases pc with
    | loop =>
      cases te with
      | nil => constructor; trivial
      | cons v rest =>
        simp only [ntdStep]
        cases computeDepth
        · exact .expand rfl
        · cases ntdPop ms (d + 1) with
          | none => exact .fail
          | some x => exact .expand rfl
    | edges u es =>
      cases es with
      | nil => constructor; rfl
      | cons e es =>
        simp only [ntdStep, bfsVisit]
        generalize (if isTree = true then (false, vi) else so.checkAdd vi (vid e.1)) = chk
        obtain ⟨b, vi'⟩ := chk
        cases b
        · exact .emit ⟨rfl, rfl, rfl⟩ rfl
        · exact .tau rfl
  · rfl

/-- The state of a depth-first search without what is stored for paths. -/
def DfsState.noPaths (s : DfsState V L S M ML) (m : M') (ml : ML') : DfsState V L S M' ML' :=
  ⟨s.pc, s.starts, s.cur, s.toVisit, s.markers, s.depth, s.selfDepth, s.n, s.event, s.visited, m, ml⟩

/-- States of runs with and without paths. -/
def DfsOff (mo' : MapOps M' K V) (lo' : MapOps ML' K L) (isTree : Bool) (already : S) (s : DfsState V L S M ML)
    (s' : DfsState V L S M' ML') : Prop :=
  s' = s.noPaths mo'.empty lo'.empty ∧ (isTree = true → s.visited = already)

/-- Reports of runs with and without paths. -/
def DfsOffRep (mo' : MapOps M' K V) (lo' : MapOps ML' K L) (r : DfsReport V S M ML) (r' : DfsReport V S M' ML') : Prop :=
  (r.vertex, r.depth, r.event, r.visited) = (r'.vertex, r'.depth, r'.event, r'.visited) ∧
    r'.preds = mo'.empty ∧ r'.labels = lo'.empty

/-- **C96, depth-first** (without trace). In case of `is_tree`, no vertex may be given as already visited. -/
theorem C96_dfs (next : V → List (V × L)) (vid : V → K) (isTree computeDepth reportStart reportSucc : Bool) (skip : Nat → Bool)
    (already : S) (hal : isTree = true → ∀ k, so.contains already k = false) (starts : List V)
    (limit : Option Int) (fuel : Nat) :
    SameButPaths (fun r => (r.vertex, r.depth, r.event, r.visited)) (fun r => (r.vertex, r.depth, r.event, r.visited))
      (fun r => r.preds = mo'.empty ∧ r.labels = lo'.empty)
      (dfsRun ⟨so, mo, lo⟩ ⟨⟨next, vid, isTree, true⟩, computeDepth, reportStart, reportSucc, skip⟩ already starts limit fuel)
      (dfsRun ⟨so, mo', lo'⟩ ⟨⟨next, vid, isTree, false⟩, computeDepth, reportStart, reportSucc, skip⟩ already starts limit
        fuel) := by
  refine (sameButPaths_of_sim (F := fun _ _ => True) (R := DfsOff mo' lo' isTree already)
    (fun s s' h => ?_) _ _ _ _ ⟨rfl, fun _ => rfl⟩).1
  change StepRel _ _ (DfsOffRep mo' lo') _ _
  revert s s'
  rintro ⟨pc, sts, cur, tv, ms, d, sd, n, ev, vi, pr, la⟩ s' ⟨rfl, hv⟩
  replace hv : isTree = true → vi = already := hv
  have henter : ∀ (t : DfsState V L S M ML) (v : V), (isTree = true → t.visited = already) →
      StepRel (DfsOff mo' lo' isTree already) (fun _ _ => True) (DfsOffRep mo' lo')
      (dfsEnter ⟨⟨next, vid, isTree, true⟩, computeDepth, reportStart, reportSucc, skip⟩ t v)
      (dfsEnter ⟨⟨next, vid, isTree, false⟩, computeDepth, reportStart, reportSucc, skip⟩
        (t.noPaths mo'.empty lo'.empty) v) := by
    intro t v ht
    simp only [dfsEnter, DfsState.noPaths]
    by_cases hc : some v = t.cur
    · simp only [hc, if_true]
      cases reportStart
      · exact .tau ⟨rfl, ht⟩
      · exact .emit ⟨rfl, rfl, rfl⟩ ⟨rfl, ht⟩
    · simp only [hc, if_false]
      cases reportSucc
      · exact .tau ⟨rfl, ht⟩
      · exact .emit ⟨rfl, rfl, rfl⟩ ⟨rfl, ht⟩
  cases pc with
  | start =>
    cases sts with
    | nil => constructor; trivial
    | cons v rest => exact .tau ⟨rfl, hv⟩
  | loop =>
    simp only [dfsStep, dfsPop, DfsState.noPaths]
    cases computeDepth
    all_goals
      cases tv with
      | nil => exact .tau ⟨rfl, hv⟩
      | cons v rest =>
        cases isTree
        · by_cases hk : (so.checkAdd vi (vid v)).1 = true
          · simp only [reduceIte, Bool.false_eq_true, hk]
            exact .tau ⟨rfl, hv⟩
          · simp only [reduceIte, Bool.false_eq_true, hk]
            exact henter _ v (fun h => by simp at h)
        · exact henter _ v hv
  | entered v rep =>
    simp only [dfsStep, DfsState.noPaths]
    by_cases h : (rep && skip n) = true
    · simp only [h, if_true]; exact .tau ⟨rfl, hv⟩
    · simp only [h]; exact .expand ⟨rfl, hv⟩
  | edges v es =>
    cases es with
    | nil => exact .tau ⟨rfl, hv⟩
    | cons e es =>
      simp only [dfsStep, DfsState.noPaths]
      cases isTree
      · by_cases h : so.contains vi (vid e.1) = true
        · simp only [h]; exact .tau ⟨rfl, hv⟩
        · simp only [h]; exact .tau ⟨rfl, hv⟩
      · have h : so.contains vi (vid e.1) = false := by rw [hv rfl]; exact hal rfl _
        simp only [h]; exact .tau ⟨rfl, hv⟩

/-- The state of a topological sorting without what is stored for paths. -/
def TopoState.noPaths (s : TopoState V L S M ML) (m : M') (ml : ML') : TopoState V L S M' ML' :=
  ⟨s.pc, s.stack, s.leave, s.trace, s.depth, s.visited, m, ml, s.cycleFromStart⟩

/-- **C96, topological sorting.** -/
theorem C96_topo (next : V → List (V × L)) (vid : V → K) (isTree : Bool) (already : S) (starts : List V)
    (limit : Option Int) (fuel : Nat) :
    SameButPaths (fun r => (r.vertex, r.depth, r.visited)) (fun r => (r.vertex, r.depth, r.visited))
      (fun r => r.preds = mo'.empty ∧ r.labels = lo'.empty)
      (topoRun ⟨so, mo, lo⟩ ⟨next, vid, isTree, true⟩ already starts limit fuel)
      (topoRun ⟨so, mo', lo'⟩ ⟨next, vid, isTree, false⟩ already starts limit fuel) := by
  refine (sameButPaths_of_sim (F := fun _ _ => True) (R := fun (s : TopoState V L S M ML) (s' : TopoState V L S M' ML') =>
    s' = s.noPaths mo'.empty lo'.empty) ?_ _ _ _ _ rfl).1
  rintro ⟨pc, st, le, tr, d, vi, pr, la, cy⟩ s' rfl
  cases isTree
  · simp only [Bool.false_eq_true, if_false]
    cases pc with
    | cycle => exact .fail
    | loop =>
      cases st with
      | nil => constructor; trivial
      | cons v rest =>
        simp only [topoStep, TopoState.noPaths]
        by_cases h : so.contains tr (vid v) = true
        · simp only [h, if_true]; exact .emit ⟨rfl, rfl, rfl⟩ rfl
        · simp only [h]
          by_cases h2 : 0 < d
          · simp only [h2, if_true]
            by_cases h3 : (so.checkAdd vi (vid v)).1 = true
            · simp only [h3, if_true]; exact .tau rfl
            · simp only [h3]; exact .expand rfl
          · simp only [h2, if_false]; exact .expand rfl
    | edges v es =>
      cases es with
      | nil => exact .tau rfl
      | cons e es =>
        simp only [topoStep, TopoState.noPaths]
        by_cases h : so.contains vi (vid e.1) = true
        · simp only [h, if_true]
          cases so.mustContain tr (vid e.1) with
          | none => exact .fail
          | some b => cases b <;> exact .tau rfl
        · simp only [h]; exact .tau rfl
  · simp only [if_true]
    cases pc with
    | cycle => exact .fail
    | loop =>
      cases st with
      | nil => constructor; trivial
      | cons v rest =>
        cases le with
        | nil => exact .fail
        | cons b ls =>
          cases b
          · exact .expand rfl
          · exact .emit ⟨rfl, rfl, rfl⟩ rfl
    | edges v es =>
      cases es with
      | nil => exact .tau rfl
      | cons e es => exact .tau rfl

end Unweighted

section Weighted

variable (mo : MapOps M K V) (lo : MapOps ML K L) (mo' : MapOps M' K V) (lo' : MapOps ML' K L) (dd : DistOps D K W)

/-- **C96, shortest paths.** -/
theorem C96_sp [Add W] [Zero W] [LinearOrder W] (next : V → List (V × W × L)) (vid : V → K) (isTree keep : Bool) (inf : W)
    (known : Option D) (starts : List V) (limit : Option Int) (fuel : Nat) :
    SameButPaths (fun r => (r.vertex, r.distance, r.depth, r.dist)) (fun r => (r.vertex, r.distance, r.depth, r.dist))
      (fun r => r.preds = mo'.empty ∧ r.labels = lo'.empty)
      (spRun ⟨mo, lo, dd⟩ ⟨next, vid, isTree, true, keep, inf⟩ known starts limit fuel)
      (spRun ⟨mo', lo', dd⟩ ⟨next, vid, isTree, false, keep, inf⟩ known starts limit fuel) ∧
    ((spRun ⟨mo, lo, dd⟩ ⟨next, vid, isTree, true, keep, inf⟩ known starts limit fuel).ending = .done →
      (spRun ⟨mo, lo, dd⟩ ⟨next, vid, isTree, true, keep, inf⟩ known starts limit fuel).final.dist =
      (spRun ⟨mo', lo', dd⟩ ⟨next, vid, isTree, false, keep, inf⟩ known starts limit fuel).final.dist) := by
  have hinit : ∀ (sts : List V) (d : D) (no : Int),
      spStartEntries ⟨mo, lo, dd⟩ (⟨next, vid, isTree, true, keep, inf⟩ : WCfg V K L W) d sts no =
      spStartEntries ⟨mo', lo', dd⟩ (⟨next, vid, isTree, false, keep, inf⟩ : WCfg V K L W) d sts no := by
    intro sts
    induction sts with
    | nil => intros; rfl
    | cons v vs ih => intro d no; simp only [spStartEntries]; rw [ih]
  refine sameButPaths_of_sim (F := fun s s' => s.dist = s'.dist)
    (R := fun (s : SpState V L W M ML D) (s' : SpState V L W M' ML' D) =>
    s' = ⟨s.pc, s.heap, s.no, s.dist, mo'.empty, lo'.empty⟩) ?_ _ _ _ _ ?_
  · rintro ⟨pc, hp, no, di, pr, la⟩ s' rfl
    cases pc with
    | loop =>
      cases hp with
      | nil => constructor; rfl
      | cons e rest =>
        simp only [spStep]
        by_cases h : (!isTree && decide (dd.get di (vid e.item.1) < e.key)) = true
        · simp only [h, if_true]; exact .tau rfl
        · simp only [h]
          by_cases h2 : e.item.2 > 0
          · simp only [h2, if_true]; exact .emit ⟨rfl, rfl, rfl⟩ rfl
          · simp only [h2, if_false]; exact .tau rfl
    | expand v w ec => exact .expand rfl
    | edges v w ec es =>
      cases es with
      | nil => exact .tau rfl
      | cons e es =>
        obtain ⟨n, x, l⟩ := e
        simp only [spStep, spImprove]
        by_cases h : inf ≤ x + w
        · simp only [h, if_true]; exact .fail
        · simp only [h, if_false]
          generalize (if isTree = true then some di else dd.improve di (vid n) (x + w)) = o
          cases o with
          | none => exact .tau rfl
          | some d => exact .tau rfl
  · simp only [spInit]
    have hd : spDistances ⟨mo', lo', dd⟩ (⟨next, vid, isTree, false, keep, inf⟩ : WCfg V K L W) known starts =
      spDistances ⟨mo, lo, dd⟩ (⟨next, vid, isTree, true, keep, inf⟩ : WCfg V K L W) known starts := rfl
    rw [hd, hinit]
    rfl

/-- **C96, A\*.** -/
theorem C96_astar [AddCommMonoid W] [LinearOrder W] (next : V → List (V × W × L)) (vid : V → K) (isTree : Bool) (inf : W)
    (heur : V → W) (known knownGuesses : Option D) (starts : List V) (limit : Option Int) (fuel : Nat) :
    SameButPaths (fun r => (r.vertex, r.pathLength, r.depth, r.dist)) (fun r => (r.vertex, r.pathLength, r.depth, r.dist))
      (fun r => r.preds = mo'.empty ∧ r.labels = lo'.empty)
      (aRun ⟨mo, lo, dd⟩ ⟨next, vid, isTree, true, inf, heur⟩ known knownGuesses starts limit fuel)
      (aRun ⟨mo', lo', dd⟩ ⟨next, vid, isTree, false, inf, heur⟩ known knownGuesses starts limit fuel) := by
  have hinit : ∀ (sts : List V) (d : D) (no : Int),
      aStartEntries ⟨mo, lo, dd⟩ (⟨next, vid, isTree, true, inf, heur⟩ : AStarCfg V K L W) d sts no =
      aStartEntries ⟨mo', lo', dd⟩ (⟨next, vid, isTree, false, inf, heur⟩ : AStarCfg V K L W) d sts no := by
    intro sts
    induction sts with
    | nil => intros; rfl
    | cons v vs ih => intro d no; simp only [aStartEntries]; rw [ih]
  refine (sameButPaths_of_sim (F := fun _ _ => True)
    (R := fun (s : AStarState V L W M ML D) (s' : AStarState V L W M' ML' D) =>
    s' = ⟨s.pc, s.heap, s.no, s.dist, s.guesses, mo'.empty, lo'.empty⟩) ?_ _ _ _ _ ?_).1
  · rintro ⟨pc, hp, no, di, gu, pr, la⟩ s' rfl
    cases pc with
    | loop =>
      cases hp with
      | nil => constructor; trivial
      | cons e rest =>
        simp only [aStep]
        by_cases h : (!isTree && decide (dd.get gu (vid e.item.1) < e.key)) = true
        · simp only [h, if_true]; exact .tau rfl
        · simp only [h]
          by_cases h2 : e.item.2 > 0
          · simp only [h2, if_true]; exact .emit ⟨rfl, rfl, rfl⟩ rfl
          · simp only [h2, if_false]; exact .tau rfl
    | expand v w ec => exact .expand rfl
    | edges v w ec es =>
      cases es with
      | nil => exact .tau rfl
      | cons e es =>
        obtain ⟨n, x, l⟩ := e
        simp only [aStep, aImprove]
        by_cases h : inf ≤ x + w
        · simp only [h, if_true]; exact .fail
        · simp only [h, if_false]
          generalize (if isTree = true then some (dd.set di (vid n) (x + w)) else dd.improve di (vid n) (x + w)) = o
          cases o with
          | none => exact .tau rfl
          | some d =>
            by_cases h3 : heur n ≠ inf ∧ inf ≤ aGuess inf (x + w) (heur n)
            · simp only [if_pos h3]; exact .fail
            · simp only [if_neg h3]; exact .tau rfl
  · simp only [aInit]
    have hd : aDistances ⟨mo', lo', dd⟩ (⟨next, vid, isTree, false, inf, heur⟩ : AStarCfg V K L W) known starts =
      aDistances ⟨mo, lo, dd⟩ (⟨next, vid, isTree, true, inf, heur⟩ : AStarCfg V K L W) known starts := rfl
    have hg : ∀ d, aGuesses ⟨mo', lo', dd⟩ (⟨next, vid, isTree, false, inf, heur⟩ : AStarCfg V K L W) knownGuesses d starts =
      aGuesses ⟨mo, lo, dd⟩ (⟨next, vid, isTree, true, inf, heur⟩ : AStarCfg V K L W) knownGuesses d starts := fun _ => rfl
    rw [hd, hg, hinit]
    rfl

/-- **C96, minimum spanning tree.** -/
theorem C96_mst [LinearOrder W] (so : SetOps S K) (next : V → List (V × W × L)) (vid : V → K) (starts : List V)
    (limit : Option Int) (fuel : Nat) :
    SameButPaths (fun r => (r.vertex, r.edge)) (fun r => (r.vertex, r.edge))
      (fun r => r.preds = mo'.empty ∧ r.labels = lo'.empty)
      (mstRun ⟨so, mo, lo⟩ ⟨next, vid, true⟩ starts limit fuel)
      (mstRun ⟨so, mo', lo'⟩ ⟨next, vid, false⟩ starts limit fuel) := by
  unfold mstRun
  split
  · exact ⟨.nil, rfl, rfl, rfl, by simp [RunResult.reports, repsOf]⟩
  · refine (sameButPaths_of_sim (F := fun _ _ => True)
      (R := fun (s : MstState V L W S M ML) (s' : MstState V L W S M' ML') =>
      s' = ⟨s.pc, s.heap, s.no, s.visited, mo'.empty, lo'.empty⟩) ?_ _ _ _ _ rfl).1
    rintro ⟨pc, hp, no, vi, pr, la⟩ s' rfl
    cases pc with
    | starts vs => cases vs; exacts [.tau rfl, .expand rfl]
    | loop =>
      cases hp with
      | nil => constructor; trivial
      | cons e rest =>
        simp only [mstStep]
        by_cases h : (so.checkAdd vi (vid e.item.2.1)).1 = true
        · simp only [h, if_true]; exact .tau rfl
        · simp only [h]; exact .emit ⟨rfl, rfl, rfl⟩ rfl
    | expand v => exact .expand rfl
    | edges v es =>
      cases es with
      | nil => exact .tau rfl
      | cons e es =>
        simp only [mstStep]
        by_cases h : so.contains vi (vid e.1) = true
        · simp only [h, if_true]; exact .tau rfl
        · simp only [h]; exact .tau rfl

end Weighted

section Bidirectional

/-- The result of a search, with the path replaced by the one that is returned if no path is requested. -/
def SearchResult.withoutPath : SearchResult W V L → SearchResult W V L
  | .found n _ => .found n .ofNothing
  | r => r

/-- States of the two traversals with and without paths. -/
def BiSide.noPaths (s : BiSide V L S M ML) (m : M') (ml : ML') : BiSide V L S M' ML' := ⟨s.st.noPaths m ml, s.started, s.lim⟩

/-- **C96, bidirectional breadth-first.** -/
theorem C96_bibfs (so : SetOps S K) (mo : MapOps M K V) (lo : MapOps ML K L) (mo' : MapOps M' K V) (lo' : MapOps ML' K L)
    (nextF nextB : V → List (V × L)) (vid : V → K) (starts goals : List V) (reF reB : Bool) (limit : Option Int)
    (fuel : Nat) :
    (biSearch ⟨so, mo, lo⟩ ⟨nextF, nextB, vid, true⟩ starts goals reF reB limit fuel).withoutPath =
    (biSearch ⟨so, mo', lo'⟩ ⟨nextF, nextB, vid, false⟩ starts goals reF reB limit fuel).withoutPath := by
  unfold biSearch
  cases hcom : biCommon vid starts goals reF reB with
  | some v => rfl
  | none =>
    dsimp only
    have key := run_sim (m := biStep ⟨so, mo, lo⟩ ⟨nextF, nextB, vid, true⟩)
      (m' := biStep ⟨so, mo', lo'⟩ ⟨nextF, nextB, vid, false⟩)
      (fun s s' => s' = ⟨s.fw.noPaths mo'.empty lo'.empty, s.bw.noPaths mo'.empty lo'.empty, s.back, s.prev, s'.result⟩ ∧
        s.result.map Prod.fst = s'.result.map Prod.fst)
      (fun s s' => s.result.map Prod.fst = s'.result.map Prod.fst) (fun _ _ => True) ?_ fuel none
      (biInit ⟨so, mo, lo⟩ ⟨nextF, nextB, vid, true⟩ starts goals limit)
      (biInit ⟨so, mo', lo'⟩ ⟨nextF, nextB, vid, false⟩ starts goals limit) ⟨rfl, rfl⟩
    · obtain ⟨-, h2, h3⟩ := key
      rw [← h2]
      generalize runMachine (biStep ⟨so, mo, lo⟩ ⟨nextF, nextB, vid, true⟩) fuel none _ = r at h2 h3
      generalize runMachine (biStep ⟨so, mo', lo'⟩ ⟨nextF, nextB, vid, false⟩) fuel none _ = r' at h2 h3
      cases he : r.ending with
      | outOfFuel => rfl
      | raised e => rfl
      | done =>
        have := h3 he
        dsimp only
        cases h4 : r.final.result with
        | none =>
          rw [h4] at this
          cases h5 : r'.final.result with
          | none => rfl
          | some y => rw [h5] at this; simp at this
        | some x =>
          rw [h4] at this
          cases h5 : r'.final.result with
          | none => rw [h5] at this; simp at this
          | some y =>
            rw [h5] at this
            simp only [Option.map_some, Option.some.injEq] at this
            dsimp only
            rw [this]; rfl
    · rintro ⟨fw, bw, back, prev, res⟩ ⟨fw', bw', back', prev', res'⟩ ⟨h, hr⟩
      simp only [BiState.mk.injEq] at h
      obtain ⟨rfl, rfl, rfl, rfl, -⟩ := h
      dsimp only at hr
      unfold biStep
      cases back' with
      | false =>
        have hs := bfs_off so mo lo mo' lo' nextF vid false true fw.st _ rfl
        dsimp only [BiCfg.side, BiState.cur, BiState.other, BiState.setCur, BiSide.noPaths] at hs ⊢
        simp only [Bool.false_eq_true, if_false, if_true] at hs ⊢
        revert hs
        generalize bfsStep _ _ true fw.st = x
        generalize bfsStep _ _ true (BfsState.noPaths fw.st _ _) = y
        intro hs
        cases hs with
        | stop _ => exact .stop hr
        | fail => exact .fail
        | tau h => subst h; exact .tau ⟨rfl, hr⟩
        | expand h =>
          subst h
          dsimp only
          cases checkLimit fw.lim with
          | none => exact .fail
          | some l => exact .expand ⟨rfl, hr⟩
        | @emit r r' t t' hq h =>
          subst h
          obtain ⟨hq, -⟩ := hq
          simp only [Prod.mk.injEq] at hq
          dsimp only
          rw [← hq.1]
          by_cases h1 : prev' = some r.vertex
          · simp only [if_pos h1]; exact .tau ⟨rfl, hr⟩
          · simp only [if_neg h1]
            by_cases h2 : so.contains bw.st.visited (vid r.vertex) = true
            · rw [if_pos h2, if_pos (show so.contains (bw.st.noPaths mo'.empty lo'.empty).visited (vid r.vertex) = true from h2)]
              exact .stop rfl
            · rw [if_neg h2, if_neg (show ¬ so.contains (bw.st.noPaths mo'.empty lo'.empty).visited (vid r.vertex) = true from h2)]
              exact .tau ⟨rfl, hr⟩
      | true =>
        have hs := bfs_off so mo lo mo' lo' nextB vid false true bw.st _ rfl
        dsimp only [BiCfg.side, BiState.cur, BiState.other, BiState.setCur, BiSide.noPaths] at hs ⊢
        simp only [Bool.false_eq_true, if_false, if_true] at hs ⊢
        revert hs
        generalize bfsStep _ _ true bw.st = x
        generalize bfsStep _ _ true (BfsState.noPaths bw.st _ _) = y
        intro hs
        cases hs with
        | stop _ => exact .stop hr
        | fail => exact .fail
        | tau h => subst h; exact .tau ⟨rfl, hr⟩
        | expand h =>
          subst h
          dsimp only
          cases checkLimit bw.lim with
          | none => exact .fail
          | some l => exact .expand ⟨rfl, hr⟩
        | @emit r r' t t' hq h =>
          subst h
          obtain ⟨hq, -⟩ := hq
          simp only [Prod.mk.injEq] at hq
          dsimp only
          rw [← hq.1]
          by_cases h1 : prev' = some r.vertex
          · simp only [if_pos h1]; exact .tau ⟨rfl, hr⟩
          · simp only [if_neg h1]
            by_cases h2 : so.contains fw.st.visited (vid r.vertex) = true
            · rw [if_pos h2, if_pos (show so.contains (fw.st.noPaths mo'.empty lo'.empty).visited (vid r.vertex) = true from h2)]
              exact .stop rfl
            · rw [if_neg h2, if_neg (show ¬ so.contains (fw.st.noPaths mo'.empty lo'.empty).visited (vid r.vertex) = true from h2)]
              exact .tau ⟨rfl, hr⟩

/-- The variables of one direction without what is stored for paths. -/
def BdSide.noPaths (s : BdSide V W M ML D) (m : M') (ml : ML') : BdSide V W M' ML' D :=
  ⟨s.heap, s.no, s.dist, m, ml, s.lim⟩

/-- The state of a search without what is stored for paths. -/
def BdState.noPaths (s : BdState V L W M ML D) (m : M') (ml : ML') : BdState V L W M' ML' D :=
  ⟨s.pc, s.fw.noPaths m ml, s.bw.noPaths m ml, s.back, s.best, s.node, s.others, s.found⟩

/-- **C96, bidirectional shortest path.** -/
theorem C96_bd [AddCommMonoid W] [LinearOrder W] (mo : MapOps M K V) (lo : MapOps ML K L) (mo' : MapOps M' K V)
    (lo' : MapOps ML' K L) (dd : DistOps D K W) (nextF nextB : V → List (V × W × L)) (vid : V → K) (inf : W)
    (starts goals : List V) (limit : Option Int) (fuel pathFuel pathFuel' : Nat) :
    (bdSearch ⟨mo, lo, dd⟩ ⟨nextF, nextB, vid, true, inf⟩ starts goals limit fuel pathFuel).withoutPath =
    (bdSearch ⟨mo', lo', dd⟩ ⟨nextF, nextB, vid, false, inf⟩ starts goals limit fuel pathFuel').withoutPath := by
  have hent : ∀ (sts : List V) (d : D) (no : Int),
      bdStartEntries ⟨mo', lo', dd⟩ (⟨nextF, nextB, vid, false, inf⟩ : BdCfg V K L W) d sts no =
      bdStartEntries ⟨mo, lo, dd⟩ (⟨nextF, nextB, vid, true, inf⟩ : BdCfg V K L W) d sts no := by
    intro sts
    induction sts with
    | nil => intros; rfl
    | cons v vs ih => intro d no; simp only [bdStartEntries]; rw [ih]
  have hside : ∀ sts : List V, bdInitSide ⟨mo', lo', dd⟩ (⟨nextF, nextB, vid, false, inf⟩ : BdCfg V K L W) sts limit =
      (bdInitSide ⟨mo, lo, dd⟩ (⟨nextF, nextB, vid, true, inf⟩ : BdCfg V K L W) sts limit).noPaths mo'.empty lo'.empty := by
    intro sts
    simp only [bdInitSide, BdSide.noPaths]
    have : bdDistances ⟨mo', lo', dd⟩ (⟨nextF, nextB, vid, false, inf⟩ : BdCfg V K L W) sts =
      bdDistances ⟨mo, lo, dd⟩ (⟨nextF, nextB, vid, true, inf⟩ : BdCfg V K L W) sts := rfl
    rw [this, hent]
    rfl
  cases starts with
  | nil => rfl
  | cons start rs =>
    cases goals with
    | nil => rfl
    | cons gl rg =>
      simp only [bdSearch]
      cases hcom : biCommon vid (start :: rs) (gl :: rg) true true with
      | some v => rfl
      | none =>
        dsimp only
        have key := run_sim (m := bdStep ⟨mo, lo, dd⟩ ⟨nextF, nextB, vid, true, inf⟩)
          (m' := bdStep ⟨mo', lo', dd⟩ ⟨nextF, nextB, vid, false, inf⟩)
          (fun s s' => s' = s.noPaths mo'.empty lo'.empty) (fun s s' => s' = s.noPaths mo'.empty lo'.empty)
          (fun _ _ => True) ?_ fuel none
          (bdInit ⟨mo, lo, dd⟩ ⟨nextF, nextB, vid, true, inf⟩ start (start :: rs) (gl :: rg) limit)
          (bdInit ⟨mo', lo', dd⟩ ⟨nextF, nextB, vid, false, inf⟩ start (start :: rs) (gl :: rg) limit)
          (by simp only [bdInit, BdState.noPaths, hside])
        · obtain ⟨-, h2, h3⟩ := key
          rw [← h2]
          generalize runMachine (bdStep ⟨mo, lo, dd⟩ ⟨nextF, nextB, vid, true, inf⟩) fuel none _ = r at h2 h3
          generalize runMachine (bdStep ⟨mo', lo', dd⟩ ⟨nextF, nextB, vid, false, inf⟩) fuel none _ = r' at h2 h3
          cases he : r.ending with
          | outOfFuel => rfl
          | raised e => rfl
          | done =>
            have := h3 he
            dsimp only
            rw [this]
            by_cases hf : r.final.found = true
            · rw [if_pos hf, if_pos (show (r.final.noPaths mo'.empty lo'.empty).found = true from hf)]; rfl
            · rw [if_neg hf, if_neg (show ¬ (r.final.noPaths mo'.empty lo'.empty).found = true from hf)]
        · rintro ⟨pc, fw, bw, back, best, node, others, fo⟩ s' rfl
          cases pc with
          | loop =>
            cases back
            all_goals
              simp only [bdStep, BdState.noPaths, BdState.get, Bool.false_eq_true, if_false, if_true, BdSide.noPaths]
              first
              | (obtain ⟨hp, no, di, pr, la, lim⟩ := fw
                 cases hp with
                 | nil => exact .stop rfl
                 | cons e rest =>
                  dsimp only
                  by_cases h1 : dd.get di (vid e.item) < e.key
                  · simp only [if_pos h1]; exact .tau rfl
                  · simp only [if_neg h1]
                    by_cases h2 : inf ≠ best ∧ best ≤ e.key + others
                    · simp only [if_pos h2]; exact .stop rfl
                    · simp only [if_neg h2]
                      cases checkLimit lim with
                      | none => exact .fail
                      | some l => exact .expand rfl)
              | (obtain ⟨hp, no, di, pr, la, lim⟩ := bw
                 cases hp with
                 | nil => exact .stop rfl
                 | cons e rest =>
                  dsimp only
                  by_cases h1 : dd.get di (vid e.item) < e.key
                  · simp only [if_pos h1]; exact .tau rfl
                  · simp only [if_neg h1]
                    by_cases h2 : inf ≠ best ∧ best ≤ e.key + others
                    · simp only [if_pos h2]; exact .stop rfl
                    · simp only [if_neg h2]
                      cases checkLimit lim with
                      | none => exact .fail
                      | some l => exact .expand rfl)
          | edges v w es =>
            cases es with
            | nil => exact .tau rfl
            | cons e es =>
              obtain ⟨n, x, l⟩ := e
              simp only [bdStep, BdState.noPaths]
              by_cases h : inf ≤ x + w
              · simp only [if_pos h]; exact .fail
              · simp only [if_neg h]
                cases back
                · simp only [BdState.get, Bool.false_eq_true, if_false, if_true, BdSide.noPaths, Bool.not_false]
                  cases dd.improve fw.dist (vid n) (x + w) with
                  | none => exact .tau rfl
                  | some d =>
                    by_cases h2 : best ≤ x + w + dd.get bw.dist (vid n)
                    · simp only [if_pos h2]; exact .tau rfl
                    · simp only [if_neg h2]; exact .tau rfl
                · simp only [BdState.get, Bool.false_eq_true, if_false, if_true, BdSide.noPaths, Bool.not_true]
                  cases dd.improve bw.dist (vid n) (x + w) with
                  | none => exact .tau rfl
                  | some d =>
                    by_cases h2 : best ≤ x + w + dd.get fw.dist (vid n)
                    · simp only [if_pos h2]; exact .tau rfl
                    · simp only [if_neg h2]; exact .tau rfl

end Bidirectional

/-! ## Where it is not so, and examples -/

/-- **C96, the exception.** With `is_tree=True` and a vertex that is given as already visited, a depth-first search that
builds paths does not enter this vertex, and one that builds no paths does. -/
theorem C96_dfs_tree_counterexample :
    (dfsRun exHash ⟨⟨fun v => if v = 0 then [(1, 'a')] else [], id, true, true⟩, true, false, true, fun _ => false⟩ [1] [0] none
      100).reports.map (fun r => r.vertex) = [] ∧
    (dfsRun exHash ⟨⟨fun v => if v = 0 then [(1, 'a')] else [], id, true, false⟩, true, false, true, fun _ => false⟩ [1] [0]
      none 100).reports.map (fun r => r.vertex) = [1] := by
  decide +kernel

/-- Runs with and without paths. -/
example :
    (topoRun exHash (exDagCfg true) [] [0] none 100).reports.map (fun r => (r.vertex, r.depth)) =
      (topoRun exHash (exDagCfg false) [] [0] none 100).reports.map (fun r => (r.vertex, r.depth)) ∧
    (topoRun exHash (exDagCfg true) [] [0] none 100).reports.map (fun r => r.preds 3) ≠
      (topoRun exHash (exDagCfg false) [] [0] none 100).reports.map (fun r => r.preds 3) ∧
    (topoRun exHash (exDagCfg true) [] [0] none 100).reports.length = 5 := by decide +kernel

/-- In a tree without a given vertex, the condition of `C96_dfs` holds. -/
example : ∀ k : Nat, exHash.so.contains exHash.so.empty k = false := fun _ => rfl

example : biSearch exHash ⟨exNext, exPrev, id, false⟩ [0] [4] true true none 100 = .found 3 .ofNothing ∧
    (biSearch exHash ⟨exNext, exPrev, id, true⟩ [0] [4] true true none 100).withoutPath = .found 3 .ofNothing ∧
    biSearch exHash ⟨exNext, exPrev, id, true⟩ [0] [4] true true none 100 ≠ .found 3 .ofNothing := by decide +kernel

end NoGraphs
