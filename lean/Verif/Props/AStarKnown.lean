import Verif.Proofs.AStarKnown
import Verif.Props.ShortestPaths
import Verif.Props.AStar

/-! # A* with known distances and known path length guesses: C86

Walks that respect known distances (`KWalk`, `IsKDist`) are defined in `Verif/Spec/Weighted.lean`, on the graph
alone. -/

set_option linter.unusedSectionVars false

namespace NoGraphs

open Spec

variable {V K L W M ML D : Type} [DecidableEq V] [DecidableEq K]
variable [AddCommMonoid W] [LinearOrder W] [IsOrderedCancelAddMonoid W]
variable (g : WGear V K L W M ML D) (c : AStarCfg V K L W)

/-- The initial estimates of start vertices, if no guesses are given. -/
theorem aGuesses_known {c : AStarCfg V K L W} {g : WGear V K L W M ML D} (hd : g.dd.Lawful c.inf)
    (hh : HeurCompat c.heur c.vid) {starts : List V} {d : D} {v : V} (hv : v ∈ starts) :
    g.dd.get (aGuesses g c none d starts) (c.vid v) = g.dd.get d (c.vid v) + c.heur v := by
  classical
  let f : K → W := fun k => g.dd.get d k + if h : ∃ u, c.vid u = k then c.heur h.choose else 0
  have hf : ∀ u, f (c.vid u) = g.dd.get d (c.vid u) + c.heur u := fun u => by
    have h : ∃ u', c.vid u' = c.vid u := ⟨u, rfl⟩
    simp only [f, dif_pos h]
    rw [hh _ _ h.choose_spec]
  have heq : starts.map (fun v => (c.vid v, g.dd.get d (c.vid v) + c.heur v)) =
      starts.map (fun v => (c.vid v, f (c.vid v))) := by
    apply List.map_congr_left
    intro u _
    rw [hf]
  have := dist_setAll (g := g) (c := c) hd f starts g.dd.empty (c.vid v)
  rw [if_pos (List.mem_map_of_mem hv), hf] at this
  simp only [aGuesses, heq, this]

/-- **C86, known distances.** For A* with `known_distances`, `B` are the known distances, completed by zero for start
vertices without known distance. With any heuristic function and any `known_path_length_guesses`:

* The path length of a report is smaller than the known distance, and it is the total weight of a walk that begins at a
  start vertex with the distance known for it and reaches each further vertex with a smaller distance than the known
  one.
* If the traversal ends without exception, then for each vertex to which such a walk leads, the collection of distances
  contains the minimal weight of such walks, and there is a report of the vertex with this path length, unless the vertex
  is a start vertex whose known distance is the minimum.

And if no `known_path_length_guesses` are given, and the heuristic function is admissible for some goals, then each
report of a goal has the minimal weight of such walks as path length. -/
theorem C86_astar_known (ht : c.isTree = false) (hd : g.dd.Lawful c.inf) (hn : NonNeg c.next)
    (hc : WCompat c.next c.vid) (starts : List V) (known : D) (knownGuesses : Option D) (limit : Option Int)
    (fuel : Nat) :
    ∃ B : K → W, (∀ k, k ∉ starts.map c.vid → B k = g.dd.get known k) ∧
      (∀ k, B k = g.dd.get known k ∨ (g.dd.get known k = c.inf ∧ B k = 0)) ∧
      let run := aRun g c (some known) knownGuesses starts limit fuel
      (∀ r ∈ run.reports, r.pathLength < B (c.vid r.vertex) ∧
        ∃ v, c.vid v = c.vid r.vertex ∧ KWalk c.next (· ∈ starts) c.vid B r.pathLength v) ∧
      (run.ending = .done → ∀ w v, KWalk c.next (· ∈ starts) c.vid B w v → ∃ u, c.vid u = c.vid v ∧
        IsKDist c.next (· ∈ starts) c.vid B u (g.dd.get run.final.dist (c.vid v)) ∧
        ((c.vid v ∈ starts.map c.vid ∧ g.dd.get run.final.dist (c.vid v) = B (c.vid v)) ∨
          ∃ r ∈ run.reports, c.vid r.vertex = c.vid v ∧ r.pathLength = g.dd.get run.final.dist (c.vid v))) ∧
      (∀ goal : V → Prop, knownGuesses = none → HeurCompat c.heur c.vid →
        (∀ u v, c.vid u = c.vid v → goal u → goal v) → Admissible c.next c.heur goal →
        (∀ v, goal v → 0 ≤ c.heur v) → (∀ v ∈ starts, c.heur v ≠ c.inf ∧ 0 ≤ g.dd.get known (c.vid v)) → 0 < c.inf →
        ∀ r ∈ run.reports, goal r.vertex → ∃ v, c.vid v = c.vid r.vertex ∧
          IsKDist c.next (· ∈ starts) c.vid B v r.pathLength) := by
  have hdist : aDistances g c (some known) starts =
      g.dd.setDefaults known (starts.map (fun v => (c.vid v, 0))) := rfl
  obtain ⟨b1, b2⟩ := setDefaults_start hd c.vid starts known
  refine ⟨g.dd.get (aDistances g c (some known) starts), by rw [hdist]; exact b1, by rw [hdist]; exact b2, ?_⟩
  generalize hB : g.dd.get (aDistances g c (some known) starts) = B
  have hB' : ∀ k, g.dd.get (aDistances g c (some known) starts) k = B k := fun k => by rw [hB]
  intro run
  obtain ⟨s, hs, he⟩ := run_reaches (aStep g c) fuel (prepareLimit limit) (aInit g c (some known) knownGuesses starts)
  have inv := k_inv (G := False) ht hd hn hc hB' (fun h => h.elim) hs
  refine ⟨inv.reps, fun hdone w v hw => ?_, ?_⟩
  · have hdone' : (runMachine (aStep g c) fuel (prepareLimit limit)
        (aInit g c (some known) knownGuesses starts)).ending = .done := hdone
    rw [hdone'] at he
    obtain ⟨h1, h2, h3⟩ := a_stop ht he
    have hall : ∀ w v, KWalk c.next (· ∈ starts) c.vid B w v → KKnown g c starts B s (c.vid v) ∧
        g.dd.get s.dist (c.vid v) ≤ w ∧ KRep g c starts B run.events s (c.vid v) := by
      intro w v hw
      rcases inv.frontier h2 hw with ⟨q1, q2, -, q4⟩ | ⟨e, hmem, -⟩
      · exact ⟨q1, q2, q4⟩
      · rw [h3] at hmem; simp at hmem
    have hfin : run.final = s := h1
    rw [hfin]
    obtain ⟨q1, -, q3⟩ := hall w v hw
    obtain ⟨u, hu, hwu⟩ := inv.walk _ q1
    refine ⟨u, hu, ⟨hwu, fun w' v' hw' hid => ?_⟩, q3⟩
    rw [← hu, ← hid]
    exact (hall w' v' hw').2.1
  · intro goal hnone hh hgoal hadm h0 hst hinf r hr hrg
    subst hnone
    have hB0 : ∀ v ∈ starts, 0 ≤ B (c.vid v) := by
      intro v hv
      rw [← hB, hdist]
      rcases b2 (c.vid v) with h | ⟨-, h⟩
      · rw [h]; exact (hst v hv).2
      · rw [h]
    obtain ⟨before, after, hsplit⟩ := List.append_of_mem hr
    obtain ⟨h1, t, t', ha, hb, -⟩ := hs.emitted hsplit
    have inv := k_inv (G := True) ht hd hn hc hB' (fun _ => ⟨hh, fun v hv => by
      rw [aGuesses_known hd hh hv, aGuess_fin (hst v hv).1, hB']⟩) ha
    obtain ⟨e, rest, hpc, hheap, hok, hec, hre, -⟩ := a_emit ht hb
    have hv : r.vertex = e.item.1 := by rw [hre]
    have hpl : r.pathLength = g.dd.get t.dist (c.vid e.item.1) := by rw [hre]
    have htow := towardsOk_of_admissible c hgoal hadm h0 hrg
    have hele : e ∈ t.heap := by rw [hheap]; exact List.mem_cons_self
    have hfin : c.heur e.item.1 ≠ c.inf := by
      intro h
      have h2 := hadm _ 0 _ (.start rfl) (hv ▸ hrg)
      rw [h] at h2
      exact absurd hinf (not_lt_of_ge h2)
    have hmin := inv.accept_min trivial hn hB0 hh hpc hheap hok hfin (hv ▸ htow)
    obtain ⟨u, hu, hwu⟩ := inv.walk _ (inv.known_ent hele)
    rw [hpl, hv]
    exact ⟨u, hu, hwu, fun w' v' hw' hid => hmin w' v' hw' (hid.trans hu)⟩

/-- **C86, termination.** With known distances and guesses, too, the traversal comes to an end on graphs with finitely
many reachable ids, for any heuristic function; the number of steps does not depend on the calculation limit. -/
theorem C86_astar_terminates (ht : c.isTree = false) (hd : g.dd.Lawful c.inf) (hn : NonNeg c.next)
    (hc : WCompat c.next c.vid) (starts : List V) (known knownGuesses : Option D)
    (hfin : WFinitelyReachable c.next (· ∈ starts) c.vid) :
    ∃ N, ∀ fuel, N ≤ fuel → ∀ limit, (aRun g c known knownGuesses starts limit fuel).ending ≠ .outOfFuel := by
  obtain ⟨ids, hids⟩ := hfin
  obtain ⟨N, h⟩ := k_terminates (g := g) (known := known) (knownGuesses := knownGuesses) ht hd hn hc hids
  exact ⟨N, fun fuel hf limit => h fuel hf _⟩

/-- **C86, known guesses.** The given `known_path_length_guesses` are used for start vertices only: two collections that
are equal for the start vertices (after the missing ones have been added) lead to the same events and reports, with the
same path lengths, depths, paths and distances, and to the same end. -/
theorem C86_astar_guesses (hd : g.dd.Lawful c.inf) (starts : List V) (known : Option D) (kg kg' : D)
    (hsame : ∀ v ∈ starts, g.dd.get (aGuesses g c (some kg') (aDistances g c known starts) starts) (c.vid v) =
      g.dd.get (aGuesses g c (some kg) (aDistances g c known starts) starts) (c.vid v))
    (limit : Option Int) (fuel : Nat) :
    (aRun g c known (some kg') starts limit fuel).events = (aRun g c known (some kg) starts limit fuel).events ∧
    (aRun g c known (some kg') starts limit fuel).ending = (aRun g c known (some kg) starts limit fuel).ending := by
  have hent : ∀ (d d' : D) (vs : List V) (no : Int), (∀ v ∈ vs, g.dd.get d' (c.vid v) = g.dd.get d (c.vid v)) →
      aStartEntries g c d' vs no = aStartEntries g c d vs no := by
    intro d d' vs
    induction vs with
    | nil => intro no _; rfl
    | cons v vs ih =>
      intro no h
      simp only [aStartEntries, h v List.mem_cons_self, ih _ (fun u hu => h u (List.mem_cons_of_mem _ hu))]
  have := run_sim (m := aStep g c) (m' := aStep g c) _ _ _ (fun s s' hr => guesses_sim hd hr) fuel (prepareLimit limit)
    (aInit g c known (some kg) starts) (aInit g c known (some kg') starts) ?_
  · obtain ⟨h1, h2, -⟩ := this
    refine ⟨?_, h2.symm⟩
    have hev : ∀ (a b : List (Ev (AStarReport V W M ML D))), List.Forall₂ (EvRel (fun r r' => r' = r)) a b → b = a := by
      intro a b hab
      induction hab with
      | nil => rfl
      | @cons x y xs ys hxy _ ih =>
        rw [ih]
        cases x <;> cases y <;> simp_all [EvRel]
    exact hev _ _ h1
  · refine ⟨rfl, ?_, rfl, rfl, rfl, rfl, fun _ e he => ?_⟩
    · simp only [aInit, hent _ _ starts 256 hsame]
    · obtain ⟨h1, -, -⟩ := aStartEntries_mem (mem_heapify.1 he)
      exact hsame _ h1

/-! ## Non-vacuity -/

/-- The example graph of C24 (admissible, inconsistent estimates): vertex 1 can only be reached with distance 3, so it is
not reported if distance 3 is known for it; vertex 4 is reported with a smaller distance than the known one. Distance 8 of
the goal is the minimum then. -/
example : ((aRun exWHash exACfg (some (fun k => if k = 1 then some 3 else if k = 4 then some 2 else none)) none
      [0] none 100).reports.map (fun r => (r.vertex, r.pathLength)),
    (aRun exWHash exACfg (some (fun k => if k = 1 then some 3 else if k = 4 then some 2 else none)) none
      [0] none 100).ending) = ([(2, 1), (4, 1), (3, 8)], .done) := by decide +kernel

/-- A start vertex with a known distance that is improved gets reported. -/
example : ((aRun exWHash exACfg (some (fun k => if k = 1 then some 7 else none)) none
      [0, 1] none 100).reports.map (fun r => (r.vertex, r.pathLength)),
    (aRun exWHash exACfg (some (fun k => if k = 1 then some 7 else none)) none
      [0, 1] none 100).ending) = ([(2, 1), (4, 1), (1, 3), (3, 4)], .done) := by decide +kernel

/-- Guesses for other vertices than start vertices have no effect, guesses for start vertices can change the order. -/
example : (aRun exWHash exACfg none (some (fun k => if k = 2 then some 0 else if k = 3 then some 900 else none))
      [0] none 100).reports.map (fun r => (r.vertex, r.pathLength)) = [(2, 1), (4, 1), (1, 3), (3, 4)] ∧
    (aRun exWHash exACfg none (some (fun k => if k = 0 then some 100 else none))
      [0, 1] none 100).reports.map (fun r => (r.vertex, r.pathLength)) = [(3, 1), (2, 1), (4, 1)] := by
  constructor <;> decide +kernel

end NoGraphs
