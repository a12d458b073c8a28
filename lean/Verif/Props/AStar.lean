import Verif.Props.ShortestPaths
import Verif.Proofs.AStarSim
import Verif.Proofs.AStarPaths
import Verif.Proofs.AStarTerm

/-! # Properties of the A* traversal: C24, C25, C62, C63, C64; C05, C39 for it

`g` is any gear, `c` holds the weighted graph, the options, the heuristic function, and the infinity value of the gear;
weights are from any linearly ordered cancellative commutative monoid. Walks, minimal weights, admissible and
consistent heuristics are defined in `Verif/Spec/Weighted.lean`, on the graph alone. -/

set_option linter.unusedSectionVars false

namespace NoGraphs

open Spec

variable {V K L W M ML D : Type} [DecidableEq V] [DecidableEq K]
variable [AddCommMonoid W] [LinearOrder W] [IsOrderedCancelAddMonoid W]
variable (g : WGear V K L W M ML D) (c : AStarCfg V K L W)

/-- Admissible estimates fulfil the condition for goals. -/
theorem towardsOk_of_admissible {goal : V → Prop} (hgoal : ∀ u v, c.vid u = c.vid v → goal u → goal v)
    (hadm : Admissible c.next c.heur goal) (h0 : ∀ v, goal v → 0 ≤ c.heur v) {t : V} (ht : goal t) :
    TowardsOk c (c.vid t) := by
  intro u w v hw hid
  have hv := hgoal t v hid.symm ht
  exact (hadm u w v hw hv).trans (le_add_of_nonneg_right (h0 v hv))

/-- **C24, optimality.** With a heuristic function that never overestimates the weight of a walk to a goal (and is not
negative for goals), the report of a goal has the minimal path length; it is the only report of this goal; and
all goals that can be reached by shorter walks are start vertices or have been reported before (so the goal that is
reported first is a nearest one). The heuristic function need not be consistent, and can have the
value infinity. -/
theorem C24_astar_goal (ht : c.isTree = false) (hd : g.dd.Lawful c.inf) (hn : NonNeg c.next)
    (hc : WCompat c.next c.vid) (hh : HeurCompat c.heur c.vid) {goal : V → Prop}
    (hgoal : ∀ u v, c.vid u = c.vid v → goal u → goal v) (hadm : Admissible c.next c.heur goal)
    (h0 : ∀ v, goal v → 0 ≤ c.heur v) (starts : List V) (limit : Option Int) (fuel : Nat)
    {before after : List (AStarReport V W M ML D)} {r : AStarReport V W M ML D}
    (hr : (aRun g c none none starts limit fuel).reports = before ++ r :: after) (hrg : goal r.vertex) :
    IsIdDist c.next (· ∈ starts) c.vid (c.vid r.vertex) r.pathLength ∧
    (∀ r' ∈ before ++ after, c.vid r'.vertex ≠ c.vid r.vertex) ∧
    ∀ w v, WalkW c.next (· ∈ starts) w v → goal v → w < r.pathLength →
      c.vid v ∈ starts.map c.vid ∨ ∃ r' ∈ before, c.vid r'.vertex = c.vid v := by
  obtain ⟨s, hs, -⟩ := run_reaches (aStep g c) fuel (prepareLimit limit) (aInit g c none none starts)
  obtain ⟨h1, t, t', ha, hb, hbef⟩ := hs.emitted hr
  have inv := a_inv ht hd hn hc hh ha
  obtain ⟨e, rest, hpc, hheap, hst, hec, hre, -⟩ := a_emit ht hb
  have hv : r.vertex = e.item.1 := by rw [hre]
  have hpl : r.pathLength = g.dd.get t.dist (c.vid e.item.1) := by rw [hre]
  have htow := towardsOk_of_admissible c hgoal hadm h0 hrg
  have hele : e ∈ t.heap := by rw [hheap]; exact List.mem_cons_self
  have hfin : ∀ v, c.vid v = c.vid r.vertex → c.heur v ≠ c.inf := by
    intro v hvid hinf
    have h2 := hadm v 0 v (.start rfl) (hgoal _ _ hvid.symm hrg)
    rw [hinf] at h2
    obtain ⟨w, ⟨u, -, hw⟩, -, -, hlt⟩ := inv.ent e hele
    exact absurd (hlt hec) (not_lt_of_ge (h2.trans (hw.nonneg hn)))
  have once := a_once ht hd hn hc hh hfin htow hs
  have hrm : r ∈ repsOf (runMachine (aStep g c) fuel (prepareLimit limit) (aInit g c none none starts)).events := by
    have : r ∈ (aRun g c none none starts limit fuel).reports := by rw [hr]; simp
    exact this
  refine ⟨(once.reps r hrm rfl).2, fun r' hr' heq => ?_, fun w v hw hgv hlt => ?_⟩
  · have hp := once.once
    have hr2 : repsOf (runMachine (aStep g c) fuel (prepareLimit limit) (aInit g c none none starts)).events =
      before ++ r :: after := hr
    rw [hr2] at hp
    rcases List.mem_append.1 hr' with hm | hm
    · exact (List.pairwise_append.1 hp).2.2 r' hm r List.mem_cons_self ⟨heq, rfl⟩
    · exact (List.pairwise_cons.1 (List.pairwise_append.1 hp).2.1).1 r' hm ⟨rfl, heq⟩
  · obtain ⟨hkey, hall⟩ := inv.accept hn hpc hheap hst (hfin _ (by rw [hv]))
    rcases hall w v hw (towardsOk_of_admissible c hgoal hadm h0 hgv) with h2 | h2
    · rcases h2.2 with h3 | ⟨r', h3, h4⟩
      · exact .inl h3
      · exact .inr ⟨r', by rw [← hbef]; exact h3, h4⟩
    · exfalso
      have h3 := hadm v 0 v (.start rfl) hgv
      have h4 : g.dd.get t.dist (c.vid e.item.1) ≤ e.key := by
        rw [hkey]; exact le_add_of_nonneg_right (h0 _ (hv ▸ hrg))
      have h5 : w + c.heur v ≤ w := by
        have := add_le_add_right h3 w
        rwa [add_zero] at this
      rw [hpl] at hlt
      exact absurd hlt (not_lt_of_ge ((h4.trans h2).trans h5))

/-- **C24, completeness.** If the traversal ends without exception, each vertex reachable from a start vertex is a start
vertex or has been reported (with any heuristic function). -/
theorem C24_astar_complete (ht : c.isTree = false) (hd : g.dd.Lawful c.inf) (hn : NonNeg c.next)
    (hc : WCompat c.next c.vid) (hh : HeurCompat c.heur c.vid) (starts : List V) (limit : Option Int) (fuel : Nat)
    (hdone : (aRun g c none none starts limit fuel).ending = .done) :
    (∀ w v, WalkW c.next (· ∈ starts) w v → c.vid v ∈ starts.map c.vid ∨
      ∃ r ∈ (aRun g c none none starts limit fuel).reports, c.vid r.vertex = c.vid v) ∧
    (∀ r ∈ (aRun g c none none starts limit fuel).reports, c.vid r.vertex ∉ starts.map c.vid) := by
  obtain ⟨s, hs, he⟩ := run_reaches (aStep g c) fuel (prepareLimit limit) (aInit g c none none starts)
  unfold aRun at hdone
  rw [hdone] at he
  obtain ⟨-, h2, h3⟩ := a_stop ht he
  refine ⟨fun w v hw => ((a_inv ht hd hn hc hh hs).all_done h2 h3 hw).2, fun r hr => ?_⟩
  obtain ⟨a, b, hab⟩ := List.append_of_mem hr
  obtain ⟨h1, t, t', ha, hb, -⟩ := hs.emitted hab
  obtain ⟨e, rest, hpc, hheap, hst, hec, hre, -⟩ := a_emit ht hb
  rw [hre]
  exact ((a_inv ht hd hn hc hh ha).entR e (by rw [hheap]; exact List.mem_cons_self)).2.2 hec

/-- **C24, termination.** On graphs with finitely many reachable ids the traversal comes to an end, with any heuristic
function; and it can only fail with an `OverflowError`, for a walk that visits no id twice, one further edge,
and possibly the estimate, that sum up to at least the infinity value. -/
theorem C24_astar_terminates (ht : c.isTree = false) (hd : g.dd.Lawful c.inf) (hn : NonNeg c.next)
    (hc : WCompat c.next c.vid) (hh : HeurCompat c.heur c.vid) (starts : List V)
    (hfin : WFinitelyReachable c.next (· ∈ starts) c.vid) :
    ∃ N, ∀ fuel, N ≤ fuel →
      (aRun g c none none starts none fuel).ending = .done ∨
      ((aRun g c none none starts none fuel).ending = .raised .overflowError ∧
        ∃ ks w u v x, SimpleWalkW c.next (· ∈ starts) c.vid ks w u ∧ WEdge c.next u v x ∧
          (c.inf ≤ w + x ∨ (∃ v', c.vid v' = c.vid v ∧ c.heur v' ≠ c.inf ∧ c.inf ≤ w + x + c.heur v'))) := by
  obtain ⟨ids, hids⟩ := hfin
  obtain ⟨N, hN⟩ := a_terminates (g := g) (starts := starts) ht hd hn hc hh hids
  refine ⟨N, fun fuel hf => ?_⟩
  have hne := hN fuel hf (prepareLimit none)
  obtain ⟨s, hs, he⟩ := run_reaches (aStep g c) fuel (prepareLimit none) (aInit g c none none starts)
  unfold aRun
  revert hne he
  generalize (runMachine (aStep g c) fuel (prepareLimit none) (aInit g c none none starts)).ending = en
  cases en with
  | done => exact fun _ _ => .inl rfl
  | outOfFuel => exact fun h _ => absurd rfl h
  | raised e =>
    intro _ he
    rcases he with h | h
    · obtain ⟨h1, h2⟩ := a_fail ht (a_inv ht hd hn hc hh hs) hc h
      exact .inr ⟨by rw [h1], h2⟩
    · exact absurd rfl h.2.1

/-- **C25, partial** (the full statement allows heuristic functions with value infinity, see
`C25_counterexample`). With a consistent heuristic function without infinite estimates, no id is reported twice, and
each report has the minimal path length. -/
theorem C25_astar_consistent_partial (ht : c.isTree = false) (hd : g.dd.Lawful c.inf) (hn : NonNeg c.next)
    (hc : WCompat c.next c.vid) (hh : HeurCompat c.heur c.vid) (hcons : Consistent c.next c.heur)
    (hfin : ∀ v, c.heur v ≠ c.inf) (starts : List V) (limit : Option Int) (fuel : Nat) :
    let reports := (aRun g c none none starts limit fuel).reports
    (reports.map (fun r => c.vid r.vertex)).Nodup ∧
    ∀ r ∈ reports, IsIdDist c.next (· ∈ starts) c.vid (c.vid r.vertex) r.pathLength := by
  intro reports
  obtain ⟨s, hs, -⟩ := run_reaches (aStep g c) fuel (prepareLimit limit) (aInit g c none none starts)
  have once := fun k => a_once (k := k) ht hd hn hc hh (fun v _ => hfin v) (towardsOk_of_consistent hcons k) hs
  refine ⟨?_, fun r hr => ((once _).reps r hr rfl).2⟩
  rw [List.Nodup, List.pairwise_map]
  have key : ∀ l : List (AStarReport V W M ML D),
      (∀ k, l.Pairwise (fun a b => ¬ (c.vid a.vertex = k ∧ c.vid b.vertex = k))) →
      l.Pairwise (fun a b => c.vid a.vertex ≠ c.vid b.vertex) := by
    intro l
    induction l with
    | nil => intro _; exact .nil
    | cons a l ih =>
      intro h
      refine List.pairwise_cons.2 ⟨fun b hb heq => ?_, ih (fun k => (List.pairwise_cons.1 (h k)).2)⟩
      exact (List.pairwise_cons.1 (h (c.vid b.vertex))).1 b hb ⟨heq, rfl⟩
  exact key reports (fun k => (once k).once)

/-- **C62, partial** (the documented order, by path length, is wrong, see `C62_counterexample`). With a consistent
heuristic function without infinite estimates, vertices are reported ordered by the sum of path length
and estimate. -/
theorem C62_astar_order_partial (ht : c.isTree = false) (hd : g.dd.Lawful c.inf) (hn : NonNeg c.next)
    (hc : WCompat c.next c.vid) (hh : HeurCompat c.heur c.vid) (hcons : Consistent c.next c.heur)
    (hfin : ∀ v, c.heur v ≠ c.inf) (starts : List V) (limit : Option Int) (fuel : Nat) :
    ((aRun g c none none starts limit fuel).reports.map
      (fun r => r.pathLength + c.heur r.vertex)).Pairwise (· ≤ ·) := by
  obtain ⟨s, hs, -⟩ := run_reaches (aStep g c) fuel (prepareLimit limit) (aInit g c none none starts)
  obtain ⟨cur, o⟩ := a_order ht hd hn hc hh hfin hcons hs
  exact List.pairwise_map.2 o.ordered

/-- **C63.** With `build_paths`, when a report has the minimal path length (the report of a goal by C24, each
report for consistent heuristic functions by C25), the path that is stored for the vertex at this moment, and at each
later report, is one path of edges of the graph from a start vertex to it, and the weights of its edges sum up to the
path length. It has `depth` edges (if there are no infinite estimates). (For a `vertex_to_id` that distinguishes the
reachable vertices.) -/
theorem C63_astar_paths (ht : c.isTree = false) (hb : c.buildPaths = true) (hd : g.dd.Lawful c.inf)
    (hn : NonNeg c.next) (hc : WCompat c.next c.vid) (hh : HeurCompat c.heur c.vid)
    {validV : V → Prop} {validL : L → Prop} (starts : List V)
    (hst : WStorable g.mo g.lo c.next c.vid starts validV validL)
    (hinj : ∀ w u w' v, WalkW c.next (· ∈ starts) w u → WalkW c.next (· ∈ starts) w' v → c.vid u = c.vid v → u = v)
    (limit : Option Int) (fuel : Nat) {before after : List (AStarReport V W M ML D)} {r : AStarReport V W M ML D}
    (hr : (aRun g c none none starts limit fuel).reports = before ++ r :: after)
    (hmin : IsIdDist c.next (· ∈ starts) c.vid (c.vid r.vertex) r.pathLength) :
    ∃ p : SPath V L, p.first ∈ starts ∧ IsWPath c.next p.first p.steps r.pathLength ∧
      p.verts.getLast? = some r.vertex ∧ ((∀ v, c.heur v ≠ c.inf) → p.steps.length = r.depth) ∧
      ∀ r' ∈ r :: after, ShowsPath (pathsView g.mo g.lo c.vid r'.preds r'.labels) r.vertex p := by
  obtain ⟨s, hs, -⟩ := run_reaches (aStep g c) fuel (prepareLimit limit) (aInit g c none none starts)
  obtain ⟨EC, pinv⟩ := a_path ht hb hd hn hc hh hst hinj hs
  obtain ⟨p, h1, -, h3, h4⟩ := pinv.rep before r after hr hmin
  obtain ⟨q1, q2, q3⟩ := AChain.stored h1
  exact ⟨p, q1, q2, q3.last, h3, fun r' hr' => (h4 r' hr').shows hst.mo hst.lo⟩

/-- **C63 for goals**: with an admissible heuristic function, the path stored for a goal when it is reported is a
shortest one. -/
theorem C63_astar_goal_path (ht : c.isTree = false) (hb : c.buildPaths = true) (hd : g.dd.Lawful c.inf)
    (hn : NonNeg c.next) (hc : WCompat c.next c.vid) (hh : HeurCompat c.heur c.vid)
    {validV : V → Prop} {validL : L → Prop} (starts : List V)
    (hst : WStorable g.mo g.lo c.next c.vid starts validV validL)
    (hinj : ∀ w u w' v, WalkW c.next (· ∈ starts) w u → WalkW c.next (· ∈ starts) w' v → c.vid u = c.vid v → u = v)
    {goal : V → Prop} (hgoal : ∀ u v, c.vid u = c.vid v → goal u → goal v) (hadm : Admissible c.next c.heur goal)
    (h0 : ∀ v, goal v → 0 ≤ c.heur v) (limit : Option Int) (fuel : Nat) :
    ∀ r ∈ (aRun g c none none starts limit fuel).reports, goal r.vertex →
      ∃ p : SPath V L, p.first ∈ starts ∧ IsWPath c.next p.first p.steps r.pathLength ∧
        p.verts.getLast? = some r.vertex ∧
        (∀ w v, WalkW c.next (· ∈ starts) w v → c.vid v = c.vid r.vertex → r.pathLength ≤ w) ∧
        ShowsPath (pathsView g.mo g.lo c.vid r.preds r.labels) r.vertex p := by
  intro r hr hrg
  obtain ⟨a, b, hab⟩ := List.append_of_mem hr
  obtain ⟨hmin, -⟩ := C24_astar_goal g c ht hd hn hc hh hgoal hadm h0 starts limit fuel hab hrg
  obtain ⟨p, h1, h2, h3, -, h5⟩ := C63_astar_paths g c ht hb hd hn hc hh starts hst hinj limit fuel hab hmin
  exact ⟨p, h1, h2, h3, hmin.2, h5 r List.mem_cons_self⟩

/-- **C64.** With estimates of zero, the traversal makes the same reports, in the same order, with the same distances,
depths, stored distances and paths, as the shortest paths traversal with stored distances, and it ends in
the same way. -/
theorem C64_astar_zero (ht : c.isTree = false) (hd : g.dd.Lawful c.inf) (hz : ∀ v, c.heur v = 0) (h0 : 0 < c.inf)
    (starts : List V) (limit : Option Int) (fuel : Nat) :
    let astar := aRun g c none none starts limit fuel
    let sp := spRun g ⟨c.next, c.vid, false, c.buildPaths, true, c.inf⟩ none starts limit fuel
    astar.reports.map (fun r => (r.vertex, r.pathLength, r.depth, r.dist, r.preds, r.labels)) =
      sp.reports.map (fun r => (r.vertex, r.distance, r.depth, r.dist, r.preds, r.labels)) ∧
    astar.ending = sp.ending := by
  intro astar sp
  obtain ⟨h1, h2⟩ := a_zero_sim (M := M) (ML := ML) (g := g) (starts := starts) ht hd hz h0 fuel (prepareLimit limit)
  simp only [AStarCfg.toSp, ht] at h1 h2
  exact ⟨forall₂_map_eq (repsOf_forall₂ h1) (fun a b h => by
    rw [h.1, h.2.1, h.2.2.1, h.2.2.2.1, h.2.2.2.2.1, h.2.2.2.2.2]), h2⟩

/-- **C05 for the A* traversal.** -/
theorem C05_astar (known knownGuesses : Option D) (starts : List V) (fuel : Nat) (k : Nat) :
    let unlimited := aRun g c known knownGuesses starts none fuel
    let limited := aRun g c known knownGuesses starts (some k) fuel
    (expsOf unlimited.events ≤ k → limited = unlimited) ∧
    (k < expsOf unlimited.events →
      limited.events = beforeExp k unlimited.events ∧ limited.ending = .raised .runtimeError) ∧
    expsOf limited.events ≤ k :=
  let h := C05_limit_exact (aStep g c) fuel (aInit g c known knownGuesses starts) k
  ⟨h.1, h.2, C05_reads_at_most (aStep g c) fuel (aInit g c known knownGuesses starts) k⟩

/-- **C39 for the A* traversal.** With any two gears with the same infinity value that can store the reachable
vertices and labels, the traversal makes the same reports, with the same content of distances, predecessors and labels;
and it ends in the same way. (Any option values, also tree mode; any heuristic function.) -/
theorem C39_astar_gear_independent {M' ML' D' : Type} (g' : WGear V K L W M' ML' D')
    (hd : g.dd.Lawful c.inf) (hd' : g'.dd.Lawful c.inf) {validV validV' : V → Prop}
    {validL validL' : L → Prop} (starts : List V)
    (hst : WStorable g.mo g.lo c.next c.vid starts validV validL)
    (hst' : WStorable g'.mo g'.lo c.next c.vid starts validV' validL')
    (limit : Option Int) (fuel : Nat) :
    let run := aRun g c none none starts limit fuel
    let run' := aRun g' c none none starts limit fuel
    run.reports.map (fun r => (r.vertex, r.pathLength, r.depth)) =
      run'.reports.map (fun r => (r.vertex, r.pathLength, r.depth)) ∧
    List.Forall₂ (fun r r' => ∀ k, g.dd.get r.dist k = g'.dd.get r'.dist k ∧
      g.mo.get? r.preds k = g'.mo.get? r'.preds k ∧ g.lo.get? r.labels k = g'.lo.get? r'.labels k)
      run.reports run'.reports ∧
    run.ending = run'.ending := by
  intro run run'
  obtain ⟨h1, h2⟩ := a_gear_sim hd hd' hst hst' fuel (prepareLimit limit)
  have h3 := repsOf_forall₂ h1
  exact ⟨forall₂_map_eq h3 (fun a b h => by rw [h.1, h.2.1, h.2.2.1]),
    h3.imp (fun a b h k => ⟨h.2.2.2.1 k, h.2.2.2.2.1 k, h.2.2.2.2.2 k⟩), h2⟩

/-! ## Counterexamples -/

/-- Two ways to vertex 2, the better one through vertex 1. -/
def exInfGraph : Nat → List (Nat × Nat × Unit)
  | 0 => [(1, 1, ()), (2, 5, ())]
  | 1 => [(2, 1, ())]
  | _ => []

/-- The goal cannot be reached from vertices 1 and 2, the estimates say so. -/
def exInfCfg : AStarCfg Nat Nat Unit Nat := ⟨exInfGraph, id, false, false, 1000, fun v => if v = 0 then 0 else 1000⟩

/-- Hash based collections. -/
def exInfGear : WGear Nat Nat Unit Nat (Nat → Option Nat) (Nat → Option Unit) (Nat → Option Nat) :=
  ⟨dictMap, dictMap, dictDist 1000⟩

/-- **C25 is violated** by heuristic functions with infinite estimates: the heuristic function is consistent, but vertex
2 is reported twice, first with a path length that is not minimal. -/
theorem C25_counterexample :
    exInfGear.dd.Lawful exInfCfg.inf ∧ NonNeg exInfCfg.next ∧ WCompat exInfCfg.next exInfCfg.vid ∧
    HeurCompat exInfCfg.heur exInfCfg.vid ∧ Consistent exInfCfg.next exInfCfg.heur ∧
    (aRun exInfGear exInfCfg none none [0] none 100).ending = .done ∧
    (aRun exInfGear exInfCfg none none [0] none 100).reports.map (fun r => (r.vertex, r.pathLength)) =
      [(2, 5), (1, 1), (2, 2)] ∧
    IsIdDist exInfCfg.next (· ∈ [0]) exInfCfg.vid 2 2 := by
  refine ⟨dictDist_lawful 1000, fun _ _ _ _ => Nat.zero_le _, wcompat_id, fun u v h => ?_, fun u v x h => ?_,
    by decide, by decide, ⟨2, rfl, ?_⟩, fun w' v' hw hid => ?_⟩
  · simp only [exInfCfg, id_eq] at h ⊢; rw [h]
  · obtain ⟨l, hl⟩ := h
    have : v ≠ 0 := by
      intro h0
      subst h0
      match u with
      | 0 => simp [exInfCfg, exInfGraph] at hl
      | 1 => simp [exInfCfg, exInfGraph] at hl
      | n + 2 => simp [exInfCfg, exInfGraph] at hl
    simp only [exInfCfg, if_neg this]
    split <;> omega
  · have h1 : WalkW exInfGraph (· ∈ [0]) 0 0 := .start (by simp)
    have h2 : WalkW exInfGraph (· ∈ [0]) (0 + 1) 1 := .step h1 ⟨(), by simp [exInfGraph]⟩
    exact WalkW.step (w := 0 + 1) (x := 1) h2 ⟨(), by simp [exInfGraph]⟩
  · have key : ∀ w v, WalkW exInfGraph (· ∈ [0]) w v → (v = 0 ∨ (v = 1 ∧ 1 ≤ w) ∨ (v = 2 ∧ 2 ≤ w)) := by
      intro w v h
      induction h with
      | start hs => simp at hs; exact .inl hs
      | @step w u v x _ he ih =>
        obtain ⟨l, hl⟩ := he
        rcases ih with rfl | ⟨rfl, h1⟩ | ⟨rfl, h1⟩
        · simp [exInfGraph] at hl; omega
        · simp [exInfGraph] at hl; omega
        · simp [exInfGraph] at hl
    have hid : v' = 2 := hid
    rcases key w' v' hw with h | ⟨h, -⟩ | ⟨-, h⟩
    · omega
    · omega
    · exact h

/-- A goal (vertex 1), and a vertex that does not help. -/
def exOrderGraph : Nat → List (Nat × Nat × Unit)
  | 0 => [(1, 5, ()), (2, 1, ())]
  | 2 => [(1, 10, ())]
  | _ => []

/-- The estimates are the distances to the goal. -/
def exOrderCfg : AStarCfg Nat Nat Unit Nat := ⟨exOrderGraph, id, false, false, 1000,
  fun v => if v = 0 then 5 else if v = 2 then 10 else 0⟩

/-- **C62 is violated**: with a consistent heuristic function (that gives the exact distances to the goal), the path
lengths of successive reports decrease. -/
theorem C62_counterexample :
    exInfGear.dd.Lawful exOrderCfg.inf ∧ NonNeg exOrderCfg.next ∧ WCompat exOrderCfg.next exOrderCfg.vid ∧
    HeurCompat exOrderCfg.heur exOrderCfg.vid ∧ Consistent exOrderCfg.next exOrderCfg.heur ∧
    (∀ v, exOrderCfg.heur v ≠ exOrderCfg.inf) ∧
    (aRun exInfGear exOrderCfg none none [0] none 100).ending = .done ∧
    (aRun exInfGear exOrderCfg none none [0] none 100).reports.map (fun r => (r.vertex, r.pathLength)) =
      [(1, 5), (2, 1)] := by
  refine ⟨dictDist_lawful 1000, fun _ _ _ _ => Nat.zero_le _, wcompat_id, fun u v h => ?_, fun u v x h => ?_,
    fun v => ?_, by decide, by decide⟩
  · simp only [exOrderCfg, id_eq] at h ⊢; rw [h]
  · obtain ⟨l, hl⟩ := h
    match u with
    | 0 => simp [exOrderCfg, exOrderGraph] at hl ⊢; rcases hl with ⟨rfl, rfl⟩ | ⟨rfl, rfl⟩ <;> simp
    | 1 => simp [exOrderCfg, exOrderGraph] at hl
    | 2 => simp [exOrderCfg, exOrderGraph] at hl ⊢; obtain ⟨rfl, rfl⟩ := hl; simp
    | n + 3 => simp [exOrderCfg, exOrderGraph] at hl
  · simp only [exOrderCfg]
    split
    · simp
    · split <;> simp

/-! ## Non-vacuity -/

/-- The example graph of the shortest paths traversal, with goal 3, and estimates that are admissible, but not
consistent: the estimate of vertex 2 is reduced by 3 along an edge of weight 2. -/
def exACfg : AStarCfg Nat Nat Char Nat := ⟨exW, id, false, true, 1000, fun v => if v = 2 then 3 else 0⟩

example : ((aRun exWHash exACfg none none [0] none 200).reports.map (fun r => (r.vertex, r.pathLength, r.depth)),
    (aRun exWHash exACfg none none [0] none 200).ending) =
    ([(2, 1, 1), (4, 1, 2), (1, 3, 2), (3, 4, 3)], .done) := by decide +kernel

example : (aRun exWArr exACfg none none [0] none 200).reports.map (fun r => (r.vertex, r.pathLength,
      ((pathsView exWArr.mo exWArr.lo id r.preds r.labels).iterLabeledEdgesFromStart 9 r.vertex).1)) =
    [(2, 1, [(0, 2, 'b')]), (4, 1, [(0, 2, 'b'), (2, 4, 'z')]), (1, 3, [(0, 2, 'b'), (2, 1, 'e')]),
     (3, 4, [(0, 2, 'b'), (2, 1, 'e'), (1, 3, 'c')])] := by decide +kernel

/-- From vertex 2 all walks to vertex 3 have weight 3 or more. -/
theorem exW_from2 {w v : Nat} (h : WalkW exW (· = 2) w v) :
    v = 2 ∨ v = 4 ∨ (v = 1 ∧ 2 ≤ w) ∨ (v = 0 ∧ 2 ≤ w) ∨ (v = 3 ∧ 3 ≤ w) := by
  induction h with
  | start hs => exact .inl hs
  | @step w u v x _ he ih =>
    obtain ⟨l, hl⟩ := he
    rcases ih with rfl | rfl | ⟨rfl, h1⟩ | ⟨rfl, h1⟩ | ⟨rfl, h1⟩ <;> simp [exW] at hl <;> omega

/-- The hypotheses of C24 and C63 hold for the example (those about the gears and the graph have been shown for the
shortest paths traversal), and the heuristic function is not consistent. -/
example : Admissible exACfg.next exACfg.heur (· = 3) ∧ (∀ v, v = 3 → 0 ≤ exACfg.heur v) ∧
    HeurCompat exACfg.heur exACfg.vid ∧ (∀ v, exACfg.heur v ≠ exACfg.inf) ∧
    ¬ Consistent exACfg.next exACfg.heur := by
  refine ⟨fun u w v hw hv => ?_, fun _ _ => Nat.zero_le _, fun u v h => ?_, fun v => ?_, fun h => ?_⟩
  · subst hv
    simp only [exACfg] at hw ⊢
    split
    · rename_i hu
      subst hu
      rcases exW_from2 hw with h | h | h | h | h
      · omega
      · omega
      · omega
      · omega
      · exact h.2
    · exact Nat.zero_le _
  · simp only [exACfg, id_eq] at h ⊢; rw [h]
  · simp only [exACfg]; split <;> simp
  · have := h 2 4 0 ⟨'z', by simp [exACfg, exW]⟩
    simp [exACfg] at this

/-- A graph where vertex 1 is reported twice since the (admissible) estimate for vertex 2 is too high: reports of other
vertices than the goal (vertex 3) need not have minimal path lengths. -/
def exTwice : AStarCfg Nat Nat Unit Nat :=
  ⟨fun v => match v with
    | 0 => [(1, 3, ()), (2, 1, ())]
    | 1 => [(3, 10, ())]
    | 2 => [(1, 1, ())]
    | _ => [], id, false, false, 1000, fun v => if v = 2 then 9 else 0⟩

example : (aRun exInfGear exTwice none none [0] none 200).reports.map (fun r => (r.vertex, r.pathLength)) =
    [(1, 3), (2, 1), (1, 2), (3, 12)] := by decide +kernel

/-- C64 on the example. -/
example : (aRun exWHash { exACfg with heur := fun _ => 0 } none none [0] none 200).reports.map
      (fun r => (r.vertex, r.pathLength, r.depth)) =
    (spRun exWHash (exWCfg true) none [0] none 200).reports.map (fun r => (r.vertex, r.distance, r.depth)) ∧
    (spRun exWHash (exWCfg true) none [0] none 200).reports.map (fun r => (r.vertex, r.distance, r.depth)) =
      [(2, 1, 1), (4, 1, 2), (1, 3, 2), (3, 4, 3)] := by decide +kernel

end NoGraphs
