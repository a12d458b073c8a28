import Mathlib.Algebra.Order.Monoid.NatCast
import Mathlib.Algebra.Order.Ring.Nat
import Verif.Proofs.SpSim
import Verif.Props.Limit
import Verif.Props.Go
import Verif.Props.BfsModes

/-! # Properties of the shortest paths traversal (Dijkstra): C18 - C23, C55; C05, C39, C42, C52 for it

`g` is any gear, `c` holds the weighted graph, the options and the infinity value of the gear; weights
are from any linearly ordered type with an addition that is commutative, monotone and has a neutral element
(`WeightLaws`); exact arithmetic meets this, and also arithmetic with rounding (C75). Walks, their weights and distances are defined in
`Verif/Spec/Weighted.lean`, on the graph alone. -/

set_option linter.unusedSectionVars false

namespace NoGraphs

open Spec

attribute [local instance] wAddCommMagma wAddZeroClass wAddRightMono wAddLeftMono

variable {V K L W M ML D : Type} [DecidableEq V] [DecidableEq K]
variable [Add W] [Zero W] [LinearOrder W] [WeightLaws W]
variable (g : WGear V K L W M ML D) (c : WCfg V K L W)

/-- **C18.** For each reported vertex, `distance` is the minimal total weight of walks from a start
vertex to it: for every graph with non-negative weights, set of start vertices, gear, calculation limit,
and at each moment of the traversal. -/
theorem C18_sp_distance (ht : c.isTree = false) (hd : g.dd.Lawful c.inf) (hn : NonNeg c.next)
    (hc : WCompat c.next c.vid) (starts : List V) (limit : Option Int) (fuel : Nat) :
    ∀ r ∈ (spRun g c none starts limit fuel).reports,
      IsDist c.next (· ∈ starts) c.vid r.vertex r.distance := by
  intro r hr
  obtain ⟨s, hs, -⟩ := run_reaches (spStep g c) fuel (prepareLimit limit) (spInit g c none starts)
  obtain ⟨F, cur, inv, -⟩ := sp_plain_ok ht hd hn hc hs
  obtain ⟨h1, h2, -, h4, -⟩ := inv.reps r hr
  exact isDist_of_aw hn hc h2 (.inl h4) (inv.donev _ _ h1).2.2.2.2

/-- **C19.** No id is reported twice, no id of a start vertex is reported, and distances never decrease. -/
theorem C19_sp_once_ordered (ht : c.isTree = false) (hd : g.dd.Lawful c.inf) (hn : NonNeg c.next)
    (hc : WCompat c.next c.vid) (starts : List V) (limit : Option Int) (fuel : Nat) :
    let reports := (spRun g c none starts limit fuel).reports
    (reports.map (fun r => c.vid r.vertex)).Nodup ∧
    (∀ r ∈ reports, c.vid r.vertex ∉ starts.map c.vid) ∧
    (reports.map (fun r => r.distance)).Pairwise (· ≤ ·) := by
  intro reports
  obtain ⟨s, hs, -⟩ := run_reaches (spStep g c) fuel (prepareLimit limit) (spInit g c none starts)
  obtain ⟨F, cur, inv, -⟩ := sp_plain_ok ht hd hn hc hs
  refine ⟨inv.nodup, fun r hr hm => ?_, inv.ordered⟩
  obtain ⟨h1, -, h3, -, -⟩ := inv.reps r hr
  rw [spB, if_pos hm] at h3
  exact absurd h3 (not_lt_of_ge (inv.donev _ _ h1).1)

/-- **C20, completeness.** If the traversal ends without exception, every vertex reachable from a start
vertex, other than the starts, has been reported. -/
theorem C20_sp_complete (ht : c.isTree = false) (hd : g.dd.Lawful c.inf) (hn : NonNeg c.next)
    (hc : WCompat c.next c.vid) (starts : List V) (limit : Option Int) (fuel : Nat)
    (hdone : (spRun g c none starts limit fuel).ending = .done) :
    ∀ w v, WalkW c.next (· ∈ starts) w v → c.vid v ∈ starts.map c.vid ∨
      ∃ r ∈ (spRun g c none starts limit fuel).reports, c.vid r.vertex = c.vid v := by
  intro w v hw
  obtain ⟨s, hs, he⟩ := run_reaches (spStep g c) fuel (prepareLimit limit) (spInit g c none starts)
  unfold spRun at hdone
  rw [hdone] at he
  obtain ⟨-, h2, h3⟩ := spStep_stop he
  obtain ⟨F, cur, inv, -⟩ := sp_plain_ok ht hd hn hc hs
  obtain ⟨w', hF, -⟩ := inv.all_done hn hc h2 h3 hw
  exact inv.doneRep _ _ hF

/-- **C20, in order of distance.** When a vertex is reported, all vertices with a smaller distance, other
than the starts, have been reported before (also on infinite graphs, where the traversal does not end). -/
theorem C20_sp_before (ht : c.isTree = false) (hd : g.dd.Lawful c.inf) (hn : NonNeg c.next)
    (hc : WCompat c.next c.vid) (starts : List V) (limit : Option Int) (fuel : Nat)
    {before after : List (SpReport V W M ML D)} {r : SpReport V W M ML D}
    (hr : (spRun g c none starts limit fuel).reports = before ++ r :: after) :
    ∀ w v, WalkW c.next (· ∈ starts) w v → w < r.distance → c.vid v ∈ starts.map c.vid ∨
      ∃ r' ∈ before, c.vid r'.vertex = c.vid v := by
  intro w v hw hlt
  obtain ⟨s, hs, -⟩ := run_reaches (spStep g c) fuel (prepareLimit limit) (spInit g c none starts)
  obtain ⟨F, cur, inv, -, comp⟩ := sp_plain_ok ht hd hn hc hs
  have hrm : r ∈ (spRun g c none starts limit fuel).reports := by rw [hr]; simp
  obtain ⟨h1, -, -, h4, -⟩ := inv.reps r hrm
  obtain ⟨w', v', ha, hle, hid⟩ := aw_of_plain hn hc hw (hlt.trans h4)
  have hcur := (inv.donev _ _ h1).2.1
  have hsome := comp w' v' ha (lt_of_lt_of_le (lt_of_le_of_lt hle hlt) hcur)
  obtain ⟨w2, hw2⟩ := Option.isSome_iff_exists.1 hsome
  rw [hid] at hw2
  rcases inv.doneRep _ _ hw2 with h | ⟨r', hr', e⟩
  · exact .inl h
  · right
    have hr'' : r' ∈ before ++ r :: after := hr ▸ hr'
    rcases List.mem_append.1 hr'' with hb | hb
    · exact ⟨r', hb, e⟩
    · exfalso
      have hd1 := inv.reps r' hr'
      have hle2 : r'.distance ≤ w' := by
        rw [e, hw2, Option.some.injEq] at hd1
        rw [← hd1.1]
        exact (inv.donev _ _ hw2).2.2.2.2 w' v' ha hid
      have hge : r.distance ≤ r'.distance := by
        rcases List.mem_cons.1 hb with rfl | hb
        · exact le_refl _
        · have hor : ((before ++ r :: after).map (fun r => r.distance)).Pairwise (· ≤ ·) := hr ▸ inv.ordered
          rw [List.map_append, List.pairwise_append, List.map_cons, List.pairwise_cons] at hor
          exact hor.2.1.1 _ (List.mem_map.2 ⟨r', hb, rfl⟩)
      exact absurd hlt (not_lt_of_ge (hge.trans (hle2.trans hle)))

/-- **C20 and C23, termination.** If only finitely many vertices are reachable, the traversal (without
limit) comes to its end: without exception if all sums of a distance and the weight of a further edge
are below infinity, and with `OverflowError` otherwise. -/
theorem C20_sp_terminates (ht : c.isTree = false) (hd : g.dd.Lawful c.inf) (hn : NonNeg c.next)
    (hc : WCompat c.next c.vid) (starts : List V) (hfin : WFinitelyReachable c.next (· ∈ starts) c.vid) :
    ∃ N, ∀ fuel, N ≤ fuel →
      ((spRun g c none starts none fuel).ending = .done ∧
        ∀ u v x d, IsDist c.next (· ∈ starts) c.vid u d → WEdge c.next u v x → d + x < c.inf) ∨
      ((spRun g c none starts none fuel).ending = .raised .overflowError ∧
        ∃ u v x d, IsDist c.next (· ∈ starts) c.vid u d ∧ WEdge c.next u v x ∧ c.inf ≤ d + x) := by
  obtain ⟨ids, hids⟩ := hfin
  obtain ⟨N, hN⟩ := sp_terminates (g := g) (starts := starts) (B := spB c starts) ht hd hn hc
    (known := none) (fun k => spDistances_none hd k) spB_start_nonneg ids
    (fun w v hw => hids w v (aw_plain hw))
  refine ⟨N, fun fuel hf => ?_⟩
  have hne := hN fuel hf (prepareLimit none)
  obtain ⟨s, hs, he⟩ := run_reaches (spStep g c) fuel (prepareLimit none) (spInit g c none starts)
  obtain ⟨F, cur, inv, -⟩ := sp_plain_ok ht hd hn hc hs
  unfold spRun
  cases hend : (runMachine (spStep g c) fuel (prepareLimit none) (spInit g c none starts)).ending with
  | outOfFuel => exact absurd hend hne
  | done =>
    left
    rw [hend] at he
    obtain ⟨-, h2, h3⟩ := spStep_stop he
    refine ⟨rfl, fun u v x d hu huv => ?_⟩
    obtain ⟨w', hF, -⟩ := inv.all_done hn hc h2 h3 hu.1
    obtain ⟨u0, e0, hd0⟩ := inv.isDist hn hc hF
    have hwd : w' = d := hd0.unique hu e0
    subst hwd
    obtain ⟨u', hu', -, hrel⟩ := inv.relaxed _ _ hF
    obtain ⟨v', hv', -⟩ := hc u u' v x hu'.symm huv
    rcases hrel v' x hv' with hp | ⟨h, -⟩
    · rw [h2] at hp; exact absurd hp id
    · exact h
  | raised e =>
    right
    rw [hend] at he
    rcases he with he | he
    · obtain ⟨rfl, v, w, ec, n, x, l, es, hpc, hinf⟩ := spStep_fail he
      have hp := inv.pcok
      rw [hpc] at hp
      obtain ⟨u0, e0, hd0⟩ := inv.isDist hn hc hp.1
      refine ⟨rfl, v, n, x, w, ⟨aw_plain hp.2.2.1, fun w' v' hw' e => hd0.2 w' v' hw' (e.trans e0.symm)⟩,
        ⟨l, hp.2.2.2 _ List.mem_cons_self⟩, by rw [add_comm]; exact hinf⟩
    · exact absurd rfl he.2.1

/-- **C21, for all kinds of weights.** With `build_paths`, when a vertex is reported, `paths` shows for it a path of labeled edges
of the graph from a start vertex for which the sum of the weights, added from the start
vertex on, is `distance`, and whose number of edges is `depth`;
and `paths` shows the same path at each later report. -/
theorem C21_sp_paths_ordered (ht : c.isTree = false) (hb : c.buildPaths = true) (hd : g.dd.Lawful c.inf)
    (hn : NonNeg c.next) (hc : WCompat c.next c.vid) {validV : V → Prop} {validL : L → Prop}
    (starts : List V) (hst : WStorable g.mo g.lo c.next c.vid starts validV validL)
    (limit : Option Int) (fuel : Nat)
    {before after : List (SpReport V W M ML D)} {r : SpReport V W M ML D}
    (hr : (spRun g c none starts limit fuel).reports = before ++ r :: after) :
    ∃ p : SPath V L, p.first ∈ starts ∧ IsWPathFrom c.next 0 p.first p.steps r.distance ∧
      p.verts.getLast? = some r.vertex ∧ p.steps.length = r.depth ∧
      ∀ r' ∈ r :: after, ShowsPath (pathsView g.mo g.lo c.vid r'.preds r'.labels) r.vertex p := by
  obtain ⟨s, hs, -⟩ := run_reaches (spStep g c) fuel (prepareLimit limit) (spInit g c none starts)
  obtain ⟨F, cur, inv, pinv, -⟩ := sp_plain_ok ht hd hn hc hs
  obtain ⟨p, ⟨h1, h2, h3, h4, -⟩, h5⟩ := (pinv hb ⟨_, _, hst⟩).rep before r after hr
  rw [spB_start _ h1] at h2
  exact ⟨p, h1, h2, h4.last, h3, fun r' hr' => (h5 r' hr').shows hst.mo hst.lo⟩

/-- **C21.** With `build_paths`, when a vertex is reported, `paths` shows for it a path of labeled edges
of the graph from a start vertex whose total weight is `distance` and whose number of edges is `depth`;
and `paths` shows the same path at each later report. -/
theorem C21_sp_paths {W D : Type} [AddCommMonoid W] [LinearOrder W] [IsOrderedAddMonoid W]
    (g : WGear V K L W M ML D) (c : WCfg V K L W) (ht : c.isTree = false) (hb : c.buildPaths = true) (hd : g.dd.Lawful c.inf)
    (hn : NonNeg c.next) (hc : WCompat c.next c.vid) {validV : V → Prop} {validL : L → Prop}
    (starts : List V) (hst : WStorable g.mo g.lo c.next c.vid starts validV validL)
    (limit : Option Int) (fuel : Nat)
    {before after : List (SpReport V W M ML D)} {r : SpReport V W M ML D}
    (hr : (spRun g c none starts limit fuel).reports = before ++ r :: after) :
    ∃ p : SPath V L, p.first ∈ starts ∧ IsWPath c.next p.first p.steps r.distance ∧
      p.verts.getLast? = some r.vertex ∧ p.steps.length = r.depth ∧
      ∀ r' ∈ r :: after, ShowsPath (pathsView g.mo g.lo c.vid r'.preds r'.labels) r.vertex p := by
  obtain ⟨p, h1, h2, h3⟩ := C21_sp_paths_ordered g c ht hb hd hn hc starts hst limit fuel hr
  exact ⟨p, h1, h2.exact_zero, h3⟩

/-- **C21, final state.** The paths of all reported vertices are still the same when the traversal has
ended. -/
theorem C21_sp_paths_final (ht : c.isTree = false) (hb : c.buildPaths = true) (hd : g.dd.Lawful c.inf)
    (hn : NonNeg c.next) (hc : WCompat c.next c.vid) {validV : V → Prop} {validL : L → Prop}
    (starts : List V) (hst : WStorable g.mo g.lo c.next c.vid starts validV validL)
    (limit : Option Int) (fuel : Nat) (hdone : (spRun g c none starts limit fuel).ending = .done) :
    let run := spRun g c none starts limit fuel
    ∀ r ∈ run.reports, ∃ p : SPath V L,
      ShowsPath (pathsView g.mo g.lo c.vid r.preds r.labels) r.vertex p ∧
      ShowsPath (pathsView g.mo g.lo c.vid run.final.preds run.final.labels) r.vertex p := by
  intro run r hr
  obtain ⟨s, hs, he⟩ := run_reaches (spStep g c) fuel (prepareLimit limit) (spInit g c none starts)
  unfold spRun at hdone
  rw [hdone] at he
  have hfin : run.final = s := (spStep_stop he).1
  obtain ⟨F, cur, inv, pinv, -⟩ := sp_plain_ok ht hd hn hc hs
  obtain ⟨a, b, hab⟩ := List.append_of_mem hr
  obtain ⟨p, ⟨-, -, -, h4, -⟩, h5⟩ := (pinv hb ⟨_, _, hst⟩).rep a r b hab
  refine ⟨p, (h5 r List.mem_cons_self).shows hst.mo hst.lo, ?_⟩
  rw [hfin]; exact h4.shows hst.mo hst.lo

/-- **C22, stored distances.** With `keep_distances`, when a vertex is reported, `distances` gives zero
for each start vertex and the (minimal) distance for each vertex reported so far. -/
theorem C22_sp_distances (ht : c.isTree = false) (hk : c.keepDistances = true) (hd : g.dd.Lawful c.inf)
    (hn : NonNeg c.next) (hc : WCompat c.next c.vid) (starts : List V) (limit : Option Int) (fuel : Nat)
    {before after : List (SpReport V W M ML D)} {r : SpReport V W M ML D}
    (hr : (spRun g c none starts limit fuel).reports = before ++ r :: after) :
    (∀ v ∈ starts, g.dd.get r.dist (c.vid v) = 0) ∧
    ∀ r' ∈ before ++ [r], g.dd.get r.dist (c.vid r'.vertex) = r'.distance ∧
      IsDist c.next (· ∈ starts) c.vid r'.vertex r'.distance := by
  obtain ⟨s, hs, -⟩ := run_reaches (spStep g c) fuel (prepareLimit limit) (spInit g c none starts)
  obtain ⟨h1, t, t', ha, hb, hc'⟩ := hs.emitted hr
  have hs' := Reaches.emit ha hb
  obtain ⟨F, cur, inv, -⟩ := sp_plain_ok ht hd hn hc hs'
  obtain ⟨k1, k2⟩ := inv.get_done hk
  rw [← (spStep_emit hb).1] at k1 k2
  refine ⟨k1, fun r' hr' => ⟨k2 r' (by simpa [hc'] using hr'), ?_⟩⟩
  refine C18_sp_distance g c ht hd hn hc starts limit fuel r' ?_
  rw [hr]
  rcases List.mem_append.1 hr' with h | h
  · exact List.mem_append_left _ h
  · simp only [List.mem_singleton] at h
    rw [h]; simp

/-- **C22, at the end.** The same for the distances when the traversal has ended. -/
theorem C22_sp_distances_final (ht : c.isTree = false) (hk : c.keepDistances = true)
    (hd : g.dd.Lawful c.inf) (hn : NonNeg c.next) (hc : WCompat c.next c.vid) (starts : List V)
    (limit : Option Int) (fuel : Nat) (hdone : (spRun g c none starts limit fuel).ending = .done) :
    let run := spRun g c none starts limit fuel
    (∀ v ∈ starts, g.dd.get run.final.dist (c.vid v) = 0) ∧
    ∀ r ∈ run.reports, g.dd.get run.final.dist (c.vid r.vertex) = r.distance := by
  intro run
  obtain ⟨s, hs, he⟩ := run_reaches (spStep g c) fuel (prepareLimit limit) (spInit g c none starts)
  unfold spRun at hdone
  rw [hdone] at he
  have hfin : run.final = s := (spStep_stop he).1
  obtain ⟨F, cur, inv, -⟩ := sp_plain_ok ht hd hn hc hs
  rw [hfin]
  exact inv.get_done hk

/-- **C22, same reports.** The option `keep_distances` does not change the reports (vertex, distance,
depth and stored paths) and the way the traversal ends. -/
theorem C22_sp_keep_same (ht : c.isTree = false) (hd : g.dd.Lawful c.inf) (hn : NonNeg c.next)
    (hc : WCompat c.next c.vid) (starts : List V) (limit : Option Int) (fuel : Nat) (b : Bool) :
    let run := spRun g c none starts limit fuel
    let run' := spRun g { c with keepDistances := b } none starts limit fuel
    run.reports.map (fun r => (r.vertex, r.distance, r.depth, r.preds, r.labels)) =
      run'.reports.map (fun r => (r.vertex, r.distance, r.depth, r.preds, r.labels)) ∧
    run.ending = run'.ending := by
  intro run run'
  obtain ⟨h1, h2⟩ := sp_keep_sim (M := M) (ML := ML) (starts := starts) b ht hd hn hc fuel (prepareLimit limit)
  exact ⟨forall₂_map_eq (repsOf_forall₂ h1) (fun a b h => by rw [h.1, h.2.1, h.2.2.1, h.2.2.2.1, h.2.2.2.2]), h2⟩

/-- **C23.** A reported distance is below infinity, each value of `distances` (except those of starts) is
below infinity or equal to it (nothing stored), and an `OverflowError` is only raised if some distance,
plus the weight of a further edge, is not below infinity. -/
theorem C23_sp_overflow (ht : c.isTree = false) (hd : g.dd.Lawful c.inf) (hn : NonNeg c.next)
    (hc : WCompat c.next c.vid) (starts : List V) (limit : Option Int) (fuel : Nat) :
    let run := spRun g c none starts limit fuel
    (∀ r ∈ run.reports, r.distance < c.inf ∧ ∀ k, k ∉ starts.map c.vid →
      g.dd.get r.dist k < c.inf ∨ g.dd.get r.dist k = c.inf) ∧
    (run.ending = .raised .overflowError →
      ∃ u v x d, IsDist c.next (· ∈ starts) c.vid u d ∧ WEdge c.next u v x ∧ c.inf ≤ d + x) ∧
    (run.ending = .done →
      ∀ u v x d, IsDist c.next (· ∈ starts) c.vid u d → WEdge c.next u v x → d + x < c.inf) := by
  intro run
  obtain ⟨s, hs, he⟩ := run_reaches (spStep g c) fuel (prepareLimit limit) (spInit g c none starts)
  obtain ⟨F, cur, inv, -⟩ := sp_plain_ok ht hd hn hc hs
  refine ⟨fun r hr => ⟨(inv.reps r hr).2.2.2.1, fun k hk => ?_⟩, fun hend => ?_, fun hend => ?_⟩
  · obtain ⟨a, b, hab⟩ := List.append_of_mem hr
    obtain ⟨h1, t, t', ha, hb, -⟩ := hs.emitted hab
    obtain ⟨F', cur', inv', -⟩ := sp_plain_ok ht hd hn hc (Reaches.emit ha hb)
    rw [(spStep_emit hb).1]
    cases hF : F' k with
    | some w =>
      left
      obtain ⟨d1, -, -, d4, -⟩ := inv'.donev _ _ hF
      rcases inv'.doneRep _ _ hF with h | ⟨r', hr', e⟩
      · exact absurd h hk
      · have hw := inv'.reps r' hr'
        rw [e, hF, Option.some.injEq] at hw
        have hlt : w < c.inf := hw.1 ▸ hw.2.2.2.1
        rw [d4]
        split
        · exact hlt
        · exact lt_of_le_of_lt d1 hlt
    | none =>
      obtain ⟨-, ⟨h2, -⟩ | ⟨e, he, h3, h2⟩⟩ := inv'.undone _ hF
      · right; rw [h2, spB, if_neg hk]
      · left
        rcases Nat.eq_zero_or_pos e.item.2 with h0 | h0
        · exact absurd (h3 ▸ List.mem_map.2 ⟨_, (inv'.ent0 e he h0).1, rfl⟩) hk
        · rw [← h2]; exact (inv'.entS e he h0).2
  · have hend' : (runMachine (spStep g c) fuel (prepareLimit limit) (spInit g c none starts)).ending =
        .raised .overflowError := hend
    rw [hend'] at he
    rcases he with he | he
    · obtain ⟨-, v, w, ec, n, x, l, es, hpc, hinf⟩ := spStep_fail he
      have hp := inv.pcok
      rw [hpc] at hp
      obtain ⟨u0, e0, hd0⟩ := inv.isDist hn hc hp.1
      exact ⟨v, n, x, w, ⟨aw_plain hp.2.2.1, fun w' v' hw' e => hd0.2 w' v' hw' (e.trans e0.symm)⟩,
        ⟨l, hp.2.2.2 _ List.mem_cons_self⟩, by rw [add_comm]; exact hinf⟩
    · simp at he
  · have hend' : (runMachine (spStep g c) fuel (prepareLimit limit) (spInit g c none starts)).ending =
        .done := hend
    rw [hend'] at he
    obtain ⟨-, h2, h3⟩ := spStep_stop he
    intro u v x d hu huv
    obtain ⟨w', hF, -⟩ := inv.all_done hn hc h2 h3 hu.1
    obtain ⟨u0, e0, hd0⟩ := inv.isDist hn hc hF
    have hwd : w' = d := hd0.unique hu e0
    subst hwd
    obtain ⟨u', hu', -, hrel⟩ := inv.relaxed _ _ hF
    obtain ⟨v', hv', -⟩ := hc u u' v x hu'.symm huv
    rcases hrel v' x hv' with hp | ⟨h, -⟩
    · rw [h2] at hp; exact absurd hp id
    · exact h

/-- **C05 for the shortest paths traversal** (instance of the theorem for all machines). -/
theorem C05_sp (known : Option D) (starts : List V) (fuel : Nat) (k : Nat) :
    let unlimited := spRun g c known starts none fuel
    let limited := spRun g c known starts (some k) fuel
    (expsOf unlimited.events ≤ k → limited = unlimited) ∧
    (k < expsOf unlimited.events →
      limited.events = beforeExp k unlimited.events ∧ limited.ending = .raised .runtimeError) ∧
    expsOf limited.events ≤ k :=
  let h := C05_limit_exact (spStep g c) fuel (spInit g c known starts) k
  ⟨h.1, h.2, C05_reads_at_most (spStep g c) fuel (spInit g c known starts) k⟩

/-- **C39 for the shortest paths traversal.** With any two gears with the same infinity value that can store
the reachable vertices and labels, the traversal makes the same reports, with the same content of
`distances`, of the predecessors and of the labels at each report; and it ends in the same way. (Any
option values, also tree mode.) -/
theorem C39_sp_gear_independent {M' ML' D' : Type} (g' : WGear V K L W M' ML' D')
    (hd : g.dd.Lawful c.inf) (hd' : g'.dd.Lawful c.inf) {validV validV' : V → Prop}
    {validL validL' : L → Prop} (starts : List V)
    (hst : WStorable g.mo g.lo c.next c.vid starts validV validL)
    (hst' : WStorable g'.mo g'.lo c.next c.vid starts validV' validL')
    (limit : Option Int) (fuel : Nat) :
    let run := spRun g c none starts limit fuel
    let run' := spRun g' c none starts limit fuel
    run.reports.map (fun r => (r.vertex, r.distance, r.depth)) =
      run'.reports.map (fun r => (r.vertex, r.distance, r.depth)) ∧
    List.Forall₂ (fun r r' => ∀ k, g.dd.get r.dist k = g'.dd.get r'.dist k ∧
      g.mo.get? r.preds k = g'.mo.get? r'.preds k ∧ g.lo.get? r.labels k = g'.lo.get? r'.labels k)
      run.reports run'.reports ∧
    run.ending = run'.ending := by
  intro run run'
  obtain ⟨h1, h2⟩ := sp_gear_sim hd hd' hst hst' fuel (prepareLimit limit)
  have h3 := repsOf_forall₂ h1
  exact ⟨forall₂_map_eq h3 (fun a b h => by rw [h.1, h.2.1, h.2.2.1]),
    h3.imp (fun a b h k => ⟨h.2.2.2.1 k, h.2.2.2.2.1 k, h.2.2.2.2.2 k⟩), h2⟩

/-- **C52 for the shortest paths traversal.** If the reachable part of the graph is a forest rooted at the
start vertices, then with `is_tree=True` the traversal makes the same reports (vertex, distance, depth,
and stored paths) as with `is_tree=False`, and ends in the same way. -/
theorem C52_sp_tree (ht : c.isTree = false) (hd : g.dd.Lawful c.inf) (hn : NonNeg c.next)
    (hc : WCompat c.next c.vid) (starts : List V) (hf : IsForest (unweighted c.next) c.vid starts)
    (limit : Option Int) (fuel : Nat) :
    let general := spRun g c none starts limit fuel
    let tree := spRun g { c with isTree := true } none starts limit fuel
    tree.reports.map (fun r => (r.vertex, r.distance, r.depth, r.preds, r.labels)) =
      general.reports.map (fun r => (r.vertex, r.distance, r.depth, r.preds, r.labels)) ∧
    tree.ending = general.ending := by
  intro general tree
  obtain ⟨h1, h2⟩ := sp_tree_sim (M := M) (ML := ML) ht hd hn hc hf fuel (prepareLimit limit)
  exact ⟨forall₂_map_eq (repsOf_forall₂ h1) (fun a b h => by rw [h.1, h.2.1, h.2.2.1, h.2.2.2.1, h.2.2.2.2]), h2⟩

/-- **C42 for the shortest paths traversal**: `go_for_distance_range` yields exactly the reports with
distances in the range. -/
theorem C42_sp (ht : c.isTree = false) (hd : g.dd.Lawful c.inf) (hn : NonNeg c.next)
    (hc : WCompat c.next c.vid) (starts : List V) (limit : Option Int) (fuel : Nat) (start stop : W) :
    (goRange (fun r => r.distance) start stop (spRun g c none starts limit fuel).reports
        (spRun g c none starts limit fuel).ending).yielded =
      (spRun g c none starts limit fuel).reports.filter
        (fun r => decide (start ≤ r.distance ∧ r.distance < stop)) :=
  C42_range_reports _ _ _ _ _ (C19_sp_once_ordered g c ht hd hn hc starts limit fuel).2.2

/-- **C40 for the shortest paths traversal**: `go_for_vertices_in` on a traversal that comes to its end. -/
theorem C40_sp (ht : c.isTree = false) (hd : g.dd.Lawful c.inf) (hn : NonNeg c.next)
    (hc : WCompat c.next c.vid) (starts : List V) (limit : Option Int) (fuel : Nat)
    (hdone : (spRun g c none starts limit fuel).ending = .done) (vertices : List V) (hne : vertices ≠ []) :
    let id := fun r : SpReport V W M ML D => c.vid r.vertex
    let reports := (spRun g c none starts limit fuel).reports
    let res := goForVerticesIn id (vertices.map c.vid) false reports .done
    res.yielded = reports.filter (fun r => decide (id r ∈ vertices.map c.vid)) ∧
    (res.ending = .done ↔ ∀ v ∈ vertices, c.vid v ∉ starts.map c.vid ∧
      ∃ w u, WalkW c.next (· ∈ starts) w u ∧ c.vid u = c.vid v) ∧
    (res.ending = .done ∨ res.ending = .raised .keyError) := by
  intro id reports res
  obtain ⟨hu, hex, -⟩ := C19_sp_once_ordered g c ht hd hn hc starts limit fuel
  obtain ⟨h1, h2, h3⟩ := C40_ended id (vertices.map c.vid) reports hu (by simpa using hne)
  refine ⟨h1, h2.trans ⟨fun h v hv => ?_, fun h k hk => ?_⟩, h3⟩
  · obtain ⟨r, hr, e⟩ := h _ (List.mem_map.2 ⟨v, hv, rfl⟩)
    exact ⟨e ▸ hex r hr, _, _, (C18_sp_distance g c ht hd hn hc starts limit fuel r hr).1, e⟩
  · obtain ⟨v, hv, rfl⟩ := List.mem_map.1 hk
    obtain ⟨h4, w, u, h5, h6⟩ := h v hv
    rcases C20_sp_complete g c ht hd hn hc starts limit fuel hdone w u h5 with h | ⟨r, hr, e⟩
    · exact absurd (h6 ▸ h) h4
    · exact ⟨r, hr, e.trans h6⟩

/-- The relation between given known distances and the distances used: those of start vertices get value
zero if nothing was stored for them. -/
theorem setDefaults_start {o : DistOps D K W} {inf : W} (ho : o.Lawful inf) (vid : V → K) (vs : List V) (m : D) :
    (∀ k, k ∉ vs.map vid → o.get (o.setDefaults m (vs.map (fun v => (vid v, 0)))) k = o.get m k) ∧
    ∀ k, o.get (o.setDefaults m (vs.map (fun v => (vid v, 0)))) k = o.get m k ∨
      (o.get m k = inf ∧ o.get (o.setDefaults m (vs.map (fun v => (vid v, 0)))) k = 0) := by
  induction vs generalizing m with
  | nil => exact ⟨fun _ _ => rfl, fun _ => .inl rfl⟩
  | cons v vs ih =>
    obtain ⟨h1, h2⟩ := ih (o.setDefault m (vid v) 0)
    have e : o.setDefaults m ((v :: vs).map (fun v => (vid v, 0))) =
        o.setDefaults (o.setDefault m (vid v) 0) (vs.map (fun v => (vid v, 0))) := rfl
    rw [e]
    constructor
    · intro k hk
      simp only [List.map_cons, List.mem_cons, not_or] at hk
      rw [h1 k hk.2, ho.get_setDefault_ne _ _ _ _ hk.1]
    · intro k
      by_cases hk : k = vid v
      · subst hk
        rcases ho.get_setDefault m (vid v) 0 with h3 | ⟨h3, h4⟩
        · rw [← h3]; exact h2 _
        · rcases h2 (vid v) with h5 | ⟨h5, h6⟩
          · exact .inr ⟨h3, h5.trans h4⟩
          · exact .inr ⟨h3, h6⟩
      · have := h2 k
        rw [ho.get_setDefault_ne _ _ _ _ hk] at this
        exact this

/-- **C55, known distances.** With `known_distances` the reported distances are minimal among the
walks that begin at a start vertex with the distance known for it (zero if none is known), and that reach
each further vertex with a smaller distance than the one known for it; no id is reported twice,
distances never decrease and are smaller than the known ones, and if the traversal ends without
exception each such vertex that is not a start has been reported. -/
theorem C55_sp_known (ht : c.isTree = false) (hd : g.dd.Lawful c.inf) (hn : NonNeg c.next)
    (hc : WCompat c.next c.vid) (starts : List V) (known : D)
    (h0 : ∀ v ∈ starts, 0 ≤ g.dd.get known (c.vid v)) (limit : Option Int) (fuel : Nat) :
    ∃ B : K → W, (∀ k, k ∉ starts.map c.vid → B k = g.dd.get known k) ∧
      (∀ k, B k = g.dd.get known k ∨ (g.dd.get known k = c.inf ∧ B k = 0)) ∧
      let run := spRun g c (some known) starts limit fuel
      (∀ r ∈ run.reports, IsKDist c.next (· ∈ starts) c.vid B r.vertex r.distance ∧
        r.distance < B (c.vid r.vertex)) ∧
      (run.reports.map (fun r => c.vid r.vertex)).Nodup ∧
      (run.reports.map (fun r => r.distance)).Pairwise (· ≤ ·) ∧
      (run.ending = .done → ∀ w v, KWalk c.next (· ∈ starts) c.vid B w v →
        c.vid v ∈ starts.map c.vid ∨ ∃ r ∈ run.reports, c.vid r.vertex = c.vid v) := by
  have hdist : spDistances g c (some known) starts =
      g.dd.setDefaults known (starts.map (fun v => (c.vid v, 0))) := by simp [spDistances, ht]
  obtain ⟨b1, b2⟩ := setDefaults_start hd c.vid starts known
  refine ⟨g.dd.get (spDistances g c (some known) starts), by rw [hdist]; exact b1, by rw [hdist]; exact b2, ?_⟩
  intro run
  have hB0 : ∀ v ∈ starts, 0 ≤ g.dd.get (spDistances g c (some known) starts) (c.vid v) := by
    intro v hv
    rw [hdist]
    rcases b2 (c.vid v) with h | ⟨-, h⟩
    · rw [h]; exact h0 v hv
    · rw [h]
  obtain ⟨s, hs, he⟩ := run_reaches (spStep g c) fuel (prepareLimit limit) (spInit g c (some known) starts)
  obtain ⟨F, cur, inv, -⟩ := sp_ok ht hd hn hc (fun _ => rfl) hB0 hs
  refine ⟨fun r hr => ?_, inv.nodup, inv.ordered, fun hdone w v hw => ?_⟩
  · obtain ⟨h1, h2, h3, -⟩ := inv.reps r hr
    exact ⟨⟨h2, (inv.donev _ _ h1).2.2.2.2⟩, h3⟩
  · have hdone' : (runMachine (spStep g c) fuel (prepareLimit limit) (spInit g c (some known) starts)).ending =
        .done := hdone
    rw [hdone'] at he
    obtain ⟨-, h2, h3⟩ := spStep_stop he
    rcases inv.frontier h2 hn hc hw with ⟨w', hF, -⟩ | ⟨e, he, -⟩
    · exact inv.doneRep _ _ hF
    · rw [h3] at he; simp at he

/-! ## Non-vacuity -/

/-- A weighted graph with a cycle, a zero weight, a better path with more edges, and parallel edges. -/
def exW : Nat → List (Nat × Nat × Char)
  | 0 => [(1, 5, 'a'), (2, 1, 'b'), (2, 3, 'x')]
  | 1 => [(3, 1, 'c'), (0, 2, 'd')]
  | 2 => [(1, 2, 'e'), (4, 0, 'z')]
  | 4 => [(3, 7, 'f')]
  | _ => []

/-- The example as configuration, infinity is 1000. -/
def exWCfg (keep : Bool) : WCfg Nat Nat Char Nat := ⟨exW, id, false, true, keep, 1000⟩

/-- Hash based collections. -/
def exWHash : WGear Nat Nat Char Nat (Nat → Option Nat) (Nat → Option Char) (Nat → Option Nat) :=
  ⟨dictMap, dictMap, dictDist 1000⟩

/-- Arrays and lists. -/
def exWArr : WGear Nat Nat Char Nat (List Nat) (List (Option Char)) (List Nat) :=
  ⟨arrayMap ⟨255, 2, true⟩ 0, listMap ⟨none, 2, true⟩ 0, seqDist ⟨1000, 2, true⟩ 0⟩

example : ((spRun exWHash (exWCfg true) none [0] none 100).reports.map (fun r => (r.vertex, r.distance, r.depth)),
    (spRun exWHash (exWCfg true) none [0] none 100).ending) =
    ([(2, 1, 1), (4, 1, 2), (1, 3, 2), (3, 4, 3)], .done) := by decide

example : (spRun exWArr (exWCfg false) none [0] none 100).reports.map (fun r => (r.vertex, r.distance,
      ((pathsView exWArr.mo exWArr.lo id r.preds r.labels).iterLabeledEdgesFromStart 9 r.vertex).1)) =
    [(2, 1, [(0, 2, 'b')]), (4, 1, [(0, 2, 'b'), (2, 4, 'z')]), (1, 3, [(0, 2, 'b'), (2, 1, 'e')]),
     (3, 4, [(0, 2, 'b'), (2, 1, 'e'), (1, 3, 'c')])] := by decide

/-- The limit of the gear (here: infinity is 4) is respected. -/
example : ((spRun (⟨dictMap, dictMap, dictDist 4⟩ : WGear Nat Nat Char Nat _ _ _)
      ⟨exW, id, false, false, true, 4⟩ none [2] none 100).reports.map (fun r => (r.vertex, r.distance)),
    (spRun (⟨dictMap, dictMap, dictDist 4⟩ : WGear Nat Nat Char Nat _ _ _)
      ⟨exW, id, false, false, true, 4⟩ none [2] none 100).ending) = ([(4, 0)], .raised .overflowError) := by
  decide

theorem exW_nonneg : NonNeg exW := fun _ _ _ _ => Nat.zero_le _

theorem wcompat_id {next : Nat → List (Nat × W × L)} : WCompat next (id : Nat → Nat) := by
  intro u u' v x e h
  simp only [id_eq] at e
  subst e
  exact ⟨v, h, rfl⟩

theorem exW_reach {w v : Nat} (h : WalkW exW (· ∈ [0]) w v) : v ≤ 4 := by
  induction h with
  | start hs => simp at hs; omega
  | @step w u v x _ he ih =>
    obtain ⟨l, hl⟩ := he
    have : u = 0 ∨ u = 1 ∨ u = 2 ∨ u = 3 ∨ u = 4 := by omega
    rcases this with rfl | rfl | rfl | rfl | rfl <;> simp [exW] at hl <;> omega

/-- The hypotheses of the theorems hold for the example, with both gears. -/
example : exWHash.dd.Lawful 1000 ∧ exWArr.dd.Lawful 1000 ∧ NonNeg exW ∧
    WCompat exW (id : Nat → Nat) ∧ WFinitelyReachable exW (· ∈ [0]) (id : Nat → Nat) ∧
    WStorable exWHash.mo exWHash.lo exW id [0] (fun _ => True) (fun _ => True) ∧
    WStorable exWArr.mo exWArr.lo exW id [0] (fun x => x ≠ 255) (fun _ => True) := by
  refine ⟨dictDist_lawful 1000, seqDist_lawful _ (fun _ => by decide) 0, exW_nonneg, wcompat_id,
    ⟨[0, 1, 2, 3, 4], fun w v hv => ?_⟩,
    ⟨dictMap_lawful, dictMap_lawful, fun _ _ _ => trivial, fun _ _ _ _ _ => trivial,
      fun s hs t ht _ => by simp at hs ht; omega⟩,
    ⟨arrayMap_lawful _ (fun _ => by decide) 0, listMap_lawful _ rfl (fun _ => by decide) 0,
      fun w v hv => by have := exW_reach hv; omega, fun _ _ _ _ _ => trivial,
      fun s hs t ht _ => by simp at hs ht; omega⟩⟩
  have := exW_reach hv
  have : v = 0 ∨ v = 1 ∨ v = 2 ∨ v = 3 ∨ v = 4 := by omega
  simpa using this

/-- The binary tree with weights. -/
def exWTree : Nat → List (Nat × Nat × Char) := fun v => (exTree v).map (fun e => (e.1, 10 - e.1, e.2))

/-- Non-vacuity of C52. -/
example : IsForest (unweighted exWTree) (id : Nat → Nat) [0] ∧
    (spRun exWHash ⟨exWTree, id, true, true, true, 1000⟩ none [0] none 100).reports.map
      (fun r => (r.vertex, r.distance)) = [(2, 8), (1, 9), (5, 13), (4, 15), (3, 16)] := by
  refine ⟨?_, by decide⟩
  have : unweighted exWTree = exTree := by
    funext v
    simp [unweighted, exWTree, Function.comp_def]
  rw [this]; exact exTree_forest

/-- Non-vacuity of C55: vertex 1 can only be improved to a distance below 3, so it is not
reached; vertex 4 is. -/
example : (spRun exWHash (exWCfg true) (some (fun k => if k = 1 then some 3 else if k = 4 then some 2 else none))
    [0] none 100).reports.map (fun r => (r.vertex, r.distance)) = [(2, 1), (4, 1), (3, 8)] := by decide

end NoGraphs
