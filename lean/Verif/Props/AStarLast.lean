import Verif.Props.AStar

/-! # A* with any heuristic function: the last reports are right (C108)

The heuristic function can be inconsistent, overestimate, be negative, or have the value infinity. -/

set_option linter.unusedSectionVars false

namespace NoGraphs

open Spec

variable {V K L W M ML D : Type} [DecidableEq V] [DecidableEq K]
variable [AddCommMonoid W] [LinearOrder W] [IsOrderedCancelAddMonoid W]
variable {g : WGear V K L W M ML D} {c : AStarCfg V K L W} {starts : List V}
variable {h : List (Ev (AStarReport V W M ML D))} {s : AStarState V L W M ML D}

variable (g c starts) in
/-- Reports do not show smaller path lengths than the stored ones, and those that do not show the stored one will be
followed by a further report. -/
structure ALast (h : List (Ev (AStarReport V W M ML D))) (s : AStarState V L W M ML D) : Prop where
  reps : ∀ r ∈ repsOf h, g.dd.get s.dist (c.vid r.vertex) ≤ r.pathLength
  fin : ∀ r ∈ repsOf h, r.pathLength < c.inf ∧ c.vid r.vertex ∉ starts.map c.vid
  mono : (repsOf h).Pairwise (fun a b => c.vid a.vertex = c.vid b.vertex → b.pathLength ≤ a.pathLength)
  last : ∀ k, g.dd.get s.dist k < c.inf → k ∉ starts.map c.vid →
    (∃ e ∈ s.heap, c.vid e.item.1 = k ∧ e.key = g.dd.get s.guesses k) ∨
    ∃ r ∈ repsOf h, c.vid r.vertex = k ∧ r.pathLength = g.dd.get s.dist k

theorem a_last_step (ht : c.isTree = false) (hd : g.dd.Lawful c.inf) (hn : NonNeg c.next)
    (inv : AInv g c starts h s) (o : ALast g c starts h s) :
    match aStep g c s with
    | .stop _ => True
    | .fail _ => True
    | .tau s' => ALast g c starts h s'
    | .emit r s' => ALast g c starts (h ++ [.rep r]) s'
    | .expand s' => ALast g c starts (h ++ [.exp]) s' := by
  apply aStep_cases (P := fun st => match st with
    | .stop _ => True
    | .fail _ => True
    | .tau s' => ALast g c starts h s'
    | .emit r s' => ALast g c starts (h ++ [.rep r]) s'
    | .expand s' => ALast g c starts (h ++ [.exp]) s') ht s
  · intro _ _; trivial
  · intro e rest hpc hheap hst
    refine ⟨o.reps, o.fin, o.mono, fun k hk hks => ?_⟩
    rcases o.last k hk hks with ⟨f, hf, h1, h2⟩ | h1
    · rw [hheap] at hf
      rcases List.mem_cons.1 hf with rfl | hf
      · rw [h2, h1] at hst
        exact absurd hst (lt_irrefl _)
      · exact .inl ⟨f, hf, h1, h2⟩
    · exact .inr h1
  · intro e rest hpc hheap hst h0
    refine ⟨o.reps, o.fin, o.mono, fun k hk hks => ?_⟩
    rcases o.last k hk hks with ⟨f, hf, h1, h2⟩ | h1
    · have hs := (inv.entR e (by rw [hheap]; exact List.mem_cons_self)).2.1 h0
      rw [hheap] at hf
      rcases List.mem_cons.1 hf with rfl | hf
      · exact absurd (h1 ▸ List.mem_map_of_mem hs) hks
      · exact .inl ⟨f, hf, h1, h2⟩
    · exact .inr h1
  · intro e rest hpc hheap hst h0
    have he : e ∈ s.heap := by rw [hheap]; exact List.mem_cons_self
    have hns := (inv.entR e he).2.2 h0
    have hlt : g.dd.get s.dist (c.vid e.item.1) < c.inf := by
      obtain ⟨w, -, -, h1, h2⟩ := inv.ent e he
      exact lt_of_le_of_lt h1 (h2 h0)
    refine ⟨fun r hr => ?_, fun r hr => ?_, ?_, fun k hk hks => ?_⟩
    · rw [repsOf_append, repsOf_rep] at hr
      rcases List.mem_append.1 hr with hr | hr
      · exact o.reps r hr
      · rw [List.mem_singleton.1 hr]
    · rw [repsOf_append, repsOf_rep] at hr
      rcases List.mem_append.1 hr with hr | hr
      · exact o.fin r hr
      · rw [List.mem_singleton.1 hr]; exact ⟨hlt, hns⟩
    · rw [repsOf_append, repsOf_rep]
      refine List.pairwise_append.2 ⟨o.mono, List.pairwise_singleton _ _, fun a ha b hb hab => ?_⟩
      rw [List.mem_singleton.1 hb] at hab ⊢
      simp only at hab ⊢
      rw [← hab]
      exact o.reps a ha
    · rw [repsOf_append, repsOf_rep]
      rcases o.last k hk hks with ⟨f, hf, h1, h2⟩ | ⟨r, h1, h2⟩
      · rw [hheap] at hf
        rcases List.mem_cons.1 hf with rfl | hf
        · exact .inr ⟨_, List.mem_append_right _ (List.mem_singleton.2 rfl), h1, by simp only [h1]⟩
        · exact .inl ⟨f, hf, h1, h2⟩
      · exact .inr ⟨r, List.mem_append_left _ h1, h2⟩
  · intro v w ec hpc
    exact ⟨by simpa using o.reps, by simpa using o.fin, by simpa using o.mono, by simpa using o.last⟩
  · intro v w ec hpc
    exact ⟨o.reps, o.fin, o.mono, o.last⟩
  · intro v w ec n x l es hpc hi; trivial
  · intro v w ec n x l es hpc hlt him
    exact ⟨o.reps, o.fin, o.mono, o.last⟩
  · intro v w ec n x l es d hpc hlt him h1 h2; trivial
  · intro v w ec n x l es d hpc hlt him hfin'
    obtain ⟨hgt, hns, hedge, hww, hdv, hne, hget⟩ := inv.improve hd hn hpc hlt him
    refine ⟨fun r hr => ?_, o.fin, o.mono, fun k hk hks => ?_⟩
    · simp only [hget]
      split
      · rename_i hid
        exact hgt.le.trans (hid ▸ o.reps r hr)
      · exact o.reps r hr
    · simp only [hget, hd.get_set] at hk ⊢
      by_cases hid : k = c.vid n
      · exact .inl ⟨_, mem_heapPush.2 (.inl rfl), hid.symm, by simp only [if_pos hid]⟩
      · simp only [if_neg hid] at hk ⊢
        rcases o.last k hk hks with ⟨f, hf, h1, h2⟩ | h1
        · exact .inl ⟨f, mem_heapPush.2 (.inr hf), h1, h2⟩
        · exact .inr h1

theorem a_last (ht : c.isTree = false) (hd : g.dd.Lawful c.inf) (hn : NonNeg c.next) (hc : WCompat c.next c.vid)
    (hh : HeurCompat c.heur c.vid) (hr : Reaches (aStep g c) (aInit g c none none starts) h s) :
    ALast g c starts h s := by
  refine Reaches.invariant' (ALast g c starts) ?_ ?_ ?_ ?_ hr
  · refine ⟨by simp, by simp, by simp, fun k hk hks => ?_⟩
    simp only [aInit, aDistances_none hd, if_neg hks] at hk
    exact absurd hk (lt_irrefl _)
  · intro h s s' hr o e
    have := a_last_step ht hd hn (a_inv ht hd hn hc hh hr) o
    rw [e] at this; exact this
  · intro h s r s' hr o e
    have := a_last_step ht hd hn (a_inv ht hd hn hc hh hr) o
    rw [e] at this; exact this
  · intro h s s' hr o e
    have := a_last_step ht hd hn (a_inv ht hd hn hc hh hr) o
    rw [e] at this; exact this

section
variable (g c)

/-- **C108, improvement.** With any heuristic function, repeated reports of a vertex do not get worse. -/
theorem C108_astar_improves (ht : c.isTree = false) (hd : g.dd.Lawful c.inf) (hn : NonNeg c.next)
    (hc : WCompat c.next c.vid) (hh : HeurCompat c.heur c.vid) (starts : List V) (limit : Option Int) (fuel : Nat) :
    (aRun g c none none starts limit fuel).reports.Pairwise
      (fun a b => c.vid a.vertex = c.vid b.vertex → b.pathLength ≤ a.pathLength) := by
  obtain ⟨s, hs, -⟩ := run_reaches (aStep g c) fuel (prepareLimit limit) (aInit g c none none starts)
  exact (a_last ht hd hn hc hh hs).mono

/-- **C108, last reports.** With any heuristic function, if the traversal ends without exception, the last report of each
vertex has the minimal path length. -/
theorem C108_astar_last (ht : c.isTree = false) (hd : g.dd.Lawful c.inf) (hn : NonNeg c.next)
    (hc : WCompat c.next c.vid) (hh : HeurCompat c.heur c.vid) (starts : List V) (limit : Option Int) (fuel : Nat)
    (hdone : (aRun g c none none starts limit fuel).ending = .done)
    {before after : List (AStarReport V W M ML D)} {r : AStarReport V W M ML D}
    (hr : (aRun g c none none starts limit fuel).reports = before ++ r :: after)
    (hlast : ∀ r' ∈ after, c.vid r'.vertex ≠ c.vid r.vertex) :
    IsIdDist c.next (· ∈ starts) c.vid (c.vid r.vertex) r.pathLength := by
  obtain ⟨s, hs, he⟩ := run_reaches (aStep g c) fuel (prepareLimit limit) (aInit g c none none starts)
  unfold aRun at hdone
  rw [hdone] at he
  obtain ⟨-, h2, h3⟩ := a_stop ht he
  have inv := a_inv ht hd hn hc hh hs
  have o := a_last ht hd hn hc hh hs
  have hr2 : repsOf (runMachine (aStep g c) fuel (prepareLimit limit) (aInit g c none none starts)).events =
    before ++ r :: after := hr
  have hmem : r ∈ repsOf (runMachine (aStep g c) fuel (prepareLimit limit) (aInit g c none none starts)).events := by
    rw [hr2]; simp
  obtain ⟨f1, f2⟩ := o.fin r hmem
  have hlt := lt_of_le_of_lt (o.reps r hmem) f1
  have hpl : r.pathLength = g.dd.get s.dist (c.vid r.vertex) := by
    rcases o.last _ hlt f2 with ⟨e, he, -⟩ | ⟨r', h4, h5, h6⟩
    · rw [h3] at he; exact absurd he (by simp)
    · refine le_antisymm ?_ (o.reps r hmem)
      rw [hr2] at h4
      have hp := o.mono
      rw [hr2] at hp
      rcases List.mem_append.1 h4 with h4 | h4
      · rw [← h6]
        exact (List.pairwise_append.1 hp).2.2 r' h4 r List.mem_cons_self h5
      · rcases List.mem_cons.1 h4 with rfl | h4
        · exact h6.le
        · exact absurd h5 (hlast r' h4)
  rw [hpl]
  refine ⟨inv.walk _ (.inr hlt), fun w v hw hid => ?_⟩
  rw [← hid]
  exact (inv.all_done h2 h3 hw).1

/-- **C108, compared with Dijkstra's algorithm.** ... so, whatever the heuristic function estimates, it is the distance that
the shortest paths traversal reports for this vertex. -/
theorem C108_astar_dijkstra {M' ML' D' : Type} (g' : WGear V K L W M' ML' D') (c' : WCfg V K L W)
    (hnext : c'.next = c.next) (hvid : c'.vid = c.vid) (ht' : c'.isTree = false) (hd' : g'.dd.Lawful c'.inf)
    (ht : c.isTree = false) (hd : g.dd.Lawful c.inf) (hn : NonNeg c.next)
    (hc : WCompat c.next c.vid) (hh : HeurCompat c.heur c.vid) (starts : List V) (limit limit' : Option Int)
    (fuel fuel' : Nat) (hdone : (aRun g c none none starts limit fuel).ending = .done)
    {before after : List (AStarReport V W M ML D)} {r : AStarReport V W M ML D}
    (hr : (aRun g c none none starts limit fuel).reports = before ++ r :: after)
    (hlast : ∀ r' ∈ after, c.vid r'.vertex ≠ c.vid r.vertex) :
    ∀ t ∈ (spRun g' c' none starts limit' fuel').reports, c.vid t.vertex = c.vid r.vertex →
      t.distance = r.pathLength := by
  intro t htm hid
  have hn' : NonNeg c'.next := by rw [hnext]; exact hn
  have hc' : WCompat c'.next c'.vid := by rw [hnext, hvid]; exact hc
  obtain ⟨⟨v, hv, hvw⟩, hmin⟩ := C108_astar_last g c ht hd hn hc hh starts limit fuel hdone hr hlast
  obtain ⟨h1, h2⟩ := C18_sp_distance g' c' ht' hd' hn' hc' starts limit' fuel' t htm
  rw [hnext] at h1 h2
  rw [hvid] at h2
  exact le_antisymm (h2 _ _ hvw (hv.trans hid.symm)) (hmin _ _ h1 hid)

/-- **C108, distances.** With any heuristic function, when the traversal has ended without exception, the attribute
`distances` contains the minimal path length of each vertex that can be reached (zero for start vertices), and gives infinity
for all other ids. -/
theorem C108_astar_distances (ht : c.isTree = false) (hd : g.dd.Lawful c.inf) (hn : NonNeg c.next)
    (hc : WCompat c.next c.vid) (hh : HeurCompat c.heur c.vid) (starts : List V) (limit : Option Int) (fuel : Nat)
    (hdone : (aRun g c none none starts limit fuel).ending = .done) :
    let dist := (aRun g c none none starts limit fuel).final.dist
    (∀ w v, WalkW c.next (· ∈ starts) w v →
      IsIdDist c.next (· ∈ starts) c.vid (c.vid v) (g.dd.get dist (c.vid v))) ∧
    (∀ k, (∀ w v, WalkW c.next (· ∈ starts) w v → c.vid v ≠ k) → g.dd.get dist k = c.inf) := by
  intro dist
  obtain ⟨s, hs, he⟩ := run_reaches (aStep g c) fuel (prepareLimit limit) (aInit g c none none starts)
  unfold aRun at hdone
  rw [hdone] at he
  obtain ⟨h1, h2, h3⟩ := a_stop ht he
  have inv := a_inv ht hd hn hc hh hs
  have o := a_last ht hd hn hc hh hs
  have hdist : dist = s.dist := by simp only [dist, aRun, h1]
  rw [hdist]
  refine ⟨fun w v hw => ?_, fun k hk => ?_⟩
  · have hknown : AKnown g c starts s (c.vid v) := by
      rcases (inv.all_done h2 h3 hw).2 with h4 | ⟨r, h4, h5⟩
      · exact .inl h4
      · rw [← h5]
        exact .inr (lt_of_le_of_lt (o.reps r h4) (o.fin r h4).1)
    refine ⟨inv.walk _ hknown, fun w' v' hw' hid => ?_⟩
    rw [← hid]
    exact (inv.all_done h2 h3 hw').1
  · have hks : k ∉ starts.map c.vid := by
      intro h
      obtain ⟨v, hv, e⟩ := List.mem_map.1 h
      exact hk 0 v (.start hv) e
    refine le_antisymm (inv.leInf k hks) (le_of_not_gt (fun hlt => ?_))
    obtain ⟨v, hv, hw⟩ := inv.walk k (.inr hlt)
    exact hk _ v hw hv

end

/-! ## Non-vacuity -/

/-- The estimates of `exTwice` lead to two reports of vertex 1, and the second one is right. -/
example : (aRun exInfGear exTwice none none [0] none 200).ending = .done ∧
    (aRun exInfGear exTwice none none [0] none 200).reports.map (fun r => (r.vertex, r.pathLength)) =
      [(1, 3), (2, 1), (1, 2), (3, 12)] ∧
    exInfGear.dd.Lawful exTwice.inf ∧ NonNeg exTwice.next ∧ WCompat exTwice.next exTwice.vid ∧
    HeurCompat exTwice.heur exTwice.vid :=
  ⟨by decide +kernel, by decide +kernel, dictDist_lawful 1000, fun _ _ _ _ => Nat.zero_le _, wcompat_id,
    fun u v (h : u = v) => by rw [h]⟩

/-- Estimates that are far too high for vertex 2: also the goal (vertex 3) is reported twice, the second report is right. -/
def exTooHigh : AStarCfg Nat Nat Unit Nat := { exTwice with heur := fun v => if v = 2 then 99 else 0 }

example : (aRun exInfGear exTooHigh none none [0] none 200).ending = .done ∧
    (aRun exInfGear exTooHigh none none [0] none 200).reports.map (fun r => (r.vertex, r.pathLength)) =
      [(1, 3), (3, 13), (2, 1), (1, 2), (3, 12)] ∧
    [0, 1, 2, 3, 4].map (exInfGear.dd.get (aRun exInfGear exTooHigh none none [0] none 200).final.dist) =
      [0, 2, 1, 12, 1000] := by decide +kernel

end NoGraphs
