import Verif.Props.AStar

/-! # Consistent heuristic functions with infinite estimates (C25, C62)

The counterexample to C25 needs a vertex with an infinite estimate. Infinite estimates do no harm to other vertices. -/

set_option linter.unusedSectionVars false

namespace NoGraphs

open Spec

variable {V K L W M ML D : Type} [DecidableEq V] [DecidableEq K]
variable [AddCommMonoid W] [LinearOrder W] [IsOrderedCancelAddMonoid W]

section
variable (g : WGear V K L W M ML D) (c : AStarCfg V K L W)

/-- **C25, partial** (missing: the reports of vertices that have an infinite estimate themselves, see
`C25_counterexample`). With a consistent heuristic function that may have infinite estimates, each report of a vertex with a
finite estimate has the minimal path length, and is the only report of this id. -/
theorem C25_astar_infinite_partial (ht : c.isTree = false) (hd : g.dd.Lawful c.inf) (hn : NonNeg c.next)
    (hc : WCompat c.next c.vid) (hh : HeurCompat c.heur c.vid) (hcons : Consistent c.next c.heur)
    (starts : List V) (limit : Option Int) (fuel : Nat)
    {before after : List (AStarReport V W M ML D)} {r : AStarReport V W M ML D}
    (hr : (aRun g c none none starts limit fuel).reports = before ++ r :: after) (hfin : c.heur r.vertex ≠ c.inf) :
    IsIdDist c.next (· ∈ starts) c.vid (c.vid r.vertex) r.pathLength ∧
    ∀ r' ∈ before ++ after, c.vid r'.vertex ≠ c.vid r.vertex := by
  obtain ⟨s, hs, -⟩ := run_reaches (aStep g c) fuel (prepareLimit limit) (aInit g c none none starts)
  have once := a_once (k := c.vid r.vertex) ht hd hn hc hh (fun v hv => by rw [hh v _ hv]; exact hfin)
    (towardsOk_of_consistent hcons _) hs
  have hr2 : repsOf (runMachine (aStep g c) fuel (prepareLimit limit) (aInit g c none none starts)).events =
    before ++ r :: after := hr
  refine ⟨(once.reps r (by rw [hr2]; simp) rfl).2, fun r' hr' heq => ?_⟩
  have hp := once.once
  rw [hr2] at hp
  rcases List.mem_append.1 hr' with hm | hm
  · exact (List.pairwise_append.1 hp).2.2 r' hm r List.mem_cons_self ⟨heq, rfl⟩
  · exact (List.pairwise_cons.1 (List.pairwise_append.1 hp).2.1).1 r' hm ⟨rfl, heq⟩

end

variable {g : WGear V K L W M ML D} {c : AStarCfg V K L W} {starts : List V}
variable {h : List (Ev (AStarReport V W M ML D))} {s : AStarState V L W M ML D}

variable (c) in
/-- The keys of the heap are not smaller than the last processed one, and not larger than infinity. -/
structure AOrderInf (h : List (Ev (AStarReport V W M ML D))) (s : AStarState V L W M ML D) (cur : W) : Prop where
  lower : ∀ e ∈ s.heap, cur ≤ e.key
  upper : ∀ e ∈ s.heap, e.key ≤ c.inf
  strict : ∀ e ∈ s.heap, 0 < e.item.2 → c.heur e.item.1 ≠ c.inf → e.key < c.inf
  pcs : match s.pc with
    | .loop => True
    | .expand v w _ => cur ≤ aGuess c.inf w (c.heur v) ∧ cur ≤ c.inf
    | .edges v w _ _ => cur ≤ aGuess c.inf w (c.heur v) ∧ cur ≤ c.inf
  reps : ∀ r ∈ repsOf h, aGuess c.inf r.pathLength (c.heur r.vertex) ≤ cur
  fin : ∀ r ∈ repsOf h, c.heur r.vertex ≠ c.inf → aGuess c.inf r.pathLength (c.heur r.vertex) < c.inf
  ordered : (repsOf h).Pairwise (fun a b =>
    aGuess c.inf a.pathLength (c.heur a.vertex) ≤ aGuess c.inf b.pathLength (c.heur b.vertex))

theorem a_order_inf_step (ht : c.isTree = false) (hd : g.dd.Lawful c.inf) (hn : NonNeg c.next)
    (hcons : Consistent c.next c.heur) (inv : AInv g c starts h s) {cur : W} (o : AOrderInf c h s cur) :
    match aStep g c s with
    | .stop _ => True
    | .fail _ => True
    | .tau s' => ∃ cur, AOrderInf c h s' cur
    | .emit r s' => ∃ cur, AOrderInf c (h ++ [.rep r]) s' cur
    | .expand s' => ∃ cur, AOrderInf c (h ++ [.exp]) s' cur := by
  have pop : ∀ e rest, s.pc = .loop → s.heap = e :: rest → ¬ g.dd.get s.guesses (c.vid e.item.1) < e.key →
      (∀ f ∈ rest, e.key ≤ f.key) ∧ cur ≤ e.key ∧
      e.key = aGuess c.inf (g.dd.get s.dist (c.vid e.item.1)) (c.heur e.item.1) ∧ e ∈ s.heap ∧
      (∀ f ∈ rest, f ∈ s.heap) := by
    intro e rest hpc hheap hst
    have hs := inv.sorted
    have he : e ∈ s.heap := by rw [hheap]; exact List.mem_cons_self
    rw [hheap] at hs
    exact ⟨fun f hf => ((List.pairwise_cons.1 hs).1 f hf).key_le, o.lower e he, by
      rw [← inv.guess _ (inv.known_ent he)]
      exact le_antisymm (le_of_not_gt hst) (inv.guess_le he), he, fun f hf => by
      rw [hheap]; exact List.mem_cons_of_mem _ hf⟩
  apply aStep_cases (P := fun st => match st with
    | .stop _ => True
    | .fail _ => True
    | .tau s' => ∃ cur, AOrderInf c h s' cur
    | .emit r s' => ∃ cur, AOrderInf c (h ++ [.rep r]) s' cur
    | .expand s' => ∃ cur, AOrderInf c (h ++ [.exp]) s' cur) ht s
  · intro _ _; trivial
  · intro e rest hpc hheap hst
    have hm : ∀ f ∈ rest, f ∈ s.heap := fun f hf => by rw [hheap]; exact List.mem_cons_of_mem _ hf
    exact ⟨cur, fun f hf => o.lower f (hm f hf), fun f hf => o.upper f (hm f hf), fun f hf => o.strict f (hm f hf),
      by simp only [hpc], o.reps, o.fin, o.ordered⟩
  · intro e rest hpc hheap hst h0
    obtain ⟨h1, h2, h3, he, hm⟩ := pop e rest hpc hheap hst
    exact ⟨e.key, h1, fun f hf => o.upper f (hm f hf), fun f hf => o.strict f (hm f hf), ⟨h3.le, o.upper e he⟩,
      fun r hr => (o.reps r hr).trans h2, o.fin, o.ordered⟩
  · intro e rest hpc hheap hst h0
    obtain ⟨h1, h2, h3, he, hm⟩ := pop e rest hpc hheap hst
    refine ⟨e.key, h1, fun f hf => o.upper f (hm f hf), fun f hf => o.strict f (hm f hf), ⟨h3.le, o.upper e he⟩,
      fun r hr => ?_, fun r hr hf => ?_, ?_⟩
    · rw [repsOf_append, repsOf_rep] at hr
      rcases List.mem_append.1 hr with hr | hr
      · exact (o.reps r hr).trans h2
      · rw [List.mem_singleton.1 hr]; exact h3.ge
    · rw [repsOf_append, repsOf_rep] at hr
      rcases List.mem_append.1 hr with hr | hr
      · exact o.fin r hr hf
      · rw [List.mem_singleton.1 hr] at hf ⊢
        simp only at hf ⊢
        rw [← h3]
        exact o.strict e he h0 hf
    · rw [repsOf_append, repsOf_rep]
      refine List.pairwise_append.2 ⟨o.ordered, List.pairwise_singleton _ _, fun a ha b hb => ?_⟩
      rw [List.mem_singleton.1 hb]
      exact ((o.reps a ha).trans h2).trans h3.le
  · intro v w ec hpc
    have hp := o.pcs
    rw [hpc] at hp
    exact ⟨cur, o.lower, o.upper, o.strict, hp, by simpa using o.reps, by simpa using o.fin, by simpa using o.ordered⟩
  · intro v w ec hpc
    exact ⟨cur, o.lower, o.upper, o.strict, trivial, o.reps, o.fin, o.ordered⟩
  · intro v w ec n x l es hpc hi; trivial
  · intro v w ec n x l es hpc hlt him
    have hp := o.pcs
    rw [hpc] at hp
    exact ⟨cur, o.lower, o.upper, o.strict, hp, o.reps, o.fin, o.ordered⟩
  · intro v w ec n x l es d hpc hlt him h1 h2; trivial
  · intro v w ec n x l es d hpc hlt him hfin'
    obtain ⟨hgt, hns, hedge, hww, hdv, hne, hget⟩ := inv.improve hd hn hpc hlt him
    have hp := o.pcs
    rw [hpc] at hp
    have hw0 : 0 ≤ w := by
      have hk := inv.pcok
      unfold APcOk at hk
      rw [hpc] at hk
      rw [← hdv]
      exact inv.nonneg hn hk.1.1
    refine ⟨cur, fun f hf => ?_, fun f hf => ?_, fun f hf h1 h2 => ?_, hp, o.reps, o.fin, o.ordered⟩
    · rcases mem_heapPush.1 hf with rfl | hf
      · by_cases hi : c.heur n = c.inf
        · simp only [aGuess, if_pos hi]; exact hp.2
        · simp only [aGuess_fin hi]
          have hle := hcons v n x hedge
          by_cases hv : c.heur v = c.inf
          · rw [hv] at hle
            refine hp.2.trans (hle.trans ?_)
            rw [add_comm x w, add_assoc]
            exact le_add_of_nonneg_left hw0
          · have := hp.1
            rw [aGuess_fin hv] at this
            refine this.trans ?_
            rw [add_comm x w, add_assoc]
            exact add_le_add_right hle w
      · exact o.lower f hf
    · rcases mem_heapPush.1 hf with rfl | hf
      · by_cases hi : c.heur n = c.inf
        · simp only [aGuess, if_pos hi]; exact le_refl _
        · exact (hfin' hi).le
      · exact o.upper f hf
    · rcases mem_heapPush.1 hf with rfl | hf
      · exact hfin' h2
      · exact o.strict f hf h1 h2

theorem a_order_inf (ht : c.isTree = false) (hd : g.dd.Lawful c.inf) (hn : NonNeg c.next) (hc : WCompat c.next c.vid)
    (hh : HeurCompat c.heur c.vid) (hle : ∀ v ∈ starts, c.heur v ≤ c.inf) (hcons : Consistent c.next c.heur)
    (hr : Reaches (aStep g c) (aInit g c none none starts) h s) : ∃ cur, AOrderInf c h s cur := by
  refine Reaches.invariant' (fun h s => ∃ cur, AOrderInf c h s cur) ?_ ?_ ?_ ?_ hr
  · have : ∀ l : List (HEntry W (V × Nat)), l.Pairwise HEntry.le → ∃ cur, ∀ e ∈ l, cur ≤ e.key := by
      intro l hl
      cases l with
      | nil => exact ⟨0, by simp⟩
      | cons a l =>
        refine ⟨a.key, fun e he => ?_⟩
        rcases List.mem_cons.1 he with rfl | he
        · exact le_refl _
        · exact ((List.pairwise_cons.1 hl).1 e he).key_le
    obtain ⟨cur, hcur⟩ := this _ (heapify_sorted (aStartEntries g c
      (aGuesses g c none (aDistances g c none starts) starts) starts 256))
    refine ⟨cur, hcur, fun e he => ?_, fun e he h1 => ?_, trivial, by simp, by simp, by simp⟩
    · obtain ⟨h1, -, h3⟩ := aStartEntries_mem (mem_heapify.1 he)
      rw [h3, aGuesses_none hd hh h1]
      unfold aGuess
      split
      · exact le_refl _
      · rw [zero_add]; exact hle _ h1
    · have := (aStartEntries_mem (mem_heapify.1 he)).2.1
      omega
  · rintro h s s' hr ⟨cur, o⟩ e
    have := a_order_inf_step ht hd hn hcons (a_inv ht hd hn hc hh hr) o
    rw [e] at this; exact this
  · rintro h s r s' hr ⟨cur, o⟩ e
    have := a_order_inf_step ht hd hn hcons (a_inv ht hd hn hc hh hr) o
    rw [e] at this; exact this
  · rintro h s s' hr ⟨cur, o⟩ e
    have := a_order_inf_step ht hd hn hcons (a_inv ht hd hn hc hh hr) o
    rw [e] at this; exact this

/-- **C62, partial** (the documented order, by path length, is wrong, see `C62_counterexample`). With a consistent heuristic
function that may have infinite estimates (for start vertices: no larger ones), the vertices with finite estimates are
reported first, ordered by the sum of path length and estimate, and this sum is below infinity; vertices with infinite
estimates come after all of them. -/
theorem C62_astar_order_infinite_partial (g : WGear V K L W M ML D) (c : AStarCfg V K L W) (ht : c.isTree = false)
    (hd : g.dd.Lawful c.inf) (hn : NonNeg c.next) (hc : WCompat c.next c.vid) (hh : HeurCompat c.heur c.vid)
    (hcons : Consistent c.next c.heur) (starts : List V) (hle : ∀ v ∈ starts, c.heur v ≤ c.inf)
    (limit : Option Int) (fuel : Nat) :
    let reports := (aRun g c none none starts limit fuel).reports
    reports.Pairwise (fun a b => c.heur b.vertex ≠ c.inf →
      c.heur a.vertex ≠ c.inf ∧ a.pathLength + c.heur a.vertex ≤ b.pathLength + c.heur b.vertex) ∧
    ∀ r ∈ reports, c.heur r.vertex ≠ c.inf → r.pathLength + c.heur r.vertex < c.inf := by
  intro reports
  obtain ⟨s, hs, -⟩ := run_reaches (aStep g c) fuel (prepareLimit limit) (aInit g c none none starts)
  obtain ⟨cur, o⟩ := a_order_inf ht hd hn hc hh hle hcons hs
  refine ⟨o.ordered.imp_of_mem (fun {a b} ha hb hab hf => ?_), fun r hr hf => ?_⟩
  · have hlt := o.fin b hb hf
    have hfa : c.heur a.vertex ≠ c.inf := fun hi => by
      rw [hi, aGuess, if_pos rfl] at hab
      exact absurd hlt (not_lt_of_ge hab)
    rw [aGuess_fin hfa, aGuess_fin hf] at hab
    exact ⟨hfa, hab⟩
  · have := o.fin r hr hf
    rwa [aGuess_fin hf] at this

/-! ## Non-vacuity -/

/-- Vertex 4 is the goal. It cannot be reached from vertices 1 and 2, the estimates of these two are infinite; vertex 2 is
reported twice, as in `C25_counterexample`. -/
def exInf2 : AStarCfg Nat Nat Unit Nat := ⟨fun v => match v with
    | 0 => [(1, 1, ()), (2, 5, ()), (3, 7, ())]
    | 1 => [(2, 1, ())]
    | 3 => [(4, 2, ()), (1, 0, ())]
    | _ => [], id, false, false, 1000,
  fun v => if v = 0 then 9 else if v = 3 then 2 else if v = 4 then 0 else 1000⟩

/-- The hypotheses hold for the example, and the vertices with finite estimates come first and once. -/
example : exInfGear.dd.Lawful exInf2.inf ∧ NonNeg exInf2.next ∧ WCompat exInf2.next exInf2.vid ∧
    HeurCompat exInf2.heur exInf2.vid ∧ Consistent exInf2.next exInf2.heur ∧ (∀ v ∈ [0], exInf2.heur v ≤ exInf2.inf) ∧
    (aRun exInfGear exInf2 none none [0] none 100).reports.map (fun r => (r.vertex, r.pathLength)) =
      [(3, 7), (4, 9), (2, 5), (1, 1), (2, 2)] := by
  refine ⟨dictDist_lawful 1000, fun _ _ _ _ => Nat.zero_le _, wcompat_id, fun u v h => ?_, fun u v x h => ?_, by decide,
    by decide +kernel⟩
  · simp only [exInf2, id_eq] at h ⊢; rw [h]
  · obtain ⟨l, hl⟩ := h
    match u with
    | 0 => simp [exInf2] at hl ⊢; rcases hl with ⟨rfl, rfl⟩ | ⟨rfl, rfl⟩ | ⟨rfl, rfl⟩ <;> simp
    | 1 => simp [exInf2] at hl ⊢; obtain ⟨rfl, rfl⟩ := hl; simp
    | 2 => simp [exInf2] at hl
    | 3 => simp [exInf2] at hl ⊢; rcases hl with ⟨rfl, rfl⟩ | ⟨rfl, rfl⟩ <;> simp
    | n + 4 => simp [exInf2] at hl

end NoGraphs
