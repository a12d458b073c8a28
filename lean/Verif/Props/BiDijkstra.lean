import Verif.Proofs.BiDijkstraResult
import Verif.Props.BiBfs
import Verif.Props.ShortestPaths

/-! # Properties of the bidirectional shortest path search: C31, C32

`WConnects next vid starts goals w` (a walk with total weight `w` leads from a start to a goal vertex),
`IsMinWeight`, `WOpposite` and `WOppositeEdges` (both edges functions describe the same graph) are defined in
`Verif/Spec/Weighted.lean`. -/

set_option linter.unusedSectionVars false

namespace NoGraphs

open Spec

variable {V K L W M ML D : Type} [DecidableEq V] [DecidableEq K]
variable [AddCommMonoid W] [LinearOrder W] [IsOrderedAddMonoid W]
variable (g : WGear V K L W M ML D) (c : BdCfg V K L W)

/-- The assumptions about gear and graph: the distances collection is lawful, weights are not negative,
equivalent vertices (same id) have equivalent edges, infinity is not negative, and the two edges functions
describe the same graph. -/
structure BdHyp : Prop where
  dd : g.dd.Lawful c.inf
  nonnegF : NonNeg c.nextF
  nonnegB : NonNeg c.nextB
  compatF : WCompat c.nextF c.vid
  compatB : WCompat c.nextB c.vid
  inf : 0 ≤ c.inf
  opp : WOppositeEdges c.nextF c.nextB

variable {g c}

theorem BdHyp.ok (H : BdHyp g c) {starts goals : List V} (hno : ∀ s ∈ starts, ∀ t ∈ goals, c.vid s ≠ c.vid t) :
    BdOk g c starts goals where
  dd := H.dd
  nonneg b := by cases b; exacts [H.nonnegF, H.nonnegB]
  compat b := by cases b; exacts [H.compatF, H.compatB]
  inf := H.inf
  no := hno

theorem no_connection {starts goals : List V} (h : starts = [] ∨ goals = []) :
    ∀ w, ¬ WConnects c.nextF c.vid starts goals w := by
  rintro w ⟨v, t, ht, -, hw⟩
  rcases h with rfl | rfl
  · have : ∀ {w v}, WalkW c.nextF (· ∈ ([] : List V)) w v → False := by
      intro w v hw
      induction hw with
      | start h => simp at h
      | step _ _ ih => exact ih
    exact this hw
  · simp at ht

/-- What holds for each way the search can end. -/
theorem bd_result (H : BdHyp g c) (ns : Prop) (starts goals : List V) (limit : Option Int)
    (hns : ns → ∀ start h s, Reaches (bdStep g c) (bdInit g c start starts goals limit) h s → ¬ BdStale g c s)
    (fuel pathFuel : Nat) :
    match bdSearch g c starts goals limit fuel pathFuel with
    | .found w _ => WConnects c.nextF c.vid starts goals w ∧
        ∀ d, WConnects c.nextF c.vid starts goals d → w ≤ d + d ∧ (ns → w ≤ d)
    | .notFound => ∀ d, ¬ WConnects c.nextF c.vid starts goals d
    | .raised e => (e = .runtimeError ∧ limit ≠ none) ∨
        (e = .overflowError ∧ ∃ b, ∃ u u' z d, IsDist (c.next b) (· ∈ biEnds starts goals b) c.vid u d ∧
          WEdge (c.next b) u u' z ∧ c.inf ≤ d + z)
    | .outOfFuel => True := by
  cases starts with
  | nil => exact no_connection (.inl rfl)
  | cons start rs =>
  cases goals with
  | nil => exact no_connection (.inr rfl)
  | cons gl rg =>
    unfold bdSearch
    dsimp only
    cases hcom : biCommon c.vid (start :: rs) (gl :: rg) true true with
    | some v =>
      obtain ⟨h1, t, ht, he⟩ := biCommon_some hcom
      refine ⟨⟨v, t, ht, he, .start h1⟩, fun d hd => ?_⟩
      obtain ⟨v, t, -, -, hw⟩ := hd
      have := hw.nonneg H.nonnegF
      exact ⟨add_nonneg this this, fun _ => this⟩
    | none =>
      have hok := H.ok (biCommon_none hcom)
      obtain ⟨s, hr, he⟩ := run_reaches (bdStep g c) fuel none (bdInit g c start (start :: rs) (gl :: rg) limit)
      obtain ⟨t, h, F, cur, w⟩ := bd_inv hok start limit (fun hn => hns hn start) hr
      revert he
      dsimp only
      cases (runMachine (bdStep g c) fuel none (bdInit g c start (start :: rs) (gl :: rg) limit)).ending with
      | outOfFuel => intro _; trivial
      | raised e =>
        rintro (he | ⟨-, h, -⟩)
        · rcases bdStep_fail he with ⟨rfl, h2⟩ | ⟨rfl, v, x, n, y, l, es, h2, h3⟩
          · refine .inl ⟨rfl, ?_⟩
            rintro rfl
            obtain ⟨h3, h4⟩ := bd_no_limit hr
            apply h2
            unfold BdState.get; split <;> assumption
          · exact .inr ⟨rfl, w.overflow hok h2 h3⟩
        · exact absurd rfl h
      | done =>
        intro he
        dsimp only at he ⊢
        obtain ⟨hpc, ⟨h1, hh⟩ | ⟨h1, e, rest, hh, -, hb, hle⟩⟩ := bdStep_stop he
        · rw [h1, w.found]
          exact w.notFound hok hpc (fun _ u v x => (H.opp u v x).1) hh
        · rw [h1]
          have q1 := w.real hok (fun u v x h => (H.opp v u x).2 h) hb
          have q2 := w.found_bounds hok hpc (S0 := fun _ => False) (fun u v x _ => (H.opp u v x).1) (fun _ h => h.elim) hh hb hle
          exact ⟨q1, q2⟩

/-- **C31 (partial).** The returned weight is at most twice the minimal one. (C31 itself does not hold,
see `C31_counterexample`.) -/
theorem C31_bd_at_most_twice_partial (H : BdHyp g c) (starts goals : List V) (limit : Option Int) (fuel pathFuel : Nat)
    (w : W) (p : PathObj V L) (hres : bdSearch g c starts goals limit fuel pathFuel = .found w p) :
    WConnects c.nextF c.vid starts goals w ∧ ∀ m, IsMinWeight c.nextF c.vid starts goals m → m ≤ w ∧ w ≤ m + m := by
  have := bd_result H False starts goals limit False.elim fuel pathFuel
  rw [hres] at this
  exact ⟨this.1, fun m hm => ⟨hm.2 _ this.1, (this.2 m hm.1).1⟩⟩

/-- **C31 (partial).** The returned weight is minimal if the search never meets a superseded entry in one of its
heaps (an entry for a vertex that has been pushed again, with smaller weight). -/
theorem C31_bd_minimal_partial (H : BdHyp g c) (starts goals : List V) (limit : Option Int) (fuel pathFuel : Nat)
    (hns : ∀ start h s, Reaches (bdStep g c) (bdInit g c start starts goals limit) h s → ¬ BdStale g c s)
    (w : W) (p : PathObj V L) (hres : bdSearch g c starts goals limit fuel pathFuel = .found w p) :
    IsMinWeight c.nextF c.vid starts goals w := by
  have := bd_result H True starts goals limit (fun _ => hns) fuel pathFuel
  rw [hres] at this
  exact ⟨this.1, fun m hm => (this.2 m hm).2 trivial⟩

/-- **C31 (partial).** The returned weight is minimal if all edges have the same weight. -/
theorem C31_bd_equal_weights_partial (H : BdHyp g c) (hinf : 0 < c.inf) (x : W) (hx : 0 ≤ x)
    (huF : ∀ u v y, WEdge c.nextF u v y → y = x) (starts goals : List V) (limit : Option Int) (fuel pathFuel : Nat)
    (w : W) (p : PathObj V L) (hres : bdSearch g c starts goals limit fuel pathFuel = .found w p) :
    IsMinWeight c.nextF c.vid starts goals w := by
  refine C31_bd_minimal_partial H starts goals limit fuel pathFuel (fun start h s hr => ?_) w p hres
  refine uni_no_stale H.dd hinf hx (fun b u v y he => ?_) start limit hr
  cases b
  · exact huF u v y he
  · exact huF v u y ((H.opp v u y).2 he)

/-- **C32.** How the search can end: a returned weight is the weight of a walk from a start to a goal
vertex; "no path" is only answered if no such walk exists; and an exception is only raised because of a given
calculation limit, or (`OverflowError`) because in one of the directions, the distance of a
vertex plus the weight of a further edge is not below infinity. -/
theorem C32_bd (H : BdHyp g c) (starts goals : List V) (limit : Option Int) (fuel pathFuel : Nat) :
    match bdSearch g c starts goals limit fuel pathFuel with
    | .found w _ => WConnects c.nextF c.vid starts goals w
    | .notFound => ∀ w, ¬ WConnects c.nextF c.vid starts goals w
    | .raised e => (e = .runtimeError ∧ limit ≠ none) ∨
        (e = .overflowError ∧
          ((∃ u v x d, IsDist c.nextF (· ∈ starts) c.vid u d ∧ WEdge c.nextF u v x ∧ c.inf ≤ d + x) ∨
           (∃ u v x d, IsDist c.nextB (· ∈ goals) c.vid u d ∧ WEdge c.nextB u v x ∧ c.inf ≤ d + x)))
    | .outOfFuel => True := by
  have := bd_result H False starts goals limit False.elim fuel pathFuel
  cases hres : bdSearch g c starts goals limit fuel pathFuel with
  | found w p => rw [hres] at this; exact this.1
  | notFound => rw [hres] at this; exact this
  | outOfFuel => trivial
  | raised e =>
    rw [hres] at this
    refine this.imp id (fun ⟨h1, b, h2⟩ => ⟨h1, ?_⟩)
    cases b
    · exact .inl h2
    · exact .inr h2

/-- **C32 (termination).** The search ends if only finitely many vertices can be reached in both directions. -/
theorem C32_bd_ends (H : BdHyp g c) (starts goals : List V) (limit : Option Int)
    (hfF : WFinitelyReachable c.nextF (· ∈ starts) c.vid) (hfB : WFinitelyReachable c.nextB (· ∈ goals) c.vid) :
    ∃ N, ∀ fuel, N ≤ fuel → ∀ pathFuel, bdSearch g c starts goals limit fuel pathFuel ≠ .outOfFuel := by
  unfold bdSearch
  split
  · exact ⟨0, fun _ _ _ h => by simp at h⟩
  · exact ⟨0, fun _ _ _ h => by simp at h⟩
  · rename_i start rs gl rg
    cases hcom : biCommon c.vid (start :: rs) (gl :: rg) true true with
    | some v => exact ⟨0, fun _ _ _ h => by simp at h⟩
    | none =>
      obtain ⟨idsF, hF⟩ := hfF
      obtain ⟨idsB, hB⟩ := hfB
      obtain ⟨N, hN⟩ := bd_terminates (H.ok (biCommon_none hcom)) (ids := fun b => if b then idsB else idsF)
        (fun b w v hw => by cases b; exacts [hF w v hw, hB w v hw]) start limit
      refine ⟨N, fun fuel hf pathFuel => ?_⟩
      have := hN fuel hf none
      dsimp only
      split
      · split <;> simp
      · simp
      · rename_i h; exact absurd h this

/-- **C32 (failure is exact).** Without calculation limit, finitely many reachable vertices, and sums of distances and
weights below infinity: the search returns a path if there is one, and answers "no path" if there is none. -/
theorem C32_bd_exact (H : BdHyp g c) (starts goals : List V)
    (hfF : WFinitelyReachable c.nextF (· ∈ starts) c.vid) (hfB : WFinitelyReachable c.nextB (· ∈ goals) c.vid)
    (hoF : ∀ u v x d, IsDist c.nextF (· ∈ starts) c.vid u d → WEdge c.nextF u v x → d + x < c.inf)
    (hoB : ∀ u v x d, IsDist c.nextB (· ∈ goals) c.vid u d → WEdge c.nextB u v x → d + x < c.inf) :
    ∃ N, ∀ fuel, N ≤ fuel → ∀ pathFuel,
      ((∃ d, WConnects c.nextF c.vid starts goals d) →
        ∃ w p, bdSearch g c starts goals none fuel pathFuel = .found w p ∧ WConnects c.nextF c.vid starts goals w) ∧
      ((∀ d, ¬ WConnects c.nextF c.vid starts goals d) → bdSearch g c starts goals none fuel pathFuel = .notFound) := by
  obtain ⟨N, hN⟩ := C32_bd_ends H starts goals none hfF hfB
  refine ⟨N, fun fuel hf pathFuel => ?_⟩
  have h1 := hN fuel hf pathFuel
  have h2 := C32_bd H starts goals none fuel pathFuel
  cases hres : bdSearch g c starts goals none fuel pathFuel with
  | found w p =>
    rw [hres] at h2
    exact ⟨fun _ => ⟨w, p, rfl, h2⟩, fun h => absurd h2 (h w)⟩
  | notFound => rw [hres] at h2; exact ⟨fun ⟨d, hd⟩ => absurd hd (h2 d), fun _ => rfl⟩
  | outOfFuel => exact absurd hres h1
  | raised e =>
    rw [hres] at h2
    rcases h2 with ⟨-, h⟩ | ⟨-, ⟨u, v, x, d, q1, q2, q3⟩ | ⟨u, v, x, d, q1, q2, q3⟩⟩
    · exact absurd rfl h
    · exact absurd (hoF u v x d q1 q2) (not_lt_of_ge q3)
    · exact absurd (hoB u v x d q1 q2) (not_lt_of_ge q3)

/-- **C32 (path).** The path returned with `build_path`: its iterations (vertices, edges, labeled edges, in both
directions) show one and the same walk `p` of labeled edges of the graph, from a start vertex to a goal vertex,
and the returned weight is the total weight of this walk. (`pathFuel` bounds the iterations of the model; the
statement holds for all values that are large enough.) -/
theorem C32_bd_path (H : BdHyp g c) (hinj : Function.Injective c.vid) (hb : c.buildPath = true)
    (hop : WOpposite c.nextF c.nextB) (starts goals : List V) {validV : V → Prop} {validL : L → Prop}
    (hstF : WStorable g.mo g.lo c.nextF c.vid starts validV validL)
    (hstB : WStorable g.mo g.lo c.nextB c.vid goals validV validL)
    (limit : Option Int) (fuel : Nat) (w : W) (pathFuel : Nat) (o : PathObj V L)
    (hres : bdSearch g c starts goals limit fuel pathFuel = .found w o) :
    ∃ p : SPath V L, p.first ∈ starts ∧ IsWPath c.nextF p.first p.steps w ∧ (∃ t ∈ goals, p.verts.getLast? = some t) ∧
      ∀ pathFuel', p.steps.length < pathFuel' →
        ∃ o', bdSearch g c starts goals limit fuel pathFuel' = .found w o' ∧ o'.Shows p := by
  unfold bdSearch at hres ⊢
  split at hres
  · simp at hres
  · simp at hres
  · rename_i start rs gl rg
    cases hcom : biCommon c.vid (start :: rs) (gl :: rg) true true with
    | some v =>
      obtain ⟨h1, t, ht, he⟩ := biCommon_some hcom
      rw [hcom] at hres
      simp only [SearchResult.found.injEq] at hres
      obtain ⟨rfl, rfl⟩ := hres
      have : v = t := hinj he
      subst this
      exact ⟨⟨v, []⟩, h1, .nil, ⟨v, ht, rfl⟩, fun _ _ => ⟨_, rfl, rfl, rfl, rfl, rfl, rfl, rfl⟩⟩
    | none =>
      have hok := H.ok (biCommon_none hcom)
      obtain ⟨s, hr, he⟩ := run_reaches (bdStep g c) fuel none (bdInit g c start (start :: rs) (gl :: rg) limit)
      obtain ⟨t, h, F, cur, wit⟩ := bd_inv (ns := False) hok start limit False.elim hr
      rw [hcom] at hres
      dsimp only at hres ⊢
      split at hres
      · rename_i hend
        rw [hend] at he
        dsimp only at he
        obtain ⟨hpc, ⟨h1, hh⟩ | ⟨h1, e, rest, hh, -, hbest, hle⟩⟩ := bdStep_stop he
        · rw [h1, wit.found] at hres
          simp at hres
        · rw [h1] at hres ⊢
          simp only [if_true, SearchResult.found.injEq] at hres
          obtain ⟨rfl, -⟩ := hres
          obtain ⟨p, p1, p2, p3, p4⟩ := wit.path hok hinj hb (fun u v x l => (hop u v x l).2) hstF hstB hbest
          exact ⟨p, p2, p3, p4, fun pathFuel' hf => ⟨_, rfl, p1 pathFuel' hf⟩⟩
      · simp at hres
      · simp at hres

/-! ## Examples -/

/-- Edges of a weighted example. -/
def exBdNext : Nat → List (Nat × Nat × Unit)
  | 0 => [(1, 10, ()), (2, 11, ()), (8, 11, ()), (3, 12, ())]
  | 1 => [(5, 10, ())]
  | 3 => [(4, 1, ())]
  | 4 => [(5, 5, ())]
  | 6 => [(5, 3, ()), (7, 1, ())]
  | 7 => [(5, 1, ())]
  | _ => []

/-- The incoming edges of this graph. -/
def exBdPrev : Nat → List (Nat × Nat × Unit)
  | 1 => [(0, 10, ())]
  | 2 => [(0, 11, ())]
  | 3 => [(0, 12, ())]
  | 4 => [(3, 1, ())]
  | 5 => [(1, 10, ()), (4, 5, ()), (6, 3, ()), (7, 1, ())]
  | 7 => [(6, 1, ())]
  | 8 => [(0, 11, ())]
  | _ => []

/-- The example as configuration. -/
def exBd : BdCfg Nat Nat Unit Nat := ⟨exBdNext, exBdPrev, id, true, 1000⟩

/-- Hash based collections for it. -/
def exBdHash : WGear Nat Nat Unit Nat (Nat → Option Nat) (Nat → Option Unit) (Nat → Option Nat) :=
  ⟨dictMap, dictMap, dictDist 1000⟩

theorem exBdOpposite : WOpposite exBdNext exBdPrev := by
  have h1 : ∀ u v x l, (v, x, l) ∈ exBdNext u → (u, x, l) ∈ exBdPrev v := by
    intro u v x l h
    unfold exBdNext at h
    split at h <;> simp at h <;>
      (try rcases h with ⟨rfl, rfl⟩ | ⟨rfl, rfl⟩ | ⟨rfl, rfl⟩ | ⟨rfl, rfl⟩) <;>
      simp_all [exBdPrev]
  have h2 : ∀ u v x l, (u, x, l) ∈ exBdPrev v → (v, x, l) ∈ exBdNext u := by
    intro u v x l h
    unfold exBdPrev at h
    split at h <;> simp at h <;>
      (try rcases h with ⟨rfl, rfl⟩ | ⟨rfl, rfl⟩ | ⟨rfl, rfl⟩ | ⟨rfl, rfl⟩) <;>
      simp_all [exBdNext]
  exact fun u v x l => ⟨h1 u v x l, h2 u v x l⟩

theorem exBdHyp : BdHyp exBdHash exBd where
  dd := dictDist_lawful _
  nonnegF := fun _ _ _ _ => Nat.zero_le _
  nonnegB := fun _ _ _ _ => Nat.zero_le _
  compatF := by rintro u u' v x rfl h; exact ⟨v, h, rfl⟩
  compatB := by rintro u u' v x rfl h; exact ⟨v, h, rfl⟩
  inf := Nat.zero_le _
  opp := fun u v x => ⟨fun ⟨l, h⟩ => ⟨l, (exBdOpposite u v x l).1 h⟩, fun ⟨l, h⟩ => ⟨l, (exBdOpposite u v x l).2 h⟩⟩

/-- **C31 does not hold in general.** In the graph of `exBdNext`, with start vertex 0 and goal vertex 5, the walk 0, 3, 4, 5
has weight 18, but the search returns weight 20, for the walk 0, 1, 5. The reason: after a superseded entry has
been taken from the heap of one direction, the other direction is chosen again, and the search compares the
best weight with the sum of two distances of the same direction. -/
theorem C31_counterexample :
    BdHyp exBdHash exBd ∧
    (match bdSearch exBdHash exBd [0] [5] none 100 10 with
      | .found w p => some (w, p.vertsForwards)
      | _ => none) = some (20, [0, 1, 5]) ∧
    WConnects exBd.nextF exBd.vid [0] [5] 18 := by
  refine ⟨exBdHyp, by decide +kernel, 5, 5, by simp, rfl, ?_⟩
  have h0 : WalkW exBdNext (· ∈ [0]) 0 0 := .start (by simp)
  have h1 : WalkW exBdNext (· ∈ [0]) (0 + 12) 3 := .step h0 ⟨(), by simp [exBdNext]⟩
  have h2 : WalkW exBdNext (· ∈ [0]) (0 + 12 + 1) 4 := .step h1 ⟨(), by simp [exBdNext]⟩
  have h3 : WalkW exBdNext (· ∈ [0]) (0 + 12 + 1 + 5) 5 := .step h2 ⟨(), by simp [exBdNext]⟩
  exact h3

/-- The hypotheses of the theorems about C32 hold for this example. -/
example : BdHyp exBdHash exBd ∧ Function.Injective exBd.vid ∧ exBd.buildPath = true ∧
    WOpposite exBd.nextF exBd.nextB ∧
    WStorable exBdHash.mo exBdHash.lo exBd.nextF exBd.vid [0] (fun _ => True) (fun _ => True) ∧
    WStorable exBdHash.mo exBdHash.lo exBd.nextB exBd.vid [5] (fun _ => True) (fun _ => True) ∧
    (match bdSearch exBdHash exBd [0] [4] none 100 10 with
      | .found w p => some (w, p.vertsForwards)
      | _ => none) = some (13, [0, 3, 4]) ∧
    (match bdSearch exBdHash exBd [1] [4] none 100 10 with
      | .notFound => true
      | _ => false) = true := by
  refine ⟨exBdHyp, fun _ _ h => h, rfl, exBdOpposite,
    ⟨dictMap_lawful, dictMap_lawful, fun _ _ _ => trivial, fun _ _ _ _ _ => trivial, by simp⟩,
    ⟨dictMap_lawful, dictMap_lawful, fun _ _ _ => trivial, fun _ _ _ _ _ => trivial, by simp⟩, ?_, ?_⟩
  · decide +kernel
  · decide +kernel

end NoGraphs
