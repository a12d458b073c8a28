import Verif.Spec.AStarBounded
import Verif.Props.AStar

/-! # A* with estimates that are too high by a bounded amount (C109) -/

set_option linter.unusedSectionVars false

namespace NoGraphs

open Spec

variable {V K L W M ML D : Type} [DecidableEq V] [DecidableEq K]
variable [AddCommMonoid W] [LinearOrder W] [IsOrderedCancelAddMonoid W]
variable (g : WGear V K L W M ML D) (c : AStarCfg V K L W)

/-- **C109.** Let estimates be too high, by an amount described by `φ`, where `φ` grows at least as its argument (for
example, twice the weight, or the weight plus 10). Then, what A* reports as long as a goal `t` has not been reported has a path
length of at most `φ w`, for each walk of weight `w` to `t`: for the report of `t` itself, or of another goal that comes
first, the path length is off by at most this amount. -/
theorem C109_astar_bounded (ht : c.isTree = false) (hd : g.dd.Lawful c.inf) (hn : NonNeg c.next)
    (hc : WCompat c.next c.vid) (hh : HeurCompat c.heur c.vid) {goal : V → Prop} {φ : W → W}
    (hφ : ∀ a b, 0 ≤ a → a + φ b ≤ φ (a + b)) (hest : EstimatesUpTo c.next c.heur goal φ)
    (starts : List V) (limit : Option Int) (fuel : Nat)
    {before after : List (AStarReport V W M ML D)} {r : AStarReport V W M ML D}
    (hr : (aRun g c none none starts limit fuel).reports = before ++ r :: after) (h0 : 0 ≤ c.heur r.vertex)
    {t : V} (htg : goal t) (hts : c.vid t ∉ starts.map c.vid) (hnew : ∀ r' ∈ before, c.vid r'.vertex ≠ c.vid t)
    {w : W} (hw : WalkW c.next (· ∈ starts) w t) : r.pathLength ≤ φ w := by
  obtain ⟨s, hs, -⟩ := run_reaches (aStep g c) fuel (prepareLimit limit) (aInit g c none none starts)
  obtain ⟨h1, s1, s2, ha, hb, hbef⟩ := hs.emitted hr
  have inv := a_inv ht hd hn hc hh ha
  obtain ⟨e, rest, hpc, hheap, hst, hec, hre, -⟩ := a_emit ht hb
  have hele : e ∈ s1.heap := by rw [hheap]; exact List.mem_cons_self
  have hkey : e.key = aGuess c.inf (g.dd.get s1.dist (c.vid e.item.1)) (c.heur e.item.1) := by
    rw [← inv.guess _ (inv.known_ent hele)]
    exact le_antisymm (le_of_not_gt hst) (inv.guess_le hele)
  have hle : e.key ≤ φ w := by
    rcases inv.frontier hpc hw with h1 | ⟨f, hf, u, w1, w2, k1, k2, k3, k4, k5, k6⟩
    · exfalso
      rcases h1.2.2.2 with h2 | ⟨r', h2, h3⟩
      · exact hts h2
      · exact hnew r' (by rw [← hbef]; exact h2) h3
    · have hef : e.key ≤ f.key := by
        rw [hheap] at hf
        rcases List.mem_cons.1 hf with rfl | hf
        · exact le_refl _
        · have := inv.sorted
          rw [hheap] at this
          exact ((List.pairwise_cons.1 this).1 f hf).key_le
      refine hef.trans ?_
      rw [k2, inv.guess u k4]
      have hb := hest u w2 t k5 htg
      have h0 : 0 ≤ g.dd.get s1.dist (c.vid u) := inv.nonneg hn k4
      rw [← k6]
      refine le_trans ?_ (hφ w1 w2 (h0.trans k3))
      unfold aGuess
      split
      · rename_i hinf
        rw [hinf] at hb
        exact hb.trans (le_add_of_nonneg_left (h0.trans k3))
      · exact add_le_add k3 hb
  rw [hkey] at hle
  have hv : r.vertex = e.item.1 := by rw [hre]
  have hpl : r.pathLength = g.dd.get s1.dist (c.vid e.item.1) := by rw [hre]
  rw [hpl]
  by_cases hinf : c.heur e.item.1 = c.inf
  · rw [hinf, aGuess, if_pos rfl] at hle
    obtain ⟨w', -, -, h3, h4⟩ := inv.ent e hele
    exact (lt_of_le_of_lt h3 (h4 hec)).le.trans hle
  · rw [aGuess_fin hinf] at hle
    rw [hv] at h0
    exact (le_add_of_nonneg_right h0).trans hle

/-- **C109, factor.** If estimates are at most `k` times the weight of each walk to a goal, plus `δ`, then the path length
that A* reports first for a goal is at most `k` times the weight of each walk to it, plus `δ`. -/
theorem C109_astar_factor (ht : c.isTree = false) (hd : g.dd.Lawful c.inf) (hn : NonNeg c.next)
    (hc : WCompat c.next c.vid) (hh : HeurCompat c.heur c.vid) {goal : V → Prop} {k : Nat} (hk : 1 ≤ k) {δ : W}
    (hgoal : ∀ u v, c.vid u = c.vid v → goal u → goal v)
    (hest : EstimatesUpTo c.next c.heur goal (fun w => k • w + δ)) (h0 : ∀ v, goal v → 0 ≤ c.heur v)
    (starts : List V) (limit : Option Int) (fuel : Nat)
    {before after : List (AStarReport V W M ML D)} {r : AStarReport V W M ML D}
    (hr : (aRun g c none none starts limit fuel).reports = before ++ r :: after) (hrg : goal r.vertex)
    (hfirst : ∀ r' ∈ before, c.vid r'.vertex ≠ c.vid r.vertex) :
    ∀ w v, WalkW c.next (· ∈ starts) w v → c.vid v = c.vid r.vertex → r.pathLength ≤ k • w + δ := by
  intro w v hw hid
  obtain ⟨s, hs, -⟩ := run_reaches (aStep g c) fuel (prepareLimit limit) (aInit g c none none starts)
  obtain ⟨h1, s1, s2, ha, hb, -⟩ := hs.emitted hr
  obtain ⟨e, rest, hpc, hheap, hst, hec, hre, -⟩ := a_emit ht hb
  have hns : c.vid r.vertex ∉ starts.map c.vid := by
    rw [hre]
    exact ((a_inv ht hd hn hc hh ha).entR e (by rw [hheap]; exact List.mem_cons_self)).2.2 hec
  refine C109_astar_bounded g c ht hd hn hc hh (φ := fun w => k • w + δ) (fun a b hab => ?_) hest starts limit fuel hr
    (h0 _ hrg) (hgoal _ _ hid.symm hrg) (by rw [hid]; exact hns) (fun r' h => by rw [hid]; exact hfirst r' h) hw
  rw [← add_assoc, nsmul_add]
  refine add_le_add (add_le_add ?_ (le_refl _)) (le_refl _)
  obtain ⟨j, rfl⟩ := Nat.exists_eq_add_of_le' hk
  rw [succ_nsmul]
  refine le_add_of_nonneg_left ?_
  clear hest hk
  induction j with
  | zero => rw [zero_nsmul]
  | succ j ih => rw [succ_nsmul]; exact add_nonneg ih hab

/-! ## Non-vacuity -/

/-- Two ways to the goal (vertex 3), with weights 6 and 4. -/
def exBoundedGraph : Nat → List (Nat × Nat × Unit)
  | 0 => [(1, 1, ()), (2, 3, ())]
  | 1 => [(3, 5, ())]
  | 2 => [(3, 1, ())]
  | _ => []

/-- The estimate 4 of vertex 2 is too high, by 3: the goal is reported first with path length 6, then with 4. -/
def exBounded : AStarCfg Nat Nat Unit Nat := ⟨exBoundedGraph, id, false, false, 1000, fun v => if v = 2 then 4 else 0⟩

example : (aRun exInfGear exBounded none none [0] none 100).reports.map (fun r => (r.vertex, r.pathLength)) =
    [(1, 1), (3, 6), (2, 3), (3, 4)] := by decide +kernel

theorem exBounded_walks {w v : Nat} (h : WalkW exBoundedGraph (· = 2) w v) : v = 2 ∨ (v = 3 ∧ 1 ≤ w) := by
  induction h with
  | start hs => exact .inl hs
  | @step w u v x _ he ih =>
    obtain ⟨l, hl⟩ := he
    rcases ih with rfl | ⟨rfl, h1⟩ <;> simp [exBoundedGraph] at hl
    omega

/-- The estimates are at most the weight plus 3. -/
theorem exBounded_est : EstimatesUpTo exBounded.next exBounded.heur (· = 3) (fun w => 1 • w + 3) := by
  intro u w v hw hv
  simp only [exBounded] at hw ⊢
  split
  · rename_i hu
    subst hu
    rcases exBounded_walks hw with h | h
    · omega
    · simp only [one_nsmul]; omega
  · exact Nat.zero_le _

/-- The estimates are not admissible, but the hypotheses of C109 hold: the first report of the goal is at most 3 too high. -/
example : ¬ Admissible exBounded.next exBounded.heur (· = 3) ∧
    ∀ before after r, (aRun exInfGear exBounded none none [0] none 100).reports = before ++ r :: after → r.vertex = 3 →
      (∀ r' ∈ before, r'.vertex ≠ 3) → ∀ w, WalkW exBounded.next (· ∈ [0]) w 3 → r.pathLength ≤ 1 • w + 3 := by
  refine ⟨fun h => ?_, fun before after r hr h3 hfirst w hw => ?_⟩
  · have h1 : WalkW exBounded.next (· = 2) 0 2 := .start rfl
    have h2 := h 2 (0 + 1) 3 (.step h1 ⟨(), by simp [exBounded, exBoundedGraph]⟩) rfl
    simp [exBounded] at h2
  · exact C109_astar_factor exInfGear exBounded rfl (dictDist_lawful 1000) (fun _ _ _ _ => Nat.zero_le _) wcompat_id
      (fun u v (h : u = v) => by rw [h]) (le_refl 1) (fun u v (h : u = v) hu => h ▸ hu) exBounded_est
      (fun _ _ => Nat.zero_le _) [0] none 100 hr h3 (fun r' h => by rw [h3]; exact hfirst r' h) w 3 hw h3.symm

end NoGraphs
