import Verif.Props.ProgressSp
import Verif.Props.InfBranching

/-! # C71: progress in infinite graphs, for shortest paths with infinite branching -/

set_option linter.unusedSectionVars false

namespace NoGraphs

open Spec

variable {V W M ML D Mo Do : Type} [DecidableEq V]
variable [AddCommMonoid W] [LinearOrder W] [IsOrderedAddMonoid W]
variable {g : WGear (V × Nat) (V × Nat) Unit W M ML D} {o : IbGear V W Mo Do} {c : IbCfg V W}

/-- A state after the first one of a vertex is reached only after an edge of the vertex. -/
theorem ib_state_edge {S : V × Nat → Prop} (hS : ∀ st, S st → st.2 = 0) {x : W} {u : V} {k : Nat}
    (h : WalkW (ibPure c).next S x (u, k + 1)) : ∃ p, c.edges u k = some p := by
  cases h with
  | start h => exact absurd (hS _ h) (by simp)
  | step _ he =>
    obtain ⟨u', w, h1, -, -, h4⟩ := ibPure_edge.1 he
    rcases h4 with h4 | h4
    · simp at h4
    · simp only [Prod.mk.injEq, Nat.add_right_cancel_iff] at h4
      rw [h4.1, h4.2]
      exact ⟨_, h1⟩

/-- **C71 for shortest paths with infinite branching.** Also in an infinite graph, in which vertices may have infinitely
many edges, a vertex to which a walk of total weight `d` leads is reported after finitely many steps, if only finitely many
vertices can be reached by walks of total weight at most `d`, each of them has only finitely many edges of a weight of at
most `d`, and if distances below infinity are sufficient: when walks of total weight at most `d` are prolonged by the first
edge, or by the first one after an edge that stays within `d`, the result is below infinity. -/
theorem C71_ib_progress {isCollection : Bool} {starts : List V} (ok : IbOk g o c isCollection starts) (v : V) (d : W)
    (hv : v ∉ starts) (hw : SeqWalk c.edges (· ∈ starts) d v)
    (hfinV : ∃ vs : List V, ∀ x u, SeqWalk c.edges (· ∈ starts) x u → x ≤ d → u ∈ vs)
    (hfinE : ∀ u, ∃ n, ∀ i w y, c.edges u i = some (w, y) → y ≤ d → i < n)
    (hinf : ∀ x u i w y, SeqWalk c.edges (· ∈ starts) x u → x ≤ d → c.edges u i = some (w, y) →
      (∀ j w' y', i = j + 1 → c.edges u j = some (w', y') → x + y' ≤ d) → x + y < c.inf) :
    ∃ N, ∀ fuel, N ≤ fuel →
      ∃ r ∈ (ibRun g o c isCollection starts none fuel).reports, r.vertex = v ∧ r.distance ≤ d := by
  have hn := ibPure_nonneg ok.sorted ok.sub
  have hS : ∀ st, st ∈ ibS starts → st.2 = 0 := by
    intro st h
    obtain ⟨z, -, rfl⟩ := List.mem_map.1 h
    rfl
  have hdinf : d < c.inf := by
    cases hw with
    | start h => exact absurd h hv
    | @step x u _ y hu he =>
      obtain ⟨i, hi⟩ := he
      have h0 : 0 ≤ y := by
        refine (?_ : (0 : W) ≤ ibPrevW c u i).trans (ibPrevW_le ok.sorted hi)
        exact ibPrevW_mono ok.sorted (by rw [hi]; rfl) (Nat.zero_le i)
      refine hinf x u i v y hu (le_add_of_nonneg_right h0) hi ?_
      intro j w' y' e hj
      subst e
      exact add_le_add_right (ok.sorted.sorted u j w' y' v y hj hi) x
  have hprev : ∀ x u k, WalkW (ibPure c).next (· ∈ ibS starts) x (u, k) → 0 ≤ ibPrevW c u k := by
    intro x u k hst
    rcases k with _ | k
    · exact le_refl _
    · obtain ⟨⟨w, y⟩, hp⟩ := ib_state_edge hS hst
      rw [ibPrevW_succ hp]
      refine (?_ : (0 : W) ≤ ibPrevW c u k).trans (ibPrevW_le ok.sorted hp)
      exact ibPrevW_mono ok.sorted (by rw [hp]; rfl) (Nat.zero_le k)
  have hfin : ∃ ids : List (V × Nat), ∀ x st, WalkW (ibPure c).next (· ∈ ibS starts) x st → x ≤ d →
      (ibPure c).vid st ∈ ids := by
    classical
    obtain ⟨vs, hvs⟩ := hfinV
    choose n hnE using hfinE
    refine ⟨vs.flatMap (fun u => (List.range (n u + 1)).map (fun k => (u, k))), ?_⟩
    rintro x ⟨u, k⟩ hst hx
    obtain ⟨a, h1, h2⟩ := ib_walk_of_state ok.sorted ok.sub hst
    have ha : 0 ≤ a := SeqWalk.nonneg ok.sorted h1
    refine List.mem_flatMap.2 ⟨u, hvs a u h1 ?_, List.mem_map.2 ⟨k, List.mem_range.2 ?_, rfl⟩⟩
    · refine le_trans ?_ hx
      rw [h2]
      exact le_add_of_nonneg_right (hprev x u k hst)
    · rcases k with _ | k
      · omega
      · obtain ⟨⟨w, y⟩, hp⟩ := ib_state_edge hS hst
        have h3 : ibPrevW c u (k + 1) = y := ibPrevW_succ hp
        simp only [h3] at h2
        have := hnE u k w y hp (le_trans (le_add_of_nonneg_left ha) (h2 ▸ hx))
        omega
  have hov : ∀ x st st' y, WalkW (ibPure c).next (· ∈ ibS starts) x st → x ≤ d → WEdge (ibPure c).next st st' y →
      x + y < (ibPure c).inf := by
    rintro x ⟨u, k⟩ st' y hst hx he
    obtain ⟨w, z, h1, h2, rfl, -⟩ := ibPure_edge.1 he
    obtain ⟨a, h3, h4⟩ := ib_walk_of_state ok.sorted ok.sub hst
    simp only at h1 h2 h4
    subst h4
    simp only [ib_step_weight ok.sorted ok.sub h1 h2]
    refine hinf a u k w z h3 (le_trans (le_add_of_nonneg_right (hprev _ u k hst)) hx) h1 ?_
    intro j w' y' e hj
    subst e
    rw [ibPrevW_succ hj] at hx
    exact hx
  obtain ⟨N, hN⟩ := C71_sp_progress (g := g) (c := ibPure c) rfl ok.dist hn ibPure_compat (ibS starts) (v, 0) d
    (by
      intro h
      obtain ⟨st, h1, h2⟩ := List.mem_map.1 h
      obtain ⟨z, hz, rfl⟩ := List.mem_map.1 h1
      have h2 : (z, 0) = (v, 0) := h2
      simp only [Prod.mk.injEq, and_true] at h2
      exact hv (h2 ▸ hz)) (ib_state_of_walk ok.sorted ok.sub hw hdinf) hfin hov
  refine ⟨N, fun fuel hf => ?_⟩
  obtain ⟨r, hr, e, hle⟩ := hN fuel hf
  obtain ⟨h1, -⟩ := ib_run ok none fuel
  have e : r.vertex = (v, 0) := e
  obtain ⟨r', hr', hq⟩ := ib_forall₂_mem_right h1 (List.mem_filter.2 ⟨hr, by simp [e]⟩)
  refine ⟨r', hr', ?_, by rw [hq.distance]; exact hle⟩
  have := hq.vertex
  rw [e] at this
  simpa using this.symm

/-! ## Example: the infinite graph with infinite branching -/

theorem exIb_bound {x : Int} {u : Nat} (h : SeqWalk exIbEdges (· ∈ [0, 7]) x u) :
    0 ≤ x ∧ (u : Int) ≤ 8 + 3 * x ∧ (u % 2 = 1 → (u : Int) ≤ 7 + 3 * x) := by
  induction h with
  | start h => simp at h; omega
  | @step x u v y _ he ih =>
    obtain ⟨i, hi⟩ := he
    unfold exIbEdges at hi
    split at hi
    · simp at hi; omega
    · split at hi
      · simp at hi; omega
      · split at hi
        · simp at hi; omega
        · simp at hi

/-- Vertex 1 is reported. -/
example (b d : Bool) : ∃ N, ∀ fuel, N ≤ fuel →
    ∃ r ∈ (ibRun exIbGear exIbOut (exIbCfg b d) true [0, 7] none fuel).reports, r.vertex = 1 ∧ r.distance ≤ 2 := by
  refine C71_ib_progress (exIb_ok b d) 1 2 (by decide) ?_ ⟨List.range 15, fun x u hw hx => ?_⟩ (fun u => ⟨2, ?_⟩) ?_
  · have : SeqWalk exIbEdges (· ∈ [0, 7]) (0 + 2) 1 := .step (u := 0) (.start (by simp)) ⟨0, by simp [exIbEdges]⟩
    exact this
  · have := exIb_bound hw
    simp; omega
  · intro i w y hi hy
    simp only [exIbCfg, exIbEdges] at hi
    split at hi
    · simp at hi; omega
    · split at hi
      · omega
      · split at hi
        · omega
        · simp at hi
  · intro x u i w y hw hx hi hj
    show x + y < 1000
    have := exIb_bound hw
    simp only [exIbCfg, exIbEdges] at hi hj
    split at hi
    · rename_i hu
      simp only [if_pos hu] at hj
      rcases i with _ | i
      · simp at hi; omega
      · have := hj i _ _ rfl rfl
        simp at hi; omega
    · split at hi
      · simp at hi; omega
      · split at hi
        · simp at hi; omega
        · simp at hi

end NoGraphs
