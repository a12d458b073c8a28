import Verif.Model.InfBranching
import Verif.Spec.InfBranching
import Verif.Proofs.SpPlain

/-! Shortest paths with infinite branching: relation to the shortest paths traversal for states. -/

set_option linter.unusedSectionVars false

namespace NoGraphs

open Spec

variable {V W M ML D Mo Do : Type} [DecidableEq V]
variable [AddCommMonoid W] [LinearOrder W] [IsOrderedAddMonoid W]
variable {g : WGear (V × Nat) (V × Nat) Unit W M ML D} {o : IbGear V W Mo Do} {c : IbCfg V W}

/-- The weight of the edge before the `k`-th one. -/
def ibPrevW (c : IbCfg V W) (v : V) : Nat → W
  | 0 => 0
  | k + 1 => match c.edges v k with
    | some (_, w) => w
    | none => 0

/-- The edges of a state in the state graph. -/
def ibPureNext (c : IbCfg V W) (st : V × Nat) : List ((V × Nat) × W × Unit) :=
  match c.edges st.1 st.2 with
  | none => []
  | some (u, w) =>
    if ibPrevW c st.1 st.2 < c.inf then
      [((u, 0), c.sub w (ibPrevW c st.1 st.2), ()), ((st.1, st.2 + 1), c.sub w (ibPrevW c st.1 st.2), ())]
    else []

/-- The shortest paths problem for states. -/
def ibPure (c : IbCfg V W) : WCfg (V × Nat) (V × Nat) Unit W := { ibInner c with next := ibPureNext c }

theorem ibPrevW_le (hs : SortedSeqs c.edges) {v : V} {k : Nat} {u : V} {w : W} (h : c.edges v k = some (u, w)) :
    ibPrevW c v k ≤ w := by
  cases k with
  | zero => exact hs.nonneg v u w h
  | succ k =>
    simp only [ibPrevW]
    cases hk : c.edges v k with
    | none => rw [hs.ended v k hk] at h; cases h
    | some p => exact hs.sorted v k p.1 p.2 u w hk h

theorem ibPrevW_succ {v : V} {k : Nat} {u : V} {w : W} (h : c.edges v k = some (u, w)) :
    ibPrevW c v (k + 1) = w := by
  simp only [ibPrevW, h]

/-- The edges of the state graph. -/
theorem ibPure_edge {st st' : V × Nat} {x : W} :
    WEdge (ibPure c).next st st' x ↔ ∃ u w, c.edges st.1 st.2 = some (u, w) ∧ ibPrevW c st.1 st.2 < c.inf ∧
      x = c.sub w (ibPrevW c st.1 st.2) ∧ (st' = (u, 0) ∨ st' = (st.1, st.2 + 1)) := by
  simp only [WEdge, ibPure, ibPureNext]
  cases h : c.edges st.1 st.2 with
  | none => simp
  | some p =>
    obtain ⟨u, w⟩ := p
    simp only
    split
    · rename_i hlt
      simp only [List.mem_cons, Prod.mk.injEq, List.not_mem_nil, or_false, and_true]
      constructor
      · rintro ⟨-, ⟨h1, h2⟩ | ⟨h1, h2⟩⟩
        · exact ⟨u, w, rfl, hlt, h2, .inl h1⟩
        · exact ⟨u, w, rfl, hlt, h2, .inr h1⟩
      · rintro ⟨u', w', he, -, h2, h1⟩
        cases he
        refine ⟨(), ?_⟩
        rcases h1 with h1 | h1
        · exact .inl ⟨h1, h2⟩
        · exact .inr ⟨h1, h2⟩
    · rename_i hlt
      simp only [List.not_mem_nil, exists_false, false_iff]
      rintro ⟨u', w', -, h1, -⟩
      exact hlt h1

theorem ibPure_nonneg (hs : SortedSeqs c.edges) (hl : SubLaws c.sub c.inf) : NonNeg (ibPure c).next := by
  intro st st' x he
  obtain ⟨u, w, h1, h2, rfl, -⟩ := ibPure_edge.1 he
  exact hl.nonneg _ _ (ibPrevW_le hs h1) h2

theorem ibPure_compat : WCompat (ibPure c).next (ibPure c).vid := by
  intro u u' v x h he
  have h : u = u' := h
  subst h
  exact ⟨v, he, rfl⟩

/-- Following an edge of the state graph: distances from the base state. -/
theorem ib_step_weight (hs : SortedSeqs c.edges) (hl : SubLaws c.sub c.inf) {a : W} {v : V} {k : Nat} {u : V} {w : W}
    (h : c.edges v k = some (u, w)) (hlt : ibPrevW c v k < c.inf) :
    a + ibPrevW c v k + c.sub w (ibPrevW c v k) = a + w := by
  rw [add_assoc, add_comm (ibPrevW c v k), hl.add _ _ (ibPrevW_le hs h) hlt]

/-- Walks in the state graph are walks in the graph. -/
theorem ib_walk_of_state (hs : SortedSeqs c.edges) (hl : SubLaws c.sub c.inf) {starts : List V} {d : W} {st : V × Nat}
    (h : WalkW (ibPure c).next (· ∈ starts.map (fun v => (v, 0))) d st) :
    ∃ a, SeqWalk c.edges (· ∈ starts) a st.1 ∧ d = a + ibPrevW c st.1 st.2 := by
  induction h with
  | start h =>
    obtain ⟨v, hv, rfl⟩ := List.mem_map.1 h
    exact ⟨0, .start hv, by simp [ibPrevW]⟩
  | @step d st st' x _ he ih =>
    obtain ⟨a, h1, rfl⟩ := ih
    obtain ⟨u, w, h2, h3, rfl, h4⟩ := ibPure_edge.1 he
    rw [ib_step_weight hs hl h2 h3]
    rcases h4 with rfl | rfl
    · exact ⟨a + w, .step h1 ⟨_, h2⟩, by simp [ibPrevW]⟩
    · exact ⟨a, h1, by rw [ibPrevW_succ h2]⟩

theorem ib_edges_before (hs : SortedSeqs c.edges) {v : V} {k : Nat} (h : (c.edges v k).isSome) {j : Nat} (hj : j ≤ k) :
    (c.edges v j).isSome := by
  induction k with
  | zero => rwa [Nat.le_zero.1 hj]
  | succ k ih =>
    rcases Nat.lt_or_ge j (k + 1) with hlt | hge
    · refine ih ?_ (by omega)
      by_contra hn
      rw [hs.ended v k (by simpa using hn)] at h
      cases h
    · have : j = k + 1 := by omega
      rwa [this]

theorem ibPrevW_mono (hs : SortedSeqs c.edges) {v : V} {k : Nat} (h : (c.edges v k).isSome) {j : Nat} (hj : j ≤ k) :
    ibPrevW c v j ≤ ibPrevW c v k := by
  induction k with
  | zero => rw [Nat.le_zero.1 hj]
  | succ k ih =>
    rcases Nat.lt_or_ge j (k + 1) with hlt | hge
    · have hk := ib_edges_before hs h (Nat.le_succ k)
      obtain ⟨p, hp⟩ := Option.isSome_iff_exists.1 hk
      refine (ih hk (by omega)).trans ?_
      rw [ibPrevW_succ hp]
      exact ibPrevW_le hs hp
    · have : j = k + 1 := by omega
      rw [this]

/-- In the state graph, one can go from the base state to each further state of the vertex. -/
theorem ib_chain (hs : SortedSeqs c.edges) (hl : SubLaws c.sub c.inf) {S : V × Nat → Prop} {a : W} {v : V}
    (h : WalkW (ibPure c).next S a (v, 0)) {k : Nat} (hk : ∀ j, j < k → (c.edges v j).isSome)
    (hlt : ∀ j, j < k → ibPrevW c v j < c.inf) :
    WalkW (ibPure c).next S (a + ibPrevW c v k) (v, k) := by
  induction k with
  | zero => simpa [ibPrevW] using h
  | succ k ih =>
    obtain ⟨p, hp⟩ := Option.isSome_iff_exists.1 (hk k (Nat.lt_succ_self k))
    have := ih (fun j hj => hk j (by omega)) (fun j hj => hlt j (by omega))
    have hlt' := hlt k (Nat.lt_succ_self k)
    have h2 := WalkW.step this (ibPure_edge.2 ⟨p.1, p.2, hp, hlt', rfl, .inr rfl⟩)
    rw [ib_step_weight hs hl hp hlt'] at h2
    rwa [ibPrevW_succ hp]

theorem SeqWalk.nonneg (hs : SortedSeqs c.edges) {S : V → Prop} {a : W} {v : V} (h : SeqWalk c.edges S a v) : 0 ≤ a := by
  induction h with
  | start _ => exact le_refl _
  | step _ he ih =>
    obtain ⟨i, hi⟩ := he
    refine add_nonneg ih ((?_ : (0 : W) ≤ ibPrevW c _ i).trans (ibPrevW_le hs hi))
    exact ibPrevW_mono hs (by rw [hi]; rfl) (Nat.zero_le i)

/-- Walks in the graph with a weight below infinity are walks in the state graph. -/
theorem ib_state_of_walk (hs : SortedSeqs c.edges) (hl : SubLaws c.sub c.inf) {starts : List V} {a : W} {v : V}
    (h : SeqWalk c.edges (· ∈ starts) a v) (hlt : a < c.inf) :
    WalkW (ibPure c).next (· ∈ starts.map (fun v => (v, 0))) a (v, 0) := by
  induction h with
  | start h => exact .start (List.mem_map.2 ⟨_, h, rfl⟩)
  | @step a u v x hu he ih =>
    obtain ⟨i, hi⟩ := he
    have hisome : (c.edges u i).isSome := by rw [hi]; rfl
    have h0 : ∀ j, 0 ≤ ibPrevW c u j ∨ ¬ j ≤ i := by
      intro j
      by_cases hj : j ≤ i
      · exact .inl (ibPrevW_mono hs (ib_edges_before hs hisome hj) (Nat.zero_le j))
      · exact .inr hj
    have hx : 0 ≤ x := by
      rcases h0 i with h | h
      · exact h.trans (ibPrevW_le hs hi)
      · exact absurd (le_refl i) h
    have ha := ih (lt_of_le_of_lt (le_add_of_nonneg_right hx) hlt)
    have hxinf : x < c.inf := lt_of_le_of_lt (le_add_of_nonneg_left (SeqWalk.nonneg hs hu)) hlt
    have hp : ∀ j, j ≤ i → ibPrevW c u j < c.inf := fun j hj =>
      lt_of_le_of_lt ((ibPrevW_mono hs hisome hj).trans (ibPrevW_le hs hi)) hxinf
    have h2 := ib_chain hs hl ha (k := i) (fun j hj => ib_edges_before hs hisome (le_of_lt hj))
      (fun j hj => hp j (le_of_lt hj))
    have h3 := WalkW.step h2 (ibPure_edge.2 ⟨v, x, hi, hp i (le_refl i), rfl, .inl rfl⟩)
    rwa [ib_step_weight hs hl hi (hp i (le_refl i))] at h3

/-- Distances of base states are distances of vertices. -/
theorem ib_dist (hs : SortedSeqs c.edges) (hl : SubLaws c.sub c.inf) {starts : List V} {d : W} {v : V}
    (h : IsDist (ibPure c).next (· ∈ starts.map (fun v => (v, 0))) (ibPure c).vid (v, 0) d) (hlt : d < c.inf) :
    SeqDist c.edges (· ∈ starts) v d := by
  obtain ⟨a, h1, h2⟩ := ib_walk_of_state hs hl h.1
  simp only [ibPrevW, add_zero] at h2
  subst h2
  refine ⟨h1, fun w' hw' => ?_⟩
  rcases lt_or_ge w' c.inf with hlt' | hge
  · exact h.2 w' (v, 0) (ib_state_of_walk hs hl hw' hlt') rfl
  · exact (le_of_lt hlt).trans hge

end NoGraphs
