import Verif.Proofs.Ragged

/-!
# C94: Arrays with missing cells

`Array` takes the size of each dimension from the first elements and does not check that all rows have the same length.
`FirstSizes` and `HasCell` are defined in `Verif/Spec/Ragged.lean`, `GridNeighbor` (adjacent, or adjacent after wrapping,
and inside the sizes) in `Verif/Props/MatrixGadgets.lean`.
-/

set_option linter.unusedSectionVars false

namespace NoGraphs

open Spec

variable {α : Type}

/-- **C94 (vertices).** For every array whose first elements are not empty, rectangular or not, and for every position, the
function of `next_vertices_from_forbidden`: if all neighbors inside the sizes have a cell, it gives exactly the allowed ones and
raises nothing. If a neighbor inside the sizes has no cell, the iteration ends with an `IndexError`. All
positions given before are allowed neighbors, and without wrapping, these are exactly the allowed neighbors that come, in the
order of positions, before the first missing cell. -/
theorem C94_next_vertices (n : Nat) (a : ArrContent α n) (dims : List Nat) (hs : FirstSizes n a dims)
    (forbidden : α → Bool) (wrap diagonals : Bool) :
    ∃ f, Arr.nextVertices n a forbidden wrap diagonals = .ok f ∧
      ∀ p : Vec, p.length = n → ∃ ns err, f p = (ns, err) ∧
        ((∀ q, GridNeighbor dims wrap diagonals p q → ∃ x, HasCell n a q x) → err = none ∧
          ∀ q, q ∈ ns ↔ GridNeighbor dims wrap diagonals p q ∧ ∃ x, HasCell n a q x ∧ forbidden x = false) ∧
        ((∃ q, GridNeighbor dims wrap diagonals p q ∧ ∀ x, ¬ HasCell n a q x) → err = some .indexError) ∧
        (∀ q ∈ ns, GridNeighbor dims wrap diagonals p q ∧ ∃ x, HasCell n a q x ∧ forbidden x = false) ∧
        (wrap = false → ns.Pairwise (· < ·) ∧ ∀ q, q ∈ ns ↔
          (GridNeighbor dims wrap diagonals p q ∧ ∃ x, HasCell n a q x ∧ forbidden x = false) ∧
          ∀ r, GridNeighbor dims wrap diagonals p r → r < q → ∃ y, HasCell n a r y) := by
  obtain ⟨hlim, hlen, hpos⟩ := Arr.firstSizes_limits hs
  obtain ⟨ms, h1, h2⟩ := Arr.neighbors_grid hlen hpos wrap diagonals
  refine ⟨_, by simp only [Arr.nextVertices, hlim, h1, bind, Except.bind, pure, Except.pure]; rfl, fun p hp => ?_⟩
  obtain ⟨vs, g1, g2, g3⟩ := h2 p hp
  obtain ⟨pre, post, r, rfl, k2, k3, k4, k5⟩ := Arr.filterAllowed_split (a := a) (forbidden := forbidden) vs
  have hcell : ∀ q, q ∈ pre ++ post → (∃ x, Arr.get n a q = .ok x ∧ ∀ y, HasCell n a q y ↔ y = x) ∨
      (Arr.get n a q = .error .indexError ∧ ∀ y, ¬ HasCell n a q y) :=
    fun q hq => Arr.get_hasCell hlen (Arr.gridNeighbor_inside ((g3 q).1 hq))
  have hok : ∀ q, q ∈ pre ++ post → ((∃ x, Arr.get n a q = .ok x ∧ forbidden x = false) ↔
      ∃ x, HasCell n a q x ∧ forbidden x = false) := by
    intro q hq
    rcases hcell q hq with ⟨x, h3, h4⟩ | ⟨h3, h4⟩
    · simp [h3, h4]
    · simp [h3, h4]
  have hpre : ∀ q ∈ pre, ∃ x, HasCell n a q x := by
    intro q hq
    rcases hcell q (List.mem_append_left _ hq) with ⟨x, h3, h4⟩ | ⟨h3, h4⟩
    · exact ⟨x, (h4 x).2 rfl⟩
    · obtain ⟨x, hx⟩ := k2 q hq
      rw [h3] at hx; simp at hx
  have hin : ∀ q ∈ r, GridNeighbor dims wrap diagonals p q ∧ ∃ x, HasCell n a q x ∧ forbidden x = false := by
    intro q hq
    obtain ⟨h3, h4⟩ := (k4 q).1 hq
    have hm := List.mem_append_left post h3
    exact ⟨(g3 q).1 hm, (hok q hm).1 h4⟩
  rcases k5 with ⟨rfl, k6⟩ | ⟨v, post', e, rfl, k7, k6⟩
  · refine ⟨r, none, by simp only [g1, k6]; rfl, fun _ => ⟨rfl, ?_⟩, ?_, hin, fun hw => ⟨(g2 hw).sublist ?_, ?_⟩⟩
    · intro q
      refine ⟨hin q, fun ⟨h3, h4⟩ => (k4 q).2 ?_⟩
      have hm := (g3 q).2 h3
      exact ⟨by simpa using hm, (hok q hm).2 h4⟩
    · rintro ⟨q, h3, h4⟩
      have hm := (g3 q).2 h3
      obtain ⟨x, hx⟩ := hpre q (by simpa using hm)
      exact absurd hx (h4 x)
    · simpa using k3
    · intro q
      constructor
      · intro hq
        refine ⟨hin q hq, fun r' hr' _ => ?_⟩
        exact hpre r' (by simpa using (g3 r').2 hr')
      · rintro ⟨⟨h3, h4⟩, -⟩
        have hm := (g3 q).2 h3
        exact (k4 q).2 ⟨by simpa using hm, (hok q hm).2 h4⟩
  · have hvm : v ∈ pre ++ v :: post' := by simp
    have hv : e = .indexError ∧ ∀ y, ¬ HasCell n a v y := by
      rcases hcell v hvm with ⟨x, h3, h4⟩ | ⟨h3, h4⟩
      · rw [h3] at k7; simp at k7
      · rw [h3] at k7
        simp only [Except.error.injEq] at k7
        exact ⟨k7.symm, h4⟩
    obtain ⟨rfl, hno⟩ := hv
    have hgv := (g3 v).1 hvm
    refine ⟨r, some .indexError, by simp only [g1, k6]; rfl, fun h => ?_, fun _ => rfl, hin, fun hw => ⟨?_, ?_⟩⟩
    · obtain ⟨x, hx⟩ := h v hgv
      exact absurd hx (hno x)
    · exact (g2 hw).sublist (k3.trans (List.sublist_append_left _ _))
    · have hsort := List.pairwise_append.1 (g2 hw)
      intro q
      constructor
      · intro hq
        refine ⟨hin q hq, fun r' hr' hlt => ?_⟩
        have hqp := ((k4 q).1 hq).1
        rcases List.mem_append.1 ((g3 r').2 hr') with h | h
        · exact hpre r' h
        · exact absurd (hsort.2.2 q hqp r' h) (lt_asymm hlt)
      · rintro ⟨⟨h3, h4⟩, h5⟩
        have hm := (g3 q).2 h3
        refine (k4 q).2 ⟨?_, (hok q hm).2 h4⟩
        rcases List.mem_append.1 hm with h | h
        · exact h
        · exfalso
          rcases List.mem_cons.1 h with rfl | h
          · obtain ⟨x, hx, -⟩ := h4
            exact hno x hx
          · obtain ⟨y, hy⟩ := h5 v hgv ((List.pairwise_cons.1 hsort.2.1).1 q h)
            exact hno y hy

/-- **C94 (edges).** The same for the function of `next_edges_from_cell_weights`. -/
theorem C94_next_edges {W : Type} (n : Nat) (a : ArrContent α n) (dims : List Nat) (hs : FirstSizes n a dims)
    (weight : α → Option W) (wrap diagonals : Bool) :
    ∃ f, Arr.nextEdges n a weight wrap diagonals = .ok f ∧
      ∀ p : Vec, p.length = n → ∃ es err, f p = (es, err) ∧
        ((∀ q, GridNeighbor dims wrap diagonals p q → ∃ x, HasCell n a q x) → err = none ∧
          ∀ q w, (q, w) ∈ es ↔ GridNeighbor dims wrap diagonals p q ∧ ∃ x, HasCell n a q x ∧ weight x = some w) ∧
        ((∃ q, GridNeighbor dims wrap diagonals p q ∧ ∀ x, ¬ HasCell n a q x) → err = some .indexError) ∧
        (∀ q w, (q, w) ∈ es → GridNeighbor dims wrap diagonals p q ∧ ∃ x, HasCell n a q x ∧ weight x = some w) ∧
        (wrap = false → (es.map Prod.fst).Pairwise (· < ·) ∧ ∀ q w, (q, w) ∈ es ↔
          (GridNeighbor dims wrap diagonals p q ∧ ∃ x, HasCell n a q x ∧ weight x = some w) ∧
          ∀ r, GridNeighbor dims wrap diagonals p r → r < q → ∃ y, HasCell n a r y) := by
  obtain ⟨hlim, hlen, hpos⟩ := Arr.firstSizes_limits hs
  obtain ⟨ms, h1, h2⟩ := Arr.neighbors_grid hlen hpos wrap diagonals
  refine ⟨_, by simp only [Arr.nextEdges, hlim, h1, bind, Except.bind, pure, Except.pure]; rfl, fun p hp => ?_⟩
  obtain ⟨vs, g1, g2, g3⟩ := h2 p hp
  obtain ⟨pre, post, r, rfl, k2, k3, k4, k5⟩ := Arr.filterWeighted_split (a := a) (weight := weight) vs
  have hcell : ∀ q, q ∈ pre ++ post → (∃ x, Arr.get n a q = .ok x ∧ ∀ y, HasCell n a q y ↔ y = x) ∨
      (Arr.get n a q = .error .indexError ∧ ∀ y, ¬ HasCell n a q y) :=
    fun q hq => Arr.get_hasCell hlen (Arr.gridNeighbor_inside ((g3 q).1 hq))
  have hok : ∀ q w, q ∈ pre ++ post → ((∃ x, Arr.get n a q = .ok x ∧ weight x = some w) ↔
      ∃ x, HasCell n a q x ∧ weight x = some w) := by
    intro q w hq
    rcases hcell q hq with ⟨x, h3, h4⟩ | ⟨h3, h4⟩
    · simp [h3, h4]
    · simp [h3, h4]
  have hpre : ∀ q ∈ pre, ∃ x, HasCell n a q x := by
    intro q hq
    rcases hcell q (List.mem_append_left _ hq) with ⟨x, h3, h4⟩ | ⟨h3, h4⟩
    · exact ⟨x, (h4 x).2 rfl⟩
    · obtain ⟨x, hx⟩ := k2 q hq
      rw [h3] at hx; simp at hx
  have hin : ∀ q w, (q, w) ∈ r → GridNeighbor dims wrap diagonals p q ∧ ∃ x, HasCell n a q x ∧ weight x = some w := by
    intro q w hq
    obtain ⟨h3, h4⟩ := (k4 q w).1 hq
    have hm := List.mem_append_left post h3
    exact ⟨(g3 q).1 hm, (hok q w hm).1 h4⟩
  rcases k5 with ⟨rfl, k6⟩ | ⟨v, post', e, rfl, k7, k6⟩
  · refine ⟨r, none, by simp only [g1, k6]; rfl, fun _ => ⟨rfl, ?_⟩, ?_, hin, fun hw => ⟨(g2 hw).sublist ?_, ?_⟩⟩
    · intro q w
      refine ⟨hin q w, fun ⟨h3, h4⟩ => (k4 q w).2 ?_⟩
      have hm := (g3 q).2 h3
      exact ⟨by simpa using hm, (hok q w hm).2 h4⟩
    · rintro ⟨q, h3, h4⟩
      have hm := (g3 q).2 h3
      obtain ⟨x, hx⟩ := hpre q (by simpa using hm)
      exact absurd hx (h4 x)
    · simpa using k3
    · intro q w
      constructor
      · intro hq
        refine ⟨hin q w hq, fun r' hr' _ => ?_⟩
        exact hpre r' (by simpa using (g3 r').2 hr')
      · rintro ⟨⟨h3, h4⟩, -⟩
        have hm := (g3 q).2 h3
        exact (k4 q w).2 ⟨by simpa using hm, (hok q w hm).2 h4⟩
  · have hvm : v ∈ pre ++ v :: post' := by simp
    have hv : e = .indexError ∧ ∀ y, ¬ HasCell n a v y := by
      rcases hcell v hvm with ⟨x, h3, h4⟩ | ⟨h3, h4⟩
      · rw [h3] at k7; simp at k7
      · rw [h3] at k7
        simp only [Except.error.injEq] at k7
        exact ⟨k7.symm, h4⟩
    obtain ⟨rfl, hno⟩ := hv
    have hgv := (g3 v).1 hvm
    refine ⟨r, some .indexError, by simp only [g1, k6]; rfl, fun h => ?_, fun _ => rfl, hin, fun hw => ⟨?_, ?_⟩⟩
    · obtain ⟨x, hx⟩ := h v hgv
      exact absurd hx (hno x)
    · exact (g2 hw).sublist (k3.trans (List.sublist_append_left _ _))
    · have hsort := List.pairwise_append.1 (g2 hw)
      intro q w
      constructor
      · intro hq
        refine ⟨hin q w hq, fun r' hr' hlt => ?_⟩
        have hqp := ((k4 q w).1 hq).1
        rcases List.mem_append.1 ((g3 r').2 hr') with h | h
        · exact hpre r' h
        · exact absurd (hsort.2.2 q hqp r' h) (lt_asymm hlt)
      · rintro ⟨⟨h3, h4⟩, h5⟩
        have hm := (g3 q).2 h3
        refine (k4 q w).2 ⟨?_, (hok q w hm).2 h4⟩
        rcases List.mem_append.1 hm with h | h
        · exact h
        · exfalso
          rcases List.mem_cons.1 h with rfl | h
          · obtain ⟨x, hx, -⟩ := h4
            exact hno x hx
          · obtain ⟨y, hy⟩ := h5 v hgv ((List.pairwise_cons.1 hsort.2.1).1 q h)
            exact hno y hy

/-- Each rectangular array without empty dimensions meets the hypothesis, with its sizes: C94 extends C46. -/
theorem C94_rect (n : Nat) (a : ArrContent α n) (dims : List Nat) (hr : Rect n a dims) (hpos : ∀ d ∈ dims, 0 < d) :
    FirstSizes n a dims ∧ ∀ q, Inside q (dimLimits dims) → ∃ x, HasCell n a q x := by
  constructor
  · induction n generalizing dims with
    | zero => exact hr
    | succ n ih =>
      obtain ⟨d, ds, rfl, h1, h2, h3⟩ := hr
      have hd := hpos d List.mem_cons_self
      cases hrow : Arr.rows a with
      | nil => rw [hrow] at h2; simp at h2; omega
      | cons x xs =>
        refine ⟨x, ds, by rw [hrow]; rfl, by rw [h2], ?_⟩
        exact ih x ds (h3 x (by rw [hrow]; exact List.mem_cons_self)) (fun e he => hpos e (List.mem_cons_of_mem _ he))
  · intro q hq
    obtain ⟨x, hx⟩ := Arr.get_inside hr hq
    rcases Arr.get_hasCell (a := a) (Arr.rect_length hr) hq with ⟨y, h1, h2⟩ | ⟨h1, -⟩
    · exact ⟨y, (h2 y).2 rfl⟩
    · rw [hx] at h1; simp at h1

/-! ## Example -/

/-- An array whose second row is too short. -/
def exRagged : ArrContent Char 2 := ([['.', '#', '.'], ['.']] : List (List Char))

set_option synthInstance.maxSize 2000 in
/-- It meets the hypothesis; position (1, 1) has no cell. The neighbors of (0, 1) are (0, 0), (0, 2) and (1, 1): after the first
two, an `IndexError` is raised; and for (1, 2), where (0, 2) comes before (1, 1), only (0, 2) is given. -/
example : FirstSizes 2 exRagged [2, 3] ∧
    (Arr.nextVertices 2 exRagged (fun c => c == '#') false false).toOption.map (fun f => (f [0, 1], f [1, 2], f [0, 0])) =
      some (([[0, 0], [0, 2]], some .indexError), ([[0, 2]], some .indexError), ([[1, 0]], none)) :=
  ⟨⟨['.', '#', '.'], [3], rfl, rfl, '.', [], rfl, rfl, rfl⟩, by decide +kernel⟩

end NoGraphs
