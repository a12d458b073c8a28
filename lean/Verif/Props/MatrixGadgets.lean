import Verif.Proofs.Arrays
import Mathlib.Algebra.BigOperators.Fin
import Mathlib.Algebra.Order.Group.Unbundled.Int

/-!
# Properties of positions and arrays (C44, C45, C46)

Specification: `Verif/Spec/Grid.lean` and `Verif/Spec/Arrays.lean`.
-/

namespace NoGraphs

open Spec

/-! ## C44: position arithmetic and wrapping -/

/-- **C44.** The sum of two positions is calculated coordinate by coordinate. -/
theorem C44_add (p q : Vec) (h : p.length = q.length) :
    (Pos.add p q).length = p.length ∧
      ∀ i, (hi : i < p.length) → (Pos.add p q)[i]? = some (p[i] + q[i]'(h ▸ hi)) := by
  refine ⟨Pos.add_length h, fun i hi => ?_⟩
  rw [Pos.add_eq_zipWith, List.getElem?_zipWith, List.getElem?_eq_getElem hi, List.getElem?_eq_getElem (h ▸ hi)]

/-- **C44.** The difference of two positions is calculated coordinate by coordinate. -/
theorem C44_sub (p q : Vec) (h : p.length = q.length) :
    (Pos.sub p q).length = p.length ∧
      ∀ i, (hi : i < p.length) → (Pos.sub p q)[i]? = some (p[i] - q[i]'(h ▸ hi)) := by
  refine ⟨by simp [Pos.sub, h], fun i hi => ?_⟩
  rw [Pos.sub, List.getElem?_zipWith, List.getElem?_eq_getElem hi, List.getElem?_eq_getElem (h ▸ hi)]

/-- **C44.** A multiple of a position is calculated coordinate by coordinate. -/
theorem C44_mul (p : Vec) (k : Int) :
    (Pos.mul p k).length = p.length ∧ ∀ i, (hi : i < p.length) → (Pos.mul p k)[i]? = some (p[i] * k) := by
  refine ⟨by simp [Pos.mul], fun i hi => ?_⟩
  rw [Pos.mul, List.getElem?_map, List.getElem?_eq_getElem hi]
  rfl

theorem Pos.manhattan_cons (a b : Int) (p q : Vec) :
    Pos.manhattan (a :: p) (b :: q) = |a - b| + Pos.manhattan p q := by
  unfold Pos.manhattan Pos.sub
  rw [List.zipWith_cons_cons, List.map_cons, List.sum_cons, Int.abs_eq_natAbs]

/-- **C44.** The Manhattan distance of two positions is the sum of the absolute differences of their coordinates. -/
theorem C44_manhattan (n : Nat) (p q : Fin n → Int) :
    Pos.manhattan (List.ofFn p) (List.ofFn q) = ∑ i, |p i - q i| := by
  induction n with
  | zero => simp [Pos.manhattan, Pos.sub]
  | succ n ih =>
    rw [List.ofFn_succ, List.ofFn_succ, Pos.manhattan_cons, ih, Fin.sum_univ_succ]

/-- **C44.** `is_in_cuboid` decides whether the position is inside the limits. -/
theorem C44_in_cuboid (p : Vec) (limits : LimitsList) (h : p.length = limits.length) :
    Pos.inCuboid p limits = true ↔ Inside p limits :=
  Pos.inCuboid_iff h

/-- **C44.** Wrapping a position to a non-empty cuboid gives a position inside the cuboid that is, in each dimension,
congruent to the given one modulo the size of the cuboid, and there is no other such position. -/
theorem C44_wrap (p : Vec) (limits : LimitsList) (h : p.length = limits.length) (hne : NonEmpty limits) :
    ∃ q, Pos.wrap p limits = .ok q ∧ Inside q limits ∧ SameModulo p q limits ∧
      ∀ q', Inside q' limits → SameModulo p q' limits → q' = q := by
  obtain ⟨q, h1, h2, h3⟩ := Pos.wrap_ok h hne
  exact ⟨q, h1, h2, h3, fun q' i' s' => Pos.sameModulo_unique s' h3 i' h2⟩

/-- **C44.** Wrapping does not change a position that already is inside the cuboid. -/
theorem C44_wrap_inside (p : Vec) (limits : LimitsList) (h : Inside p limits) : Pos.wrap p limits = .ok p := by
  have hl : p.length = limits.length := h.length_eq
  have hne : NonEmpty limits := by
    unfold Inside at h
    clear hl
    induction h with
    | nil => intro l hl; simp at hl
    | cons h0 _ ih =>
      intro l hl
      rcases List.mem_cons.1 hl with rfl | hl
      · omega
      · exact ih l hl
  obtain ⟨q, h1, -, -, h4⟩ := C44_wrap p limits hl hne
  have hs : SameModulo p p limits := by
    unfold Inside at h
    clear hl hne h1 h4
    induction h with
    | nil => exact .nil
    | cons _ _ ih => exact .cons ⟨0, by omega⟩ ih
  rw [h1, h4 p h hs]

theorem Pos.wrapCoord_empty (c lo : Int) : Pos.wrapCoord c lo lo = .error .zeroDivisionError := by
  unfold Pos.wrapCoord Pos.pyMod
  by_cases h : c < lo
  · simp only [if_pos h, Int.sub_self, if_true]; rfl
  · simp only [if_neg h, Int.sub_self, if_true, pure, Except.pure, bind, Except.bind, if_pos (Int.not_lt.1 h)]

/-- **C44.** If the cuboid is empty, because in some dimension the limits are equal, wrapping raises a `ZeroDivisionError`. -/
theorem C44_wrap_empty (p : Vec) (limits : LimitsList) (h : p.length = limits.length) (hle : ∀ l ∈ limits, l.1 ≤ l.2)
    (he : ∃ l ∈ limits, l.1 = l.2) : Pos.wrap p limits = .error .zeroDivisionError := by
  induction limits generalizing p with
  | nil => simp at he
  | cons l limits ih =>
    rcases p with _ | ⟨a, p⟩
    · simp at h
    · rw [Pos.wrap_cons]
      by_cases h1 : l.1 = l.2
      · rw [← h1, Pos.wrapCoord_empty]; rfl
      · have h2 : l.1 < l.2 := lt_of_le_of_ne (hle l List.mem_cons_self) h1
        obtain ⟨w, h4, -⟩ := Pos.wrapCoord_ok (c := a) h2
        obtain ⟨k, hk, h3⟩ := he
        have hk' : k ∈ limits := by
          rcases List.mem_cons.1 hk with rfl | hk
          · exact absurd h3 h1
          · exact hk
        rw [h4, ih p (by simpa using h) (fun l hl => hle l (List.mem_cons_of_mem _ hl)) ⟨k, hk', h3⟩]
        rfl

/-! ## C45: moves and neighbors -/

/-- **C45.** Without `non_zero_counts`, `moves` gives the vectors with coordinates -1, 0 and 1 and exactly one non-zero
coordinate, with `diagonals` also those with more of them, with `zero_move` also the one without, in ascending order (so
each one once). -/
theorem C45_moves (n : Nat) (diagonals zero : Bool) :
    ∃ ms, Pos.moves n diagonals zero none = .ok ms ∧ ms.Pairwise (· < ·) ∧
      ∀ v, v ∈ ms ↔ v.length = n ∧ (∀ c ∈ v, c = -1 ∨ c = 0 ∨ c = 1) ∧
        (v.countP (fun c => decide (c ≠ 0)) = 1 ∨ (diagonals = true ∧ 1 < v.countP (fun c => decide (c ≠ 0))) ∨
          (zero = true ∧ v.countP (fun c => decide (c ≠ 0)) = 0)) := by
  obtain ⟨ms, h1, h2, h3⟩ := Pos.moves_default n diagonals zero
  refine ⟨ms, h1, h2, fun v => ?_⟩
  rw [h3, List.countP_eq_length_filter]
  have : (∀ c ∈ v, -1 ≤ c ∧ c ≤ 1) ↔ ∀ c ∈ v, c = -1 ∨ c = 0 ∨ c = 1 :=
    forall_congr' (fun c => imp_congr_right (fun _ => by omega))
  rw [this]

/-- **C45.** With `non_zero_counts`, `moves` gives the vectors with coordinates -1, 0 and 1 whose number of non-zero
coordinates is one of the given ones, in ascending order. -/
theorem C45_moves_counts (n : Nat) (counts : Int → Bool) :
    ∃ ms, Pos.moves n false false (some counts) = .ok ms ∧ ms.Pairwise (· < ·) ∧
      ∀ v, v ∈ ms ↔ v.length = n ∧ (∀ c ∈ v, c = -1 ∨ c = 0 ∨ c = 1) ∧
        counts (v.countP (fun c => decide (c ≠ 0))) = true := by
  refine ⟨_, rfl, (Pos.products_sorted n).filter _, fun v => ?_⟩
  rw [List.mem_filter, Pos.mem_products, List.countP_eq_length_filter]
  have : (∀ c ∈ v, -1 ≤ c ∧ c ≤ 1) ↔ ∀ c ∈ v, c = -1 ∨ c = 0 ∨ c = 1 :=
    forall_congr' (fun c => imp_congr_right (fun _ => by omega))
  rw [this, and_assoc]
  refine and_congr_right (fun hl => and_congr_right (fun _ => ?_))
  rw [← hl, Pos.count_zero]

/-- **C45.** Combining `non_zero_counts` with one of the other options is rejected. -/
theorem C45_moves_incompatible (n : Nat) (diagonals zero : Bool) (counts : Int → Bool)
    (h : diagonals = true ∨ zero = true) : Pos.moves n diagonals zero (some counts) = .error .runtimeError := by
  rcases h with rfl | rfl <;> simp [Pos.moves]

/-- **C45.** For given moves without limits, the neighbors of a position are the positions that the moves lead to. -/
theorem C45_neighbors (p : Vec) (ms : List Vec) :
    Pos.neighbors p none false ms = (ms.map (fun m => List.zipWith (· + ·) p m), none) := by
  rw [Pos.neighbors_unlimited]
  simp only [Prod.mk.injEq, and_true]
  exact List.map_congr_left (fun m _ => Pos.add_eq_zipWith p m)

/-- **C45.** For given moves with limits, the neighbors of a position are, in the order of the moves, the positions that
the moves lead to and that are inside the limits. -/
theorem C45_neighbors_limits (p : Vec) (limits : LimitsList) (hp : p.length = limits.length) (ms : List Vec)
    (hms : ∀ m ∈ ms, m.length = p.length) :
    ∃ ns, Pos.neighbors p (some limits) false ms = (ns, none) ∧
      ns.Sublist (ms.map (fun m => List.zipWith (· + ·) p m)) ∧
      ∀ q, q ∈ ns ↔ (∃ m ∈ ms, q = List.zipWith (· + ·) p m) ∧ Inside q limits := by
  refine ⟨_, Pos.neighbors_inside p limits ms, ?_, fun q => ?_⟩
  · have : ms.map (fun m => List.zipWith (· + ·) p m) = ms.map (Pos.add p) :=
      List.map_congr_left (fun m _ => (Pos.add_eq_zipWith p m).symm)
    rw [this]
    exact List.filter_sublist
  · rw [List.mem_filter, List.mem_map]
    constructor
    · rintro ⟨⟨m, hm, rfl⟩, h⟩
      refine ⟨⟨m, hm, Pos.add_eq_zipWith p m⟩, (Pos.inCuboid_iff ?_).1 h⟩
      rw [Pos.add_length (hms m hm).symm, hp]
    · rintro ⟨⟨m, hm, rfl⟩, h⟩
      refine ⟨⟨m, hm, Pos.add_eq_zipWith p m⟩, (Pos.inCuboid_iff ?_).2 h⟩
      rw [← Pos.add_eq_zipWith, Pos.add_length (hms m hm).symm, hp]

/-- **C45.** With wrapping, there is one neighbor per move, in the order of the moves: the position inside the limits that
is congruent to the one the move leads to. -/
theorem C45_neighbors_wrap (p : Vec) (limits : LimitsList) (hp : p.length = limits.length) (hne : NonEmpty limits)
    (ms : List Vec) (hms : ∀ m ∈ ms, m.length = p.length) :
    ∃ ns, Pos.neighbors p (some limits) true ms = (ns, none) ∧
      List.Forall₂ (fun m q => Inside q limits ∧ SameModulo (List.zipWith (· + ·) p m) q limits) ms ns := by
  obtain ⟨ns, h1, h2⟩ := Pos.neighbors_wrapped hp hne hms
  refine ⟨ns, h1, h2.imp (fun m q h => ?_)⟩
  rwa [← Pos.add_eq_zipWith]

/-- **C45.** Wrapping without limits is rejected, with the first move. -/
theorem C45_neighbors_wrap_without_limits (p m : Vec) (ms : List Vec) :
    Pos.neighbors p none true (m :: ms) = ([], some .runtimeError) := by
  simp [Pos.neighbors]

/-- **C45.** Wrapping to an empty cuboid raises a `ZeroDivisionError`, with the first move. -/
theorem C45_neighbors_wrap_empty (p m : Vec) (ms : List Vec) (limits : LimitsList) (hp : p.length = limits.length)
    (hm : m.length = p.length) (hle : ∀ l ∈ limits, l.1 ≤ l.2) (he : ∃ l ∈ limits, l.1 = l.2) :
    Pos.neighbors p (some limits) true (m :: ms) = ([], some .zeroDivisionError) := by
  simp only [Pos.neighbors, if_true]
  rw [C44_wrap_empty _ _ (by rw [Pos.add_length hm.symm, hp]) hle he]

theorem Pos.neighbors_sorted {p : Vec} {ms : List Vec} (hs : ms.Pairwise (· < ·)) (hms : ∀ m ∈ ms, m.length = p.length) :
    (ms.map (Pos.add p)).Pairwise (· < ·) := by
  rw [List.pairwise_map]
  exact hs.imp_of_mem (fun {a b} ha hb hab => Pos.add_lt (hms a ha).symm (hms b hb).symm hab)

/-- **C45.** With the moves given by `moves`, and without limits, the neighbors of a position are exactly the adjacent
positions, in ascending order. -/
theorem C45_neighbors_adjacent (p : Vec) (diagonals zero : Bool) :
    ∃ ms ns, Pos.moves p.length diagonals zero none = .ok ms ∧ Pos.neighbors p none false ms = (ns, none) ∧
      ns.Pairwise (· < ·) ∧ ∀ q, q ∈ ns ↔ Adjacent diagonals zero p q := by
  obtain ⟨ms, h1, h2, h3⟩ := Pos.moves_default p.length diagonals zero
  exact ⟨ms, _, h1, Pos.neighbors_unlimited p ms, Pos.neighbors_sorted h2 (fun m hm => ((h3 m).1 hm).1),
    Pos.adjacent_iff h3 rfl⟩

/-- **C45.** With the moves given by `moves`, and with limits, the neighbors of a position are exactly the adjacent
positions inside the limits, in ascending order. -/
theorem C45_neighbors_adjacent_limits (p : Vec) (limits : LimitsList) (hp : p.length = limits.length)
    (diagonals zero : Bool) :
    ∃ ms ns, Pos.moves p.length diagonals zero none = .ok ms ∧
      Pos.neighbors p (some limits) false ms = (ns, none) ∧ ns.Pairwise (· < ·) ∧
      ∀ q, q ∈ ns ↔ Adjacent diagonals zero p q ∧ Inside q limits := by
  obtain ⟨ms, h1, h2, h3⟩ := Pos.moves_default p.length diagonals zero
  refine ⟨ms, _, h1, Pos.neighbors_inside p limits ms,
    (Pos.neighbors_sorted h2 (fun m hm => ((h3 m).1 hm).1)).filter _, fun q => ?_⟩
  rw [List.mem_filter, Pos.adjacent_iff h3 rfl]
  refine and_congr_right (fun hq => Pos.inCuboid_iff ?_)
  rw [← hq.1.length_eq, hp]

/-! ## C46: arrays -/

section Arrays

variable {α : Type}

/-- **C46.** `items` lists exactly the positions of the array with their content, in ascending order of the positions (so
each position once). -/
theorem C46_items (n : Nat) (a : ArrContent α (n + 1)) (dims : List Nat) (hr : Rect (n + 1) a dims) :
    ((Arr.itemsIn n a).map Prod.fst).Pairwise (· < ·) ∧
      (∀ v, v ∈ (Arr.itemsIn n a).map Prod.fst ↔ Inside v (dimLimits dims)) ∧
      ∀ v x, (v, x) ∈ Arr.itemsIn n a ↔ Inside v (dimLimits dims) ∧ Arr.get (n + 1) a v = .ok x := by
  have h3 : ∀ v x, (v, x) ∈ Arr.itemsIn n a ↔ Inside v (dimLimits dims) ∧ Arr.get (n + 1) a v = .ok x := by
    intro v x
    rw [Arr.mem_itemsIn]
    constructor
    · rintro ⟨h1, h2, h3⟩
      exact ⟨Arr.inside_of_get hr h1 h2 h3, h3⟩
    · rintro ⟨h1, h2⟩
      refine ⟨?_, ?_, h2⟩
      · rw [h1.length_eq, dimLimits, List.length_map, Arr.rect_length hr]
      · clear h2 hr
        unfold Inside dimLimits at h1
        induction dims generalizing v with
        | nil => cases h1; simp
        | cons d ds ih =>
          rw [List.map_cons] at h1
          cases h1 with
          | cons h0 h1 =>
            intro c hc
            rcases List.mem_cons.1 hc with rfl | hc
            · exact h0.1
            · exact ih _ h1 c hc
  refine ⟨Arr.itemsIn_sorted n a, fun v => ?_, h3⟩
  rw [List.mem_map]
  constructor
  · rintro ⟨⟨v, x⟩, h, rfl⟩
    exact ((h3 v x).1 h).1
  · intro h
    obtain ⟨x, hx⟩ := Arr.get_inside hr h
    exact ⟨(v, x), (h3 v x).2 ⟨h, hx⟩, rfl⟩

/-- **C46.** `findall` gives exactly the positions of the array with one of the searched contents, in ascending order. -/
theorem C46_findall (content : α → Bool) (n : Nat) (a : ArrContent α (n + 1)) (dims : List Nat)
    (hr : Rect (n + 1) a dims) :
    (Arr.findIn content n a).Pairwise (· < ·) ∧
      ∀ v, v ∈ Arr.findIn content n a ↔
        Inside v (dimLimits dims) ∧ ∃ x, Arr.get (n + 1) a v = .ok x ∧ content x = true := by
  obtain ⟨h1, -, h3⟩ := C46_items n a dims hr
  rw [Arr.findIn_eq]
  refine ⟨?_, fun v => ?_⟩
  · exact h1.sublist (List.filter_sublist.map _)
  · rw [List.mem_map]
    constructor
    · rintro ⟨⟨v, x⟩, h, rfl⟩
      rw [List.mem_filter] at h
      obtain ⟨h4, h5⟩ := (h3 v x).1 h.1
      exact ⟨h4, x, h5, h.2⟩
    · rintro ⟨h4, x, h5, h6⟩
      exact ⟨(v, x), List.mem_filter.2 ⟨(h3 v x).2 ⟨h4, h5⟩, h6⟩, rfl⟩

/-- **C46.** Reading from a position inside the array gives content. -/
theorem C46_get (n : Nat) (a : ArrContent α n) (dims : List Nat) (hr : Rect n a dims) (v : Vec)
    (hv : Inside v (dimLimits dims)) : ∃ x, Arr.get n a v = .ok x :=
  Arr.get_inside hr hv

/-- **C46.** After writing content to a position inside the array, the array has the same sizes, reading from the
position gives the new content, and reading from another position gives the old content there. -/
theorem C46_set_get (n : Nat) (a : ArrContent α n) (dims : List Nat) (hr : Rect n a dims) (v : Vec)
    (hv : Inside v (dimLimits dims)) (x : α) :
    ∃ a', Arr.set n a v x = .ok a' ∧ Rect n a' dims ∧ Arr.get n a' v = .ok x ∧
      ∀ w, Inside w (dimLimits dims) → w ≠ v → Arr.get n a' w = Arr.get n a w :=
  Arr.set_rect hr hv x

/-- **C46.** The size of an array without empty dimensions. -/
theorem C46_size (n : Nat) (a : ArrContent α n) (dims : List Nat) (hr : Rect n a dims) (hpos : ∀ d ∈ dims, 0 < d) :
    Arr.size n a = .ok (dims.map (fun d : Nat => (d : Int))) ∧ Arr.limits n a = .ok (dimLimits dims) :=
  ⟨Arr.size_rect hr hpos, Arr.limits_rect hr hpos⟩

theorem Arr.dimLimits_nonEmpty {dims : List Nat} (hpos : ∀ d ∈ dims, 0 < d) : NonEmpty (dimLimits dims) := by
  intro l hl
  obtain ⟨d, hd, rfl⟩ := List.mem_map.1 hl
  have := hpos d hd
  simp only; omega

/-- The neighbors that the graph adapters look at: the adjacent positions inside the array, or with wrapping, the
adjacent positions wrapped to the array. -/
def Spec.GridNeighbor (dims : List Nat) (wrap diagonals : Bool) (p q : Vec) : Prop :=
  if wrap then ∃ r, Adjacent diagonals false p r ∧ Inside q (dimLimits dims) ∧ SameModulo r q (dimLimits dims)
  else Adjacent diagonals false p q ∧ Inside q (dimLimits dims)

theorem Arr.neighbors_grid {n : Nat} {dims : List Nat} (hlen : dims.length = n)
    (hpos : ∀ d ∈ dims, 0 < d) (wrap diagonals : Bool) :
    ∃ ms, Pos.moves n diagonals false none = .ok ms ∧ ∀ p : Vec, p.length = n →
      ∃ ns, Pos.neighbors p (some (dimLimits dims)) wrap ms = (ns, none) ∧
        (wrap = false → ns.Pairwise (· < ·)) ∧ ∀ q, q ∈ ns ↔ GridNeighbor dims wrap diagonals p q := by
  obtain ⟨ms, h1, h2, h3⟩ := Pos.moves_default n diagonals false
  have hdl : (dimLimits dims).length = n := by rw [dimLimits, List.length_map, hlen]
  refine ⟨ms, h1, fun p hp => ?_⟩
  cases wrap with
  | false =>
    subst hp
    obtain ⟨ms', ns, g1, g2, g3, g4⟩ := C45_neighbors_adjacent_limits p (dimLimits dims) hdl.symm diagonals false
    rw [h1] at g1
    cases g1
    exact ⟨ns, g2, fun _ => g3, by simpa [GridNeighbor] using g4⟩
  | true =>
    obtain ⟨ns, g1, g2⟩ := Pos.neighbors_wrapped (p := p) (l := dimLimits dims) (by rw [hp, hdl])
      (Arr.dimLimits_nonEmpty hpos) (ms := ms) (fun m hm => by rw [((h3 m).1 hm).1, hp])
    refine ⟨ns, g1, by simp, fun q => ?_⟩
    simp only [GridNeighbor, if_true]
    constructor
    · intro hq
      obtain ⟨i, hi, rfl⟩ := List.mem_iff_getElem.1 hq
      have hi' : i < ms.length := by rw [g2.length_eq]; exact hi
      have := g2.get hi' hi
      exact ⟨_, (Pos.adjacent_iff h3 hp _).1 (List.mem_map_of_mem (f := Pos.add p) (List.getElem_mem hi')), this.1, this.2⟩
    · rintro ⟨r, k1, k2, k3⟩
      obtain ⟨m, hm, rfl⟩ := List.mem_map.1 ((Pos.adjacent_iff h3 hp _).2 k1)
      obtain ⟨i, hi, rfl⟩ := List.mem_iff_getElem.1 hm
      have hi' : i < ns.length := by rw [← g2.length_eq]; exact hi
      have := g2.get hi hi'
      have he : q = ns[i] := Pos.sameModulo_unique k3 this.2 k2 this.1
      rw [he]
      exact List.getElem_mem hi'

theorem Arr.gridNeighbor_inside {dims : List Nat} {wrap diagonals : Bool} {p q : Vec}
    (h : GridNeighbor dims wrap diagonals p q) : Inside q (dimLimits dims) := by
  cases wrap with
  | false => exact h.2
  | true => obtain ⟨r, -, h, -⟩ := h; exact h

/-- **C46.** `next_vertices_from_forbidden`, for an array without empty dimensions, gives for each position exactly the
neighbors that have no forbidden content, without raising an exception. -/
theorem C46_next_vertices (n : Nat) (a : ArrContent α n) (dims : List Nat) (hr : Rect n a dims)
    (hpos : ∀ d ∈ dims, 0 < d) (forbidden : α → Bool) (wrap diagonals : Bool) :
    ∃ f, Arr.nextVertices n a forbidden wrap diagonals = .ok f ∧
      ∀ p : Vec, p.length = n → ∃ ns, f p = (ns, none) ∧ (wrap = false → ns.Pairwise (· < ·)) ∧
        ∀ q, q ∈ ns ↔ GridNeighbor dims wrap diagonals p q ∧ ∃ x, Arr.get n a q = .ok x ∧ forbidden x = false := by
  obtain ⟨ms, h1, h2⟩ := Arr.neighbors_grid (Arr.rect_length hr) hpos wrap diagonals
  refine ⟨_, by simp only [Arr.nextVertices, Arr.limits_rect hr hpos, h1, bind, Except.bind, pure, Except.pure]; rfl,
    fun p hp => ?_⟩
  obtain ⟨ns, g1, g2, g3⟩ := h2 p hp
  obtain ⟨r, k1, k2, k3⟩ := Arr.filterAllowed_ok (a := a) (forbidden := forbidden) (vs := ns)
    (fun v hv => Arr.get_inside hr (Arr.gridNeighbor_inside ((g3 v).1 hv)))
  refine ⟨r, ?_, fun hw => (g2 hw).sublist k2, fun q => ?_⟩
  · simp only [g1, k1]
    rfl
  · rw [k3, g3]

/-- **C46.** `next_edges_from_cell_weights`, for an array without empty dimensions, gives for each position exactly the
edges to the neighbors whose content has a weight, with this weight, without raising an exception. -/
theorem C46_next_edges {W : Type} (n : Nat) (a : ArrContent α n) (dims : List Nat) (hr : Rect n a dims)
    (hpos : ∀ d ∈ dims, 0 < d) (weight : α → Option W) (wrap diagonals : Bool) :
    ∃ f, Arr.nextEdges n a weight wrap diagonals = .ok f ∧
      ∀ p : Vec, p.length = n → ∃ es, f p = (es, none) ∧ (wrap = false → (es.map Prod.fst).Pairwise (· < ·)) ∧
        ∀ q w, (q, w) ∈ es ↔ GridNeighbor dims wrap diagonals p q ∧ ∃ x, Arr.get n a q = .ok x ∧ weight x = some w := by
  obtain ⟨ms, h1, h2⟩ := Arr.neighbors_grid (Arr.rect_length hr) hpos wrap diagonals
  refine ⟨_, by simp only [Arr.nextEdges, Arr.limits_rect hr hpos, h1, bind, Except.bind, pure, Except.pure]; rfl,
    fun p hp => ?_⟩
  obtain ⟨ns, g1, g2, g3⟩ := h2 p hp
  obtain ⟨r, k1, k2, k3⟩ := Arr.filterWeighted_ok (a := a) (weight := weight) (vs := ns)
    (fun v hv => Arr.get_inside hr (Arr.gridNeighbor_inside ((g3 v).1 hv)))
  refine ⟨r, ?_, fun hw => (g2 hw).sublist k2, fun q w => ?_⟩
  · simp only [g1, k1]
    rfl
  · rw [k3, g3]

/-- **C46, limit of the adapters.** For an array with an empty dimension, the limits cannot be calculated: the adapters
raise an `IndexError`. (The theorems above that concern sizes and adapters need arrays without empty dimensions.) -/
theorem C46_empty_dimension (forbidden : α → Bool) (wrap diagonals : Bool) :
    Rect (α := α) 2 [] [0, 3] ∧
      (match Arr.nextVertices (α := α) 2 [] forbidden wrap diagonals with
        | .error e => e = .indexError
        | .ok _ => False) :=
  ⟨⟨0, [3], rfl, rfl, rfl, fun x hx => absurd hx (by simp [Arr.rows])⟩, rfl⟩

end Arrays

/-! ## Concrete cases -/

/-- Wrapping to a cuboid that is empty in its second dimension. -/
example : ([3, 4] : Vec).length = ([(0, 5), (2, 2)] : LimitsList).length ∧
    (∀ l ∈ ([(0, 5), (2, 2)] : LimitsList), l.1 ≤ l.2) ∧ (∃ l ∈ ([(0, 5), (2, 2)] : LimitsList), l.1 = l.2) ∧
    Pos.neighbors [3, 4] (some [(0, 5), (2, 2)]) true [[0, 1], [1, 0]] = ([], some .zeroDivisionError) := by
  decide

/-- A position and limits that meet the hypotheses of the theorems about wrapping. -/
example : ([-7, 12] : Vec).length = ([(-2, 3), (0, 5)] : LimitsList).length ∧ NonEmpty [(-2, 3), (0, 5)] ∧
    (Pos.wrap [-7, 12] [(-2, 3), (0, 5)]).toOption = some [-2, 2] := by
  refine ⟨rfl, ?_, by decide⟩
  simp [NonEmpty]

/-- Moves in two dimensions, and neighbors of a position at the boundary. -/
example :
    (Pos.moves 2 false false none).toOption = some [[-1, 0], [0, -1], [0, 1], [1, 0]] ∧
      Pos.neighbors [0, 2] (some [(0, 2), (0, 3)]) false [[-1, 0], [0, -1], [0, 1], [1, 0]] =
        ([[0, 1], [1, 2]], none) ∧
      Pos.neighbors [0, 2] (some [(0, 2), (0, 3)]) true [[-1, 0], [0, -1], [0, 1], [1, 0]] =
        ([[1, 2], [0, 1], [0, 0], [1, 2]], none) := by decide +kernel

/-- An array that meets the hypotheses. -/
def exampleArray : ArrContent Char 2 := ([['.', '#', '.'], ['.', '.', '#']] : List (List Char))

example : Rect 2 exampleArray [2, 3] ∧ ∀ d ∈ [2, 3], 0 < d := by
  refine ⟨⟨2, [3], rfl, rfl, rfl, ?_⟩, by simp⟩
  intro x hx
  rcases List.mem_cons.1 hx with rfl | hx
  · exact ⟨3, [], rfl, rfl, rfl, fun _ _ => rfl⟩
  · rcases List.mem_cons.1 hx with rfl | hx
    · exact ⟨3, [], rfl, rfl, rfl, fun _ _ => rfl⟩
    · exact absurd hx (List.not_mem_nil)

example : Arr.findIn (fun c => c == '#') 1 exampleArray = [[0, 1], [1, 2]] ∧
    (Arr.nextVertices 2 exampleArray (fun c => c == '#') false false).toOption.map (fun f => f [1, 1]) =
      some ([[1, 0]], none) := by decide +kernel

end NoGraphs
