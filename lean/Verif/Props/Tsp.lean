import Verif.Proofs.TspSearch
import Mathlib.Algebra.Order.Group.Int
import Mathlib.Data.List.Perm.Basic

/-!
# Traveling salesman: C48, C49, C50

The weights are elements of an ordered group `G`. `matrixGet graph v w` is the weight of the edge from `v` to `w` in a matrix
of weights. See `Spec.Tsp` for round trips.
-/

set_option linter.unusedSectionVars false

namespace NoGraphs

open Spec

/-! ## C48: changes of weights -/

section

variable {G : Type} [AddCommGroup G] [LinearOrder G] [IsOrderedAddMonoid G]

/-- The weights the search works with. -/
def changedWeight (graph : List (List (Option G))) (findLongest : Bool) : Nat → Nat → Option G :=
  tspWeight graph (tspChanges graph findLongest).1 (tspChanges graph findLongest).2.1

/-- The length that is returned, if the search has found this length of a trip with `n` edges. -/
def originalLength (graph : List (List (Option G))) (findLongest : Bool) (n : Nat) (length : WithTop G) : WithTop G :=
  if (tspChanges graph findLongest).2.2 then
    undoWeightChanges length n (tspChanges graph findLongest).1 (tspChanges graph findLongest).2.1
  else length

/-- **C48.** The weights the search works with are not negative. -/
theorem C48_nonneg (graph : List (List (Option G))) (findLongest : Bool) (v w : Nat) (x : G)
    (h : changedWeight graph findLongest v w = some x) : 0 ≤ x := tspWeight_nonneg h

theorem changed_length (graph : List (List (Option G))) (fl : Bool) (path : List Nat) :
    pathWeight (changedWeight graph fl) path = (pathWeight (matrixGet graph) path).map (fun l =>
      (if fl then 0 - l else l) + (path.length - 1) • (tspChanges graph fl).2.1) := by
  have h : (tspChanges graph fl).1 = fl := by
    cases fl <;> simp [tspChanges, weightChangesForFindLongest, weightChangesForNegativeWeights]
  have := pathWeight_change (w := matrixGet graph) (tspChanges graph fl).1 (tspChanges graph fl).2.1 path
  rw [h] at this
  unfold changedWeight
  rw [h]
  exact this

theorem roundTrip_length {V : Type} {w : V → V → Option G} {vs path : List V} {l : G} (h : IsRoundTrip w vs path l) :
    path.length = vs.length + 1 := by
  obtain ⟨f, r, rfl, hp, -⟩ := h
  have := hp.length_eq
  simp at this ⊢
  omega

theorem changed_trip {graph : List (List (Option G))} {fl : Bool} {vs path : List Nat} {l' : G} :
    IsRoundTrip (changedWeight graph fl) vs path l' ↔ ∃ l, IsRoundTrip (matrixGet graph) vs path l ∧
      l' = (if fl then 0 - l else l) + vs.length • (tspChanges graph fl).2.1 := by
  constructor
  · intro h
    have hlen := roundTrip_length h
    obtain ⟨f, r, h1, h2, h3⟩ := h
    rw [changed_length, hlen] at h3
    obtain ⟨l, hl, he⟩ := Option.map_eq_some_iff.1 h3
    exact ⟨l, ⟨f, r, h1, h2, hl⟩, he.symm⟩
  · rintro ⟨l, h, rfl⟩
    have hlen := roundTrip_length h
    obtain ⟨f, r, h1, h2, h3⟩ := h
    refine ⟨f, r, h1, h2, ?_⟩
    rw [changed_length, hlen, h3]
    rfl

theorem originalLength_coe (graph : List (List (Option G))) (fl : Bool) (n : Nat) (l : G) :
    originalLength graph fl n (((if fl then 0 - l else l) + n • (tspChanges graph fl).2.1 : G) : WithTop G) = l := by
  have h1 : (tspChanges graph fl).1 = fl := by
    cases fl <;> simp [tspChanges, weightChangesForFindLongest, weightChangesForNegativeWeights]
  unfold originalLength
  split
  · rw [h1, undoWeightChanges_coe]
  · rename_i hc
    cases fl with
    | true => simp [tspChanges] at hc
    | false =>
      have h2 : (tspChanges graph false).2.1 = 0 := by
        simp only [tspChanges, weightChangesForNegativeWeights] at hc ⊢
        simpa using hc
      rw [h2]; simp

/-- **C48.** The same paths are round trips for the original and for the changed weights, and undoing the changes for
the changed length of a round trip gives its original length. -/
theorem C48_undo (graph : List (List (Option G))) (findLongest : Bool) (vertices path : List Nat) :
    (∀ l, IsRoundTrip (matrixGet graph) vertices path l →
      ∃ l', IsRoundTrip (changedWeight graph findLongest) vertices path l') ∧
    ∀ l', IsRoundTrip (changedWeight graph findLongest) vertices path l' →
      ∃ l, IsRoundTrip (matrixGet graph) vertices path l ∧
        originalLength graph findLongest vertices.length (l' : WithTop G) = (l : WithTop G) := by
  constructor
  · exact fun l h => ⟨_, changed_trip.2 ⟨l, h, rfl⟩⟩
  · intro l' h
    obtain ⟨l, h1, rfl⟩ := changed_trip.1 h
    exact ⟨l, h1, originalLength_coe graph findLongest _ l⟩

theorem changed_le (graph : List (List (Option G))) (fl : Bool) (n : Nat) (a b : G) :
    ((if fl then 0 - a else a) + n • (tspChanges graph fl).2.1 ≤ (if fl then 0 - b else b) + n • (tspChanges graph fl).2.1) ↔
      (if fl then b ≤ a else a ≤ b) := by
  rw [add_le_add_iff_right]
  cases fl <;> simp

/-- **C48.** For the changed weights, the order of round trips is the one for the original weights (the opposite order
if a longest trip is searched). -/
theorem C48_order (graph : List (List (Option G))) (findLongest : Bool) (vertices p q : List Nat) (lp lq lp' lq' : G)
    (hp : IsRoundTrip (matrixGet graph) vertices p lp) (hq : IsRoundTrip (matrixGet graph) vertices q lq)
    (hp' : IsRoundTrip (changedWeight graph findLongest) vertices p lp')
    (hq' : IsRoundTrip (changedWeight graph findLongest) vertices q lq') :
    lp' ≤ lq' ↔ if findLongest then lq ≤ lp else lp ≤ lq := by
  obtain ⟨a, ha, rfl⟩ := changed_trip.1 hp'
  obtain ⟨b, hb, rfl⟩ := changed_trip.1 hq'
  have e1 : a = lp := by
    obtain ⟨_, _, _, _, h1⟩ := ha; obtain ⟨_, _, _, _, h2⟩ := hp
    rw [h1] at h2; exact Option.some.inj h2
  have e2 : b = lq := by
    obtain ⟨_, _, _, _, h1⟩ := hb; obtain ⟨_, _, _, _, h2⟩ := hq
    rw [h1] at h2; exact Option.some.inj h2
  subst e1; subst e2
  exact changed_le graph findLongest _ a b

/-- **C48.** A round trip is a shortest one for the changed weights if and only if it is a shortest (longest) one for
the original weights. -/
theorem C48_optimal (graph : List (List (Option G))) (findLongest : Bool) (vertices path : List Nat) (l l' : G)
    (h : IsRoundTrip (matrixGet graph) vertices path l)
    (h' : IsRoundTrip (changedWeight graph findLongest) vertices path l') :
    IsShortest (changedWeight graph findLongest) vertices l' ↔
      if findLongest then IsLongest (matrixGet graph) vertices l else IsShortest (matrixGet graph) vertices l := by
  have key : IsShortest (changedWeight graph findLongest) vertices l' ↔
      ∀ q lq, IsRoundTrip (matrixGet graph) vertices q lq → if findLongest then lq ≤ l else l ≤ lq := by
    constructor
    · intro hs q lq hq
      have hq' := (changed_trip (fl := findLongest)).2 ⟨lq, hq, rfl⟩
      exact (C48_order graph findLongest vertices path q l lq l' _ h hq h' hq').1 (hs q _ hq')
    · intro hs q lq' hq'
      obtain ⟨lq, hq, -⟩ := changed_trip.1 hq'
      exact (C48_order graph findLongest vertices path q l lq l' lq' h hq h' hq').2 (hs q lq hq)
  rw [key]
  cases findLongest <;> simp [IsShortest, IsLongest]

end

/-- A matrix with a negative weight. -/
def exTsp3 : List (List (Option Int)) := [[none, some 2, some (-3)], [some 4, none, some 1], [some 7, some 6, none]]

/-- The theorems about C48 apply: a round trip with length 10, with length 19 for the changed weights. -/
example : IsRoundTrip (matrixGet exTsp3) [0, 1, 2] [0, 1, 2, 0] 10 ∧
    IsRoundTrip (changedWeight exTsp3 false) [0, 1, 2] [0, 1, 2, 0] 19 ∧
    IsRoundTrip (changedWeight exTsp3 true) [0, 1, 2] [0, 1, 2, 0] 11 ∧
    originalLength exTsp3 false 3 ((19 : Int) : WithTop Int) = ((10 : Int) : WithTop Int) ∧
    originalLength exTsp3 true 3 ((11 : Int) : WithTop Int) = ((10 : Int) : WithTop Int) :=
  ⟨⟨0, [1, 2], rfl, .refl _, by decide +kernel⟩, ⟨0, [1, 2], rfl, .refl _, by decide +kernel⟩,
    ⟨0, [1, 2], rfl, .refl _, by decide +kernel⟩, by decide +kernel, by decide +kernel⟩

/-! ## C49: the state graph -/

section

variable {G : Type} [AddCommGroup G] [LinearOrder G] [IsOrderedAddMonoid G]

/-- **C49 (partial).** Each walk of the state graph from the start state to the goal state shows a round trip, with the same
total weight. (`v % n` is the vertex a state `v` stands for.) -/
theorem C49_walk_is_trip_partial {n : Nat} (hn : 2 ≤ n) (weight : Nat → Nat → Option G) (inf : WithTop G)
    (steps : List (Nat × Unit)) (x : WithTop G)
    (hw : IsWPath (tspCfg n weight inf).nextF (tspStart n) steps x)
    (hlast : (tspStart n :: steps.map Prod.fst).getLast? = some (0 + 0 * n)) :
    ∃ len : G, x = (len : WithTop G) ∧
      IsRoundTrip weight (List.range n) ((tspStart n :: steps.map Prod.fst).map (fun v => v % n)) len := by
  obtain ⟨len, h1, -, h2⟩ := tsp_trip_of_walk hn hw (by simpa using hlast)
  exact ⟨len, h1, h2⟩

/-- **C49 (partial).** Each round trip (written with vertex 0 as its first one) is shown by exactly one walk of the
state graph from the start state to the goal state, and this walk has the same total weight. -/
theorem C49_trip_is_walk_partial {n : Nat} (hn : 2 ≤ n) (weight : Nat → Nat → Option G) (inf : WithTop G)
    (path : List Nat) (len : G) (ht : IsRoundTrip weight (List.range n) path len) (h0 : path.head? = some 0) :
    ∃! steps : List (Nat × Unit),
      IsWPath (tspCfg n weight inf).nextF (tspStart n) steps (len : WithTop G) ∧
      (tspStart n :: steps.map Prod.fst).getLast? = some (0 + 0 * n) ∧
      (tspStart n :: steps.map Prod.fst).map (fun v => v % n) = path := by
  obtain ⟨steps, h1, h2, h3⟩ := tsp_walk_of_trip hn ht h0
  refine ⟨steps, ⟨h1, by simpa using h2, h3⟩, ?_⟩
  rintro b ⟨b1, -, b3⟩
  refine tsp_walk_unique hn b1 h1 (tspStart_valid hn) ?_
  rw [← h3] at b3
  simp only [List.map_cons, List.map_map, List.cons.injEq, true_and] at b3
  exact b3

theorem tspCfg_walk_valid {n : Nat} (hn : 2 ≤ n) {weight : Nat → Nat → Option G} {inf : WithTop G} {b : Bool} {s0 : Nat}
    (h0 : TspValid n s0) {w : WithTop G} {s : Nat} (hw : WalkW ((tspCfg n weight inf).next b) (· ∈ [s0]) w s) : TspValid n s := by
  induction hw with
  | start hs => simp only [List.mem_singleton] at hs; rw [hs]; exact h0
  | step _ he ih => obtain ⟨l, he⟩ := he; exact tspCfg_closed hn b _ ih _ he

/-- **C49 (partial).** The edges the backward search sees are edges of the forward graph, in opposite direction and with the
same weight. -/
theorem C49_backward_edge_partial {n : Nat} (hn : 2 ≤ n) (weight : Nat → Nat → Option G) (inf w : WithTop G) (s u : Nat)
    (hs : WalkW (tspCfg n weight inf).nextB (· ∈ [0 + 0 * n]) w s) (x : WithTop G)
    (he : WEdge (tspCfg n weight inf).nextB s u x) : WEdge (tspCfg n weight inf).nextF u s x := by
  obtain ⟨l, he⟩ := he
  exact ⟨l, (tspNextB_sound hn (tspCfg_walk_valid (b := true) hn (by simpa using tspGoal_valid) hs) he).2⟩

/-- **C49 (partial).** The edges the forward search sees are edges of the backward graph, in opposite direction and with the
same weight, except for the edges from the start state. -/
theorem C49_forward_edge_partial {n : Nat} (hn : 2 ≤ n) (weight : Nat → Nat → Option G) (inf w : WithTop G) (s u : Nat)
    (hs : WalkW (tspCfg n weight inf).nextF (· ∈ [tspStart n]) w s) (hne : s ≠ tspStart n) (x : WithTop G)
    (he : WEdge (tspCfg n weight inf).nextF s u x) : WEdge (tspCfg n weight inf).nextB u s x := by
  obtain ⟨l, he⟩ := he
  exact ⟨l, tspNextB_complete hn (tspCfg_walk_valid (b := false) hn (tspStart_valid hn) hs) hne he⟩

/-- **C49 does not hold for the edges from the start state.** For no graph, an edge the backward search sees leads to the start
state, although the forward graph has an edge from the start state for each edge from vertex 0. -/
theorem C49_counterexample {n : Nat} (hn : 2 ≤ n) (weight : Nat → Nat → Option G) (inf : WithTop G) :
    (∀ w s x, WalkW (tspCfg n weight inf).nextB (· ∈ [0 + 0 * n]) w s → ¬ WEdge (tspCfg n weight inf).nextB s (tspStart n) x) ∧
    ∀ v x, v < n → v ≠ 0 → weight 0 v = some x →
      ∃ s, WEdge (tspCfg n weight inf).nextF (tspStart n) s (x : WithTop G) := by
  constructor
  · rintro w s x hs ⟨l, he⟩
    have hv := tspCfg_walk_valid (b := true) hn (by simpa using tspGoal_valid) hs
    obtain ⟨f, y, hf, hf0, -, -, -, e⟩ := (tspNextB_valid (weight := fun v w => weight w v) hn hv).1 he
    simp only [Prod.mk.injEq] at e
    have := congrArg (· % n) e.1
    simp only [tspStart_mod hn, enc_mod hf] at this
    exact hf0 this.symm
  · intro v x hv hv0 hw
    refine ⟨_, (), (tspNextF_valid hn (tspStart_valid hn)).2 (.inr ⟨?_, v, x, ?_, ?_, rfl⟩)⟩
    · rw [tspStart_div hn]
      have : 2 ^ 2 ≤ 2 ^ n := Nat.pow_le_pow_right (by omega) hn
      omega
    · rw [tspStart_div hn, full_testBit (by omega)]; simp [hv, hv0]
    · rw [tspStart_mod hn]; exact hw

end

/-- The theorems about C49 apply: the walk for the round trip 0, 1, 2, 0. (State 18 stands for vertex 0 and the set
{1, 2} of vertices to visit, 13 for vertex 1 and the set {2}, 2 for vertex 2 and the empty set.) -/
example : IsRoundTrip (matrixGet exTsp3) (List.range 3) [0, 1, 2, 0] 10 ∧
    tspStart 3 = 18 ∧
    (tspCfg 3 (matrixGet exTsp3) ⊤).nextF 18 = [(2 + 2 * 3, ((-3 : Int) : WithTop Int), ()), (1 + 4 * 3, ((2 : Int) : WithTop Int), ())] ∧
    (tspCfg 3 (matrixGet exTsp3) ⊤).nextF 13 = [(2, ((1 : Int) : WithTop Int), ())] ∧
    (tspCfg 3 (matrixGet exTsp3) ⊤).nextF 2 = [(0, ((7 : Int) : WithTop Int), ())] ∧
    (tspCfg 3 (matrixGet exTsp3) ⊤).nextB 2 = [(13, ((1 : Int) : WithTop Int), ())] ∧
    (tspCfg 3 (matrixGet exTsp3) ⊤).nextB 13 = [] := by
  refine ⟨⟨0, [1, 2], rfl, .refl _, by decide +kernel⟩, ?_⟩
  decide +kernel

/-! ## C50: the result -/

section

variable {G V M ML D : Type} [AddCommGroup G] [LinearOrder G] [IsOrderedAddMonoid G]
variable {g : WGear Nat Nat Unit (WithTop G) M ML D} {inf : WithTop G}

/-- The weights that are given by `weights[v][w]`. -/
def givenWeight (rows : V → Option (V → Option G)) (v w : V) : Option G := rows v >>= fun row => row w

theorem tspMatrix_length (vertices : List V) (rows : V → Option (V → Option G)) :
    (tspMatrix vertices rows).length = vertices.length := by simp [tspMatrix]

theorem tspMatrix_row (vertices : List V) (rows : V → Option (V → Option G)) :
    ∀ r ∈ tspMatrix vertices rows, r.length = vertices.length := by
  intro r hr
  obtain ⟨v, -, rfl⟩ := List.mem_map.1 hr
  split <;> simp

theorem tspMatrix_get {vertices : List V} {rows : V → Option (V → Option G)} {i j : Nat} {v w : V}
    (hi : vertices[i]? = some v) (hj : vertices[j]? = some w) :
    matrixGet (tspMatrix vertices rows) i j = givenWeight rows v w := by
  unfold matrixGet tspMatrix givenWeight
  simp only [List.getD_eq_getElem?_getD, List.getElem?_map, hi, Option.map_some, Option.getD_some]
  cases rows v with
  | none => simp only [List.getElem?_map, hj, Option.map_some, Option.getD_some]; rfl
  | some row => simp only [List.getElem?_map, hj, Option.map_some, Option.getD_some]; rfl

theorem forall₂_getElem (vertices : List V) : List.Forall₂ (fun v i => vertices[i]? = some v) vertices (List.range vertices.length) := by
  rw [List.forall₂_iff_get]
  refine ⟨by simp, fun i h1 h2 => by simp⟩

theorem pathWeight_forall₂ {U : Type} {w : V → V → Option G} {w' : U → U → Option G} {R : V → U → Prop}
    (h : ∀ a b i j, R a i → R b j → w' i j = w a b) {p : List V} {q : List U} (hpq : List.Forall₂ R p q) :
    pathWeight w' q = pathWeight w p := by
  induction hpq with
  | nil => rfl
  | @cons a i p q h1 hr ih =>
    cases hr with
    | nil => rfl
    | @cons b j p q h2 hr =>
      simp only [pathWeight, ih, h a b i j h1 h2]

theorem forall₂_close {U : Type} {R : V → U → Prop} {a : V} {b : U} {p : List V} {q : List U} (h1 : R a b)
    (h : List.Forall₂ R p q) : List.Forall₂ R (a :: p ++ [a]) (b :: q ++ [b]) := by
  have : List.Forall₂ R (p ++ [a]) (q ++ [b]) := by
    induction h with
    | nil => exact .cons h1 .nil
    | cons h2 _ ih => exact .cons h2 ih
  exact .cons h1 this

/-- Round trips for the vertices, as round trips for their numbers. -/
theorem trip_to_int {vertices : List V} {rows : V → Option (V → Option G)} {path : List V} {l : G}
    (h : IsRoundTrip (givenWeight rows) vertices path l) :
    ∃ path', IsRoundTrip (matrixGet (tspMatrix vertices rows)) (List.range vertices.length) path' l := by
  obtain ⟨f, r, rfl, hp, hw⟩ := h
  obtain ⟨m, hm1, hm2⟩ := List.perm_comp_forall₂ hp (forall₂_getElem vertices)
  cases hm1 with
  | @cons _ i _ q h1 h2 =>
    refine ⟨i :: q ++ [i], i, q, rfl, hm2, ?_⟩
    have : List.Forall₂ (fun v i => vertices[i]? = some v) (f :: r ++ [f]) (i :: q ++ [i]) :=
      forall₂_close h1 h2
    rw [pathWeight_forall₂ (fun a b i j ha hb => tspMatrix_get ha hb) this]
    exact hw

/-- And back. -/
theorem trip_of_int {vertices : List V} {rows : V → Option (V → Option G)} {path : List Nat} {l : G}
    (h : IsRoundTrip (matrixGet (tspMatrix vertices rows)) (List.range vertices.length) path l) :
    IsRoundTrip (givenWeight rows) vertices (path.filterMap (fun v => vertices[v]?)) l := by
  obtain ⟨f, r, rfl, hp, hw⟩ := h
  obtain ⟨m, hm1, hm2⟩ := List.perm_comp_forall₂ hp (r := fun i v => vertices[i]? = some v) (forall₂_getElem vertices).flip
  cases hm1 with
  | @cons _ a _ q h1 h2 =>
    have hall : List.Forall₂ (fun i v => vertices[i]? = some v) (f :: r ++ [f]) (a :: q ++ [a]) :=
      forall₂_close h1 h2
    have hfm : ∀ {p : List Nat} {p' : List V}, List.Forall₂ (fun i v => vertices[i]? = some v) p p' →
        p.filterMap (fun v => vertices[v]?) = p' := by
      intro p p' h
      induction h with
      | nil => rfl
      | cons h1 _ ih => simp [h1, ih]
    refine ⟨a, q, hfm hall, hm2, ?_⟩
    rw [hfm hall, ← hw]
    exact (pathWeight_forall₂ (fun a b i j ha hb => tspMatrix_get ha hb) hall.flip).symm

theorem tspMatrix_mem {vertices : List V} {rows : V → Option (V → Option G)} {x : G}
    (h : x ∈ (tspMatrix vertices rows).flatMap (fun edges => edges.filterMap id)) :
    ∃ a ∈ vertices, ∃ b ∈ vertices, givenWeight rows a b = some x := by
  obtain ⟨r, hr, hx⟩ := List.mem_flatMap.1 h
  obtain ⟨a, ha, rfl⟩ := List.mem_map.1 hr
  obtain ⟨y, hy, hyx⟩ := List.mem_filterMap.1 hx
  have : y = some x := hyx
  subst this
  cases hrow : rows a with
  | none => rw [hrow] at hy; simp at hy
  | some row =>
    rw [hrow] at hy
    obtain ⟨b, hb, e⟩ := List.mem_map.1 hy
    exact ⟨a, ha, b, hb, by unfold givenWeight; rw [hrow]; exact e⟩

theorem le_minOrZero {l : List G} {m : G} (h0 : m ≤ 0) (h : ∀ x ∈ l, m ≤ x) : m ≤ minOrZero l := by
  have key : ∀ (l : List G) (a : G), m ≤ a → (∀ x ∈ l, m ≤ x) → m ≤ l.foldl min a := by
    intro l
    induction l with
    | nil => intro a ha _; exact ha
    | cons b l ih =>
      intro a ha hl
      exact ih _ (le_min ha (hl b (by simp))) (fun x hx => hl x (by simp [hx]))
  cases l with
  | nil => exact h0
  | cons a l => exact key l a (h a (by simp)) (fun x hx => h x (by simp [hx]))

/-- The offset is minus the lowest negative weight. -/
theorem offset_shortest {graph : List (List (Option G))} {m : G} (h0 : m ≤ 0)
    (h : ∀ x ∈ graph.flatMap (fun edges => edges.filterMap id), m ≤ x) : (tspChanges graph false).2.1 ≤ 0 - m := by
  simp only [tspChanges, weightChangesForNegativeWeights, Bool.false_eq_true, if_false]
  exact sub_le_sub_left (le_min h0 (le_minOrZero h0 h)) 0

theorem offset_longest {graph : List (List (Option G))} {m : G} (h0 : 0 ≤ m)
    (h : ∀ x ∈ graph.flatMap (fun edges => edges.filterMap id), x ≤ m) : (tspChanges graph true).2.1 ≤ m := by
  simp only [tspChanges, weightChangesForFindLongest, if_true]
  have h1 : 0 - m ≤ min 0 (minOrZero ((graph.flatMap (fun edges => edges.filterMap id)).map (fun w => 0 - w))) := by
    have hm : 0 - m ≤ 0 := by simpa using h0
    refine le_min hm (le_minOrZero hm ?_)
    intro x hx
    obtain ⟨y, hy, rfl⟩ := List.mem_map.1 hx
    exact sub_le_sub_left (h y hy) 0
  have := sub_le_sub_left h1 0
  simpa using this

/-- The condition for minimal results: the search never meets a superseded entry in one of its heaps. -/
def TspNoStale (g : WGear Nat Nat Unit (WithTop G) M ML D) (inf : WithTop G) (graph : List (List (Option G)))
    (fl : Bool) : Prop :=
  let n := graph.length
  let c := tspCfg n (changedWeight graph fl) inf
  ∀ h s, Reaches (bdStep g c) (bdInit g c (tspStart n) [tspStart n] [0 + 0 * n] none) h s → ¬ BdStale g c s

theorem tspInt_result {graph : List (List (Option G))} {n : Nat} (hgr : graph.length = n) (hn : 2 ≤ n)
    (hq : ∀ r ∈ graph, r.length = n) (hdd : g.dd.Lawful inf) (hinf : 0 ≤ inf)
    {validV : Nat → Prop} {validL : Unit → Prop} (hst : TspStorable g n validV validL) (fl : Bool)
    (fuel pathFuel : Nat) :
    match tspInt g inf graph fl fuel pathFuel with
    | .ok length path => n < pathFuel → ∃ len, length = ((len : G) : WithTop G) ∧
        IsRoundTrip (matrixGet graph) (List.range n) path len ∧
        ∀ path' l', IsRoundTrip (matrixGet graph) (List.range n) path' l' →
          ((if fl then 0 - len else len) + n • (tspChanges graph fl).2.1 ≤
            ((if fl then 0 - l' else l') + n • (tspChanges graph fl).2.1) +
              ((if fl then 0 - l' else l') + n • (tspChanges graph fl).2.1)) ∧
          (TspNoStale g inf graph fl → if fl then l' ≤ len else len ≤ l')
    | .raised e => e = .keyError ∨ (e = .overflowError ∧ inf ≠ ⊤)
    | .outOfFuel => True := by
  have hs := tsp_search (g := g) (weight := changedWeight graph fl) hn hdd hinf
    (fun a b w h => C48_nonneg graph fl a b w h) hst (TspNoStale g inf graph fl) (by subst hgr; exact fun h => h) fuel pathFuel
  unfold tspInt
  dsimp only
  rw [hgr, if_neg (by omega), if_neg (by simpa using hq)]
  split
  · rename_i length path heq
    split at heq
    · simp at heq
    · split at heq
      · simp at heq
      · split at heq <;> simp only [TspResult.ok.injEq, reduceCtorEq] at heq
        rename_i x o hb
        obtain ⟨rfl, rfl⟩ := heq
        unfold changedWeight at hs
        rw [hb] at hs
        obtain ⟨path, len', rfl, h1, h2, h3, h4, h5⟩ := hs
        intro hfuel
        rw [h4 hfuel]
        obtain ⟨len, h6, h7⟩ := changed_trip.1 h1
        rw [List.length_range] at h7
        subst h7
        refine ⟨len, originalLength_coe graph fl n len, h6, ?_⟩
        intro path' l' h'
        obtain ⟨a, b⟩ := h5 path' _ (changed_trip.2 ⟨l', h', rfl⟩)
        rw [List.length_range] at a b
        exact ⟨a, fun hns => (changed_le graph fl n len l').1 (b hns)⟩
  · rename_i e heq
    split at heq
    · simp only [TspResult.raised.injEq] at heq; exact .inl heq.symm
    · split at heq
      · simp only [TspResult.raised.injEq] at heq; exact .inl heq.symm
      · split at heq <;> simp only [TspResult.raised.injEq, reduceCtorEq] at heq
        · exact .inl heq.symm
        · rename_i hb
          unfold changedWeight at hs
          rw [hb] at hs
          subst heq
          exact .inr hs
  · trivial

/-- In a graph with a round trip, each vertex has an edge to and an edge from another vertex. -/
theorem trip_edges {w : Nat → Nat → Option G} {n : Nat} (hn : 2 ≤ n) {path : List Nat} {l : G}
    (h : IsRoundTrip w (List.range n) path l) {v : Nat} (hv : v < n) :
    (∃ t, t < n ∧ v ≠ t ∧ (w v t).isSome) ∧ ∃ t, t < n ∧ v ≠ t ∧ (w t v).isSome := by
  obtain ⟨p, ⟨f, r, rfl, hp, hw⟩, hh⟩ := roundTrip_rotate h (List.mem_range.2 hv)
  simp only [List.cons_append, List.head?_cons, Option.some.injEq] at hh
  subst hh
  have hlen := hp.length_eq
  have hnd := hp.nodup_iff.2 List.nodup_range
  have hlt : ∀ t ∈ f :: r, t < n := fun t ht => List.mem_range.1 (hp.subset ht)
  constructor
  · cases r with
    | nil => simp at hlen; omega
    | cons t r =>
      refine ⟨t, hlt t (by simp), fun e => ?_, ?_⟩
      · subst e; simp at hnd
      · simp only [List.cons_append, pathWeight] at hw
        cases hwt : w f t with
        | none => rw [hwt] at hw; simp at hw
        | some x => rfl
  · have hr : r ≠ [] := by rintro rfl; simp at hlen; omega
    obtain ⟨q, t, rfl⟩ : ∃ q t, r = q ++ [t] := ⟨r.dropLast, r.getLast hr, (List.dropLast_append_getLast hr).symm⟩
    refine ⟨t, hlt t (by simp), fun e => ?_, ?_⟩
    · subst e; simp at hnd
    · have e : f :: (q ++ [t]) ++ [f] = (f :: q) ++ t :: [f] := by simp
      rw [e, pathWeight_append] at hw
      cases hwt : w t f with
      | none => simp [pathWeight, hwt] at hw
      | some x => rfl

theorem tspAdjacent_pos {w : Nat → Nat → Option G} {n v t : Nat} (ht : t < n) (hvt : v ≠ t) (hw : (w v t).isSome) :
    tspAdjacent n w v ≠ 0 := by
  intro h
  have := (tspAdjacent_testBit (n := n) (weight := w) (v := v) (t := t)).2 ⟨ht, hvt, hw⟩
  rw [h] at this
  simp at this

/-- If there is a round trip, the result is that of the search in the state graph. -/
theorem tspInt_search {graph : List (List (Option G))} {n : Nat} (hgr : graph.length = n) (hn : 2 ≤ n)
    (hq : ∀ r ∈ graph, r.length = n) (fl : Bool) (fuel pathFuel : Nat) {path : List Nat} {l : G}
    (h : IsRoundTrip (matrixGet graph) (List.range n) path l) (e : PyErr)
    (he : tspInt g inf graph fl fuel pathFuel = .raised e) :
    (e = .keyError ∧ bdSearch g (tspCfg n (changedWeight graph fl) inf) [tspStart n] [0 + 0 * n] none fuel pathFuel = .notFound) ∨
    bdSearch g (tspCfg n (changedWeight graph fl) inf) [tspStart n] [0 + 0 * n] none fuel pathFuel = .raised e := by
  have h' := (changed_trip (fl := fl)).2 ⟨l, h, rfl⟩
  unfold tspInt at he
  dsimp only at he
  rw [hgr, if_neg (by omega), if_neg (by simpa using hq), if_neg, if_neg] at he
  · split at he <;> simp only [TspResult.raised.injEq, reduceCtorEq] at he
    · rename_i hb; exact .inl ⟨he.symm, hb⟩
    · rename_i hb; subst he; exact .inr hb
  · rw [List.any_eq_true]
    rintro ⟨v, hv, hz⟩
    obtain ⟨-, t, ht, hvt, hw⟩ := trip_edges hn h' (List.mem_range.1 hv)
    exact tspAdjacent_pos (w := fun v w => changedWeight graph fl w v) ht hvt hw (of_decide_eq_true hz)
  · rw [List.any_eq_true]
    rintro ⟨v, hv, hz⟩
    obtain ⟨⟨t, ht, hvt, hw⟩, -⟩ := trip_edges hn h' (List.mem_range.1 hv)
    exact tspAdjacent_pos (w := changedWeight graph fl) ht hvt hw (of_decide_eq_true hz)

theorem tspInt_ends {graph : List (List (Option G))} (hdd : g.dd.Lawful inf) (hinf : 0 ≤ inf) (fl : Bool) :
    ∃ N, ∀ fuel, N ≤ fuel → ∀ pathFuel, tspInt g inf graph fl fuel pathFuel ≠ .outOfFuel := by
  by_cases hn : graph.length < 2
  · exact ⟨0, fun fuel _ pathFuel => by unfold tspInt; simp [hn]⟩
  · obtain ⟨N, hN⟩ := tsp_search_ends (g := g) (inf := inf) (weight := changedWeight graph fl) (n := graph.length) (by omega) hdd hinf
      (fun a b w h => C48_nonneg graph fl a b w h)
    refine ⟨N, fun fuel hf pathFuel heq => ?_⟩
    have := hN fuel hf pathFuel
    unfold tspInt at heq
    dsimp only at heq
    rw [if_neg hn] at heq
    split at heq
    · simp at heq
    · split at heq
      · simp at heq
      · split at heq
        · simp at heq
        · split at heq <;> simp only [reduceCtorEq] at heq
          rename_i hb
          exact this hb

theorem nsmul_mono {a b : G} (h : a ≤ b) (k : Nat) : k • a ≤ k • b := by
  induction k with
  | zero => simp
  | succ k ih => rw [succ_nsmul, succ_nsmul]; exact add_le_add ih h

theorem twice_shift {a l k j : G} (h : a + k ≤ (l + k) + (l + k)) (hk : k ≤ -j) : a - j ≤ (l - j) + (l - j) := by
  have h1 : a ≤ l + l + k := by
    rw [← add_le_add_iff_right k]
    refine h.trans_eq ?_
    abel
  have h2 : a ≤ l + l + -j := h1.trans (add_le_add_right hk _)
  have h3 := add_le_add_left h2 (-j)
  calc a - j = a + -j := by abel
    _ ≤ (l + l + -j) + -j := h3
    _ = (l - j) + (l - j) := by abel

variable {vertices : List V} {rows : V → Option (V → Option G)} {validV : Nat → Prop} {validL : Unit → Prop}

/-- What is shown about the results, for vertices of any kind. -/
theorem tspFlex_result (hn : 2 ≤ vertices.length) (hdd : g.dd.Lawful inf) (hinf : 0 ≤ inf)
    (hst : TspStorable g vertices.length validV validL) (fl : Bool) (fuel pathFuel : Nat) :
    match tspFlex g inf vertices rows fl fuel pathFuel with
    | .ok length path => vertices.length < pathFuel → ∃ len, length = ((len : G) : WithTop G) ∧
        IsRoundTrip (givenWeight rows) vertices path len ∧
        ∀ path' l', IsRoundTrip (givenWeight rows) vertices path' l' →
          ((if fl then 0 - len else len) + vertices.length • (tspChanges (tspMatrix vertices rows) fl).2.1 ≤
            ((if fl then 0 - l' else l') + vertices.length • (tspChanges (tspMatrix vertices rows) fl).2.1) +
              ((if fl then 0 - l' else l') + vertices.length • (tspChanges (tspMatrix vertices rows) fl).2.1)) ∧
          (TspNoStale g inf (tspMatrix vertices rows) fl → if fl then l' ≤ len else len ≤ l')
    | .raised e => e = .keyError ∨ (e = .overflowError ∧ inf ≠ ⊤)
    | .outOfFuel => True := by
  have hs := tspInt_result (g := g) (tspMatrix_length vertices rows) hn (tspMatrix_row vertices rows) hdd hinf hst fl fuel pathFuel
  unfold tspFlex
  cases hb : tspInt g inf (tspMatrix vertices rows) fl fuel pathFuel with
  | raised e => rw [hb] at hs; exact hs
  | outOfFuel => trivial
  | ok length path =>
    rw [hb] at hs
    intro hfuel
    obtain ⟨len, h1, h2, h3⟩ := hs hfuel
    refine ⟨len, h1, trip_of_int h2, ?_⟩
    intro path' l' h'
    obtain ⟨p, hp⟩ := trip_to_int h'
    exact h3 p l' hp

/-- **C50 (partial).** A returned path is a round trip through the given vertices, and the returned length is its length. -/
theorem C50_round_trip_partial (hdd : g.dd.Lawful inf) (hinf : 0 ≤ inf)
    (hst : TspStorable g vertices.length validV validL) (findLongest : Bool) (fuel pathFuel : Nat)
    (hfuel : vertices.length < pathFuel) (length : WithTop G) (path : List V)
    (hres : tspFlex g inf vertices rows findLongest fuel pathFuel = .ok length path) :
    ∃ len : G, length = (len : WithTop G) ∧ IsRoundTrip (givenWeight rows) vertices path len := by
  by_cases hn : vertices.length < 2
  · unfold tspFlex tspInt at hres
    simp [tspMatrix_length, hn] at hres
  · have := tspFlex_result (g := g) (rows := rows) (by omega) hdd hinf hst findLongest fuel pathFuel
    rw [hres] at this
    obtain ⟨len, h1, h2, -⟩ := this hfuel
    exact ⟨len, h1, h2⟩

/-- **C50 (partial).** The returned length is optimal if the search never meets a superseded entry in one of its heaps. -/
theorem C50_optimal_partial (hdd : g.dd.Lawful inf) (hinf : 0 ≤ inf)
    (hst : TspStorable g vertices.length validV validL) (findLongest : Bool) (fuel pathFuel : Nat)
    (hfuel : vertices.length < pathFuel) (len : G) (path : List V)
    (hns : TspNoStale g inf (tspMatrix vertices rows) findLongest)
    (hres : tspFlex g inf vertices rows findLongest fuel pathFuel = .ok (len : WithTop G) path) :
    if findLongest then IsLongest (givenWeight rows) vertices len else IsShortest (givenWeight rows) vertices len := by
  by_cases hn : vertices.length < 2
  · unfold tspFlex tspInt at hres
    simp [tspMatrix_length, hn] at hres
  · have := tspFlex_result (g := g) (rows := rows) (by omega) hdd hinf hst findLongest fuel pathFuel
    rw [hres] at this
    obtain ⟨len', h1, -, h3⟩ := this hfuel
    have h1 := WithTop.coe_inj.1 h1
    subst h1
    cases findLongest with
    | true => exact fun p l h => by simpa using (h3 p l h).2 hns
    | false => exact fun p l h => by simpa using (h3 p l h).2 hns

/-- **C50 (partial).** The length of the returned round trip is at most twice the length of a shortest one, if the lengths are
measured with weights that are not negative. Here, `m` can be any lower bound of the weights, and `0` for weights that are
not negative. -/
theorem C50_at_most_twice_partial (hdd : g.dd.Lawful inf) (hinf : 0 ≤ inf)
    (hst : TspStorable g vertices.length validV validL) (fuel pathFuel : Nat)
    (hfuel : vertices.length < pathFuel) (len : G) (path : List V)
    (m : G) (hm0 : m ≤ 0) (hm : ∀ a ∈ vertices, ∀ b ∈ vertices, ∀ x, givenWeight rows a b = some x → m ≤ x)
    (hres : tspFlex g inf vertices rows false fuel pathFuel = .ok (len : WithTop G) path) :
    ∀ path' l', IsRoundTrip (givenWeight rows) vertices path' l' →
      len - vertices.length • m ≤ (l' - vertices.length • m) + (l' - vertices.length • m) := by
  by_cases hn : vertices.length < 2
  · unfold tspFlex tspInt at hres
    simp [tspMatrix_length, hn] at hres
  · have := tspFlex_result (g := g) (rows := rows) (by omega) hdd hinf hst false fuel pathFuel
    rw [hres] at this
    obtain ⟨len', h1, -, h3⟩ := this hfuel
    have h1 := WithTop.coe_inj.1 h1
    subst h1
    intro p l h
    have h4 := (h3 p l h).1
    simp only [Bool.false_eq_true, if_false] at h4
    have h5 : (tspChanges (tspMatrix vertices rows) false).2.1 ≤ 0 - m := by
      refine offset_shortest hm0 (fun x hx => ?_)
      obtain ⟨a, ha, b, hb, e⟩ := tspMatrix_mem hx
      exact hm a ha b hb x e
    exact twice_shift h4 (by simpa using nsmul_mono h5 vertices.length)

/-- **C50 (partial).** And likewise, if a longest round trip is searched. Here, `m` can be any upper bound of the weights
that is not negative. -/
theorem C50_at_most_twice_longest_partial (hdd : g.dd.Lawful inf) (hinf : 0 ≤ inf)
    (hst : TspStorable g vertices.length validV validL) (fuel pathFuel : Nat)
    (hfuel : vertices.length < pathFuel) (len : G) (path : List V)
    (m : G) (hm0 : 0 ≤ m) (hm : ∀ a ∈ vertices, ∀ b ∈ vertices, ∀ x, givenWeight rows a b = some x → x ≤ m)
    (hres : tspFlex g inf vertices rows true fuel pathFuel = .ok (len : WithTop G) path) :
    ∀ path' l', IsRoundTrip (givenWeight rows) vertices path' l' →
      vertices.length • m - len ≤ (vertices.length • m - l') + (vertices.length • m - l') := by
  by_cases hn : vertices.length < 2
  · unfold tspFlex tspInt at hres
    simp [tspMatrix_length, hn] at hres
  · have := tspFlex_result (g := g) (rows := rows) (by omega) hdd hinf hst true fuel pathFuel
    rw [hres] at this
    obtain ⟨len', h1, -, h3⟩ := this hfuel
    have h1 := WithTop.coe_inj.1 h1
    subst h1
    intro p l h
    have h4 := (h3 p l h).1
    simp only [if_true] at h4
    have h5 : (tspChanges (tspMatrix vertices rows) true).2.1 ≤ m := by
      refine offset_longest hm0 (fun x hx => ?_)
      obtain ⟨a, ha, b, hb, e⟩ := tspMatrix_mem hx
      exact hm a ha b hb x e
    have := twice_shift (j := 0 - vertices.length • m) h4 (by simpa using nsmul_mono h5 vertices.length)
    simpa [sub_eq_add_neg, add_comm] using this

/-- **C50 (partial).** Which exceptions occur: `RuntimeError` if there are less than two vertices, and otherwise only
`KeyError`, and, if the gear uses an infinity value other than `float("inf")`, `OverflowError`. -/
theorem C50_exceptions_partial (hdd : g.dd.Lawful inf) (hinf : 0 ≤ inf)
    (hst : TspStorable g vertices.length validV validL) (findLongest : Bool) (fuel pathFuel : Nat) :
    (vertices.length < 2 → tspFlex g inf vertices rows findLongest fuel pathFuel = .raised .runtimeError) ∧
    (2 ≤ vertices.length → ∀ e, tspFlex g inf vertices rows findLongest fuel pathFuel = .raised e →
      e = .keyError ∨ (e = .overflowError ∧ inf ≠ ⊤)) := by
  constructor
  · intro hn
    unfold tspFlex tspInt
    simp [tspMatrix_length, hn]
  · intro hn e he
    have := tspFlex_result (g := g) (rows := rows) (by omega) hdd hinf hst findLongest fuel pathFuel
    rw [he] at this
    exact this

/-- **C50 (partial).** The search always ends. -/
theorem C50_ends_partial (hdd : g.dd.Lawful inf) (hinf : 0 ≤ inf) (findLongest : Bool) :
    ∃ N, ∀ fuel, N ≤ fuel → ∀ pathFuel, tspFlex g inf vertices rows findLongest fuel pathFuel ≠ .outOfFuel := by
  obtain ⟨N, hN⟩ := tspInt_ends (g := g) (graph := tspMatrix vertices rows) hdd hinf findLongest
  refine ⟨N, fun fuel hf pathFuel h => hN fuel hf pathFuel ?_⟩
  unfold tspFlex at h
  split at h <;> simp only [reduceCtorEq] at h
  assumption

/-- **C50 (partial).** If there is no round trip, `KeyError` is raised. -/
theorem C50_no_trip_partial (hn : 2 ≤ vertices.length) (hdd : g.dd.Lawful (⊤ : WithTop G))
    (hst : TspStorable g vertices.length validV validL) (findLongest : Bool)
    (hno : ∀ path l, ¬ IsRoundTrip (givenWeight rows) vertices path l) :
    ∃ N, ∀ fuel, N ≤ fuel → ∀ pathFuel, vertices.length < pathFuel →
      tspFlex g ⊤ vertices rows findLongest fuel pathFuel = .raised .keyError := by
  obtain ⟨N, hN⟩ := C50_ends_partial (g := g) (vertices := vertices) (rows := rows) hdd le_top findLongest
  refine ⟨N, fun fuel hf pathFuel hp => ?_⟩
  have := tspFlex_result (g := g) (rows := rows) hn hdd le_top hst findLongest fuel pathFuel
  cases hb : tspFlex g ⊤ vertices rows findLongest fuel pathFuel with
  | outOfFuel => exact absurd hb (hN fuel hf pathFuel)
  | raised e =>
    rw [hb] at this
    rcases this with rfl | ⟨-, h⟩
    · rfl
    · exact absurd rfl h
  | ok length path =>
    rw [hb] at this
    obtain ⟨len, -, h, -⟩ := this hp
    exact absurd h (hno _ _)

/-- **C50 (partial).** If there is a round trip, `KeyError` is only raised because the bidirectional search in the state graph
does not find it (see `C50_counterexample_key_error`); no other check rejects the graph. -/
theorem C50_key_error_partial (hn : 2 ≤ vertices.length) (findLongest : Bool) (fuel pathFuel : Nat) (path : List V) (l : G)
    (h : IsRoundTrip (givenWeight rows) vertices path l) (hdd : g.dd.Lawful inf) (hinf : 0 ≤ inf)
    (hst : TspStorable g vertices.length validV validL)
    (hres : tspFlex g inf vertices rows findLongest fuel pathFuel = .raised .keyError) :
    let n := vertices.length
    bdSearch g (tspCfg n (changedWeight (tspMatrix vertices rows) findLongest) inf) [tspStart n] [0 + 0 * n] none fuel pathFuel =
      .notFound := by
  obtain ⟨p, hp⟩ := trip_to_int h
  have he : tspInt g inf (tspMatrix vertices rows) findLongest fuel pathFuel = .raised .keyError := by
    unfold tspFlex at hres
    split at hres <;> simp only [TspResult.raised.injEq, reduceCtorEq] at hres
    rename_i e he
    rw [he, hres]
  rcases tspInt_search (tspMatrix_length vertices rows) hn (tspMatrix_row vertices rows) findLongest fuel pathFuel hp _ he with
    ⟨-, h⟩ | h
  · exact h
  · have := tsp_search (g := g) (weight := changedWeight (tspMatrix vertices rows) findLongest) hn hdd hinf
      (fun a b w h => C48_nonneg _ findLongest a b w h) hst False (fun h => h.elim) fuel pathFuel
    rw [h] at this
    exact absurd this.1 (by decide)

end

/-! ### Examples and counterexamples -/

/-- A gear with sequence based collections. -/
def exTspGear : WGear Nat Nat Unit (WithTop Int) (List (Option Nat)) (List (Option Unit)) (List (WithTop Int)) :=
  ⟨listMap ⟨none, 64, true⟩ 0, listMap ⟨none, 64, true⟩ 0, seqDist ⟨⊤, 64, true⟩ 0⟩

/-- A matrix as weights for vertices 0, 1, ... -/
def exRows (graph : List (List (Option Int))) : Nat → Option (Nat → Option Int) :=
  fun v => graph[v]?.map (fun row w => row.getD w none)

/-- The result in a form that can be compared. -/
def exTspShow (r : TspResult Int Nat) : Option (Option Int × List Nat) × Option PyErr :=
  match r with
  | .ok length path => (some (length, path), none)
  | .raised e => (none, some e)
  | .outOfFuel => (none, none)

theorem exTspGear_lawful : exTspGear.dd.Lawful ⊤ := seqDist_lawful _ (by simp [SeqParams.Ok]) 0

theorem exTspGear_storable (n : Nat) : TspStorable exTspGear n (fun _ => True) (fun _ => True) :=
  ⟨listMap_lawful _ rfl (by simp [SeqParams.Ok]) 0, listMap_lawful _ rfl (by simp [SeqParams.Ok]) 0, fun _ _ => trivial, trivial⟩

/-- The hypotheses of the theorems about C50 hold for the gear, and round trips are found: a shortest and a longest one. -/
example : exTspGear.dd.Lawful ⊤ ∧ TspStorable exTspGear 3 (fun _ => True) (fun _ => True) ∧
    exTspShow (tspFlex exTspGear ⊤ [0, 1, 2] (exRows exTsp3) false 100 10) = (some (some 7, [0, 2, 1, 0]), none) ∧
    exTspShow (tspFlex exTspGear ⊤ [0, 1, 2] (exRows exTsp3) true 100 10) = (some (some 10, [0, 1, 2, 0]), none) ∧
    exTspShow (tspFlex exTspGear ⊤ [2, 0] (exRows exTsp3) false 100 10) = (some (some 4, [2, 0, 2]), none) ∧
    exTspShow (tspFlex exTspGear ⊤ [0, 7] (exRows exTsp3) false 100 10) = (none, some .keyError) ∧
    exTspShow (tspFlex exTspGear ⊤ [0] (exRows exTsp3) false 100 10) = (none, some .runtimeError) := by
  refine ⟨exTspGear_lawful, exTspGear_storable 3, ?_, ?_, ?_, ?_, ?_⟩ <;> decide +kernel

theorem tspCfg_weight {n : Nat} {weight : Nat → Nat → Option Int} {inf : WithTop Int} {b : Bool} {u v : Nat} {y : WithTop Int}
    (h : WEdge ((tspCfg n weight inf).next b) u v y) : ∃ i j, ∃ w : Int, weight i j = some w ∧ y = (w : WithTop Int) := by
  obtain ⟨l, h⟩ := h
  cases b with
  | false =>
    obtain ⟨t, w, -, -, -, h5, h6⟩ := mem_tspNextF.1 h
    simp only [Prod.mk.injEq] at h6
    exact ⟨_, _, w, h5, h6.2.1⟩
  | true =>
    obtain ⟨t, w, -, -, -, h5, h6⟩ := (mem_tspNextB (weight := fun v w => weight w v)).1 h
    simp only [Prod.mk.injEq] at h6
    exact ⟨_, _, w, h5, h6.2.1⟩

/-- A matrix with equal weights. -/
def exTspEq : List (List (Option Int)) := [[none, some 5, some 5], [some 5, none, some 5], [some 5, some 5, none]]

/-- The hypotheses of `C50_optimal_partial` hold for it. -/
example : TspNoStale exTspGear ⊤ (tspMatrix [0, 1, 2] (exRows exTspEq)) false ∧
    exTspShow (tspFlex exTspGear ⊤ [0, 1, 2] (exRows exTspEq) false 100 10) = (some (some 15, [0, 1, 2, 0]), none) := by
  refine ⟨fun h s hr => ?_, by decide +kernel⟩
  refine uni_no_stale (x := ((5 : Int) : WithTop Int)) exTspGear_lawful (by decide +kernel) (by decide +kernel) ?_ _ none hr
  intro b u v y he
  obtain ⟨i, j, w, hw, rfl⟩ := tspCfg_weight he
  unfold changedWeight tspWeight at hw
  obtain ⟨z, hz, rfl⟩ := Option.map_eq_some_iff.1 hw
  have hz := mem_weights hz
  have h5 : z = 5 := by
    have : ∀ z ∈ (tspMatrix [0, 1, 2] (exRows exTspEq)).flatMap (fun edges => edges.filterMap id), z = 5 := by decide +kernel
    exact this z hz
  subst h5
  decide +kernel

/-- The graph of the first counterexample. -/
def exTspKey : List (List (Option Int)) :=
  [[none, some 0, some 1, some 0], [none, none, some 0, some 0], [none, some 1, none, none], [some 0, none, some 0, none]]

/-- **C50 does not hold in general: exception.** For this graph, `KeyError` is raised, although there is a round trip. The reason
is the one of `C49_counterexample`: the backward search finds no edges to the start state, runs out of states, and the
search takes this as the proof that no round trip exists. -/
theorem C50_counterexample_key_error :
    exTspShow (tspFlex exTspGear ⊤ [0, 1, 2, 3] (exRows exTspKey) false 1000 10) = (none, some .keyError) ∧
    IsRoundTrip (givenWeight (exRows exTspKey)) [0, 1, 2, 3] [0, 2, 1, 3, 0] 2 :=
  ⟨by decide +kernel, 0, [2, 1, 3], rfl, by decide, by decide +kernel⟩

/-- The graph of the second counterexample: all edges exist. -/
def exTspLen : List (List (Option Int)) :=
  [[none, some 33, some 19, some 69, some 46], [some 203, none, some 13, some 32, some 99],
   [some 201, some 14, none, some 10, some 91], [some 211, some 65, some 90, none, some 70],
   [some 237, some 53, some 20, some 47, none]]

/-- **C50 does not hold in general: length.** For this graph, a round trip with length 333 is returned, although there is a
round trip with length 323. The reason is the one of `C31_counterexample`. -/
theorem C50_counterexample_length :
    exTspShow (tspFlex exTspGear ⊤ [0, 1, 2, 3, 4] (exRows exTspLen) false 1000 10) = (some (some 333, [0, 4, 1, 2, 3, 0]), none) ∧
    IsRoundTrip (givenWeight (exRows exTspLen)) [0, 1, 2, 3, 4] [0, 4, 2, 1, 3, 0] 323 :=
  ⟨by decide +kernel, 0, [4, 2, 1, 3], rfl, by decide, by decide +kernel⟩

end NoGraphs
