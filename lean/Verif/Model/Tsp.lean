import Mathlib.Algebra.Order.Group.Defs
import Mathlib.Algebra.Order.Monoid.WithTop
import Verif.Model.BiDijkstra

/-!
# Model of `src/nographs/_extra_tsp.py`

All line numbers refer to this file. Weights are elements of an ordered group `G` (e.g. the integers); the bidirectional
search, that knows an infinity value, works on `WithTop G`. The infinity value of the gear is either `⊤` (`float("inf")`),
or an element of `G` (gears with typed arrays).
-/

namespace NoGraphs

variable {G V M ML D : Type} [AddCommGroup G] [LinearOrder G]

/-- `min(..., default=zero)`. -/
def minOrZero : List G → G
  | [] => 0
  | w :: ws => ws.foldl min w

/-- `weight_changes_for_negative_weights` (lines 48-66): negate weights, offset, weights are changed. -/
def weightChangesForNegativeWeights (weights : List G) : Bool × G × Bool :=
  let offset := 0 - min 0 (minOrZero weights)
  (false, offset, decide (offset ≠ 0))

/-- `weight_changes_for_find_longest` (lines 69-88): negate weights, offset. -/
def weightChangesForFindLongest (weights : List G) : Bool × G :=
  (true, 0 - min 0 (minOrZero (weights.map (fun w => 0 - w))))

/-- Subtraction with a length that may be infinite. -/
def topSub (a : WithTop G) (b : G) : WithTop G := a.map (fun x => x - b)

/-- The loop of `undo_weight_changes_in_travel_length` (lines 102-103). -/
def subtractTimes (length : WithTop G) (offset : G) : Nat → WithTop G
  | 0 => length
  | n + 1 => subtractTimes (topSub length offset) offset n

/-- `undo_weight_changes_in_travel_length` (lines 91-106). -/
def undoWeightChanges (length : WithTop G) (noOfEdges : Nat) (negate : Bool) (offset : G) : WithTop G :=
  let l := subtractTimes length offset noOfEdges
  if negate then l.map (fun x => 0 - x) else l

/-- Access to a matrix: `graph[v][w]`. -/
def matrixGet (graph : List (List (Option G))) (v w : Nat) : Option G := (graph.getD v []).getD w none

/-- The changed weights (lines 195-206), with `v` as first vertex. For `graph_backwards` (lines 208-219), the arguments are
exchanged. -/
def tspWeight (graph : List (List (Option G))) (negate : Bool) (offset : G) (v w : Nat) : Option G :=
  (matrixGet graph v w).map (fun x => (if negate then 0 - x else x) + offset)

/-- The set of adjacent vertices of a vertex, as bit mask (lines 244-259 and 264-279). -/
def tspAdjacent (n : Nat) (weight : Nat → Nat → Option G) (fromVertex : Nat) : Nat :=
  ((List.range n).map (fun toVertex =>
    if fromVertex ≠ toVertex ∧ (weight fromVertex toVertex).isSome then 1 <<< toVertex else 0)).foldl (· ||| ·) 0

/-- The loops over the vertices of a bit mask (lines 298-306 and 327-334), highest vertex first. (Each iteration makes the
mask smaller, so `fuel` not below the mask is sufficient.) -/
def highBits : Nat → Nat → List Nat
  | 0, _ => []
  | fuel + 1, mask =>
    if mask = 0 then []
    else mask.log2 :: highBits fuel (mask - 1 <<< mask.log2)

/-- `next_edges_forwards` (lines 285-306). (A missing weight would be an error of the code; the mask `adj` contains only
vertices with a weight.) -/
def tspNextF (n : Nat) (weight : Nat → Nat → Option G) (state : Nat) : List (Nat × WithTop G × Unit) :=
  let toVisit := if state / n = 0 then 1 <<< 0 else state / n
  let vertex := state % n
  let next := toVisit &&& tspAdjacent n weight vertex
  (highBits next next).filterMap (fun t =>
    (weight vertex t).map (fun (w : G) => (t + (toVisit - 1 <<< t) * n, (w : WithTop G), ())))

/-- `next_edges_backwards` (lines 308-334). `weight v w` is `graph_backwards[v][w]`. (The numbers are sets without the start
vertex in `to_visit_forwards`, so the subtractions never give negative numbers.) -/
def tspNextB (n : Nat) (weight : Nat → Nat → Option G) (state : Nat) : List (Nat × WithTop G × Unit) :=
  let toVisitForwards := state / n
  let vertex := state % n
  let all := (1 <<< n) - 1
  let next1 := all - toVisitForwards
  let next2 := if next1 ≠ 1 <<< 0 then next1 - 1 <<< 0 else next1
  let next := next2 &&& tspAdjacent n weight vertex
  let remaining := if vertex = 0 then toVisitForwards else toVisitForwards + 1 <<< vertex
  (highBits next next).filterMap (fun f =>
    (weight vertex f).map (fun (w : G) => (f + remaining * n, (w : WithTop G), ())))

/-- Results: length and path, or an exception. -/
inductive TspResult (G V : Type) where
  | ok (length : WithTop G) (path : List V)
  | raised (e : PyErr)
  | outOfFuel

/-- The changes of weights that are chosen (lines 150-161): negate, offset, changed. -/
def tspChanges (graph : List (List (Option G))) (findLongest : Bool) : Bool × G × Bool :=
  let weights := graph.flatMap (fun edges => edges.filterMap id)
  if findLongest then
    let c := weightChangesForFindLongest weights
    (c.1, c.2, true)
  else weightChangesForNegativeWeights weights

/-- The start state (lines 222-235). -/
def tspStart (n : Nat) : Nat := 0 + (((1 <<< n) - 1) - 1 <<< 0) * n

/-- The configuration of the bidirectional search (lines 336-341). -/
def tspCfg (n : Nat) (weight : Nat → Nat → Option G) (inf : WithTop G) : BdCfg Nat Nat Unit (WithTop G) where
  nextF := tspNextF n weight
  nextB := tspNextB n (fun v w => weight w v)
  vid := id
  buildPath := true
  inf := inf

/-- `_traveling_salesman_int_vertices` (lines 114-353). -/
def tspInt (g : WGear Nat Nat Unit (WithTop G) M ML D) (inf : WithTop G) (graph : List (List (Option G)))
    (findLongest : Bool) (fuel pathFuel : Nat) : TspResult G Nat :=
  let ch := tspChanges graph findLongest
  let n := graph.length
  if n < 2 then .raised .runtimeError                                              -- lines 178-185
  else if graph.any (fun edges => edges.length ≠ n) then .raised .runtimeError      -- lines 188-193
  else
    let weight := tspWeight graph ch.1 ch.2.1
    let weightB := fun v w => weight w v
    if (List.range n).any (fun v => tspAdjacent n weight v = 0) then .raised .keyError        -- lines 260-263
    else if (List.range n).any (fun v => tspAdjacent n weightB v = 0) then .raised .keyError  -- lines 280-283
    else
      match bdSearch g (tspCfg n weight inf) [tspStart n] [0 + 0 * n] none fuel pathFuel with -- lines 336-343
      | .found length path =>
        .ok (if ch.2.2 then undoWeightChanges length n ch.1 ch.2.1 else length)    -- lines 345-353
          (path.vertsForwards.map (fun v => v % n))
      | .notFound => .raised .keyError
      | .raised e => .raised e
      | .outOfFuel => .outOfFuel

/-- The matrix of weights (lines 435-453): `rows v` is `weights[v]`, or `none` if this raises a `KeyError` or an
`IndexError` or gives `None`; and likewise for its elements. -/
def tspMatrix (vertices : List V) (rows : V → Option (V → Option G)) : List (List (Option G)) :=
  vertices.map (fun v =>
    match rows v with
    | none => vertices.map (fun _ => none)
    | some row => vertices.map row)

/-- `traveling_salesman_flex` (lines 356-461). -/
def tspFlex (g : WGear Nat Nat Unit (WithTop G) M ML D) (inf : WithTop G) (vertices : List V)
    (rows : V → Option (V → Option G)) (findLongest : Bool) (fuel pathFuel : Nat) : TspResult G V :=
  match tspInt g inf (tspMatrix vertices rows) findLongest fuel pathFuel with
  | .ok length path => .ok length (path.filterMap (fun v => vertices[v]?))          -- line 459
  | .raised e => .raised e
  | .outOfFuel => .outOfFuel

end NoGraphs
