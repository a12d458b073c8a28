import Mathlib.Data.List.Dedup
import Verif.Model.Machine

/-!
# Model of the methods `go_to`, `go_for_vertices_in` and `go_for_..._range`

The generator of a started traversal is given by the list of the reports it will still make and by the
way it ends after them (`done`: it stops; `raised e`: it raises; `outOfFuel`: it would make
further reports that are not considered).  A method yields some reports, leaves a rest of the reports
unconsumed, and ends in some way.
-/

namespace NoGraphs

variable {ρ V K W : Type} [DecidableEq K]

/-- Outcome of one of the methods: what it yields, what stays in the generator, how it ends. -/
structure GoResult (ρ : Type) where
  yielded : List ρ
  rest : List ρ
  ending : Ending

/-- The `for` loop of `go_for_vertices_in` (`traversal.py` 217-224, 229-236), with `v_count = count > 0`.
`inSet` is the test `vertex_to_id(v) in vertex_id_set`. Result: also the final value of `v_count`. -/
def goForLoop (inSet : ρ → Bool) : List ρ → Ending → Nat → GoResult ρ × Nat
  | [], e, count => (⟨[], [], e⟩, count)
  | r :: rest, e, count =>
    if inSet r then
      if count - 1 = 0 then (⟨[r], rest, .done⟩, 0)
      else
        let (res, n) := goForLoop inSet rest e (count - 1)
        ({ res with yielded := r :: res.yielded }, n)
    else goForLoop inSet rest e count

/-- `go_for_vertices_in` (`traversal.py` 210-240); `id` gives the vertex id of a report, `ids` are the
ids of the given vertices. For `vertex_as_id` the ids are the vertices. -/
def goForVerticesIn (id : ρ → K) (ids : List K) (failSilently : Bool) (reports : List ρ) (e : Ending) :
    GoResult ρ :=
  let idSet := ids.dedup
  let count := idSet.length
  if count = 0 then ⟨[], reports, .done⟩
  else
    let (res, n) := goForLoop (fun r => decide (id r ∈ idSet)) reports e count
    match res.ending with
    | .done => if n > 0 && !failSilently then { res with ending := .raised .keyError } else res
    | _ => res

/-- Result of `go_to`. -/
inductive GoTo (ρ : Type) where
  | found (r : ρ) (rest : List ρ)
  | none_
  | raised (e : PyErr)
  | outOfFuel
  deriving DecidableEq

/-- `go_to` (`traversal.py` 275-297). -/
def goTo (id : ρ → K) (k : K) (failSilently : Bool) : List ρ → Ending → GoTo ρ
  | [], .done => if failSilently then .none_ else .raised .keyError
  | [], .raised e => .raised e
  | [], .outOfFuel => .outOfFuel
  | r :: rest, e => if id r ≠ k then goTo id k failSilently rest e else .found r rest

variable [LinearOrder W]

/-- Second loop of `go_for_depth_range` / `go_for_distance_range`
(`breadth_first.py` 420-423, `traversal_with_weights.py` 175-178). -/
def goRangeLoop2 (dist : ρ → W) (stop : W) : List ρ → Ending → GoResult ρ
  | [], e => ⟨[], [], e⟩
  | r :: rest, e =>
    if stop ≤ dist r then ⟨[], rest, .done⟩
    else
      let res := goRangeLoop2 dist stop rest e
      { res with yielded := r :: res.yielded }

/-- First loop, followed by the second one
(`breadth_first.py` 414-423, `traversal_with_weights.py` 169-178). -/
def goRange (dist : ρ → W) (start stop : W) : List ρ → Ending → GoResult ρ
  | [], e => ⟨[], [], e⟩
  | r :: rest, e =>
    if start ≤ dist r then
      let res := goRangeLoop2 dist stop rest e
      if dist r < stop then { res with yielded := r :: res.yielded } else res
    else goRange dist start stop rest e

end NoGraphs
