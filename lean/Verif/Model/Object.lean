import Mathlib.Data.List.Dedup
import Verif.Model.Start

/-!
# Traversal objects and their histories

A program uses a traversal object by a sequence of calls: `start_from` (as often as it likes, and also with parameters that are
rejected), `next(traversal)` (a `for` loop over the traversal is a sequence of such calls), `go_to`, and it creates
iterators by `go_for_vertices_in`, `go_for_depth_range` and `go_for_distance_range` that it fetches vertices from at any
later time, in any order, and as often as it likes (`traversal.py` 36-297, `breadth_first.py` 392-425,
`traversal_with_weights.py` 148-180).

The object has attributes (type `P`), and the base iterator `_generator`. The code of a generator is executed only when
the first vertex is fetched from it, so it then uses the attributes as they are at that moment.

Simplifications: After a successful `start_from`, the program does not use iterators any more that it got before.
`skip_expanding_entered_vertex` is not an operation here (see the parameter `skip` of the strategies). The vertices given
to `go_for_vertices_in` are a fixed collection.
-/

namespace NoGraphs

/-- What distinguishes the traversal classes. `A`: the parameters of `start_from`. `P`: the attributes of the object.
`T`: the variants of the generator. `C`: the options of the running generator. -/
structure Strat (A P T C σ ρ : Type) where
  /-- `start_from` up to the creation of the generator: the attributes afterwards, and the exception, if one is raised -/
  start : A → P → P × Option PyErr
  /-- the choice of the generator in `_traverse`, at its creation -/
  kind : P → T
  /-- the begin of the generator: it copies attributes of the object into local variables -/
  body : T → P → Except PyErr (C × Option Int × σ)
  step : C → σ → Step σ ρ

/-- Outcome of a loop that fetches vertices from a generator until one fulfils a condition. -/
inductive Found (ρ : Type) where
  | found (r : ρ)
  | stopped
  | raised (e : PyErr)
  /-- not decided in the considered number of steps -/
  | hangs
  deriving DecidableEq

/-- What one can do with a generator: `seek p` fetches reports until one with `p` comes, it is the loop
`for v in generator: if not p: continue; ...` -/
structure GenOps (G ρ : Type) where
  seek : (ρ → Bool) → G → Found ρ × G

/-! ## Calls and iterators -/

/-- The state of an iterator that has been created by a `go_for` method. -/
inductive GoIter (K W : Type) where
  /-- `go_for_vertices_in` (`traversal.py` 213-240): the given ids, `v_count`, and `fail_silently` -/
  | vertices (ids : List K) (count : Nat) (silent : Bool)
  /-- in the first loop of `go_for_..._range` (`breadth_first.py` 415-419, `traversal_with_weights.py` 170-174) -/
  | skipping (start stop : W)
  /-- in the second loop (`breadth_first.py` 420-423, `traversal_with_weights.py` 175-178) -/
  | showing (stop : W)
  /-- it has ended -/
  | over

/-- Outcome of a call. -/
inductive Outcome (ρ : Type) where
  | report (r : ρ)
  | none_
  | stopIteration
  | raised (e : PyErr)
  /-- (iterator created, traversal started) -/
  | ok
  | hangs
  deriving DecidableEq

/-- Calls that use a traversal. -/
inductive Use (K W : Type) where
  /-- `next(traversal)` -/
  | next
  /-- `traversal.go_to(vertex, fail_silently)` -/
  | goTo (k : K) (silent : Bool)
  /-- `traversal.go_for_vertices_in(vertices, fail_silently)` -/
  | goForVertices (ids : List K) (silent : Bool)
  /-- `traversal.go_for_depth_range(start, stop)`, resp. `go_for_distance_range` -/
  | goForRange (start stop : W)
  /-- `next(...)` of the i-th of the created iterators -/
  | fetch (i : Nat)

section
variable {G K W ρ : Type} [DecidableEq K] [LinearOrder W] (ops : GenOps G ρ) (id : ρ → K) (dist : ρ → W)

/-- `next(generator)`. -/
def genNext (g : G) : Outcome ρ × G :=
  match ops.seek (fun _ => true) g with
  | (.found r, g) => (.report r, g)
  | (.stopped, g) => (.stopIteration, g)
  | (.raised e, g) => (.raised e, g)
  | (.hangs, g) => (.hangs, g)

/-- `go_to` (`traversal.py` 275-297). -/
def genGoTo (k : K) (silent : Bool) (g : G) : Outcome ρ × G :=
  match ops.seek (fun r => decide (id r = k)) g with
  | (.found r, g) => (.report r, g)
  | (.stopped, g) => (if silent then .none_ else .raised .keyError, g)
  | (.raised e, g) => (.raised e, g)
  | (.hangs, g) => (.hangs, g)

/-- The second loop of a range iterator (`breadth_first.py` 420-423, `traversal_with_weights.py` 175-178). -/
def fetchShowing (stop : W) (g : G) : Outcome ρ × GoIter K W × G :=
  match ops.seek (fun _ => true) g with
  | (.found r, g) => if stop ≤ dist r then (.stopIteration, .over, g) else (.report r, .showing stop, g)
  | (.stopped, g) => (.stopIteration, .over, g)
  | (.raised e, g) => (.raised e, .over, g)
  | (.hangs, g) => (.hangs, .showing stop, g)

/-- `next(iterator)`. -/
def fetchFrom : GoIter K W → G → Outcome ρ × GoIter K W × G
  | .over, g => (.stopIteration, .over, g)
  | .vertices ids count silent, g =>                                   -- `traversal.py` 213-240
    if count = 0 then (.stopIteration, .over, g)
    else
      match ops.seek (fun r => decide (id r ∈ ids)) g with
      | (.found r, g) => (.report r, .vertices ids (count - 1) silent, g)
      | (.stopped, g) => (if silent then .stopIteration else .raised .keyError, .over, g)
      | (.raised e, g) => (.raised e, .over, g)
      | (.hangs, g) => (.hangs, .vertices ids count silent, g)
  | .skipping start stop, g =>                                         -- `breadth_first.py` 414-423
    match ops.seek (fun r => decide (start ≤ dist r)) g with
    | (.found r, g) => if dist r < stop then (.report r, .showing stop, g) else fetchShowing ops dist stop g
    | (.stopped, g) => fetchShowing ops dist stop g
    | (.raised e, g) => (.raised e, .over, g)
    | (.hangs, g) => (.hangs, .skipping start stop, g)
  | .showing stop, g => fetchShowing ops dist stop g

/-- A call that uses the traversal: `its` are the iterators created so far. -/
def use (u : Use K W) (its : List (GoIter K W)) (g : G) : Outcome ρ × List (GoIter K W) × G :=
  match u with
  | .next => let (o, g) := genNext ops g; (o, its, g)                  -- `traversal.py` 172-177
  | .goTo k silent => let (o, g) := genGoTo ops id k silent g; (o, its, g)
  | .goForVertices ids silent => (.ok, its ++ [.vertices ids ids.dedup.length silent], g)
  | .goForRange start stop => (.ok, its ++ [.skipping start stop], g)
  | .fetch i =>
    match its[i]? with
    | none => (.raised .indexError, its, g)
    | some it => let (o, it, g) := fetchFrom ops id dist it g; (o, its.set i it, g)

/-- A sequence of calls; a call that does not come to an end is the last one. -/
def useAll (its : List (GoIter K W)) (g : G) : List (Use K W) → List (Outcome ρ)
  | [] => []
  | u :: us =>
    match use ops id dist u its g with
    | (.hangs, _, _) => [.hangs]
    | (o, its, g) => o :: useAll its g us

end

/-! ## The generators of the strategies -/

/-- The state of the attribute `_generator`. -/
inductive PyGen (T C σ : Type) where
  /-- `no_generator()` (`traversal.py` 36-43) -/
  | notStarted
  /-- created by `_start` (`traversal.py` 149-150), its code has not been executed so far -/
  | fresh (t : T)
  /-- suspended at a `yield` -/
  | suspended (c : C) (lim : Option Int) (s : σ)
  /-- it has returned, or it has raised an exception -/
  | finished

/-- Resume a generator until a report fulfils `p`. -/
def seekMachine {σ ρ : Type} (m : σ → Step σ ρ) (p : ρ → Bool) : Nat → Option Int → σ → Found ρ × Option Int × σ
  | 0, lim, s => (.hangs, lim, s)
  | fuel + 1, lim, s =>
    match m s with
    | .stop s => (.stopped, lim, s)
    | .fail e => (.raised e, lim, s)
    | .tau s => seekMachine m p fuel lim s
    | .emit r s => if p r then (.found r, lim, s) else seekMachine m p fuel lim s
    | .expand s' =>
      match checkLimit lim with
      | none => (.raised .runtimeError, lim, s)
      | some lim => seekMachine m p fuel lim s'

variable {A P T C σ ρ : Type}

/-- The generator after `seekMachine`: if it has returned or raised an exception, nothing comes any more. -/
def genAfter (c : C) : Found ρ × Option Int × σ → Found ρ × PyGen T C σ
  | (.found r, lim, s) => (.found r, .suspended c lim s)
  | (.hangs, lim, s) => (.hangs, .suspended c lim s)
  | (o, _, _) => (o, .finished)

/-- The generator of an object with attributes `attrs`. -/
def pyGen (st : Strat A P T C σ ρ) (fuel : Nat) (attrs : P) : GenOps (PyGen T C σ) ρ where
  seek p g :=
    match g with
    | .notStarted => (.raised .runtimeError, .finished)
    | .finished => (.stopped, .finished)
    | .fresh t =>
      match st.body t attrs with
      | .error e => (.raised e, .finished)
      | .ok (c, lim, s) => genAfter c (seekMachine (st.step c) p fuel lim s)
    | .suspended c lim s => genAfter c (seekMachine (st.step c) p fuel lim s)

/-! ## Histories -/

/-- A traversal object. -/
structure TravObj (P T C σ K W : Type) where
  attrs : P
  gen : PyGen T C σ
  iters : List (GoIter K W)

/-- A call of a method of the traversal. -/
inductive Call (A K W : Type) where
  | start (a : A)
  | use (u : Use K W)

variable {K W : Type} [DecidableEq K] [LinearOrder W] (st : Strat A P T C σ ρ) (id : ρ → K) (dist : ρ → W) (fuel : Nat)

/-- A call of a method. -/
def TravObj.call (o : TravObj P T C σ K W) : Call A K W → Outcome ρ × TravObj P T C σ K W
  | .start a =>
    match st.start a o.attrs with
    | (p, some e) => (.raised e, { o with attrs := p })
    | (p, none) => (.ok, { attrs := p, gen := .fresh (st.kind p), iters := [] })
  | .use u =>
    let (out, its, g) := use (pyGen st fuel o.attrs) id dist u o.iters o.gen
    (out, { o with gen := g, iters := its })

/-- A history of calls: the outcomes, and the object afterwards. (A call that does not come to an end is the last one.) -/
def TravObj.calls (o : TravObj P T C σ K W) : List (Call A K W) → List (Outcome ρ) × TravObj P T C σ K W
  | [] => ([], o)
  | a :: as =>
    match o.call st id dist fuel a with
    | (.hangs, o) => ([.hangs], o)
    | (out, o) => let (outs, o) := o.calls as; (out :: outs, o)

/-- A new object (`traversal.py` 60-100). -/
def TravObj.new (p : P) : TravObj P T C σ K W := ⟨p, .notStarted, []⟩

end NoGraphs
