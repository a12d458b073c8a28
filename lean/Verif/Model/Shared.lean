import Verif.Model.Bfs
import Verif.Model.NeighborsThenDepth
import Verif.Model.DepthFirst

/-!
# Traversals that share a set of visited vertices

`start_from(..., already_visited=s)` does not copy the set `s`: it marks the start vertices in it (`define_visited`,
`_strategies/utils.py` 111-129; not for depth-first search, `depth_first.py` 278-287) and uses this set as its set of visited
vertices (attribute `visited`, `traversal_without_weights.py` 148-157). So, several traversals that are started with the
same set share it, and the program may iterate them alternately in any way: an iteration step of one of them can
follow each step of another one.

Here, a system of such traversals is a shared set and a list of started traversals. An action of the program
is to start a further traversal, or to let one of the traversals do a step of its generator. (The generators
only give away control at a `yield`, and when they call the edges function of the user. A step of the machines is
finer than that, so the schedules here include those of the program.) The calculation limit is
not modelled here: a traversal that has been ended by it just makes no further steps.
-/

namespace NoGraphs

variable {V K L S M ML : Type}

/-- A generator: strategy, options and state. -/
inductive Gen (V K L S M ML : Type) where
  | bfs (c : TravCfg V K L) (s : BfsState V L S M ML)
  | ntd (c : NtdCfg V K L) (s : NtdState V L S M ML)
  | dfs (c : DfsCfg V K L) (s : DfsState V L S M ML)

/-- How a generator has ended, if it has. -/
inductive Status where
  | running
  | done
  | failed (e : PyErr)
deriving DecidableEq

/-- A started traversal: its start vertices, its generator, and whether it has ended. -/
structure Started (V K L S M ML : Type) where
  starts : List V
  gen : Gen V K L S M ML
  status : Status

/-- A call of `start_from`: strategy, options and start vertices. -/
inductive StartCall (V K L : Type) where
  | bfs (c : TravCfg V K L) (starts : List V)
  | ntd (c : NtdCfg V K L) (starts : List V)
  | dfs (c : DfsCfg V K L) (starts : List V)

/-- The shared set, and the traversals started so far. -/
structure Sys (V K L S M ML : Type) where
  visited : S
  travs : List (Started V K L S M ML)

/-- What the program does next. -/
inductive Action (V K L : Type) where
  | start (call : StartCall V K L)
  | step (i : Nat)

variable (g : TravGear V K L S M ML)

/-- `start_from` with the shared set as `already_visited`: the generator and the set afterwards (`bfsInit`, `ntdInit`,
`dfsInit`). -/
def StartCall.start (visited : S) : StartCall V K L → S × Started V K L S M ML
  | .bfs c starts =>
    let s := bfsInit g c visited starts
    (s.visited, ⟨starts, .bfs c s, .running⟩)
  | .ntd c starts =>
    let s := ntdInit g c visited starts
    (s.visited, ⟨starts, .ntd c s, .running⟩)
  | .dfs c starts =>
    let s := dfsInit g c visited starts
    (s.visited, ⟨starts, .dfs c s, .running⟩)

/-- What a step of a generator leads to: the shared set, the generator, its status, and the reported vertex, if any. -/
structure StepOut (V K L S M ML : Type) where
  visited : S
  gen : Gen V K L S M ML
  status : Status
  report : Option V

/-- The effect of a step of a machine. -/
def stepOut {σ ρ : Type} (visited : S) (old : Gen V K L S M ML) (vis : σ → S) (wrap : σ → Gen V K L S M ML)
    (vertex : ρ → V) : Step σ ρ → StepOut V K L S M ML
  | .stop s => ⟨vis s, wrap s, .done, none⟩
  | .fail e => ⟨visited, old, .failed e, none⟩
  | .tau s => ⟨vis s, wrap s, .running, none⟩
  | .emit r s => ⟨vis s, wrap s, .running, some (vertex r)⟩
  | .expand s => ⟨vis s, wrap s, .running, none⟩

/-- A step of a generator: the machine of the strategy, with the shared set in place of its own one. -/
def Gen.step [DecidableEq V] (visited : S) (t : Gen V K L S M ML) : StepOut V K L S M ML :=
  match t with
  | .bfs c s => stepOut visited t (fun s => s.visited) (.bfs c) (fun r => r.vertex) (bfsStep g c false { s with visited })
  | .ntd c s => stepOut visited t (fun s => s.visited) (.ntd c) (fun r => r.vertex) (ntdStep g c { s with visited })
  | .dfs c s => stepOut visited t (fun s => s.visited) (.dfs c) (fun r => r.vertex) (dfsStep g c { s with visited })

/-- An action of the program: the new state of the system, and the report (number of the traversal, vertex), if any.
Steps of traversals that do not exist or have ended change nothing. -/
def Sys.act [DecidableEq V] (y : Sys V K L S M ML) : Action V K L → Sys V K L S M ML × Option (Nat × V)
  | .start call =>
    let r := call.start g y.visited
    ({ visited := r.1, travs := y.travs ++ [r.2] }, none)
  | .step i =>
    match y.travs[i]? with
    | none => (y, none)
    | some t =>
      match t.status with
      | .running =>
        let o := t.gen.step g y.visited
        ({ visited := o.visited, travs := y.travs.set i { t with gen := o.gen, status := o.status } },
          o.report.map (fun v => (i, v)))
      | _ => (y, none)

/-- The reports, and the state of the system, after a program. -/
def Sys.run [DecidableEq V] (y : Sys V K L S M ML) : List (Action V K L) → List (Nat × V) × Sys V K L S M ML
  | [] => ([], y)
  | a :: as =>
    let r := y.act g a
    let rest := Sys.run r.1 as
    (r.2.toList ++ rest.1, rest.2)

end NoGraphs
