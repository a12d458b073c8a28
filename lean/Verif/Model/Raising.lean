import Verif.Model.Reads

/-!
# Traversals of graphs whose edges function raises exceptions

The edges function of the application (`next_edges`, `next_vertices`, `next_labeled_edges`) raises an exception, directly when it is called, or
the iterable that it has returned raises one, after some edges have been taken from it. In each strategy, the call and the
iteration over the returned iterable are in the head of a `for` loop (for example `breadth_first.py` 307), in the minimum
spanning tree traversal, for start vertices, in a list comprehension (`minimum_spanning_tree.py` 223-227). No `try` statement
surrounds these loops, thus the exception leaves the generator, and the call of the consumer that has demanded a report raises
it. The graph of a model, `next`, consists of the edges that are given before the exception.

Not modelled: exceptions of other functions of the application, and the attributes of the traversal after the exception.
-/

namespace NoGraphs

open Spec

/-- What can be seen from outside: a report, or a call of the edges function for a vertex. -/
inductive Seen (V ρ : Type) where
  | report (r : ρ)
  | read (v : V)

/-- How a run ends: as without exceptions of the application, or with the exception of the application for vertex `v`. -/
inductive UserEnding (V : Type) where
  | usual (e : Ending)
  | exception (v : V)

/-- The result of a (possibly unfinished) run. -/
structure RaisingResult (V ρ : Type) where
  seen : List (Seen V ρ)
  ending : UserEnding V

/-- The vertex whose exception has ended the run. -/
def RaisingResult.exception? {V ρ : Type} (r : RaisingResult V ρ) : Option V :=
  match r.ending with
  | .usual _ => none
  | .exception v => some v

/-- The reports of the run. -/
def RaisingResult.reports {V ρ : Type} (r : RaisingResult V ρ) : List ρ :=
  r.seen.filterMap (fun x => match x with | .report r => some r | .read _ => none)

/-- The vertices whose edges have been read, in this order. -/
def RaisingResult.reads {V ρ : Type} (r : RaisingResult V ρ) : List V :=
  r.seen.filterMap (fun x => match x with | .report _ => none | .read v => some v)

/-- Reports (only the vertices) and reads of edges of the run, in their order. -/
def RaisingResult.acts {V ρ : Type} (vert : ρ → V) (r : RaisingResult V ρ) : List (Act V) :=
  r.seen.map (fun x => match x with | .report r => .reported (vert r) | .read v => .read v)

/-- What happens before the rest of a run. -/
def RaisingResult.after {V ρ : Type} (x : Seen V ρ) (r : RaisingResult V ρ) : RaisingResult V ρ := ⟨x :: r.seen, r.ending⟩

/-- The exception that is raised at the end of the edges, if the loop over the edges of a vertex has come to their end. -/
def raisedNow {V E : Type} (raises : V → Bool) : Option (V × List E) → Option V
  | some (v, []) => if raises v then some v else none
  | _ => none

/-- Run a generator (compare `runMachine`). `who s`: the vertex whose edges are demanded next. `opened s`: in state `s`, the
next step is at the head of the loop over the edges of the vertex, with these remaining edges. `eager s`: the step that
demands the edges already reads them all. `raises v`: there is an exception after the edges of `v`. -/
def runRaising {σ ρ V E : Type} (m : σ → Step σ ρ) (who : σ → Option V) (opened : σ → Option (V × List E))
    (eager : σ → Bool) (raises : V → Bool) : Nat → Option Int → σ → RaisingResult V ρ
  | 0, _, _ => ⟨[], .usual .outOfFuel⟩
  | fuel + 1, lim, s =>
    match raisedNow raises (opened s) with
    | some v => ⟨[], .exception v⟩
    | none =>
      match m s with
      | .stop _ => ⟨[], .usual .done⟩
      | .fail e => ⟨[], .usual (.raised e)⟩
      | .tau s' => runRaising m who opened eager raises fuel lim s'
      | .emit r s' => (runRaising m who opened eager raises fuel lim s').after (.report r)
      | .expand s' =>
        match checkLimit lim with
        | none => ⟨[], .usual (.raised .runtimeError)⟩
        | some lim' =>
          match who s with
          | none => runRaising m who opened eager raises fuel lim' s'
          | some v =>
            if eager s && raises v then ⟨[.read v], .exception v⟩
            else (runRaising m who opened eager raises fuel lim' s').after (.read v)

section
variable {V K L S M ML : Type}

/-- The loop over the edges in `breadth_first.py` (line 307). -/
def bfsOpen (s : BfsState V L S M ML) : Option (V × List (V × L)) :=
  match s.pc with
  | .edges v es => some (v, es)
  | _ => none

/-- A breadth-first traversal (compare `bfsRun`). -/
def bfsRaisingRun (g : TravGear V K L S M ML) (c : TravCfg V K L) (raises : V → Bool) (already : S) (starts : List V)
    (limit : Option Int) (fuel : Nat) : RaisingResult V (BfsReport V S M ML) :=
  runRaising (bfsStep g c false) bfsWho bfsOpen (fun _ => false) raises fuel (prepareLimit limit) (bfsInit g c already starts)

/-- The loop over the edges in `neighbors_then_depth.py` (line 324). -/
def ntdOpen (s : NtdState V L S M ML) : Option (V × List (V × L)) :=
  match s.pc with
  | .edges v es => some (v, es)
  | _ => none

/-- A traversal "neighbors before depth" (compare `ntdRun`). -/
def ntdRaisingRun (g : TravGear V K L S M ML) (c : NtdCfg V K L) (raises : V → Bool) (already : S) (starts : List V)
    (limit : Option Int) (fuel : Nat) : RaisingResult V (NtdReport V S M ML) :=
  runRaising (ntdStep g c) (ntdWho c) ntdOpen (fun _ => false) raises fuel (prepareLimit limit) (ntdInit g c already starts)

/-- The loop over the edges in `depth_first.py` (line 1170). -/
def dfsOpen (s : DfsState V L S M ML) : Option (V × List (V × L)) :=
  match s.pc with
  | .edges v es => some (v, es)
  | _ => none

/-- A depth-first traversal without trace (compare `dfsRun`). -/
def dfsRaisingRun [DecidableEq V] (g : TravGear V K L S M ML) (c : DfsCfg V K L) (raises : V → Bool) (already : S)
    (starts : List V) (limit : Option Int) (fuel : Nat) : RaisingResult V (DfsReport V S M ML) :=
  runRaising (dfsStep g c) (dfsWho c) dfsOpen (fun _ => false) raises fuel (prepareLimit limit) (dfsInit g c already starts)

/-- The loop over the edges in `depth_first.py` (line 922). -/
def trOpen (s : TraceState V K L S M ML) : Option (V × List (V × L)) :=
  match s.pc with
  | .edges v es => some (v, es)
  | _ => none

/-- A depth-first traversal with trace (compare `trRun`). -/
def trRaisingRun [DecidableEq V] [DecidableEq K] (g : TravGear V K L S M ML) (c : TraceCfg V K L) (raises : V → Bool)
    (already : S) (starts : List V) (limit : Option Int) (fuel : Nat) : RaisingResult V (TraceReport V K L S M ML) :=
  runRaising (trStep g c) (trWho c) trOpen (fun _ => false) raises fuel (prepareLimit limit) (trInit g already starts)

/-- The loop over the edges in `topological_sort.py` (lines 300 and 545). -/
def topoOpen (s : TopoState V L S M ML) : Option (V × List (V × L)) :=
  match s.pc with
  | .edges v es => some (v, es)
  | _ => none

/-- A topological sorting (compare `topoRun`). -/
def topoRaisingRun (g : TravGear V K L S M ML) (c : TravCfg V K L) (raises : V → Bool) (already : S) (starts : List V)
    (limit : Option Int) (fuel : Nat) : RaisingResult V (TopoReport V S M ML) :=
  if c.isTree then
    runRaising (topoTreeStep g c) topoTreeWho topoOpen (fun _ => false) raises fuel (prepareLimit limit)
      (topoInit g c already starts)
  else
    runRaising (topoStep g c) (topoWho g c) topoOpen (fun _ => false) raises fuel (prepareLimit limit)
      (topoInit g c already starts)

/-- The loop over the edges in `minimum_spanning_tree.py` (line 318). -/
def mstOpen {W : Type} (s : MstState V L W S M ML) : Option (V × List (V × W × L)) :=
  match s.pc with
  | .edges v es => some (v, es)
  | _ => none

/-- The edges of start vertices are read in a list comprehension (lines 223-227). -/
def mstEager {W : Type} (s : MstState V L W S M ML) : Bool :=
  match s.pc with
  | .starts _ => true
  | _ => false

/-- A minimum spanning tree traversal (compare `mstRun`). -/
def mstRaisingRun {W : Type} [LinearOrder W] (g : TravGear V K L S M ML) (c : MstCfg V K L W) (raises : V → Bool)
    (starts : List V) (limit : Option Int) (fuel : Nat) : RaisingResult V (MstReport V L W M ML) :=
  if limit.any (fun k : Int => 0 ≤ k && k < starts.length) then ⟨[], .usual (.raised .runtimeError)⟩
  else runRaising (mstStep g c) mstWho mstOpen mstEager raises fuel (prepareLimit limit) (mstInit g c starts)

end

section
variable {V K L W M ML D : Type} [AddCommMonoid W] [LinearOrder W]

/-- The loop over the edges in `shortest_paths.py` (line 315). -/
def spOpen (s : SpState V L W M ML D) : Option (V × List (V × W × L)) :=
  match s.pc with
  | .edges v _ _ es => some (v, es)
  | _ => none

/-- A shortest paths traversal (compare `spRun`). -/
def spRaisingRun (g : WGear V K L W M ML D) (c : WCfg V K L W) (raises : V → Bool) (known : Option D) (starts : List V)
    (limit : Option Int) (fuel : Nat) : RaisingResult V (SpReport V W M ML D) :=
  runRaising (spStep g c) spWho spOpen (fun _ => false) raises fuel (prepareLimit limit) (spInit g c known starts)

/-- The loop over the edges in `a_star.py` (line 370). -/
def aOpen (s : AStarState V L W M ML D) : Option (V × List (V × W × L)) :=
  match s.pc with
  | .edges v _ _ es => some (v, es)
  | _ => none

/-- An A* traversal (compare `aRun`). -/
def aRaisingRun (g : WGear V K L W M ML D) (c : AStarCfg V K L W) (raises : V → Bool) (known knownGuesses : Option D)
    (starts : List V) (limit : Option Int) (fuel : Nat) : RaisingResult V (AStarReport V W M ML D) :=
  runRaising (aStep g c) aWho aOpen (fun _ => false) raises fuel (prepareLimit limit) (aInit g c known knownGuesses starts)

end

end NoGraphs
