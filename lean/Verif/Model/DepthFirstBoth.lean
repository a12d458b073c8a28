import Verif.Model.DepthFirstTrace

/-!
# Model of `src/nographs/_strategies/traversals/without_weights/depth_first.py`, both variants together

`start_from` with the check of the options (lines 292-381), and `_traverse` with the choice of the variant (lines
391-398). What the variants do is modelled in `Verif/Model/DepthFirst.lean` and `Verif/Model/DepthFirstTrace.lean`.
-/

namespace NoGraphs

variable {V K L S M ML : Type}

/-- The graph, as given to `TraversalDepthFirstFlex` (lines 103-133), `compute_depth`, and at which entered vertices the
consumer calls `skip_expanding_entered_vertex` (lines 1326-1342). -/
structure DfsGraph (V K L : Type) where
  next : V → List (V × L)
  vid : V → K
  labeled : Bool
  computeDepth : Bool
  skip : Nat → Bool

/-- The options as used by `_traverse_without_trace` (lines 1004-1043). -/
def DfsGraph.plain (f : DfsGraph V K L) (o : DfsOptions) : DfsCfg V K L where
  next := f.next
  vid := f.vid
  isTree := o.isTree
  buildPaths := o.buildPaths
  computeDepth := f.computeDepth
  reportStart := o.report .enteringStart
  reportSucc := o.report .enteringSuccessor
  skip := f.skip

/-- The options as used by `_traverse_with_trace` (lines 470-560). -/
def DfsGraph.traced (f : DfsGraph V K L) (o : DfsOptions) : TraceCfg V K L where
  next := f.next
  vid := f.vid
  isTree := o.isTree
  buildPaths := o.buildPaths
  computeDepth := f.computeDepth
  mode := o.mode
  report := o.report
  computeOnTrace := o.computeOnTrace
  computeIndex := o.computeIndex
  labeled := f.labeled
  skip := f.skip

/-- A report, as seen by a consumer: attributes that exist independently of the variant. `visited` and the paths are left
out. -/
structure DfsView (V K S : Type) where
  vertex : V
  event : DfsEvent
  depth : Int
  trace : List V
  onTrace : S
  index : K → Nat

/-- The reports, and how the run has ended. -/
structure DfsSeenRun (V K S : Type) where
  reports : List (DfsView V K S)
  ending : Ending

/-- A depth-first traversal, started from `starts` with the given options and iterated (at most `fuel` steps). `none`:
`start_from` raises `RuntimeError`. The variant without trace leaves the attributes `trace`, `on_trace` and `index` as
initialized in lines 382-386. -/
def depthFirstRun [DecidableEq V] [DecidableEq K] (g : TravGear V K L S M ML) (f : DfsGraph V K L) (o : DfsOptions)
    (already : S) (starts : List V) (limit : Option Int) (fuel : Nat) : Option (DfsSeenRun V K S) :=
  match dfsOptions o with
  | none => none                                                                    -- lines 292-374
  | some o =>
    if o.withTrace then                                                             -- lines 391-398
      let run := trRun g (f.traced o) already starts limit fuel
      some ⟨run.reports.map (fun r => ⟨r.vertex, r.event, r.depth, r.trace, r.onTrace, r.index⟩), run.ending⟩
    else
      let run := dfsRun g (f.plain o) already starts limit fuel
      some ⟨run.reports.map (fun r => ⟨r.vertex, r.event, r.depth, [], g.so.empty, fun _ => 0⟩), run.ending⟩

end NoGraphs
