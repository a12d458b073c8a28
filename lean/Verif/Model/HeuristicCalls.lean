import Verif.Model.AStar
import Verif.Model.Raising

/-!
# Calls of the heuristic function by A*

The heuristic function of the application is called for start vertices (`a_star.py` 299-310), and for a neighbor whenever its
distance has been improved (`a_star.py` 416). There is no `try` statement around these calls. Thus, an exception of the
function leaves the generator, and the call of the consumer that has demanded a report raises it.

Here, the calls are observed, and they may raise exceptions. Where `fails v` is true, the value `heur v` of the model has no
meaning (`C105_unused`).

Not modelled: the attributes of the traversal, and the content of provided containers, after the exception.
-/

namespace NoGraphs

variable {V K L W M ML D ρ σ : Type}

/-- What can be seen from outside: a report, or a call of the heuristic function for a vertex, for which distance `w` is
stored at this moment. -/
inductive HeurSeen (V W ρ : Type) where
  | report (r : ρ)
  | asked (v : V) (w : W)

/-- The result of a (possibly unfinished) run. -/
structure HeurResult (V W ρ : Type) where
  seen : List (HeurSeen V W ρ)
  ending : UserEnding V

/-- What happens before the rest of a run. -/
def HeurResult.after (x : HeurSeen V W ρ) (r : HeurResult V W ρ) : HeurResult V W ρ := ⟨x :: r.seen, r.ending⟩

/-- The reports of the run. -/
def HeurResult.reports (r : HeurResult V W ρ) : List ρ :=
  r.seen.filterMap (fun x => match x with | .report r => some r | .asked _ _ => none)

/-- The calls of the heuristic function, with the distance stored at this moment. -/
def HeurResult.calls (r : HeurResult V W ρ) : List (V × W) :=
  r.seen.filterMap (fun x => match x with | .report _ => none | .asked v w => some (v, w))

/-- The vertex whose exception has ended the run. -/
def HeurResult.exception? (r : HeurResult V W ρ) : Option V :=
  match r.ending with
  | .usual _ => none
  | .exception v => some v

/-- Run a generator (compare `runMachine`). `asks s`: the next step calls the function of the application. -/
def runAsking (m : σ → Step σ ρ) (asks : σ → Option (V × W)) (fails : V → Bool) :
    Nat → Option Int → σ → HeurResult V W ρ
  | 0, _, _ => ⟨[], .usual .outOfFuel⟩
  | fuel + 1, lim, s =>
    let go : HeurResult V W ρ :=
      match m s with
      | .stop _ => ⟨[], .usual .done⟩
      | .fail e => ⟨[], .usual (.raised e)⟩
      | .tau s' => runAsking m asks fails fuel lim s'
      | .emit r s' => (runAsking m asks fails fuel lim s').after (.report r)
      | .expand s' =>
        match checkLimit lim with
        | none => ⟨[], .usual (.raised .runtimeError)⟩
        | some lim' => runAsking m asks fails fuel lim' s'
    match asks s with
    | none => go
    | some (v, w) => if fails v then ⟨[.asked v w], .exception v⟩ else go.after (.asked v w)

section
variable [AddCommMonoid W] [LinearOrder W] (g : WGear V K L W M ML D) (c : AStarCfg V K L W)

/-- The call of the heuristic function in the loop over the edges (`a_star.py` 370-416): after the checks in lines 376-377 and
390-391. -/
def aAsks (s : AStarState V L W M ML D) : Option (V × W) :=
  match s.pc with
  | .edges _ w _ ((n, x, _) :: _) =>
    if c.inf ≤ x + w then none
    else
      match aImprove g c s.dist (c.vid n) (x + w) with
      | none => none
      | some _ => some (n, x + w)
  | _ => none

/-- The calls for start vertices (`a_star.py` 299-310), before the rest of the run. -/
def askStarts (fails : V → Bool) (dist : V → W) (rest : HeurResult V W ρ) : List V → HeurResult V W ρ
  | [] => rest
  | v :: vs => if fails v then ⟨[.asked v (dist v)], .exception v⟩
    else (askStarts fails dist rest vs).after (.asked v (dist v))

/-- The start vertices for which the function is called: none if path length guesses are provided together with option
`is_tree` (`define_distances` in `_strategies/utils.py` 132-152 does not iterate the pairs then). -/
def aAskedStarts (knownGuesses : Option D) (starts : List V) : List V :=
  if knownGuesses.isSome && c.isTree then [] else starts

/-- A traversal, started from `starts` and iterated (compare `aRun`). -/
def aHeurRun (fails : V → Bool) (known knownGuesses : Option D) (starts : List V) (limit : Option Int) (fuel : Nat) :
    HeurResult V W (AStarReport V W M ML D) :=
  askStarts fails (fun v => g.dd.get (aDistances g c known starts) (c.vid v))
    (runAsking (aStep g c) (aAsks g c) fails fuel (prepareLimit limit) (aInit g c known knownGuesses starts))
    (aAskedStarts c knownGuesses starts)

end

end NoGraphs
