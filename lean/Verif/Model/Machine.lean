import Verif.Model.Gear

/-!
# Generators as step machines

The traversal strategies are Python generators: nested loops with `yield`, with the check of the
calculation limit, and with reads of the out-edges of vertices.  Each of them is modelled by a step
function on the local variables (plus a program counter that says which loop header or loop body
comes next).  A step either

* `stop`s the generator (with the final values of the variables),
* `fail`s with an exception,
* makes an internal step `tau`,
* `emit`s a report (`yield`; the report holds the vertex and the attributes the user can read), or
* `expand`s a vertex, i.e., passes the code

  `if calculation_limit and not (calculation_limit := calculation_limit - 1): raise RuntimeError`

  that precedes the call of the edges function in all strategies
  (for example `breadth_first.py` 302-305).
-/

namespace NoGraphs

/-- One step of a generator. -/
inductive Step (σ ρ : Type) where
  | stop (s : σ)
  | fail (e : PyErr)
  | tau (s : σ)
  | emit (r : ρ) (s : σ)
  | expand (s : σ)

/-- What happens during a run: reports and reads of the edges of a vertex. -/
inductive Ev (ρ : Type) where
  | rep (r : ρ)
  | exp
  deriving DecidableEq, Repr

/-- The variable `calculation_limit` after "Prepare limit check done by zero check"
(for example `breadth_first.py` 224-226). -/
def prepareLimit (limit : Option Int) : Option Int := limit.map (· + 1)

/-- The check `if calculation_limit and not (calculation_limit := calculation_limit - 1): raise ...`
(for example `breadth_first.py` 302-305): `none` if it raises, otherwise the new value of the variable. -/
def checkLimit : Option Int → Option (Option Int)
  | none => some none
  | some c => if c ≠ 0 then (if c - 1 = 0 then none else some (some (c - 1))) else some (some c)

/-- The result of a (possibly unfinished) run. -/
structure RunResult (σ ρ : Type) where
  events : List (Ev ρ)
  ending : Ending
  final : σ

/-- Run a generator for at most `fuel` steps, with the value `lim` of variable `calculation_limit`. -/
def runMachine {σ ρ : Type} (m : σ → Step σ ρ) : Nat → Option Int → σ → RunResult σ ρ
  | 0, _, s => ⟨[], .outOfFuel, s⟩
  | fuel + 1, lim, s =>
    match m s with
    | .stop s' => ⟨[], .done, s'⟩
    | .fail e => ⟨[], .raised e, s⟩
    | .tau s' => runMachine m fuel lim s'
    | .emit r s' =>
      let res := runMachine m fuel lim s'
      { res with events := .rep r :: res.events }
    | .expand s' =>
      match checkLimit lim with
      | none => ⟨[], .raised .runtimeError, s⟩
      | some lim' =>
        let res := runMachine m fuel lim' s'
        { res with events := .exp :: res.events }

/-- The reports of a list of events. -/
def repsOf {ρ : Type} (h : List (Ev ρ)) : List ρ :=
  h.filterMap (fun e => match e with | .rep r => some r | .exp => none)

/-- The number of reads of edges. -/
def expsOf {ρ : Type} (h : List (Ev ρ)) : Nat :=
  (h.filter (fun e => match e with | .rep _ => false | .exp => true)).length

/-- The reports of a run. -/
def RunResult.reports {σ ρ : Type} (r : RunResult σ ρ) : List ρ := repsOf r.events

end NoGraphs
