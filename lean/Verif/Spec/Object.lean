import Verif.Model.Object

/-!
# Specification: a traversal as one sequence of reports with one position in it

Whatever calls a program makes, and in whatever order: there is one list of reports, determined at the start, and a position
in it that only moves forward.
-/

namespace NoGraphs

variable {ρ : Type}

/-- Fetch from a list of reports until one fulfils `p`. After the last report comes the ending: an exception comes once. -/
def listSeek (p : ρ → Bool) : List ρ → Ending → Found ρ × (List ρ × Ending)
  | [], .done => (.stopped, ([], .done))
  | [], .raised e => (.raised e, ([], .done))
  | [], .outOfFuel => (.hangs, ([], .outOfFuel))
  | r :: R, e => if p r then (.found r, (R, e)) else listSeek p R e

/-- A generator that is nothing but a list of the reports still to come, and an ending. -/
def listGen : GenOps (List ρ × Ending) ρ where
  seek p g := listSeek p g.1 g.2

/-- The reports a program gets by a sequence of calls. -/
def delivered (outs : List (Outcome ρ)) : List ρ :=
  outs.filterMap (fun o => match o with | .report r => some r | _ => none)

/-- What a program sees after the last report. -/
def endOutcomes : Ending → List (Outcome ρ)
  | .raised e => [.raised e]
  | _ => []

/-- What a program sees if it fetches `n` times: the reports, the exception, if any, and from then on `StopIteration`. -/
def fetchedAll (R : List ρ) (e : Ending) (n : Nat) : List (Outcome ρ) :=
  (R.map Outcome.report ++ endOutcomes e ++ List.replicate n Outcome.stopIteration).take n

end NoGraphs
