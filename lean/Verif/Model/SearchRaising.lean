import Verif.Model.Raising
import Verif.Model.SearchReads

/-!
# Bidirectional searches in graphs whose edges functions raise exceptions

Compare `Verif/Model/Raising.lean`. In `bidirectional_search/shortest_path.py`, the edges functions are called, and the
returned iterables are iterated, in the head of the loop of line 445. The bidirectional breadth-first search iterates the
generators of two traversals in a `for` loop (`bidirectional_search/breadth_first.py` 287-338), thus an exception of a generator
leaves the search. (If the application raises `StopIteration` there, this does not end the `for` loop as if there were no more
vertices: Python replaces it by a `RuntimeError` when it leaves the generator, see PEP 479.) The `try` statements of both searches
surround accesses to the collections only.
-/

namespace NoGraphs

open Spec

/-- The result of a run of a search. -/
structure SearchRun (σ P : Type) where
  reads : List P
  ending : UserEnding P
  final : σ

/-- Run a search (compare `runRaising`). `P` are pairs of direction and vertex. -/
def runSearchRaising {σ P E : Type} (m : σ → Step σ Unit) (who : σ → Option P) (opened : σ → Option (P × List E))
    (raises : P → Bool) : Nat → σ → SearchRun σ P
  | 0, s => ⟨[], .usual .outOfFuel, s⟩
  | fuel + 1, s =>
    match raisedNow raises (opened s) with
    | some p => ⟨[], .exception p, s⟩
    | none =>
      match m s with
      | .stop t => ⟨[], .usual .done, t⟩
      | .fail e => ⟨[], .usual (.raised e), s⟩
      | .tau t => runSearchRaising m who opened raises fuel t
      | .emit _ t => runSearchRaising m who opened raises fuel t
      | .expand t =>
        let r := runSearchRaising m who opened raises fuel t
        ⟨(who s).toList ++ r.reads, r.ending, r.final⟩

/-- What the caller of a search gets: the exception of the edges function of a direction (`true`: incoming edges) for a
vertex, or a result. The first component lists the calls of edges functions. -/
abbrev RaisingAnswer (W V L : Type) := List (Bool × V) × Except (Bool × V) (SearchResult W V L)

/-- The exception. -/
def RaisingAnswer.exception? {W V L : Type} (r : RaisingAnswer W V L) : Option (Bool × V) :=
  match r.2 with
  | .error p => some p
  | .ok _ => none

section
variable {V K L S M ML : Type} [DecidableEq V] [DecidableEq K]

/-- The loop over the edges (`traversals/without_weights/breadth_first.py` 307) of the iterated traversal. -/
def biOpen (s : BiState V L S M ML) : Option ((Bool × V) × List (V × L)) :=
  (bfsOpen s.cur.st).map (fun ve => ((s.back, ve.1), ve.2))

/-- A bidirectional breadth-first search (compare `biSearch`) from start and goal vertices that can be iterated again. -/
def biRaisingSearch (g : TravGear V K L S M ML) (c : BiCfg V K L) (raises : Bool × V → Bool) (starts goals : List V)
    (limit : Option Int) (fuel : Nat) : RaisingAnswer Int V L :=
  match biCommon c.vid starts goals true true with
  | some v => ([], .ok (.found 0 (.fromVertex v)))
  | none =>
    let r := runSearchRaising (biStep g c) biWho biOpen raises fuel (biInit g c starts goals limit)
    (r.reads,
      match r.ending with
      | .exception p => .error p
      | .usual .done =>
        match r.final.result with
        | some (n, p) => .ok (.found n p)
        | none => .ok .notFound
      | .usual (.raised e) => .ok (.raised e)
      | .usual .outOfFuel => .ok .outOfFuel)

variable {W D : Type} [AddCommMonoid W] [LinearOrder W]

/-- The loop over the edges (`shortest_path.py` 445). -/
def bdOpen (s : BdState V L W M ML D) : Option ((Bool × V) × List (V × W × L)) :=
  match s.pc with
  | .edges v _ es => some ((s.back, v), es)
  | _ => none

/-- A bidirectional shortest paths search (compare `bdSearch`). -/
def bdRaisingSearch (g : WGear V K L W M ML D) (c : BdCfg V K L W) (raises : Bool × V → Bool) (starts goals : List V)
    (limit : Option Int) (fuel pathFuel : Nat) : RaisingAnswer W V L :=
  match starts, goals with
  | [], _ => ([], .ok .notFound)
  | _, [] => ([], .ok .notFound)
  | start :: _, _ :: _ =>
    match biCommon c.vid starts goals true true with
    | some v => ([], .ok (.found 0 (.fromVertex v)))
    | none =>
      let r := runSearchRaising (bdStep g c) bdWho bdOpen raises fuel (bdInit g c start starts goals limit)
      (r.reads,
        match r.ending with
        | .exception p => .error p
        | .usual .done => .ok (if r.final.found then .found r.final.best (bdPath g c r.final pathFuel) else .notFound)
        | .usual (.raised e) => .ok (.raised e)
        | .usual .outOfFuel => .ok .outOfFuel)

end

end NoGraphs
