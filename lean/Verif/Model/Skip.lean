import Verif.Model.Reads

/-!
# The conversation between a program and the generator of a depth-first traversal

Model of `skip_expanding_entered_vertex` (`depth_first.py` 1326-1342), i.e., of throwing `StopIteration` into the generator,
and of the places of the generators that catch it (lines 909-915, 1143-1163).

Python: an exception that is thrown into a suspended generator is raised at the `yield` where the generator is suspended. If
the generator does not catch a `StopIteration`, the call raises a `RuntimeError` instead of it (PEP 479), and the generator is
finished. A finished generator raises the exception that is thrown at it, and gives `StopIteration` for `next`.

Not modelled: throwing into a generator that has not been asked for a first report so far. Simplification: in the variant
without trace, the attribute `event` is updated when the program asks for the next report after the confirmation
(lines 1150-1151), here already with the confirmation.
-/

namespace NoGraphs

open Spec

/-- What a program can do at a report. -/
inductive Ask where
  /-- `next(iterator)`, or the next iteration of a `for` loop -/
  | next
  /-- `traversal.skip_expanding_entered_vertex()`, or `iterator.throw(StopIteration())` -/
  | skip
  deriving DecidableEq

/-- What happens then. -/
inductive Answer (V ρ : Type) where
  /-- the traversal reports a vertex -/
  | report (r : ρ)
  /-- `throw` returns this vertex -/
  | confirmed (v : V)
  /-- the call raises `StopIteration` -/
  | stopIteration
  /-- the call raises another exception -/
  | raised (e : PyErr)
  /-- the call has not returned within the given number of steps -/
  | hangs
  deriving DecidableEq

/-- The state of the generator between two calls. -/
inductive Resting (σ : Type) where
  /-- suspended at the `yield` of a report -/
  | reported (lim : Option Int) (s : σ)
  /-- suspended at the `yield` of a confirmation (lines 914, 1150, 1162), which no `try` surrounds; also used for the begin -/
  | unguarded (lim : Option Int) (s : σ)
  /-- it has returned, or raised an exception -/
  | finished
  /-- a call has not returned -/
  | hanging

section
variable {σ ρ V : Type}

/-- Let the generator run until it reports something, returns or raises an exception. The first component of the result is
the list of the vertices whose edges have been read. -/
def resume (m : σ → Step σ ρ) (who : σ → Option V) : Nat → Option Int → σ → List V × Answer V ρ × Resting σ
  | 0, _, _ => ([], .hangs, .hanging)
  | fuel + 1, lim, s =>
    match m s with
    | .stop _ => ([], .stopIteration, .finished)
    | .fail e => ([], .raised e, .finished)
    | .tau s' => resume m who fuel lim s'
    | .emit r s' => ([], .report r, .reported lim s')
    | .expand s' =>
      match checkLimit lim with
      | none => ([], .raised .runtimeError, .finished)
      | some lim' => ((who s).toList ++ (resume m who fuel lim' s').1, (resume m who fuel lim' s').2)

variable (m : σ → Step σ ρ) (who : σ → Option V) (catches : σ → Option (V × σ)) (fuel : Nat)

/-- One call. `catches s`: if the generator catches `StopIteration` at the `yield` after which its state is `s`, the vertex
that it yields as confirmation, and the state afterwards. -/
def ask : Ask → Resting σ → List V × Answer V ρ × Resting σ
  | .next, .reported lim s => resume m who fuel lim s
  | .next, .unguarded lim s => resume m who fuel lim s
  | .next, .finished => ([], .stopIteration, .finished)
  | .skip, .reported lim s =>
    match catches s with
    | some (v, s') => ([], .confirmed v, .unguarded lim s')
    | none => ([], .raised .runtimeError, .finished)
  | .skip, .unguarded _ _ => ([], .raised .runtimeError, .finished)
  | .skip, .finished => ([], .stopIteration, .finished)
  | _, .hanging => ([], .hangs, .hanging)

/-- The answers to a series of calls, each with the vertices whose edges have been read during the call. -/
def converse : List Ask → Resting σ → List (Ask × List V × Answer V ρ)
  | [], _ => []
  | a :: as, s => (a, (ask m who catches fuel a s).1, (ask m who catches fuel a s).2.1) ::
      converse as (ask m who catches fuel a s).2.2

end

section
variable {V K L S M ML : Type}

/-- Lines 1143-1163 (without trace). -/
def dfsCatches [DecidableEq V] (s : DfsState V L S M ML) : Option (V × DfsState V L S M ML) :=
  match s.pc with
  | .entered v true => some (v, { s with
      pc := .loop, n := s.n + 1, event := if some v = s.cur then .enteringSuccessor else s.event })
  | _ => none

/-- Lines 909-915 (with trace). All other `yield`s (lines 596, 603, 704, 816) are not surrounded by a `try`. -/
def trCatches (s : TraceState V K L S M ML) : Option (V × TraceState V K L S M ML) :=
  match s.pc with
  | .entered v true => some (v, { s with pc := .loop true, n := s.n + 1 })
  | _ => none

/-- A program that starts a depth-first traversal without trace, fetches the first report, and goes on with the given
calls. -/
def dfsConverse [DecidableEq V] (g : TravGear V K L S M ML) (c : DfsCfg V K L) (already : S) (starts : List V)
    (limit : Option Int) (fuel : Nat) (asks : List Ask) : List (Ask × List V × Answer V (DfsReport V S M ML)) :=
  converse (dfsStep g { c with skip := fun _ => false }) (dfsWho { c with skip := fun _ => false }) dfsCatches fuel
    (.next :: asks) (.unguarded (prepareLimit limit) (dfsInit g c already starts))

/-- The same for a traversal with trace. -/
def trConverse [DecidableEq V] [DecidableEq K] (g : TravGear V K L S M ML) (c : TraceCfg V K L) (already : S)
    (starts : List V) (limit : Option Int) (fuel : Nat) (asks : List Ask) :
    List (Ask × List V × Answer V (TraceReport V K L S M ML)) :=
  converse (trStep g { c with skip := fun _ => false }) (trWho { c with skip := fun _ => false }) trCatches fuel
    (.next :: asks) (.unguarded (prepareLimit limit) (trInit g already starts))

end

end NoGraphs
