import Verif.Model.InfBranching
import Verif.Spec.InfBranchingReads

/-!
# How `TraversalShortestPathsInfBranchingSortedFlex` asks for edges

`next_state_edges` (`extra_infinite_branching.py` 193-225) calls the edges function if a vertex is entered, and then it asks
the iterator for one item whenever it is called.
-/

namespace NoGraphs

open Spec

variable {V W M ML D Mo Do : Type} [DecidableEq V] [AddCommMonoid W] [LinearOrder W]

/-- What the expansion in state `s` asks the program for (`extra_infinite_branching.py` 202-212). -/
def ibAsks (s : IbState V W M ML D Mo Do) : List (SeqAct V W) :=
  match s.sp.pc with
  | .expand st _ _ =>
    if st.2 = 0 then [.called st.1, .asked st.1 0]                          -- lines 202-206, 212
    else match s.iters st.1 with                                            -- lines 207-209, 212
      | some pos => [.asked st.1 pos]
      | none => []
  | _ => []

/-- The actions of a run (compare `runMachine`), in their order. -/
def ibActsFrom (g : WGear (V × Nat) (V × Nat) Unit W M ML D) (o : IbGear V W Mo Do) (c : IbCfg V W) :
    Nat → Option Int → IbState V W M ML D Mo Do → List (SeqAct V W)
  | 0, _, _ => []
  | fuel + 1, lim, s =>
    match ibStep g o c s with
    | .stop _ => []
    | .fail _ => []
    | .tau s' => ibActsFrom g o c fuel lim s'
    | .emit r s' => .reported r.vertex r.distance :: ibActsFrom g o c fuel lim s'
    | .expand s' =>
      match checkLimit lim with
      | none => []
      | some lim' => ibAsks s ++ ibActsFrom g o c fuel lim' s'

/-- The actions of a traversal (compare `ibRun`). -/
def ibActs (g : WGear (V × Nat) (V × Nat) Unit W M ML D) (o : IbGear V W Mo Do) (c : IbCfg V W) (isCollection : Bool)
    (starts : List V) (limit : Option Int) (fuel : Nat) : List (SeqAct V W) :=
  ibActsFrom g o c fuel (prepareLimit limit) (ibInit g o c isCollection starts)

end NoGraphs
