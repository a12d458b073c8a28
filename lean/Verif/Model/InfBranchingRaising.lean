import Verif.Model.InfBranchingReads

/-!
# Infinite branching, with exceptions of the application

The edges function of the application raises an exception when it is called, or when the iterator that it has returned is
asked for an item. The call (`extra_infinite_branching.py` 205) is not in a `try` statement. The demand to the iterator (line
212) is in a `try` statement that only catches `StopIteration`, which means the end of the edges. Thus, other exceptions leave
the generator `next_state_edges`, then the generator of the inner traversal, and then the generator `_traverse`, and the call
of the consumer that has demanded a report raises the exception. (If the edges function raises `StopIteration` when it is
called, Python changes this to `RuntimeError`.)

Not modelled: the attributes of the traversal after the exception.
-/

namespace NoGraphs

open Spec

variable {V W M ML D Mo Do : Type} [DecidableEq V] [AddCommMonoid W] [LinearOrder W]

/-- What the application function does: it raises when it is called for the vertex, or its iterator raises when it is asked
for the item. Reports do not fail. -/
def askFails (callFails : V → Bool) (itemFails : V → Nat → Bool) : SeqAct V W → Bool
  | .reported _ _ => false
  | .called v => callFails v
  | .asked v k => itemFails v k

/-- The result of a (possibly unfinished) run: the actions (the last one may be the one that has raised an exception), the
reports, the action that has raised an exception, and how the run has ended if there is none. -/
structure IbRaising (V W Mo Do : Type) where
  seen : List (SeqAct V W)
  reports : List (IbReport V W Mo Do)
  exception? : Option (SeqAct V W)
  ending? : Option Ending

/-- Run the generator (compare `runMachine`, and `extra_infinite_branching.py` 202-225). -/
def ibRaisingFrom (g : WGear (V × Nat) (V × Nat) Unit W M ML D) (o : IbGear V W Mo Do) (c : IbCfg V W)
    (callFails : V → Bool) (itemFails : V → Nat → Bool) :
    Nat → Option Int → IbState V W M ML D Mo Do → IbRaising V W Mo Do
  | 0, _, _ => ⟨[], [], none, some .outOfFuel⟩
  | fuel + 1, lim, s =>
    match ibStep g o c s with
    | .stop _ => ⟨[], [], none, some .done⟩
    | .fail e => ⟨[], [], none, some (.raised e)⟩
    | .tau s' => ibRaisingFrom g o c callFails itemFails fuel lim s'
    | .emit r s' =>
      let rest := ibRaisingFrom g o c callFails itemFails fuel lim s'
      { rest with seen := .reported r.vertex r.distance :: rest.seen, reports := r :: rest.reports }
    | .expand s' =>
      match checkLimit lim with
      | none => ⟨[], [], none, some (.raised .runtimeError)⟩
      | some lim' =>
        match ibAsks s with
        | [.called v, .asked u k] =>
          if callFails v then ⟨[.called v], [], some (.called v), none⟩                                   -- line 205
          else if itemFails u k then ⟨[.called v, .asked u k], [], some (.asked u k), none⟩               -- line 212
          else
            let rest := ibRaisingFrom g o c callFails itemFails fuel lim' s'
            { rest with seen := .called v :: .asked u k :: rest.seen }
        | [.asked u k] =>
          if itemFails u k then ⟨[.asked u k], [], some (.asked u k), none⟩                               -- line 212
          else
            let rest := ibRaisingFrom g o c callFails itemFails fuel lim' s'
            { rest with seen := .asked u k :: rest.seen }
        | _ => ibRaisingFrom g o c callFails itemFails fuel lim' s'

/-- A traversal with exceptions of the application (compare `ibRun`). -/
def ibRaisingRun (g : WGear (V × Nat) (V × Nat) Unit W M ML D) (o : IbGear V W Mo Do) (c : IbCfg V W)
    (callFails : V → Bool) (itemFails : V → Nat → Bool) (isCollection : Bool) (starts : List V) (limit : Option Int)
    (fuel : Nat) : IbRaising V W Mo Do :=
  ibRaisingFrom g o c callFails itemFails fuel (prepareLimit limit) (ibInit g o c isCollection starts)

end NoGraphs
