import Verif.Model.ArrayStore

/-! # Specification: arrays over a store of sequence objects -/

namespace NoGraphs.Spec

variable {α : Type}

/-- The value is an array with these sizes per dimension. The sequences may be mutable or not, and the same sequence object
may occur several times. -/
def RectIn (H : Store α) : PyVal α → List Nat → Prop
  | _, [] => True
  | v, n :: dims => ∃ k o, v = .ref k ∧ H[k]? = some o ∧ o.items.length = n ∧ ∀ x ∈ o.items, RectIn H x dims

/-- The cell that a position means in an array with these sizes, by the rules of Python for indexes: negative coordinates
count from the end. -/
def cellOf : List Nat → List Int → Option (List Nat)
  | [], [] => some []
  | n :: dims, c :: cs =>
    if 0 ≤ c ∧ c < n then (cellOf dims cs).map (c.toNat :: ·)
    else if -n ≤ c ∧ c < 0 then (cellOf dims cs).map ((c + n).toNat :: ·)
    else none
  | _, _ => none

/-- The content of a cell after some actions: what has been written to it last (by assignments to the copy). -/
def lastWritten (dims : List Nat) (cell : List Nat) (acts : List (StoreAct α)) (before : PyVal α) : PyVal α :=
  acts.foldl (fun cur a =>
    match a with
    | .write p x => if cellOf dims p = some cell then x else cur
    | _ => cur) before

/-- The action is no assignment to the copy. -/
def isOutside : StoreAct α → Bool
  | .write _ _ => false
  | _ => true

end NoGraphs.Spec
