import Mathlib.Order.Defs.LinearOrder

/-!
# Priority queues

What a user of `heapq` expects: a bag of pairs (priority, payload). Taking from it gives an element of smallest
priority.
-/

namespace NoGraphs.Spec

variable {P X : Type} [LinearOrder P]

/-- What is done with a priority queue: put an element in, or take one out. -/
inductive PqOp (P X : Type) where
  | put (p : P) (x : X)
  | take

/-- `Serves bag ops out`: if the operations `ops` are done on a queue that holds `bag` (order irrelevant), the taken
elements are `out`: each time an element is removed whose priority is strictly smaller than all the others.
(Only for histories that never take from an empty queue.) -/
inductive Serves : List (P × X) → List (PqOp P X) → List (P × X) → Prop where
  | done {bag} : Serves bag [] []
  | put {bag p x ops out} : Serves ((p, x) :: bag) ops out → Serves bag (.put p x :: ops) out
  | take {bag rest p x ops out} : bag.Perm ((p, x) :: rest) → (∀ q ∈ rest, p < q.1) → Serves rest ops out →
      Serves bag (.take :: ops) ((p, x) :: out)

/-- No history of `ops` on a queue with `n` elements takes from an empty queue. -/
def NeverEmpty : Nat → List (PqOp P X) → Prop
  | _, [] => True
  | n, .put _ _ :: ops => NeverEmpty (n + 1) ops
  | 0, .take :: _ => False
  | n + 1, .take :: ops => NeverEmpty n ops

/-- The priorities that are put in. -/
def prioritiesPut : List (PqOp P X) → List P
  | [] => []
  | .put p _ :: ops => p :: prioritiesPut ops
  | .take :: ops => prioritiesPut ops

end NoGraphs.Spec
