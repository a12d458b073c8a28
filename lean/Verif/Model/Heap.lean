import Mathlib.Order.Defs.LinearOrder

/-!
# Heaps

The weighted strategies use Python's `heapq` on lists of tuples whose first component is a weight and
whose second component is a unique number, so that ties of weights are decided by this number and
further components are never compared.  The heap is modelled by the list of its elements in ascending
order: `heappop` removes the smallest element, `heappush` adds one, `heapify` takes a list of elements.
(The layout of the binary heap is not modelled: contract of `heapq`.)
-/

namespace NoGraphs

/-- An element of a heap: `(key, no, *item)`. -/
structure HEntry (W X : Type) where
  key : W
  no : Int
  item : X
  deriving DecidableEq

variable {W X : Type} [LinearOrder W]

/-- Comparison of tuples with pairwise different second components. -/
def HEntry.le (a b : HEntry W X) : Prop := a.key < b.key ∨ (a.key = b.key ∧ a.no ≤ b.no)

instance (a b : HEntry W X) : Decidable (HEntry.le a b) := by unfold HEntry.le; infer_instance

/-- `heappush`. -/
def heapPush : List (HEntry W X) → HEntry W X → List (HEntry W X)
  | [], e => [e]
  | a :: r, e => if e.le a then e :: a :: r else a :: heapPush r e

/-- `heapify`. -/
def heapify (l : List (HEntry W X)) : List (HEntry W X) := l.foldl heapPush []

end NoGraphs
