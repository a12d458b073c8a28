import Mathlib.Data.Finset.Card
import Mathlib.Data.Finset.Basic

/-! # Specification: finite sets and finite maps of natural number keys under operation histories -/

namespace NoGraphs.Spec

/-- What a user or a traversal does with a vertex set. -/
inductive SetOp where
  | add (k : Nat)
  | discard (k : Nat)
  | updateFromKeys (ks : List Nat)
  /-- "Is it contained? If not, add it." -/
  | checkAdd (k : Nat)

/-- Effect on a mathematical set, and the answer of the operation (if it has one). -/
def setStep (s : Finset Nat) : SetOp → Finset Nat × Option Bool
  | .add k => (insert k s, none)
  | .discard k => (s.erase k, none)
  | .updateFromKeys ks => (s ∪ ks.toFinset, none)
  | .checkAdd k => (insert k s, some (decide (k ∈ s)))

/-- What a user or a traversal does with a mapping. -/
inductive MapOp (α : Type) where
  | set (k : Nat) (v : α)
  | del (k : Nat)
  | updateFromKeysValues (kvs : List (Nat × α))
  /-- assign only to keys that have no value -/
  | updateDefault (kvs : List (Nat × α))

/-- Assign one value. -/
def assign {α : Type} (m : Nat → Option α) (k : Nat) (v : α) : Nat → Option α :=
  fun j => if j = k then some v else m j

/-- Effect on a mathematical partial map. -/
def mapStep {α : Type} (m : Nat → Option α) : MapOp α → (Nat → Option α)
  | .set k v => assign m k v
  | .del k => fun j => if j = k then none else m j
  | .updateFromKeysValues kvs => kvs.foldl (fun m kv => assign m kv.1 kv.2) m
  | .updateDefault kvs =>
    kvs.foldl (fun m kv => if (m kv.1).isNone then assign m kv.1 kv.2 else m) m

/-- The values an operation assigns. -/
def MapOp.values {α : Type} : MapOp α → List α
  | .set _ v => [v]
  | .del _ => []
  | .updateFromKeysValues kvs => kvs.map Prod.snd
  | .updateDefault kvs => kvs.map Prod.snd

end NoGraphs.Spec

namespace NoGraphs.Spec

/-- What is done with a distance mapping with keys of type `K`. -/
inductive DistOp (K W : Type) where
  | set (k : K) (w : W)
  | del (k : K)
  /-- assign only if the key has no value -/
  | setDefault (k : K) (w : W)

/-- Effect on a mathematical partial map. -/
def distStep {K W : Type} [DecidableEq K] (m : K → Option W) : DistOp K W → (K → Option W)
  | .set k w => fun j => if j = k then some w else m j
  | .del k => fun j => if j = k then none else m j
  | .setDefault k w => if (m k).isSome then m else fun j => if j = k then some w else m j

end NoGraphs.Spec
