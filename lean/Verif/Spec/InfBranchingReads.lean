import Mathlib.Algebra.Notation.Defs
import Mathlib.Data.List.Basic

/-! # Specification: how a traversal with infinite branching asks for edges -/

namespace NoGraphs.Spec

/-- What can be observed from outside: vertex `v` is reported with distance `d`, the edges function of the program is called
for `v`, or the iterator that it has returned for `v` is asked for its item number `k` (the first item has number 0). -/
inductive SeqAct (V W : Type) where
  | reported (v : V) (d : W)
  | called (v : V)
  | asked (v : V) (k : Nat)
  deriving DecidableEq

/-- The edges function is called at most once for a vertex, and only for start vertices, and vertices that have been
reported before. -/
def CallsOnDemand {V W : Type} (starts : List V) (acts : List (SeqAct V W)) : Prop :=
  ∀ before v after, acts = before ++ SeqAct.called v :: after →
    (v ∈ starts ∨ ∃ d, SeqAct.reported v d ∈ before) ∧ SeqAct.called v ∉ before

/-- An iterator is asked for each item at most once, and in the order of the items without gaps, and not any more after it
has ended. -/
def AskedInOrder {V W : Type} (edges : V → Nat → Option (V × W)) (acts : List (SeqAct V W)) : Prop :=
  ∀ before v k after, acts = before ++ SeqAct.asked v k :: after →
    SeqAct.called v ∈ before ∧ SeqAct.asked v k ∉ before ∧
    ∀ j, j < k → SeqAct.asked v j ∈ before ∧ (edges v j).isSome

/-- The weight of the item before item `k`; zero for the first item. -/
def weightBefore {V W : Type} [Zero W] (edges : V → Nat → Option (V × W)) (v : V) : Nat → W
  | 0 => 0
  | k + 1 =>
    match edges v k with
    | some (_, w) => w
    | none => 0

/-- An iterator is asked just in time: for item `k` of vertex `v`, only when vertices up to the distance of the item before
it (for the first item: up to the distance of `v` itself) have been reported, and before vertices with a larger distance are
reported. (So, an iterator is not asked for items that lie behind the last reported distance, whatever they may cost.) -/
def AskedJustInTime {V W : Type} [Zero W] [Add W] [LE W] (edges : V → Nat → Option (V × W)) (dist : V → W → Prop)
    (acts : List (SeqAct V W)) : Prop :=
  ∀ before v k after, acts = before ++ SeqAct.asked v k :: after →
    ∃ a, dist v a ∧ (∀ u d, SeqAct.reported u d ∈ before → d ≤ a + weightBefore edges v k) ∧
      (∀ u d, SeqAct.reported u d ∈ after → a + weightBefore edges v k ≤ d)

/-- The reported vertices with their distances. -/
def seqReports {V W : Type} (acts : List (SeqAct V W)) : List (V × W) :=
  acts.filterMap (fun a => match a with | .reported v d => some (v, d) | _ => none)

/-- The actions until the first one that fails (this one included). -/
def untilFailure {A : Type} (fails : A → Bool) : List A → List A
  | [] => []
  | a :: rest => if fails a then [a] else a :: untilFailure fails rest

end NoGraphs.Spec
