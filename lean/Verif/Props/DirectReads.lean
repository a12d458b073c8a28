import Verif.Proofs.DirectReads
import Verif.Props.AStar
import Verif.Props.BiDijkstra
import Verif.Props.ShortestPaths

/-!
# C103: containers for distances are never too short

For sequence-based containers, distances are read directly from the sequence, and such a read raises an `IndexError` if the
sequence is too short. `rd` is this read: `dictRead inf` for hash-based containers (`dictDist inf`), and `seqRead` for
sequence-based ones (`seqDist p pre`). `DistOps.ReadLaw` says what is needed of it, and `C103_hash` and `C103_seq` say that
the containers of the gears have it.
-/

set_option linter.unusedSectionVars false

namespace NoGraphs

open Spec

variable {V K L W M ML D : Type} [DecidableEq V] [DecidableEq K]
variable [AddCommMonoid W] [LinearOrder W] {rd : D → K → Option W} {g : WGear V K L W M ML D}

/-- Hash-based containers: a missing key is read as infinity. -/
theorem C103_hash {K : Type} [DecidableEq K] (inf : W) : (dictDist (K := K) inf).ReadLaw inf (dictRead inf) :=
  dictDist_readLaw inf

/-- Sequence-based containers, whatever default value, way of extension and pre-allocated size. -/
theorem C103_seq (p : SeqParams W) (hp : p.Ok) (pre : Nat) : (seqDist p pre).ReadLaw p.default seqRead :=
  seqDist_readLaw p hp pre

/-- `TraversalShortestPaths`, with own containers for distances or without: no `IndexError`, and the run with direct reads
is the run in that missing entries are read as infinity. Missing: `is_tree` with own containers, see below. -/
theorem C103_sp_partial {c : WCfg V K L W} (h : g.dd.ReadLaw c.inf rd) (known : Option D) (starts : List V)
    (hk : c.isTree = false ∨ known = none) (limit : Option Int) (fuel : Nat) :
    spRunDirect rd g c known starts limit fuel = spRun g c known starts limit fuel ∧
    (spRunDirect rd g c known starts limit fuel).ending ≠ .raised .indexError := by
  have := spRunDirect_eq h known starts (spDistances_readable h known starts hk) limit fuel
  exact ⟨this, by rw [this]; exact run_no_index _ (spStep_no_index c) _ _ _⟩

/-- `TraversalAStar`, with own containers for distances and path length guesses, or without. Missing: `is_tree` with an own
container for guesses. -/
theorem C103_astar_partial {c : AStarCfg V K L W} (h : g.dd.ReadLaw c.inf rd) (known knownGuesses : Option D)
    (starts : List V) (hk : c.isTree = false ∨ knownGuesses = none) (limit : Option Int) (fuel : Nat) :
    aRunDirect rd g c known knownGuesses starts limit fuel = aRun g c known knownGuesses starts limit fuel ∧
    (aRunDirect rd g c known knownGuesses starts limit fuel).ending ≠ .raised .indexError := by
  have := aRunDirect_eq h known knownGuesses starts (aGuesses_readable h knownGuesses _ starts hk) limit fuel
  exact ⟨this, by rw [this]; exact run_no_index _ (aStep_no_index c) _ _ _⟩

/-- `BSearchShortestPath`: ids that the other direction has not seen (and that can be out of the range of its container)
make no difference to ids that have been read as infinity. -/
theorem C103_bd [IsOrderedAddMonoid W] {c : BdCfg V K L W} (hd : g.dd.Lawful c.inf) (h : g.dd.ReadLaw c.inf rd)
    (hn : ∀ b, NonNeg (c.next b)) (starts goals : List V) (limit : Option Int) (fuel pathFuel : Nat) :
    bdSearchDirect rd g c starts goals limit fuel pathFuel = bdSearch g c starts goals limit fuel pathFuel ∧
    bdSearchDirect rd g c starts goals limit fuel pathFuel ≠ .raised .indexError := by
  have := bdSearchDirect_eq hd h hn starts goals limit fuel pathFuel
  exact ⟨this, by rw [this]; exact bdSearch_no_index c _ _ _ _ _⟩

/-! ## `is_tree` with own containers for distances -/

/-- If the container says that all start vertices have distance zero, it makes no difference to the reported vertices,
distances, depths and paths, nor to the ending. -/
theorem C103_sp_tree_known_partial [IsOrderedAddMonoid W] {c : WCfg V K L W} (hd : g.dd.Lawful c.inf)
    (ht : c.isTree = true) (d : D) (starts : List V) (hs : ∀ v ∈ starts, rd d (c.vid v) = some 0) (limit : Option Int)
    (fuel : Nat) :
    (spRunDirect rd g c (some d) starts limit fuel).reports.map
        (fun r => (r.vertex, r.distance, r.depth, r.preds, r.labels)) =
      (spRun g c none starts limit fuel).reports.map (fun r => (r.vertex, r.distance, r.depth, r.preds, r.labels)) ∧
    (spRunDirect rd g c (some d) starts limit fuel).ending = (spRun g c none starts limit fuel).ending := by
  have h := spRunDirect_tree_known (rd := rd) hd ht d starts hs limit fuel
  refine ⟨forall₂_map_eq (repsOf_forall₂ h.1) ?_, h.2⟩
  rintro a b ⟨h1, h2, h3, h4, h5⟩
  rw [h1, h2, h3, h4, h5]

/-- If it has no entry for any of the start vertices, **no vertex is reported** (whatever the graph is). -/
theorem C103_sp_tree_missing [IsOrderedAddMonoid W] {c : WCfg V K L W} (ht : c.isTree = true) (hn : NonNeg c.next)
    (d : D) (starts : List V) (hs : ∀ v ∈ starts, ∀ w, rd d (c.vid v) = some w → c.inf ≤ w) (limit : Option Int)
    (fuel : Nat) : (spRunDirect rd g c (some d) starts limit fuel).reports = [] :=
  spRunDirect_tree_missing ht hn d starts hs limit fuel

/-- If it is too short for some start vertex, the first `next` raises an `IndexError`. -/
theorem C103_sp_tree_index {c : WCfg V K L W} (ht : c.isTree = true) (d : D) (starts : List V)
    (hs : ∃ v ∈ starts, rd d (c.vid v) = none) (limit : Option Int) (fuel : Nat) :
    (spRunDirect rd g c (some d) starts limit fuel).events = [] ∧
    (spRunDirect rd g c (some d) starts limit fuel).ending = .raised .indexError := by
  have hd' : spDistances g c (some d) starts = d := by simp [spDistances, ht]
  simp only [spRunDirect, hd', directEntries_none c.vid d starts 256 hs]
  exact ⟨trivial, trivial⟩

/-! ## Examples -/

/-- A tree with weights. -/
def exTreeW : Nat → List (Nat × Nat × Char)
  | 0 => [(1, 5, 'a'), (2, 1, 'b')]
  | 2 => [(3, 2, 'c'), (7, 4, 'd')]
  | _ => []

/-- The tree, searched with option `is_tree`. -/
def exTreeCfg : WCfg Nat Nat Char Nat := ⟨exTreeW, id, true, true, true, 1000⟩

/-- **A new, empty container as `known_distances` makes a search of a tree fail**: with hash-based containers, the search
ends with an `OverflowError`, with sequence-based ones with an `IndexError`, in both cases without any report. Without
`known_distances`, four vertices are reported. -/
theorem C103_not_tree_known :
    ((spRunDirect (dictRead 1000) exWHash exTreeCfg (some exWHash.dd.empty) [0] none 100).reports.map (·.vertex),
      (spRunDirect (dictRead 1000) exWHash exTreeCfg (some exWHash.dd.empty) [0] none 100).ending) =
        ([], .raised .overflowError) ∧
    ((spRunDirect seqRead exWArr exTreeCfg (some exWArr.dd.empty) [0] none 100).reports.map (·.vertex),
      (spRunDirect seqRead exWArr exTreeCfg (some exWArr.dd.empty) [0] none 100).ending) =
        ([], .raised .indexError) ∧
    ((spRunDirect seqRead exWArr exTreeCfg none [0] none 100).reports.map (·.vertex),
      (spRunDirect seqRead exWArr exTreeCfg none [0] none 100).ending) = ([2, 3, 7, 1], .done) := by
  decide +kernel

/-- The same for `TraversalAStar` with an empty container as `known_path_length_guesses`. -/
theorem C103_not_tree_guesses :
    ((aRunDirect seqRead exWArr ⟨exTreeW, id, true, true, 1000, fun _ => 0⟩ none (some exWArr.dd.empty) [0] none
      100).reports.map (·.vertex),
      (aRunDirect seqRead exWArr ⟨exTreeW, id, true, true, 1000, fun _ => 0⟩ none (some exWArr.dd.empty) [0] none
      100).ending) = ([], .raised .indexError) ∧
    ((aRunDirect seqRead exWArr ⟨exTreeW, id, true, true, 1000, fun _ => 0⟩ none none [0] none 100).reports.map (·.vertex),
      (aRunDirect seqRead exWArr ⟨exTreeW, id, true, true, 1000, fun _ => 0⟩ none none [0] none 100).ending) =
      ([2, 3, 7, 1], .done) := by
  decide +kernel

example (known : Option (List Nat)) : spRunDirect seqRead exWArr (exWCfg false) known [0, 4] none 100 =
    spRun exWArr (exWCfg false) known [0, 4] none 100 :=
  (C103_sp_partial (C103_seq _ (fun _ => by decide) _) known [0, 4] (.inl rfl) none 100).1

example : (aRunDirect seqRead exWArr exACfg (some [7, 7]) (some []) [0] none 200).ending ≠ .raised .indexError :=
  (C103_astar_partial (C103_seq _ (fun _ => by decide) _) _ _ [0] (.inl rfl) none 200).2

/-- Sequence-based containers for the search. -/
def exBdShort : WGear Nat Nat Unit Nat (List Nat) (List (Option Unit)) (List Nat) :=
  ⟨arrayMap ⟨255, 2, true⟩ 0, listMap ⟨none, 2, true⟩ 0, seqDist ⟨1000, 1, true⟩ 0⟩

example : bdSearchDirect seqRead exBdShort exBd [0] [4] none 100 20 = bdSearch exBdShort exBd [0] [4] none 100 20 :=
  (C103_bd (seqDist_lawful _ (fun _ => by decide) _) (C103_seq _ (fun _ => by decide) _)
    (fun _ _ _ _ _ => Nat.zero_le _) [0] [4] none 100 20).1

example := C103_bd (rd := dictRead 1000) (g := exBdHash) (c := exBd) (dictDist_lawful 1000) (C103_hash 1000)
  (fun _ _ _ _ _ => Nat.zero_le _) [0] [4] none 100 20

/-- The read of the distance in the other direction is out of range: vertex 4 forwards, and no entry for it backwards. -/
example : (bdStepDirect seqRead exBdShort exBd
    { pc := .edges 0 0 [(4, 3, ())], fw := ⟨[], 0, [0], [], [], none⟩, bw := ⟨[], 0, [1000, 0], [], [], none⟩, back := false,
      best := 1000, node := 0, others := 0, found := false }).next?.map (fun s => (s.best, s.fw.dist[4]?)) =
    some (1000, some 3) := by decide +kernel

example : (spRunDirect seqRead exWArr exTreeCfg (some [0]) [0] none 100).reports.map (fun r => (r.vertex, r.distance)) =
    [(2, 1), (3, 3), (7, 5), (1, 5)] := by decide +kernel

example := C103_sp_tree_known_partial (rd := seqRead) (g := exWArr) (c := exTreeCfg)
  (seqDist_lawful _ (fun _ => by decide) _) rfl [0] [0] (by decide) none 100

example := C103_sp_tree_missing (rd := dictRead 1000) (g := exWHash) (c := exTreeCfg) rfl (fun _ _ _ _ => Nat.zero_le _)
  exWHash.dd.empty [0, 2] (by intro v _ w h; cases h; exact le_refl _) none 100

example := C103_sp_tree_index (rd := seqRead) (g := exWArr) (c := exTreeCfg) rfl [0] [0, 2] ⟨2, by decide, rfl⟩ none 100

end NoGraphs
