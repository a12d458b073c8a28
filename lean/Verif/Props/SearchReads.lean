import Verif.Proofs.SearchReads
import Verif.Props.BiBfs
import Verif.Props.BiDijkstra

/-!
# C93: How far the bidirectional searches read the graph

The reads of a search are listed by `biReads`, resp. `bdReads`, as pairs of direction (`true`: the function for
incoming edges has been called) and vertex. `IsDepth`, `Connects` (number of edges of a walk from a start to a goal vertex)
are defined in `Verif/Spec/Graph.lean`, `IsDist` and `WConnects` in `Verif/Spec/Weighted.lean`.
-/

set_option linter.unusedSectionVars false

namespace NoGraphs

open Spec

variable {V K L S M ML : Type} [DecidableEq V] [DecidableEq K]

section list

variable {σ : Type}

/-- The list of reads of a run is complete, if `who` gives a vertex for each expansion. -/
theorem readsOf_length {m : σ → Step σ Unit} {who : σ → Option (Bool × V)}
    (hwho : ∀ s t, m s = .expand t → (who s).isSome) (fuel : Nat) (s : σ) :
    (readsOf m who fuel s).length = expsOf (runMachine m fuel none s).events := by
  induction fuel generalizing s with
  | zero => rfl
  | succ fuel ih =>
    unfold readsOf runMachine
    cases hx : m s with
    | stop _ => rfl
    | fail _ => rfl
    | tau t => exact ih t
    | emit r t => exact ih t
    | expand t =>
      obtain ⟨a, ha⟩ := Option.isSome_iff_exists.1 (hwho s t hx)
      have := ih t
      simp only [checkLimit, ha, Option.toList_some, List.length_append, List.length_singleton, this]
      simp [expsOf, Nat.add_comm]

end list

section bfs

variable (g : TravGear V K L S M ML) (c : BiCfg V K L)

theorem biWho_isSome {s t : BiState V L S M ML} (hs : biStep g c s = .expand t) : (biWho s).isSome := by
  unfold biStep at hs
  split at hs
  · simp at hs
  · simp at hs
  · simp at hs
  · rename_i x hx
    unfold bfsStep at hx
    unfold biWho bfsWho
    split at hx
    · split at hx <;> simp at hx
    · rename_i hp
      split at hx
      · rename_i h2
        simp [hp, h2]
      · split at hx <;> simp at hx
    · simp at hx
    · split at hx <;> simp at hx
    · simp at hx
  · simp only at hs
    split at hs
    · simp at hs
    · split at hs <;> simp at hs

/-- **C93 (the list of reads is complete).** `biReads` lists one read for each call of an edges function during the
search. -/
theorem C93_bibfs_reads_complete (starts goals : List V) (limit : Option Int) (fuel : Nat)
    (hno : ∀ s ∈ starts, ∀ t ∈ goals, c.vid s ≠ c.vid t) :
    (biReads g c starts goals limit fuel).length =
      expsOf (runMachine (biStep g c) fuel none (biInit g c starts goals limit)).events := by
  have hcom : biCommon c.vid starts goals true true = none := by
    simp only [biCommon, if_true, List.find?_eq_none, decide_eq_true_eq, List.mem_map]
    rintro s hs ⟨t, ht, he⟩
    exact hno s hs t ht he.symm
  unfold biReads
  rw [hcom]
  exact readsOf_length (fun s t h => biWho_isSome g c h) _ _

/-- **C93 (breadth-first search).** `BSearchBreadthFirst` reads edges only up to half of the length of a shortest path:
if the outgoing edges of a vertex of depth `d` (from the start vertices) are read, each walk from a start to a goal vertex
has more than `2 * d` edges; and if the incoming edges of a vertex of depth `d` (from the goal vertices, against the direction of
edges) are read, each such walk has more than `2 * d + 1` edges. This holds for every gear, graph, start and goal vertices,
whether or not the search ends, and with or without calculation limit. -/
theorem C93_bibfs_half (hg : g.so.Lawful) (hcF : Compat (Edge c.nextF) c.vid) (hcB : Compat (Edge c.nextB) c.vid)
    (hop : OppositeEdges c.nextF c.nextB) (starts goals : List V) (limit : Option Int) (fuel : Nat) (v : V) :
    ((false, v) ∈ biReads g c starts goals limit fuel →
      ∃ d, IsDepth (Edge c.nextF) (· ∈ starts) c.vid v d ∧
        ∀ n, Connects (Edge c.nextF) c.vid starts goals n → 2 * d < n) ∧
    ((true, v) ∈ biReads g c starts goals limit fuel →
      ∃ d, IsDepth (Edge c.nextB) (· ∈ goals) c.vid v d ∧
        ∀ n, Connects (Edge c.nextF) c.vid starts goals n → 2 * d + 1 < n) := by
  have hok : BiOk g c := ⟨hg, hcF, hcB⟩
  have key : ∀ b, (b, v) ∈ biReads g c starts goals limit fuel →
      ∃ d, IsDepth (Edge (c.side b).next) (· ∈ biEnds starts goals b) c.vid v d ∧
        ∀ n, Connects (Edge c.nextF) c.vid starts goals n → 2 * d + (if b then 1 else 0) < n := by
    intro b h
    unfold biReads at h
    split at h
    · simp at h
    · rename_i hcom
      obtain ⟨e, s, s', hr, hs, hw⟩ := readsOf_mem h
      obtain ⟨inv, hp⟩ := bi_phase hok limit (biCommon_none hcom) hr
      exact (bi_read hok hop inv hp hs hw).2
  exact ⟨fun h => by simpa [biEnds, BiCfg.side] using key false h, fun h => by simpa [biEnds, BiCfg.side] using key true h⟩

/-- **C93 (breadth-first search, common vertex).** Nothing is read if a start vertex is a goal vertex. -/
theorem C93_bibfs_common (starts goals : List V) (limit : Option Int) (fuel : Nat)
    (hcom : ∃ s ∈ starts, ∃ t ∈ goals, c.vid s = c.vid t) : biReads g c starts goals limit fuel = [] := by
  unfold biReads
  split
  · rfl
  · rename_i h
    obtain ⟨s, hs, t, ht, he⟩ := hcom
    exact absurd he (biCommon_none h s hs t ht)

end bfs

section bd

variable {W D : Type} [AddCommMonoid W] [LinearOrder W] [IsOrderedAddMonoid W]
variable {g : WGear V K L W M ML D} {c : BdCfg V K L W}

theorem bdWho_isSome {s t : BdState V L W M ML D} (hs : bdStep g c s = .expand t) : (bdWho s).isSome := by
  unfold bdStep at hs
  simp only at hs
  split at hs
  · rename_i hp
    split at hs
    · simp at hs
    · rename_i hh
      simp [bdWho, hp, hh]
  · simp at hs
  · split at hs
    · simp at hs
    · split at hs
      · simp at hs
      · split at hs <;> simp at hs

/-- **C93 (the list of reads is complete).** `bdReads` lists one read for each call of an edges function during the
search. -/
theorem C93_bd_reads_complete (start : V) (rs goals : List V) (limit : Option Int) (fuel : Nat) (hgo : goals ≠ [])
    (hno : ∀ s ∈ start :: rs, ∀ t ∈ goals, c.vid s ≠ c.vid t) :
    (bdReads g c (start :: rs) goals limit fuel).length =
      expsOf (runMachine (bdStep g c) fuel none (bdInit g c start (start :: rs) goals limit)).events := by
  have hcom : biCommon c.vid (start :: rs) goals true true = none := by
    simp only [biCommon, if_true, List.find?_eq_none, decide_eq_true_eq, List.mem_map]
    rintro s hs ⟨t, ht, he⟩
    exact hno s hs t ht he.symm
  cases goals with
  | nil => exact absurd rfl hgo
  | cons t ts =>
    simp only [bdReads, hcom]
    exact readsOf_length (fun s t h => bdWho_isSome h) _ _

/-- **C93 (shortest paths).** `BSearchShortestPath` reads edges only up to the length of a shortest path: if the outgoing
edges of a vertex are read, its distance from the start vertices is at most the total weight of each walk from a start
to a goal vertex; and the same for the incoming edges and the distance from the goal vertices. -/
theorem C93_bd (H : BdHyp g c) (starts goals : List V) (limit : Option Int) (fuel : Nat) (v : V) :
    ((false, v) ∈ bdReads g c starts goals limit fuel →
      ∃ d, IsDist c.nextF (· ∈ starts) c.vid v d ∧ ∀ x, WConnects c.nextF c.vid starts goals x → d ≤ x) ∧
    ((true, v) ∈ bdReads g c starts goals limit fuel →
      ∃ d, IsDist c.nextB (· ∈ goals) c.vid v d ∧ ∀ x, WConnects c.nextF c.vid starts goals x → d ≤ x) := by
  have key : ∀ b, (b, v) ∈ bdReads g c starts goals limit fuel →
      ∃ d, IsDist (c.next b) (· ∈ biEnds starts goals b) c.vid v d ∧
        ∀ x, WConnects c.nextF c.vid starts goals x → d ≤ x := by
    intro b h
    unfold bdReads at h
    split at h
    · simp at h
    · simp at h
    · split at h
      · simp at h
      · rename_i hcom
        obtain ⟨e, s, s', hr, hs, hw⟩ := readsOf_mem h
        have hok := H.ok (biCommon_none hcom)
        obtain ⟨t, h', F, cur, w⟩ := bd_inv (ns := False) hok _ limit (fun hn => hn.elim) hr
        exact bd_read hok (fun u v x he => (H.opp u v x).1 he) w hs hw
  exact ⟨fun h => key false h, fun h => key true h⟩

end bd

/-! ## Examples -/

/-- The reads of the search for the path of 3 edges from 0 to 4: forwards the start vertex, backwards the goal vertex, and
forwards a vertex of depth 1. The hypotheses of C93 are those of C28. -/
example : biReads exHash exBi [0] [4] none 100 = [(false, 0), (true, 4), (false, 1)] ∧
    biReads exHash exBi [0] [0] none 100 = [] := by
  constructor <;> decide +kernel

/-- The reads of the search for a shortest path from 0 to 4, of weight 13, in the example of C32. -/
example : BdHyp exBdHash exBd ∧
    bdReads exBdHash exBd [0] [4] none 100 = [(false, 0), (true, 4), (false, 1), (true, 3), (false, 8)] :=
  ⟨exBdHyp, by decide +kernel⟩

end NoGraphs
