import Mathlib.Tactic.Push
import Mathlib.Data.Int.Order.Basic
import Verif.Props.Go
import Verif.Props.Bfs

/-! # C40 and C42 for breadth-first traversals -/

set_option linter.unusedSectionVars false

namespace NoGraphs

open Spec

variable {V K L S M ML : Type} [DecidableEq V] [DecidableEq K]
variable (g : TravGear V K L S M ML) (c : TravCfg V K L)

/-- **C40 for breadth-first search.** `go_for_vertices_in` on the reports of a traversal that comes to
its end: if all given vertices are reachable non-start vertices, exactly their reports are yielded and
no exception is raised; if one of them is not, `KeyError` is raised after the reports of the others. -/
theorem C40_bfs (hg : g.so.Lawful) (ht : c.isTree = false) (hc : Compat (Edge c.next) c.vid)
    (starts : List V) (limit : Option Int) (fuel : Nat)
    (hdone : (bfsRun g c g.so.empty starts limit fuel).ending = .done) (vertices : List V)
    (hne : vertices ≠ []) :
    let id := fun r : BfsReport V S M ML => c.vid r.vertex
    let res := goForVerticesIn id (vertices.map c.vid) false
      (bfsRun g c g.so.empty starts limit fuel).reports .done
    res.yielded.map id =
      ((bfsRun g c g.so.empty starts limit fuel).reports.map id).filter (fun k => decide (k ∈ vertices.map c.vid)) ∧
    (res.ending = .done ↔ ∀ v ∈ vertices, c.vid v ∉ starts.map c.vid ∧
      ∃ w, Reachable (Edge c.next) (· ∈ starts) w ∧ c.vid w = c.vid v) ∧
    (res.ending = .done ∨ res.ending = .raised .keyError) := by
  intro id res
  obtain ⟨hu, hex, -⟩ := C02_bfs_once_ordered g c hg ht hc g.so.empty starts limit fuel
  obtain ⟨hcomp, -⟩ := C03_bfs_complete g c hg ht hc g.so.empty starts limit fuel hdone
  have hne' : vertices.map c.vid ≠ [] := by simpa using hne
  have hmapf : ∀ l : List (BfsReport V S M ML),
      (l.filter (fun r => decide (id r ∈ vertices.map c.vid))).map id =
      (l.map id).filter (fun k => decide (k ∈ vertices.map c.vid)) := by
    intro l
    rw [List.filter_map]; rfl
  have hfound : (∀ k ∈ vertices.map c.vid, ∃ r ∈ (bfsRun g c g.so.empty starts limit fuel).reports, id r = k) ↔
      ∀ v ∈ vertices, c.vid v ∉ starts.map c.vid ∧
        ∃ w, Reachable (Edge c.next) (· ∈ starts) w ∧ c.vid w = c.vid v := by
    constructor
    · intro h v hv
      obtain ⟨r, hr, e⟩ := h _ (List.mem_map.2 ⟨v, hv, rfl⟩)
      refine ⟨e ▸ (hex r hr).1, r.vertex, ?_, e⟩
      obtain ⟨d, -, h2⟩ := C01_bfs_depth g c hg ht hc starts limit fuel r hr
      exact ⟨d, h2.1⟩
    · intro h k hk
      obtain ⟨v, hv, rfl⟩ := List.mem_map.1 hk
      obtain ⟨h1, w, h2, h3⟩ := h v hv
      have h2' : Reachable (Allowed c.next c.vid (fun k => g.so.contains g.so.empty k = true)) (· ∈ starts) w := by
        have := bfsE_empty g c hg
        unfold bfsE at this
        rw [this]; exact h2
      rcases hcomp w h2' with h | ⟨r, hr, e⟩
      · exact absurd (h3 ▸ h) h1
      · exact ⟨r, hr, e.trans h3⟩
  by_cases hall : ∀ k ∈ vertices.map c.vid, ∃ r ∈ (bfsRun g c g.so.empty starts limit fuel).reports, id r = k
  · obtain ⟨_, rest, -, e, -⟩ := C40_found_partial id (vertices.map c.vid) false
      (bfsRun g c g.so.empty starts limit fuel).reports .done hu hne' hall
    simp only [res, e]
    exact ⟨hmapf _, by simpa using hfound.1 hall, .inl trivial⟩
  · have e := C40_not_found_partial id (vertices.map c.vid) false
      (bfsRun g c g.so.empty starts limit fuel).reports hu (by push Not at hall; exact hall)
    simp only [res, e]
    refine ⟨hmapf _, ⟨fun h => by simp at h, fun h => absurd (hfound.2 h) hall⟩, .inr (by simp)⟩

/-- **C42 for breadth-first search**: `go_for_depth_range` yields exactly the reports with depths in the range. -/
theorem C42_bfs (hg : g.so.Lawful) (ht : c.isTree = false) (hc : Compat (Edge c.next) c.vid)
    (already : S) (starts : List V) (limit : Option Int) (fuel : Nat) (start stop : Int) :
    (goRange (fun r => r.depth) start stop (bfsRun g c already starts limit fuel).reports
        (bfsRun g c already starts limit fuel).ending).yielded =
      (bfsRun g c already starts limit fuel).reports.filter
        (fun r => decide (start ≤ r.depth ∧ r.depth < stop)) :=
  C42_range_reports _ _ _ _ _ (C02_bfs_once_ordered g c hg ht hc already starts limit fuel).2.2

end NoGraphs
