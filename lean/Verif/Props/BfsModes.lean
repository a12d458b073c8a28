import Verif.Proofs.BfsTree
import Verif.Proofs.BfsGear
import Verif.Props.Bfs

/-! # C39 and C52 for breadth-first search: gears and tree mode -/

set_option linter.unusedSectionVars false

namespace NoGraphs

open Spec

variable {V K L S M ML : Type} [DecidableEq V] [DecidableEq K]

/-- **C52 for breadth-first search.** If the reachable part of the graph is a forest rooted at the
start vertices, then with `is_tree=True` the traversal makes the same reports (vertex, depth, and
stored paths) as with `is_tree=False`, and ends in the same way. -/
theorem C52_bfs_tree (g : TravGear V K L S M ML) (c : TravCfg V K L) (hg : g.so.Lawful)
    (ht : c.isTree = false) (hc : Compat (Edge c.next) c.vid) (starts : List V)
    (hf : IsForest c.next c.vid starts) (limit : Option Int) (fuel : Nat) :
    let general := bfsRun g c g.so.empty starts limit fuel
    let tree := bfsRun g { c with isTree := true } g.so.empty starts limit fuel
    tree.reports.map (fun r => (r.vertex, r.depth, r.preds, r.labels)) =
      general.reports.map (fun r => (r.vertex, r.depth, r.preds, r.labels)) ∧
    tree.ending = general.ending := by
  intro general tree
  obtain ⟨h1, h2⟩ := bfs_tree_sim (M := M) (ML := ML) hg ht hf hc fuel (prepareLimit limit)
  refine ⟨?_, h2⟩
  exact forall₂_map_eq (repsOf_forall₂ h1) (fun a b h => by rw [h.1, h.2.1, h.2.2.1, h.2.2.2])

/-- A binary tree with labels. -/
def exTree : Nat → List (Nat × Char)
  | 0 => [(1, 'a'), (2, 'b')]
  | 1 => [(3, 'c'), (4, 'd')]
  | 2 => [(5, 'e')]
  | _ => []

theorem exTree_reach {v : Nat} (h : Reachable (Edge exTree) (· ∈ [0]) v) : v ≤ 5 := by
  refine Reachable.induct (P := fun v => v ≤ 5) ?_ ?_ h
  · intro v hv; simp at hv; omega
  · rintro u w - hu ⟨l, hl⟩
    have : u = 0 ∨ u = 1 ∨ u = 2 ∨ u = 3 ∨ u = 4 ∨ u = 5 := by omega
    rcases this with rfl | rfl | rfl | rfl | rfl | rfl <;> simp [exTree] at hl <;> omega

theorem exTree_forest : IsForest exTree (id : Nat → Nat) [0] where
  starts_nodup := by simp
  no_edge_to_start u w hu := by
    rintro ⟨l, hl⟩
    have := exTree_reach hu
    have : u = 0 ∨ u = 1 ∨ u = 2 ∨ u = 3 ∨ u = 4 ∨ u = 5 := by omega
    rcases this with rfl | rfl | rfl | rfl | rfl | rfl <;> simp [exTree] at hl <;> simp <;> omega
  children_nodup u hu := by
    have := exTree_reach hu
    have : u = 0 ∨ u = 1 ∨ u = 2 ∨ u = 3 ∨ u = 4 ∨ u = 5 := by omega
    rcases this with rfl | rfl | rfl | rfl | rfl | rfl <;> decide
  one_parent u u' w w' hu hu' := by
    rintro ⟨l, hl⟩ ⟨l', hl'⟩ e
    have := exTree_reach hu
    have := exTree_reach hu'
    simp only [id_eq] at e
    subst e
    have h1 : u = 0 ∨ u = 1 ∨ u = 2 ∨ u = 3 ∨ u = 4 ∨ u = 5 := by omega
    have h2 : u' = 0 ∨ u' = 1 ∨ u' = 2 ∨ u' = 3 ∨ u' = 4 ∨ u' = 5 := by omega
    rcases h1 with rfl | rfl | rfl | rfl | rfl | rfl <;> simp [exTree] at hl <;>
    rcases h2 with rfl | rfl | rfl | rfl | rfl | rfl <;> simp [exTree] at hl' <;> first | rfl | omega

/-- Non-vacuity of C52: the hypothesis holds for a binary tree and all vertices are reported. -/
example : IsForest exTree (id : Nat → Nat) [0] ∧
    (bfsRun exHash ⟨exTree, id, true, true⟩ [] [0] none 100).reports.map (fun r => (r.vertex, r.depth)) =
      [(1, 1), (2, 1), (3, 2), (4, 2), (5, 2)] := ⟨exTree_forest, by decide⟩

/-- **C39 for breadth-first search.** With any two gears that can store the reachable vertices and
labels, and already visited sets with the same content, a breadth-first traversal makes the same
reports: the same vertices and depths in the same order, with the same content of `visited`, of the
predecessors and of the edge labels at each report; and it ends in the same way. -/
theorem C39_bfs_gear_independent {S' M' ML' : Type} (g : TravGear V K L S M ML)
    (g' : TravGear V K L S' M' ML') (c : TravCfg V K L) (hg : g.so.Lawful) (hg' : g'.so.Lawful)
    {validV validV' : V → Prop} {validL validL' : L → Prop} (starts : List V)
    (hst : Storable g c starts validV validL) (hst' : Storable g' c starts validV' validL')
    (already : S) (already' : S') (ha : ∀ k, g.so.contains already k = g'.so.contains already' k)
    (limit : Option Int) (fuel : Nat) :
    let run := bfsRun g c already starts limit fuel
    let run' := bfsRun g' c already' starts limit fuel
    run.reports.map (fun r => (r.vertex, r.depth)) = run'.reports.map (fun r => (r.vertex, r.depth)) ∧
    List.Forall₂ (fun r r' => ∀ k, g.so.contains r.visited k = g'.so.contains r'.visited k ∧
      g.mo.get? r.preds k = g'.mo.get? r'.preds k ∧ g.lo.get? r.labels k = g'.lo.get? r'.labels k)
      run.reports run'.reports ∧
    run.ending = run'.ending := by
  intro run run'
  obtain ⟨h1, h2, -⟩ := bfs_gear_sim hg hg' hst hst' false already already' ha fuel (prepareLimit limit)
  have h3 := repsOf_forall₂ h1
  refine ⟨forall₂_map_eq h3 (fun a b h => by rw [h.1, h.2.1]), ?_, h2⟩
  exact h3.imp (fun a b h k => ⟨h.2.2.1 k, h.2.2.2.1 k, h.2.2.2.2 k⟩)

/-- Non-vacuity of C39: a hash based and a bit-packed/array gear satisfy the hypotheses. -/
example : Storable exHash (exCfg true) [0] (fun _ => True) (fun _ => True) ∧
    Storable exBits (exCfg true) [0] (fun x => x ≠ 255) (fun _ => True) ∧
    ∀ k, exHash.so.contains exHash.so.empty k = exBits.so.contains exBits.so.empty k := by
  refine ⟨⟨dictMap_lawful, dictMap_lawful, fun _ _ => trivial, fun _ _ _ _ => trivial,
    fun s hs t ht _ => by simp at hs ht; omega⟩,
    ⟨arrayMap_lawful _ (fun _ => by decide) 0, listMap_lawful _ rfl (fun _ => by decide) 0,
      fun v hv => by have := exNext_reach hv; omega, fun _ _ _ _ => trivial,
      fun s hs t ht _ => by simp at hs ht; omega⟩, fun k => ?_⟩
  exact (hashSet_lawful.contains_empty k).trans
    ((bitSeqSet_lawful ⟨0, 2, true⟩ rfl (fun _ => by decide) 0).contains_empty k).symm

end NoGraphs
