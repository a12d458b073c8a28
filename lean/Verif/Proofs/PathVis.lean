import Verif.Proofs.BfsPaths

/-! Stored paths all whose vertices are already visited. -/

set_option linter.unusedSectionVars false

namespace NoGraphs

open Spec

variable {V K L : Type} [DecidableEq V] [DecidableEq K]

/-- A path is stored for `v`, and its vertices are visited. -/
def PathVis (next : V → List (V × L)) (starts : List V) (vid : V → K) (vis : K → Bool) (get : K → Option V)
    (lab : K → Option L) (v : V) (p : SPath V L) : Prop :=
  PathOk next starts vid get lab v p ∧ ∀ u ∈ p.verts, vis (vid u) = true

variable {next : V → List (V × L)} {starts : List V} {vid : V → K} {vis vis' : K → Bool}
  {get get' : K → Option V} {lab lab' : K → Option L}

theorem PathVis.mono {v : V} {p : SPath V L} (h : PathVis next starts vid vis get lab v p)
    (hv : ∀ j, vis j = true → vis' j = true) (hg : ∀ j, vis j = true → get' j = get j)
    (hl : ∀ j, vis j = true → lab' j = lab j) : PathVis next starts vid vis' get' lab' v p :=
  ⟨⟨h.1.1, h.1.2.1, h.1.2.2.frame (fun u hu => hg _ (h.2 u hu)) (fun u hu => hl _ (h.2 u hu))⟩,
    fun u hu => hv _ (h.2 u hu)⟩

theorem PathVis.extend {u w : V} {l : L} {p : SPath V L} (h : PathVis next starts vid vis get lab u p)
    (he : (w, l) ∈ next u) (hg : get (vid w) = some u) (hl : lab (vid w) = some l)
    (hv : vis (vid w) = true) (hne : vid u ≠ vid w) :
    PathVis next starts vid vis get lab w (p.snoc w l) := by
  refine ⟨⟨h.1.1, h.1.2.1.snoc h.1.2.2.last he, h.1.2.2.extend hg hl (fun e => hne (e ▸ rfl))⟩, ?_⟩
  intro x hx
  rw [SPath.verts_snoc, List.mem_append, List.mem_singleton] at hx
  rcases hx with hx | rfl
  · exact h.2 x hx
  · exact hv

theorem PathVis.start {v : V} (hv : v ∈ starts) (hg : get (vid v) = some v) (hvis : vis (vid v) = true) :
    PathVis next starts vid vis get lab v ⟨v, []⟩ := by
  refine ⟨⟨hv, trivial, .start hg, ?_⟩, ?_⟩
  · simp [SPath.verts, SPath.edges, rawEdges, edgesFrom]
  · simp [SPath.verts, hvis]

end NoGraphs
