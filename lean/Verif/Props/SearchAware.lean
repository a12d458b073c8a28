import Mathlib.Data.List.Nodup
import Verif.Proofs.SearchAware
import Verif.Props.Bfs

/-! # Search-aware graphs: C70 -/

set_option linter.unusedSectionVars false

namespace NoGraphs

open Spec

variable {V K L S M ML : Type} [DecidableEq V] [DecidableEq K]

/-! ## Breadth-first search -/

section
variable {g : TravGear V K L S M ML} {c : TravCfg V K L}

theorem bfs_readsOne (rdi : Bool) : ReadsOne (fun next => bfsStep g { c with next := next } rdi) bfsWho := by
  constructor
  · intro f f' s h
    unfold bfsStep
    unfold bfsWho at h
    rcases hpc : s.pc with _ | _ | ⟨v, es⟩ | _
    · rfl
    · rw [hpc] at h
      rcases ht : s.toExpand with _ | ⟨v, rest⟩
      · rfl
      · rw [ht] at h
        simp only [h v rfl]
    · rcases es with _ | ⟨e, es⟩ <;> rfl
    · rfl
  · intro f s v h
    unfold bfsWho at h
    rcases hpc : s.pc with _ | _ | ⟨v, es⟩ | _ <;> rw [hpc] at h <;> try simp at h
    unfold bfsStep
    simp only [hpc]
    rcases ht : s.toExpand with _ | ⟨u, rest⟩
    · simp [ht] at h
    · exact ⟨_, rfl⟩

/-- No vertex is waiting twice for its expansion, or is waiting again after it. -/
structure BfsOnce (g : TravGear V K L S M ML) (c : TravCfg V K L) (X : List K) (s : BfsState V L S M ML) : Prop where
  nodup : (X ++ (s.toExpand ++ s.nextToExpand).map c.vid).Nodup
  vis : ∀ k ∈ X ++ (s.toExpand ++ s.nextToExpand).map c.vid, g.so.contains s.visited k = true
  lev : s.pc = .levelEnd → s.toExpand = []

theorem bfsOnce_tau (f : V → List (V × L)) (X : List K)
    (s s' : BfsState V L S M ML) (h : BfsOnce g c X s) (e : bfsStep g { c with next := f } false s = .tau s') :
    BfsOnce g c X s' := by
  unfold bfsStep at e
  rcases hpc : s.pc with _ | _ | ⟨v, es⟩ | _ <;> simp only [hpc] at e
  · split at e
    · simp at e
    · simp only [Step.tau.injEq] at e
      subst e
      exact ⟨h.nodup, h.vis, by simp⟩
  · split at e
    · simp at e
    · rename_i hn
      simp only [Step.tau.injEq] at e
      subst e
      exact ⟨h.nodup, h.vis, fun _ => hn⟩
  · rcases es with _ | ⟨e', es⟩
    · simp only [Step.tau.injEq] at e
      subst e
      exact ⟨h.nodup, h.vis, by simp⟩
    · simp only at e
      split at e
      · simp only [Step.tau.injEq] at e
        subst e
        exact ⟨h.nodup, h.vis, by simp⟩
      · simp at e
  · simp only [Step.tau.injEq] at e
    subst e
    have := h.lev hpc
    exact ⟨by simpa [this] using h.nodup, by simpa [this] using h.vis, by simp⟩

theorem bfsOnce_emit (hg : g.so.Lawful) (ht : c.isTree = false) (f : V → List (V × L)) (X : List K)
    (s : BfsState V L S M ML) (r : BfsReport V S M ML) (s' : BfsState V L S M ML) (h : BfsOnce g c X s)
    (e : bfsStep g { c with next := f } false s = .emit r s') : BfsOnce g c X s' := by
  unfold bfsStep at e
  rcases hpc : s.pc with _ | _ | ⟨v, es⟩ | _ <;> simp only [hpc] at e
  · split at e <;> simp at e
  · split at e <;> simp at e
  · rcases es with _ | ⟨e', es⟩
    · simp at e
    · simp only at e
      split at e
      · simp at e
      · rename_i vis pr la hv
        simp only [Step.emit.injEq] at e
        obtain ⟨-, rfl⟩ := e
        rw [ht] at hv
        obtain ⟨h1, h2, -⟩ := bfsVisit_some hg hv
        have hl : X ++ List.map c.vid (s.toExpand ++ (s.nextToExpand ++ [e'.1])) =
            (X ++ List.map c.vid (s.toExpand ++ s.nextToExpand)) ++ [c.vid e'.1] := by simp
        refine ⟨?_, ?_, by simp⟩
        · simp only [hl]
          refine List.nodup_append.2 ⟨h.nodup, by simp, fun k hk b hb e => ?_⟩
          rw [List.mem_singleton] at hb
          rw [hb] at e
          have := h.vis k hk
          rw [e, h1] at this
          exact absurd this (by simp)
        · intro k hk
          simp only [hl, List.mem_append (s := X ++ _), List.mem_singleton] at hk
          simp only [h2, Bool.or_eq_true, decide_eq_true_eq]
          exact hk.symm.imp id (h.vis k)
  · simp at e

theorem bfsOnce_expand (f : V → List (V × L)) (X : List K)
    (s : BfsState V L S M ML) (v : V) (s' : BfsState V L S M ML) (h : BfsOnce g c X s) (hw : bfsWho s = some v)
    (e : bfsStep g { c with next := f } false s = .expand s') : c.vid v ∉ X ∧ BfsOnce g c (c.vid v :: X) s' := by
  unfold bfsWho at hw
  unfold bfsStep at e
  rcases hpc : s.pc with _ | _ | ⟨u, es⟩ | _ <;> rw [hpc] at hw <;> simp only [reduceCtorEq] at hw
  simp only [hpc] at e
  rcases ht : s.toExpand with _ | ⟨u, rest⟩
  · simp [ht] at hw
  · simp only [ht, List.head?_cons, Option.some.injEq] at hw
    subst hw
    simp only [ht, Step.expand.injEq] at e
    subst e
    obtain ⟨h1, h2, -⟩ := h
    have hp : (X ++ List.map c.vid (s.toExpand ++ s.nextToExpand)).Perm
        (c.vid u :: X ++ List.map c.vid (rest ++ s.nextToExpand)) := by
      rw [ht]
      simp
    have h3 := hp.nodup_iff.1 h1
    refine ⟨fun hm => ?_, h3, fun k hk => h2 k (hp.mem_iff.2 hk), by simp⟩
    have := (List.nodup_cons.1 h3).1
    exact this (List.mem_append_left _ hm)

theorem bfsOnce_init (hg : g.so.Lawful) (ht : c.isTree = false) (already : S) (starts : List V)
    (hs : (starts.map c.vid).Nodup) : BfsOnce g c [] (bfsInit g c already starts : BfsState V L S M ML) := by
  refine ⟨by simpa [bfsInit] using hs, fun k hk => ?_, by simp [bfsInit]⟩
  simp only [bfsInit, List.append_nil, List.nil_append] at hk
  simp only [bfsInit, ht, Bool.false_eq_true, if_false, hg.contains_addAll, hk, decide_true, Bool.true_or]

/-- Two calls of the edges function are for vertices with different ids. -/
theorem bfsAware_once (hg : g.so.Lawful) (ht : c.isTree = false) (F : Nat → BfsReport V S M ML → List (V × L))
    (already : S) (starts : List V) (hs : (starts.map c.vid).Nodup) (limit : Option Int) (fuel : Nat) :
    ((bfsAwareCalls g c F already starts limit fuel).map (fun call => c.vid call.1.vertex)).Nodup :=
  (aware_once c.vid BfsReport.vertex (fun _ _ => rfl) (fun _ => True) (fun _ _ => trivial) (BfsOnce g c)
    (fun f _ X s s' => bfsOnce_tau f X s s') (fun f _ X s r s' => bfsOnce_emit hg ht f X s r s')
    (fun f _ X s s' _ hw e => by
      exfalso
      unfold bfsWho at hw
      unfold bfsStep at e
      rcases hpc : s.pc with _ | _ | ⟨u, es⟩ | _ <;> simp only [hpc] at e hw
      · split at e <;> simp at e
      · split at e
        · rename_i h; simp [h] at hw
        · simp at e
      · rcases es with _ | ⟨_, _⟩
        · simp at e
        · simp only at e
          split at e <;> simp at e
      · simp at e)
    (fun f _ X s v s' => bfsOnce_expand f X s v s') fuel (prepareLimit limit) (bfsInit g c already starts, 0) []
    (bfsOnce_init hg ht already starts hs)).1

/-- The graph of the returned edges gives equal edges to vertices with equal ids. -/
theorem graphOfCalls_compat {C : Type} (vid : V → K) (vert : C → V) (calls : List (C × List (V × L))) :
    Compat (Edge (graphOfCalls vid vert calls)) vid := by
  intro u u' v e hE
  refine ⟨v, ?_, rfl⟩
  obtain ⟨l, hl⟩ := hE
  exact ⟨l, by rw [← graphOfCalls_id e]; exact hl⟩

/-- Each call happens in a state that the traversal reaches in the graph of the returned edges. -/
theorem bfsAware_static (hg : g.so.Lawful) (ht : c.isTree = false) (F : Nat → BfsReport V S M ML → List (V × L))
    (already : S) (starts : List V) (hs : (starts.map c.vid).Nodup) (limit : Option Int) (fuel : Nat)
    {graph : V → List (V × L)}
    (hgr : graph = graphOfCalls c.vid BfsReport.vertex (bfsAwareCalls g c F already starts limit fuel)) :
    (∀ call ∈ bfsAwareCalls g c F already starts limit fuel, graph call.1.vertex = call.2 ∧
      ∃ h' s, Reaches (bfsStep g { c with next := graph } false) (bfsInit g c already starts) h' s ∧
        call.1.vertex ∈ s.toExpand ∧ call.1 = bfsView s call.1.vertex) ∧
    (bfsAwareRun g c F already starts limit fuel).events =
      (bfsRun g { c with next := graph } already starts limit fuel).events ∧
    (bfsAwareRun g c F already starts limit fuel).ending =
      (bfsRun g { c with next := graph } already starts limit fuel).ending ∧
    (bfsAwareRun g c F already starts limit fuel).final.1 =
      (bfsRun g { c with next := graph } already starts limit fuel).final := by
  subst hgr
  have hnd := bfsAware_once (g := g) (c := c) hg ht F already starts hs limit fuel
  obtain ⟨h1, h2⟩ := aware_static (F := F) (view := bfsView) c.vid BfsReport.vertex (fun _ _ => rfl)
    (bfs_readsOne (g := g) (c := c) false) fuel (prepareLimit limit) (bfsInit g c already starts) rfl hnd
  refine ⟨fun call hc => ⟨(h1 call hc).1, ?_⟩, h2⟩
  obtain ⟨-, h', s, hr, hw, hv⟩ := h1 call hc
  refine ⟨h', s, hr, ?_, hv.symm⟩
  unfold bfsWho at hw
  split at hw
  · exact List.mem_of_head? hw
  · simp at hw

/-- **C70 for breadth-first search.** Let the edges function be any function that may use, at each call, the attributes of
the traversal object it gets, and anything else. Then the traversal behaves exactly as in the ordinary graph of the edges
that the function returned: same reports with same attributes, same end, same final attributes. The function is called at
most once for an id. When it is called for a vertex, the depth it sees is the depth of this vertex in that graph. -/
theorem C70_bfs_search_aware (hg : g.so.Lawful) (ht : c.isTree = false) (F : Nat → BfsReport V S M ML → List (V × L))
    (already : S) (starts : List V) (hs : (starts.map c.vid).Nodup) (limit : Option Int) (fuel : Nat) :
    let run := bfsAwareRun g c F already starts limit fuel
    let calls := bfsAwareCalls g c F already starts limit fuel
    let graph := graphOfCalls c.vid BfsReport.vertex calls
    let ordinary := bfsRun g { c with next := graph } already starts limit fuel
    (run.events = ordinary.events ∧ run.ending = ordinary.ending ∧ run.final.1 = ordinary.final) ∧
    (calls.map (fun call => c.vid call.1.vertex)).Nodup ∧
    ∀ call ∈ calls, graph call.1.vertex = call.2 ∧ ∃ d : Nat, call.1.depth = d ∧
      IsDepth (Allowed graph c.vid (fun k => g.so.contains already k = true)) (· ∈ starts) c.vid call.1.vertex d := by
  intro run calls graph ordinary
  obtain ⟨h1, h2⟩ := bfsAware_static (g := g) (c := c) hg ht F already starts hs limit fuel (graph := graph) rfl
  refine ⟨h2, bfsAware_once hg ht F already starts hs limit fuel, fun call hc => ⟨(h1 call hc).1, ?_⟩⟩
  obtain ⟨-, h', s, hr, hm, hv⟩ := h1 call hc
  obtain ⟨n, inv⟩ := bfs_inv (c := { c with next := graph }) hg ht (graphOfCalls_compat _ _ _) hr
  refine ⟨n, ?_, inv.exp _ hm⟩
  rw [hv]
  simp [bfsView, inv.depth]

/-- **C70, paths.** With `build_paths`, when the edges function is called for a vertex, the `paths` it sees show a path to
this vertex: from a start vertex, along edges that the function has returned, with as many edges as the depth it sees. -/
theorem C70_bfs_paths (hg : g.so.Lawful) (ht : c.isTree = false) (hb : c.buildPaths = true)
    (F : Nat → BfsReport V S M ML → List (V × L)) {validV : V → Prop} {validL : L → Prop} (hmo : g.mo.Lawful validV)
    (hlo : g.lo.Lawful validL) (already : S) (starts : List V) (hs : (starts.map c.vid).Nodup)
    (hsv : ∀ v ∈ starts, validV v) (limit : Option Int) (fuel : Nat)
    (hcalls : ∀ call ∈ bfsAwareCalls g c F already starts limit fuel, ∀ e ∈ call.2, validV e.1 ∧ validL e.2) :
    let calls := bfsAwareCalls g c F already starts limit fuel
    let graph := graphOfCalls c.vid BfsReport.vertex calls
    ∀ call ∈ calls, ∃ p : SPath V L, p.first ∈ starts ∧ IsPath graph p.first p.steps ∧
      p.verts.getLast? = some call.1.vertex ∧ (p.steps.length : Int) = call.1.depth ∧
      ShowsPath (pathsView g.mo g.lo c.vid call.1.preds call.1.labels) call.1.vertex p := by
  intro calls graph call hc
  obtain ⟨h1, -⟩ := bfsAware_static (g := g) (c := c) hg ht F already starts hs limit fuel (graph := graph) rfl
  obtain ⟨-, h', s, hr, hm, hv⟩ := h1 call hc
  have hst : Storable g { c with next := graph } starts validV validL := by
    refine ⟨hmo, hlo, fun v hv => ?_, fun u e _ he => ?_, fun s hs' t ht' e => List.inj_on_of_nodup_map hs hs' ht' e⟩
    · obtain ⟨n, hv⟩ := hv
      cases hv with
      | start h => exact hsv _ h
      | step _ h =>
        obtain ⟨l, hl⟩ := h
        obtain ⟨call, hc, -, he⟩ := mem_graphOfCalls hl
        exact (hcalls call hc _ he).1
    · obtain ⟨call, hc, -, he⟩ := mem_graphOfCalls he
      exact (hcalls call hc _ he).2
  have inv := bfs_path_inv (c := { c with next := graph }) hg ht hb (graphOfCalls_compat _ _ _) hst hr
  obtain ⟨p, e, h⟩ := inv.exp _ hm
  refine ⟨p, h.1, h.2.1, h.2.2.last, ?_, ?_⟩
  · rw [e, hv]; rfl
  · rw [hv]
    exact h.2.2.shows hmo hlo

end

/-! ## Non-vacuity -/

/-- Edges function on an infinite graph that ends at depth 2 of the search, and whose third call gives no edges. -/
def exAware {S M ML : Type} (n : Nat) (t : BfsReport Nat S M ML) : List (Nat × Char) :=
  if t.depth < 2 ∧ n ≠ 2 then [(t.vertex + 1, 'a'), (2 * t.vertex + 3, 'b')] else []

/-- The calls: vertex and depth seen by the function, and what it returned; and the reports. (The hypotheses about gears
hold for `exBits`, see `Verif/Props/Bfs.lean`.) -/
example : (bfsAwareCalls exBits (exCfg true) exAware [] [0] none 40).map (fun x => (x.1.vertex, x.1.depth, x.2)) =
      [(0, 0, [(1, 'a'), (3, 'b')]), (1, 1, [(2, 'a'), (5, 'b')]), (3, 1, []), (2, 2, []), (5, 2, [])] ∧
    ((bfsAwareRun exBits (exCfg true) exAware [] [0] none 40).reports.map (fun r => (r.vertex, r.depth)),
      (bfsAwareRun exBits (exCfg true) exAware [] [0] none 40).ending) =
      ([(1, 1), (3, 1), (2, 2), (5, 2)], .done) ∧ ([0].map (exCfg true).vid).Nodup := by
  refine ⟨?_, ?_, ?_⟩ <;> decide +kernel

/-- The hypothesis of `C70_bfs_paths` about stored vertices. -/
example : ∀ call ∈ bfsAwareCalls exBits (exCfg true) exAware [] [0] none 40, ∀ e ∈ call.2, e.1 ≠ 255 := by
  decide +kernel

end NoGraphs
