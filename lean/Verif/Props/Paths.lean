import Verif.Proofs.Stored

/-! # Properties C33 and C34: `Paths` containers and `Path` objects -/

set_option linter.unusedSectionVars false

namespace NoGraphs

open Spec

variable {V K L M ML : Type} [DecidableEq V] [DecidableEq K]

/-- **C33.** A `Paths` container of any gear (that can store the vertices and labels involved) with injective vertex identity, started with empty paths
for `starts` and filled by any legal history of `append_edge` calls: if the history specifies the path `p` for
`v`, then `v in paths`, the predecessor of `v` is the last but one vertex of `p` (`None` if `p` is empty), and all iterations end and give the vertices/edges/labeled edges of `p` in the right
direction; if it specifies no path for `v`, then `v in paths` is false and each iteration raises
`RuntimeError`, and so does `predecessor`. -/
theorem C33_paths_container (mo : MapOps M K V) (lo : MapOps ML K L) (vid : V → K)
    {validV : V → Prop} {validL : L → Prop} (hm : mo.Lawful validV) (hl : lo.Lawful validL)
    (hinj : Function.Injective vid) (starts : List V) (hist : List (V × V × L))
    (hvS : ∀ v ∈ starts, validV v) (hvV : ∀ e ∈ hist, validV e.1) (hvL : ∀ e ∈ hist, validL e.2.2) (hleg : (Store.ofStarts starts).Legal hist) (v : V) :
    let c := fillPaths mo lo vid starts hist
    let paths := pathsView mo lo vid c.1 c.2
    match (Store.ofStarts starts).run hist v with
    | some p =>
      paths.contains (vid v) = true ∧
      paths.predecessor v = .ok (p.verts.dropLast.getLast?) ∧
      ∀ fuel, p.steps.length < fuel →
        paths.iterVerticesFromStart fuel v = (p.verts, .done) ∧
        paths.iterVerticesToStart fuel v = (p.verts.reverse, .done) ∧
        paths.iterEdgesFromStart fuel v = (p.edges.map (fun e => (e.1, e.2.1)), .done) ∧
        paths.iterEdgesToStart fuel v = ((p.edges.map (fun e => (e.1, e.2.1))).reverse, .done) ∧
        paths.iterLabeledEdgesFromStart fuel v = (p.edges, .done) ∧
        paths.iterLabeledEdgesToStart fuel v = (p.edges.reverse, .done)
    | none =>
      paths.contains (vid v) = false ∧
      paths.predecessor v = .error .runtimeError ∧
      ∀ fuel,
        paths.iterVerticesFromStart fuel v = ([], .raised .runtimeError) ∧
        paths.iterVerticesToStart fuel v = ([], .raised .runtimeError) ∧
        paths.iterEdgesFromStart fuel v = ([], .raised .runtimeError) ∧
        paths.iterEdgesToStart fuel v = ([], .raised .runtimeError) ∧
        paths.iterLabeledEdgesFromStart fuel v = ([], .raised .runtimeError) ∧
        paths.iterLabeledEdgesToStart fuel v = ([], .raised .runtimeError) := by
  intro c paths
  have hinv := fill_inv mo lo hm hl vid hinj hist hvV hvL
    (mo.setAll mo.empty (starts.map (fun v => (vid v, v))), lo.empty)
    (Store.ofStarts starts) (starts_inv mo lo hm vid hinj starts hvS) hleg
  have hinv' : StoreInv (mo.get? c.1) (lo.get? c.2) vid ((Store.ofStarts starts).run hist) := hinv
  split
  · rename_i p hp
    have hsp := (hinv' v).1 p hp
    refine ⟨hsp.1.get_isSome, ?_, ?_⟩
    · have hrev : p.verts.dropLast.getLast? = (p.verts.reverse.drop 1).head? := by
        rw [← List.head?_reverse, List.drop_one, List.tail_reverse]
      have hcv : paths.contains (paths.vid v) = true := hsp.1.get_isSome
      have hpv : paths.vid v = vid v := rfl
      rw [hrev]
      unfold PathsView.predecessor
      rw [if_pos hcv, hpv]
      have hch := hsp.1
      revert hch
      generalize p.verts.reverse = l
      intro hch
      cases hch with
      | start hg =>
        rw [show paths.rawPred (vid v) = some (some v) from hm.raw_of_get _ _ _ hg]
        simp
      | step hg hne hch =>
        rw [show paths.rawPred (vid v) = _ from hm.raw_of_get _ _ _ hg]
        have := hch.head
        simp [this, hne]
    · intro fuel hf
      have := stored_observations paths (mo.get? c.1) (lo.get? c.2) (fun _ => rfl)
        (fun k x h => hm.raw_of_get _ _ _ h) (fun k x h => hl.raw_of_get _ _ _ h) hsp fuel hf
      exact ⟨this.2.1, this.1, this.2.2.2.1, this.2.2.1, this.2.2.2.2.2, this.2.2.2.2.1⟩
  · rename_i hp
    have hn := (hinv' v).2 hp
    have hcf : paths.contains (paths.vid v) = false := by
      show (mo.get? c.1 (vid v)).isSome = false
      rw [hn]; rfl
    refine ⟨hcf, by unfold PathsView.predecessor; simp [hcf], fun fuel => ?_⟩
    have h1 : paths.iterVerticesToStart fuel v = ([], .raised .runtimeError) := by
      unfold PathsView.iterVerticesToStart; simp [hcf]
    have h2 : paths.iterRawEdgesToStart fuel v = ([], .raised .runtimeError) := by
      unfold PathsView.iterRawEdgesToStart; simp [hcf]
    have h3 : paths.iterEdgesToStart fuel v = ([], .raised .runtimeError) := by
      unfold PathsView.iterEdgesToStart; simp [h2]
    refine ⟨?_, h1, ?_, h3, ?_, ?_⟩
    · unfold PathsView.iterVerticesFromStart; simp [h1]
    · unfold PathsView.iterEdgesFromStart; simp [h3]
    · unfold PathsView.iterLabeledEdgesFromStart; simp [h2]
    · unfold PathsView.iterLabeledEdgesToStart; simp [h2, PathsView.iterPathEdges]

/-- Non-vacuity of C33: a legal history with branching, and a container over it. -/
example : (Store.ofStarts [0] : Store Nat Char).Legal [(0, 1, 'a'), (1, 2, 'b'), (0, 3, 'c')] ∧
    (pathsView dictMap dictMap id
      (fillPaths dictMap dictMap id [0] [(0, 1, 'a'), (1, 2, 'b'), (0, 3, 'c')]).1
      (fillPaths dictMap dictMap id [0] [(0, 1, 'a'), (1, 2, 'b'), (0, 3, 'c')]).2).iterLabeledEdgesFromStart 9 2
      = ([(0, 1, 'a'), (1, 2, 'b')], .done) := by
  constructor
  · simp [Store.Legal, Store.ofStarts, Store.append]
  · decide

/-- **C33 (self loops).** The documented restriction "A self loop can not be stored as path": appending a
self loop to `v` makes the path of `v` the empty path of `v`. -/
theorem C33_self_loop (mo : MapOps M K V) (lo : MapOps ML K L) (vid : V → K)
    (hm : mo.Lawful (fun _ => True)) (m : M) (ml : ML) (v : V) (l : L) (fuel : Nat) :
    let c := appendEdge mo lo m ml v (vid v) l
    (pathsView mo lo vid c.1 c.2).iterVerticesFromStart (fuel + 1) v = ([v], .done) := by
  intro c
  have hg : mo.get? c.1 (vid v) = some v := by
    show mo.get? (mo.set m (vid v) v) (vid v) = some v
    rw [hm.get_set _ _ _ _ trivial]; simp
  have h := iterVertsLoop_chain (pathsView mo lo vid c.1 c.2) (mo.get? c.1)
    (fun k x h => hm.raw_of_get _ _ _ h) (Chain.start (vid := vid) hg) (fuel + 1) (by simp)
  unfold PathsView.iterVerticesFromStart PathsView.iterVerticesToStart
  have hcc : (pathsView mo lo vid c.1 c.2).contains ((pathsView mo lo vid c.1 c.2).vid v) = true := by
    show (mo.get? c.1 (vid v)).isSome = true
    rw [hg]; rfl
  rw [if_pos hcc, h]; rfl

/-- Concatenation of a forward path with the reverse of a backward path that ends at the same vertex. -/
def joinPaths (f b : SPath V L) : List V := f.verts ++ b.verts.reverse.tail

/-- **C34.** `Path.from_bidirectional_search`: if the forward container stores the path `f` for the
connecting vertex and the backward container stores `b` (a path from a goal vertex along reversed edges),
then the path object iterates the vertices of `f` followed by those of `b` reversed, once the connecting
vertex; the labeled edges of `f`, followed by the edges of `b`, last one first, each turned around; the
iterations to start give the reversed sequences; and the unlabeled edges are the labeled edges without labels. -/
theorem C34_bidirectional_path (pf pb : PathsView V K L) (getF getB : K → Option V) (labF labB : K → Option L)
    (hcf : ∀ k, pf.contains k = (getF k).isSome) (hcb : ∀ k, pb.contains k = (getB k).isSome)
    (hrf : ∀ k x, getF k = some x → pf.rawPred k = some (some x))
    (hrb : ∀ k x, getB k = some x → pb.rawPred k = some (some x))
    (hlf : ∀ k x, labF k = some x → pf.rawLabel k = some (some x))
    (hlb : ∀ k x, labB k = some x → pb.rawLabel k = some (some x))
    {v : V} {f b : SPath V L} (hf : StoredPath getF labF pf.vid v f) (hb : StoredPath getB labB pb.vid v b)
    (fuel : Nat) (hff : f.steps.length < fuel) (hfb : b.steps.length < fuel) :
    let path := PathObj.fromBidirectionalSearch pf pb fuel v
    path.vertsForwards = f.verts ++ b.verts.reverse.tail ∧
    path.vertsBackwards = path.vertsForwards.reverse ∧
    path.edgesForwards = f.edges ++ (b.edges.reverse.map (fun e => (e.2.1, e.1, e.2.2))) ∧
    path.edgesBackwards = path.edgesForwards.reverse ∧
    path.iterEdgesFromStart = path.edgesForwards.map (fun e => (e.1, e.2.1)) ∧
    path.iterEdgesToStart = path.iterEdgesFromStart.reverse := by
  have of := stored_observations pf getF labF hcf hrf hlf hf fuel hff
  have ob := stored_observations pb getB labB hcb hrb hlb hb fuel hfb
  have hvf : f.verts.getLast? = some v := by simpa using hf.1.head
  have hvb : b.verts.getLast? = some v := by simpa using hb.1.head
  obtain ⟨fi, hfi⟩ : ∃ fi, f.verts = fi ++ [v] := by
    rw [List.getLast?_eq_some_iff] at hvf; exact hvf
  obtain ⟨bi, hbi⟩ : ∃ bi, b.verts = bi ++ [v] := by
    rw [List.getLast?_eq_some_iff] at hvb; exact hvb
  intro path
  have h1 : path.vertsForwards = f.verts ++ b.verts.reverse.tail := by
    show takeExceptForLast (pf.iterVerticesFromStart fuel v).1 ++ (pb.iterVerticesToStart fuel v).1 = _
    rw [of.2.1, ob.1, takeExceptForLast_eq, hfi, hbi]; simp
  have h2 : path.vertsBackwards = path.vertsForwards.reverse := by
    rw [h1]
    show (pb.iterVerticesFromStart fuel v).1 ++ ((pf.iterVerticesToStart fuel v).1).drop 1 = _
    rw [ob.2.1, of.1, hfi, hbi]; simp
  have h3 : path.edgesForwards = f.edges ++ (b.edges.reverse.map (fun e => (e.2.1, e.1, e.2.2))) := by
    show (pf.iterLabeledEdgesFromStart fuel v).1 ++ reverseEdges (pb.iterLabeledEdgesToStart fuel v).1 = _
    rw [of.2.2.2.2.2, ob.2.2.2.2.1]; rfl
  have h4 : path.edgesBackwards = path.edgesForwards.reverse := by
    rw [h3]
    show reverseEdges (pb.iterLabeledEdgesFromStart fuel v).1 ++ (pf.iterLabeledEdgesToStart fuel v).1 = _
    rw [ob.2.2.2.2.2, of.2.2.2.2.1]
    simp [reverseEdges]
  have pw_append : ∀ (l : List V) (x : V) (r : List V),
      pairwise (l ++ x :: r) = pairwise (l ++ [x]) ++ pairwise (x :: r) := by
    intro l x r
    induction l with
    | nil => simp [pairwise]
    | cons a l ih =>
      cases l with
      | nil => simp [pairwise]
      | cons c l => simp only [List.cons_append, pairwise] at ih ⊢; rw [ih]
  have pw_rev : ∀ l : List V, pairwise l.reverse = ((pairwise l).map (fun e => (e.2, e.1))).reverse := by
    intro l
    induction l with
    | nil => rfl
    | cons a l ih =>
      cases l with
      | nil => rfl
      | cons c l =>
        simp only [List.reverse_cons, List.append_assoc, List.cons_append, List.nil_append, pairwise,
          List.map_cons] at ih ⊢
        rw [pw_append, ih]
        simp [pairwise]
  have hfp : pairwise f.verts = f.edges.map (fun e => (e.1, e.2.1)) :=
    (edgesFrom_pairwise f.first f.steps).symm
  have hbp : pairwise b.verts = b.edges.map (fun e => (e.1, e.2.1)) :=
    (edgesFrom_pairwise b.first b.steps).symm
  have h5 : path.iterEdgesFromStart = path.edgesForwards.map (fun e => (e.1, e.2.1)) := by
    unfold PathObj.iterEdgesFromStart
    rw [h1, h3, List.map_append, ← hfp]
    have hb2 : b.verts.reverse = v :: bi.reverse := by rw [hbi]; simp
    have : f.verts ++ b.verts.reverse.tail = fi ++ v :: bi.reverse := by rw [hfi, hb2]; simp
    rw [this, pw_append, ← hfi, ← hb2, pw_rev, hbp]
    simp [Function.comp_def]
  refine ⟨h1, h2, h3, h4, h5, ?_⟩
  unfold PathObj.iterEdgesToStart PathObj.iterEdgesFromStart
  rw [h2, pw_rev]
  simp [Function.comp_def]

/-- Non-vacuity of C34: forward container 0→1→2, backward container 4→3→2 (labels 'd','c'). -/
example :
    let cf := fillPaths dictMap dictMap id [0] [(0, 1, 'a'), (1, 2, 'b')]
    let cb := fillPaths dictMap dictMap id [4] [(4, 3, 'd'), (3, 2, 'c')]
    let path := PathObj.fromBidirectionalSearch (pathsView dictMap dictMap (id : Nat → Nat) cf.1 cf.2)
      (pathsView dictMap dictMap (id : Nat → Nat) cb.1 cb.2) 9 2
    path.vertsForwards = [0, 1, 2, 3, 4] ∧
    path.edgesForwards = [(0, 1, 'a'), (1, 2, 'b'), (2, 3, 'c'), (3, 4, 'd')] := by decide

/-- Non-vacuity of the hypotheses `StoredPath` of C34, from C33's invariant. -/
example : ∃ p : SPath Nat Char, p.steps.length = 2 ∧
    StoredPath (dictMap.get? (fillPaths dictMap dictMap id [0] [(0, 1, 'a'), (1, 2, 'b')]).1)
      (dictMap.get? (fillPaths dictMap dictMap id [0] [(0, 1, 'a'), (1, 2, 'b')]).2) id 2 p := by
  refine ⟨⟨0, [(1, 'a'), (2, 'b')]⟩, rfl, ?_, by decide⟩
  exact .step (u := 1) rfl (by decide) (.step (u := 0) rfl (by decide) (.start rfl))

/-- **C34 (trivial paths).** -/
theorem C34_trivial_paths (v : V) :
    (PathObj.ofNothing : PathObj V L).vertsForwards = [] ∧
    (PathObj.ofNothing : PathObj V L).iterEdgesFromStart = [] ∧
    (PathObj.fromVertex v : PathObj V L).vertsForwards = [v] ∧
    (PathObj.fromVertex v : PathObj V L).vertsBackwards = [v] ∧
    (PathObj.fromVertex v : PathObj V L).edgesForwards = [] ∧
    (PathObj.fromVertex v : PathObj V L).iterEdgesFromStart = [] ∧
    (PathObj.fromVertex v : PathObj V L).iterEdgesToStart = [] := by
  simp [PathObj.ofNothing, PathObj.fromVertex, PathObj.iterEdgesFromStart, PathObj.iterEdgesToStart, pairwise]

end NoGraphs
