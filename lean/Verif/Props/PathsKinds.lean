import Verif.Model.PathsKinds
import Verif.Props.Paths
import Verif.Proofs.Shows

/-! # Property C89: access to paths -/

set_option linter.unusedSectionVars false

namespace NoGraphs

open Spec

variable {V K L M ML : Type} [DecidableEq V] [DecidableEq K]

/-! ## What the methods of the classes do, in terms of the iterations -/

namespace PathsObj

/-- The container of `o`, if it has one. -/
def view? : PathsObj V K L → Option (PathsView V K L)
  | .dummy _ => none
  | .unlabeled p => some p
  | .labeled p => some p

theorem check_ok {o : PathsObj V K L} {p : PathsView V K L} (h : o.view? = some p) {v : V}
    (hc : p.contains (p.vid v) = true) : o.check (some v) = .ok v := by
  cases o <;> simp_all [view?, check]

theorem check_missing {o : PathsObj V K L} {v : Option V}
    (h : ∀ p, o.view? = some p → ∀ w, v = some w → p.contains (p.vid w) = false) :
    o.check v = .error .runtimeError := by
  cases o with
  | dummy => rfl
  | unlabeled p => cases v with
    | none => rfl
    | some w => simp [check, h p rfl w rfl]
  | labeled p => cases v with
    | none => rfl
    | some w => simp [check, h p rfl w rfl]

theorem raw_missing {o : PathsObj V K L} {v : Option V} (h : o.check v = .error .runtimeError) (fuel : Nat) :
    o.iterRawEdgesToStart fuel v = ([], .raised .runtimeError) := by
  simp [iterRawEdgesToStart, h]

/-- Everything that asks for a path that is not stored raises `RuntimeError`, and no loop sees an element. -/
theorem all_missing {o : PathsObj V K L} {v : Option V} (h : o.check v = .error .runtimeError) (fuel : Nat) :
    o.predecessor v = .error .runtimeError ∧
    o.getItem fuel v = .error (.raised .runtimeError) ∧
    (o.iterVerticesFromStart fuel v).loop = ([], .raised .runtimeError) ∧
    (o.iterVerticesToStart fuel v).loop = ([], .raised .runtimeError) ∧
    (o.iterEdgesFromStart fuel v).loop = ([], .raised .runtimeError) ∧
    (o.iterEdgesToStart fuel v).loop = ([], .raised .runtimeError) ∧
    (o.iterLabeledEdgesFromStart fuel v).loop = ([], .raised .runtimeError) ∧
    (o.iterLabeledEdgesToStart fuel v).loop = ([], .raised .runtimeError) := by
  have hr := raw_missing h fuel
  have hv : o.iterVerticesToStart fuel v = .ok ([], .raised .runtimeError) := by simp [iterVerticesToStart, h]
  have hvf : o.iterVerticesFromStart fuel v = .error .runtimeError := by
    simp [iterVerticesFromStart, hv, reversedTuple]
  have he : o.iterEdgesToStart fuel v = .ok ([], .raised .runtimeError) := by simp [iterEdgesToStart, hr]
  have hef : o.iterEdgesFromStart fuel v = .error .runtimeError := by simp [iterEdgesFromStart, he, reversedTuple]
  have hl : (o.iterLabeledEdgesToStart fuel v).loop = ([], .raised .runtimeError) := by
    cases o <;> simp [iterLabeledEdgesToStart, IterCall.loop, hr, PathsView.iterPathEdges]
  have hlf : o.iterLabeledEdgesFromStart fuel v = .error .runtimeError := by
    cases o <;> simp [iterLabeledEdgesFromStart, hr, reversedTuple]
  refine ⟨by simp [predecessor, h], ?_, by rw [hvf]; rfl, by rw [hv]; rfl, by rw [hef]; rfl, by rw [he]; rfl,
    by rw [hlf]; rfl, hl⟩
  cases o with
  | dummy => rfl
  | unlabeled p => simp only [getItem, hvf]; rfl
  | labeled p => simp only [getItem, hlf]; rfl

/-- The methods of a container that shows the path `p` for `v`. -/
theorem all_shown {o : PathsObj V K L} {pv : PathsView V K L} (ho : o.view? = some pv) {v : V} {p : SPath V L}
    (h : ShowsPath pv v p) :
    o.contains (some v) = .ok true ∧ o.predecessor (some v) = pv.predecessor v ∧ ∀ fuel, p.steps.length < fuel →
    o.iterVerticesFromStart fuel (some v) = .ok (p.verts, .done) ∧
    o.iterVerticesToStart fuel (some v) = .ok (p.verts.reverse, .done) ∧
    o.iterEdgesFromStart fuel (some v) = .ok (p.edges.map (fun e => (e.1, e.2.1)), .done) ∧
    o.iterEdgesToStart fuel (some v) = .ok ((p.edges.map (fun e => (e.1, e.2.1))).reverse, .done) ∧
    o.iterRawEdgesToStart fuel (some v) = pv.iterRawEdgesToStart fuel v := by
  obtain ⟨hc, hs⟩ := h
  have hck := check_ok ho hc
  refine ⟨?_, ?_, fun fuel hf => ?_⟩
  · cases o <;> simp_all [view?, contains]
  · cases o <;> simp_all [view?, predecessor]
  obtain ⟨h1, h2, h3, h4, -, -⟩ := hs fuel hf
  have hraw : o.iterRawEdgesToStart fuel (some v) = pv.iterRawEdgesToStart fuel v := by
    cases o <;> simp_all [view?, iterRawEdgesToStart, PathsView.iterRawEdgesToStart]
  have hv : o.iterVerticesToStart fuel (some v) = .ok (p.verts.reverse, .done) := by
    rw [← h2]
    cases o <;> simp_all [view?, iterVerticesToStart, PathsView.iterVerticesToStart]
  have he : o.iterEdgesToStart fuel (some v) = .ok ((p.edges.map (fun e => (e.1, e.2.1))).reverse, .done) := by
    rw [← h4]; simp only [iterEdgesToStart, hraw]; rfl
  refine ⟨?_, hv, ?_, he, hraw⟩
  · simp [iterVerticesFromStart, hv, reversedTuple]
  · simp [iterEdgesFromStart, he, reversedTuple]

theorem labeled_shown {pv : PathsView V K L} {v : V} {p : SPath V L} (h : ShowsPath pv v p) {fuel : Nat}
    (hf : p.steps.length < fuel) :
    (PathsObj.labeled pv).iterLabeledEdgesFromStart fuel (some v) = .ok (p.edges, .done) ∧
    (PathsObj.labeled pv).iterLabeledEdgesToStart fuel (some v) = .ok (p.edges.reverse, .done) := by
  have hraw := ((all_shown (o := .labeled pv) rfl h).2.2 fuel hf).2.2.2.2
  obtain ⟨-, -, h3, h4, h5, h6⟩ := h.2 fuel hf
  constructor
  · rw [← h5]
    simp only [iterLabeledEdgesFromStart, hraw, PathsView.iterLabeledEdgesFromStart]
    rcases hr : pv.iterRawEdgesToStart fuel v with ⟨l, _ | _ | e⟩ <;> simp [reversedTuple]
    · have := h4; simp [PathsView.iterEdgesToStart, hr] at this
    · have := h4; simp [PathsView.iterEdgesToStart, hr] at this
  · rw [← h6]
    simp only [iterLabeledEdgesToStart, hraw, PathsView.iterLabeledEdgesToStart]

end PathsObj

/-! ## C89 -/

/-- **C89, no paths.** The container of a traversal that has not been started, and the one of a traversal that has been
started without requesting paths, contain no path, and each method that asks for a path raises `RuntimeError`, for each
vertex; `None` is never accepted as a vertex. -/
theorem C89_no_paths (labeledEdges : Bool) (mo : MapOps M K V) (lo : MapOps ML K L) (vid : V → K) (m : M) (ml : ML)
    (paths : PathsObj V K L)
    (hp : paths = .notStarted vid ∨ paths = .ofTraversal false labeledEdges mo lo vid m ml) (v : Option V) :
    paths.contains v = (if v = none then .error .runtimeError else .ok false) ∧
    paths.predecessor v = .error .runtimeError ∧
    ∀ fuel,
      paths.getItem fuel v = .error (.raised .runtimeError) ∧
      (paths.iterVerticesFromStart fuel v).loop = ([], .raised .runtimeError) ∧
      (paths.iterVerticesToStart fuel v).loop = ([], .raised .runtimeError) ∧
      (paths.iterEdgesFromStart fuel v).loop = ([], .raised .runtimeError) ∧
      (paths.iterEdgesToStart fuel v).loop = ([], .raised .runtimeError) ∧
      (paths.iterLabeledEdgesFromStart fuel v).loop = ([], .raised .runtimeError) ∧
      (paths.iterLabeledEdgesToStart fuel v).loop = ([], .raised .runtimeError) := by
  have hd : paths = .dummy vid := by rcases hp with h | h <;> rw [h] <;> rfl
  subst hd
  have hck : (PathsObj.dummy vid : PathsObj V K L).check v = .error .runtimeError := rfl
  refine ⟨by cases v <;> rfl, (PathsObj.all_missing hck 0).1, fun fuel => (PathsObj.all_missing hck fuel).2⟩

example : (PathsObj.ofTraversal false true dictMap dictMap id (dictMap.set dictMap.empty 1 0) dictMap.empty :
    PathsObj Nat Nat Char).getItem 9 (some 1) = .error (.raised .runtimeError) := by rfl

/-- **C89, paths requested.** The container of a traversal that was started with paths and that has stored them by any
legal history of appended edges: if the history specifies the path `p` for `v`, then `paths[v]` is the sequence of the
labeled edges of `p` if the traversal knows the labels, and otherwise the sequence of the vertices of `p`; the iterations of
labeled edges give these edges, respectively raise `RuntimeError`; all other methods give the vertices and edges of `p`.
For a vertex without a path, and for `None`, everything except for `in` raises `RuntimeError`. -/
theorem C89_paths (labeledEdges : Bool) (mo : MapOps M K V) (lo : MapOps ML K L) (vid : V → K)
    {validV : V → Prop} {validL : L → Prop} (hm : mo.Lawful validV) (hl : lo.Lawful validL)
    (hinj : Function.Injective vid) (starts : List V) (hist : List (V × V × L))
    (hvS : ∀ v ∈ starts, validV v) (hvV : ∀ e ∈ hist, validV e.1) (hvL : ∀ e ∈ hist, validL e.2.2)
    (hleg : (Store.ofStarts starts).Legal hist) (v : Option V) :
    let c := fillPaths mo lo vid starts hist
    let paths : PathsObj V K L := .ofTraversal true labeledEdges mo lo vid c.1 c.2
    match v.bind ((Store.ofStarts starts).run hist) with
    | some p =>
      paths.contains v = .ok true ∧
      paths.predecessor v = .ok (p.verts.dropLast.getLast?) ∧
      ∀ fuel, p.steps.length < fuel →
        paths.getItem fuel v = .ok (if labeledEdges then .inr p.edges else .inl p.verts) ∧
        (paths.iterVerticesFromStart fuel v).loop = (p.verts, .done) ∧
        (paths.iterVerticesToStart fuel v).loop = (p.verts.reverse, .done) ∧
        (paths.iterEdgesFromStart fuel v).loop = (p.edges.map (fun e => (e.1, e.2.1)), .done) ∧
        (paths.iterEdgesToStart fuel v).loop = ((p.edges.map (fun e => (e.1, e.2.1))).reverse, .done) ∧
        (paths.iterLabeledEdgesFromStart fuel v).loop =
          (if labeledEdges then (p.edges, .done) else ([], .raised .runtimeError)) ∧
        (paths.iterLabeledEdgesToStart fuel v).loop =
          (if labeledEdges then (p.edges.reverse, .done) else ([], .raised .runtimeError))
    | none =>
      paths.contains v = (if v = none then .error .runtimeError else .ok false) ∧
      paths.predecessor v = .error .runtimeError ∧
      ∀ fuel,
        paths.getItem fuel v = .error (.raised .runtimeError) ∧
        (paths.iterVerticesFromStart fuel v).loop = ([], .raised .runtimeError) ∧
        (paths.iterVerticesToStart fuel v).loop = ([], .raised .runtimeError) ∧
        (paths.iterEdgesFromStart fuel v).loop = ([], .raised .runtimeError) ∧
        (paths.iterEdgesToStart fuel v).loop = ([], .raised .runtimeError) ∧
        (paths.iterLabeledEdgesFromStart fuel v).loop = ([], .raised .runtimeError) ∧
        (paths.iterLabeledEdgesToStart fuel v).loop = ([], .raised .runtimeError) := by
  intro c paths
  have hview : paths.view? = some (pathsView mo lo vid c.1 c.2) := by
    cases labeledEdges <;> rfl
  split
  · rename_i p hp
    obtain ⟨v, rfl, hp⟩ := Option.bind_eq_some_iff.1 hp
    have h33 := C33_paths_container mo lo vid hm hl hinj starts hist hvS hvV hvL hleg v
    dsimp only at h33
    rw [show (Store.ofStarts starts).run hist v = some p from hp] at h33
    dsimp only at h33
    have hsh : ShowsPath (pathsView mo lo vid c.1 c.2) v p := ⟨h33.1, h33.2.2⟩
    obtain ⟨h1, h2, h3⟩ := PathsObj.all_shown hview hsh
    refine ⟨h1, h2.trans h33.2.1, fun fuel hf => ?_⟩
    obtain ⟨h4, h5, h6, h7, -⟩ := h3 fuel hf
    obtain ⟨h8, h9⟩ := PathsObj.labeled_shown hsh hf
    refine ⟨?_, by rw [h4]; rfl, by rw [h5]; rfl, by rw [h6]; rfl, by rw [h7]; rfl, ?_, ?_⟩
    · cases labeledEdges
      · show ((PathsObj.unlabeled _).iterVerticesFromStart fuel (some v)).tuple.map Sum.inl = _
        rw [show (PathsObj.unlabeled (pathsView mo lo vid c.1 c.2)).iterVerticesFromStart fuel (some v) = _ from h4]; rfl
      · show ((PathsObj.labeled _).iterLabeledEdgesFromStart fuel (some v)).tuple.map Sum.inr = _
        rw [h8]; rfl
    · cases labeledEdges
      · rfl
      · exact congrArg IterCall.loop h8
    · cases labeledEdges
      · rfl
      · exact congrArg IterCall.loop h9
  · rename_i hn
    have hmiss : ∀ w, v = some w → (pathsView mo lo vid c.1 c.2).contains (vid w) = false := by
      rintro w rfl
      have h33 := C33_paths_container mo lo vid hm hl hinj starts hist hvS hvV hvL hleg w
      simp only [Option.bind_some] at hn
      dsimp only at h33
      rw [show (Store.ofStarts starts).run hist w = none from hn] at h33
      dsimp only at h33
      exact h33.1
    have hck : paths.check v = .error .runtimeError := by
      refine PathsObj.check_missing (fun p hp w hw => ?_)
      rw [hview, Option.some_inj] at hp
      subst hp
      exact hmiss w hw
    refine ⟨?_, (PathsObj.all_missing hck 0).1, fun fuel => (PathsObj.all_missing hck fuel).2⟩
    cases v with
    | none => rfl
    | some w =>
      cases labeledEdges
      · exact congrArg Except.ok (hmiss w rfl)
      · exact congrArg Except.ok (hmiss w rfl)

/-- Both kinds of containers for the same history. -/
example :
    let c := fillPaths (dictMap (X := Nat)) (dictMap (X := Char)) (id : Nat → Nat) [0] [(0, 1, 'a'), (1, 2, 'b')]
    (PathsObj.ofTraversal true true dictMap dictMap id c.1 c.2).getItem 9 (some 2) =
      .ok (.inr [(0, 1, 'a'), (1, 2, 'b')]) ∧
    (PathsObj.ofTraversal true false dictMap dictMap id c.1 c.2).getItem 9 (some 2) = .ok (.inl [0, 1, 2]) ∧
    (PathsObj.ofTraversal true false dictMap dictMap id c.1 c.2).getItem 9 (some 3) = .error (.raised .runtimeError) := by
  exact ⟨rfl, rfl, rfl⟩

/-- **C89, paths of traversals.** Whenever the collections of a traversal show the path `p` for `v` (this is what the
properties about the paths of the strategies say: C04, C07, C09, C21, C56, C57, C60, C63), then `v in paths` holds, and
`paths[v]` is the sequence of its labeled edges, respectively of its vertices. -/
theorem C89_item_of_shown_path (labeledEdges : Bool) (mo : MapOps M K V) (lo : MapOps ML K L) (vid : V → K) (m : M) (ml : ML)
    (v : V) (p : SPath V L) (h : ShowsPath (pathsView mo lo vid m ml) v p) :
    let paths : PathsObj V K L := .ofTraversal true labeledEdges mo lo vid m ml
    paths.contains (some v) = .ok true ∧ ∀ fuel, p.steps.length < fuel →
      paths.getItem fuel (some v) = .ok (if labeledEdges then .inr p.edges else .inl p.verts) := by
  intro paths
  have hview : paths.view? = some (pathsView mo lo vid m ml) := by cases labeledEdges <;> rfl
  obtain ⟨h1, -, h3⟩ := PathsObj.all_shown hview h
  refine ⟨h1, fun fuel hf => ?_⟩
  cases labeledEdges
  · show ((PathsObj.unlabeled _).iterVerticesFromStart fuel (some v)).tuple.map Sum.inl = _
    rw [show (PathsObj.unlabeled (pathsView mo lo vid m ml)).iterVerticesFromStart fuel (some v) = _ from (h3 fuel hf).1]
    rfl
  · show ((PathsObj.labeled _).iterLabeledEdgesFromStart fuel (some v)).tuple.map Sum.inr = _
    rw [(PathsObj.labeled_shown h hf).1]; rfl

/-- **C89, path objects.** The path object of a bidirectional search with path generation, for a vertex for which the two
containers show `f` and `b`: `iter(path)` gives the labeled edges of the whole path if labels are known, and otherwise its
vertices; the iterations of labeled edges of an unlabeled path raise `RuntimeError`; the iterations of vertices and edges
are the same for both kinds. -/
theorem C89_path_object (labeledEdges : Bool) (mo : MapOps M K V) (lo : MapOps ML K L) (vid : V → K) (mf mb : M)
    (mlf mlb : ML) {v : V} {f b : SPath V L} (hf : ShowsPath (pathsView mo lo vid mf mlf) v f)
    (hb : ShowsPath (pathsView mo lo vid mb mlb) v b) (hfv : f.verts.getLast? = some v) (hbv : b.verts.getLast? = some v)
    (fuel : Nat) (hff : f.steps.length < fuel) (hfb : b.steps.length < fuel) :
    let path : PathCalls V L := .fromBidirectionalSearch labeledEdges (.ofTraversal true labeledEdges mo lo vid mf mlf)
      (.ofTraversal true labeledEdges mo lo vid mb mlb) fuel v
    let verts := f.verts ++ b.verts.reverse.tail
    let edges := f.edges ++ (b.edges.reverse.map (fun e => (e.2.1, e.1, e.2.2)))
    path.iter = (if labeledEdges then .inr (.ok (edges, .done)) else .inl (.ok (verts, .done))) ∧
    path.vertexForwards = .ok (verts, .done) ∧
    path.vertexBackwards = .ok (verts.reverse, .done) ∧
    path.edgeForwards = (if labeledEdges then .ok (edges, .done) else .error .runtimeError) ∧
    path.edgeBackwards = (if labeledEdges then .ok (edges.reverse, .done) else .error .runtimeError) ∧
    path.iterEdgesFromStart = .ok (pairwise verts, .done) ∧
    path.iterEdgesToStart.loop = ((pairwise verts.reverse).map (fun wv => (wv.2, wv.1)), .done) := by
  intro path verts edges
  obtain ⟨fi, hfi⟩ := List.getLast?_eq_some_iff.1 hfv
  obtain ⟨bi, hbi⟩ := List.getLast?_eq_some_iff.1 hbv
  have hviewf : (PathsObj.ofTraversal true labeledEdges mo lo vid mf mlf).view? = some (pathsView mo lo vid mf mlf) := by
    cases labeledEdges <;> rfl
  have hviewb : (PathsObj.ofTraversal true labeledEdges mo lo vid mb mlb).view? = some (pathsView mo lo vid mb mlb) := by
    cases labeledEdges <;> rfl
  obtain ⟨f1, f2, -⟩ := (PathsObj.all_shown hviewf hf).2.2 fuel hff
  obtain ⟨b1, b2, -⟩ := (PathsObj.all_shown hviewb hb).2.2 fuel hfb
  have h1 : path.vertexForwards = .ok (verts, .done) := by
    show chainCalls (mapCall _ _) _ = _
    rw [f1, b2]
    simp [mapCall, chainCalls, takeExceptForLast_eq, verts, hfi, hbi]
  have h2 : path.vertexBackwards = .ok (verts.reverse, .done) := by
    show chainCalls _ (mapCall _ _) = _
    rw [f2, b1]
    simp [mapCall, chainCalls, verts, hfi, hbi]
  have h3 : path.edgeForwards = (if labeledEdges then .ok (edges, .done) else .error .runtimeError) := by
    cases labeledEdges
    · rfl
    · show chainCalls ((PathsObj.labeled _).iterLabeledEdgesFromStart fuel (some v))
        (mapCall reverseEdges ((PathsObj.labeled _).iterLabeledEdgesToStart fuel (some v))) = _
      rw [(PathsObj.labeled_shown hf hff).1, (PathsObj.labeled_shown hb hfb).2]
      rfl
  have h4 : path.edgeBackwards = (if labeledEdges then .ok (edges.reverse, .done) else .error .runtimeError) := by
    cases labeledEdges
    · rfl
    · show chainCalls (mapCall reverseEdges ((PathsObj.labeled _).iterLabeledEdgesFromStart fuel (some v)))
        ((PathsObj.labeled _).iterLabeledEdgesToStart fuel (some v)) = _
      rw [(PathsObj.labeled_shown hb hfb).1, (PathsObj.labeled_shown hf hff).2]
      simp [mapCall, chainCalls, reverseEdges, edges]
  refine ⟨?_, h1, h2, h3, h4, ?_, ?_⟩
  · unfold PathCalls.iter
    rw [h1, h3]
    cases labeledEdges <;> rfl
  · unfold PathCalls.iterEdgesFromStart; rw [h1]; rfl
  · unfold PathCalls.iterEdgesToStart; rw [h2]; rfl

/-- **C89, path objects without edges.** The path objects for a start vertex that is also a goal vertex, and for no
path: `iter(path)`. The iteration of labeled edges is empty, even if the graph has no labels. -/
theorem C89_trivial_path (labeledEdges : Bool) (v : V) :
    (PathCalls.fromVertex labeledEdges v : PathCalls V L).iter =
      (if labeledEdges then .inr (.ok ([], .done)) else .inl (.ok ([v], .done))) ∧
    (PathCalls.fromVertex labeledEdges v : PathCalls V L).edgeForwards = .ok ([], .done) ∧
    (PathCalls.ofNothing labeledEdges : PathCalls V L).iter =
      (if labeledEdges then .inr (.ok ([], .done)) else .inl (.ok ([], .done))) := by
  cases labeledEdges <;> exact ⟨rfl, rfl, rfl⟩

/-- A path object in both kinds: forward 0→1→2, backward 4→3→2. -/
example :
    let cf := fillPaths (dictMap (X := Nat)) (dictMap (X := Char)) (id : Nat → Nat) [0] [(0, 1, 'a'), (1, 2, 'b')]
    let cb := fillPaths (dictMap (X := Nat)) (dictMap (X := Char)) (id : Nat → Nat) [4] [(4, 3, 'd'), (3, 2, 'c')]
    let path (l : Bool) : PathCalls Nat Char := .fromBidirectionalSearch l (.ofTraversal true l dictMap dictMap id cf.1 cf.2)
      (.ofTraversal true l dictMap dictMap id cb.1 cb.2) 9 2
    (path false).iter = .inl (.ok ([0, 1, 2, 3, 4], .done)) ∧
    (path true).iter = .inr (.ok ([(0, 1, 'a'), (1, 2, 'b'), (2, 3, 'c'), (3, 4, 'd')], .done)) ∧
    (path false).edgeForwards = .error .runtimeError := by
  exact ⟨rfl, rfl, rfl⟩

end NoGraphs
