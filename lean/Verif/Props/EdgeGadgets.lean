import Verif.Model.EdgeGadgets
import Verif.Spec.Gadgets

/-! # C43: the edge adapters `adapt_edge_index` and `adapt_edge_iterable` -/

namespace NoGraphs

open Spec

variable {V D : Type} [DecidableEq V]

theorem ddAppend_apply {X : Type} (d : V → List X) (v w : V) (x : X) :
    ddAppend d v x w = d w ++ (if v = w then [x] else []) := by
  unfold ddAppend
  by_cases h : w = v
  · subst h; simp
  · rw [if_neg h, if_neg (Ne.symm h)]; simp

theorem foldl_ddAppend {X E : Type} (f : (V → List X) → E → V → List X) (h : E → V → List X)
    (hf : ∀ d e w, f d e w = d w ++ h e w) (es : List E) (d : V → List X) (w : V) :
    es.foldl f d w = d w ++ es.flatMap (fun e => h e w) := by
  induction es generalizing d with
  | nil => simp
  | cons e es ih => rw [List.foldl_cons, ih, hf, List.flatMap_cons, List.append_assoc]

/-- **C43, edges with data.** `adapt_edge_iterable(edges, attributes=True)` gives for each vertex exactly its edges, in
the given order and with their data, and with `add_inverted` also the inverted edges. -/
theorem C43_iterable_data (edges : List (FullSeq V D)) (inverted : Bool) (v : V) :
    (adaptIterableData edges inverted v).map (fun o => (o.to, o.data)) =
      edgesOf (edges.map (fun e => (e.src, e.to, e.data))) inverted v := by
  unfold adaptIterableData edgesOf
  cases inverted with
  | true =>
    simp only [if_true, true_and]
    rw [foldl_ddAppend _ (fun e w => (if e.src = w then [⟨true, e.to, e.data⟩] else []) ++
      (if e.to = w then [⟨true, e.src, e.data⟩] else []))
      (fun d e w => by rw [ddAppend_apply, ddAppend_apply, List.append_assoc])]
    rw [List.nil_append, List.map_flatMap, List.flatMap_map]
    congr 1; funext e
    rw [List.map_append]
    congr 1
    · split <;> rfl
    · split <;> rfl
  | false =>
    simp only [Bool.false_eq_true, if_false, false_and, List.append_nil]
    rw [foldl_ddAppend _ (fun e w => if e.src = w then [⟨e.isTuple, e.to, e.data⟩] else [])
      (fun d e w => ddAppend_apply ..)]
    rw [List.nil_append, List.map_flatMap, List.flatMap_map]
    congr 1; funext e
    split <;> rfl

/-- **C43, edges without data.** The same for `attributes=False`, where vertices are given. -/
theorem C43_iterable_plain (edges : List (V × V)) (inverted : Bool) (v : V) :
    adaptIterablePlain edges inverted v =
      (edgesOf (edges.map (fun e => (e.1, e.2, ()))) inverted v).map Prod.fst := by
  unfold adaptIterablePlain edgesOf
  cases inverted with
  | true =>
    simp only [if_true, true_and]
    rw [foldl_ddAppend _ (fun e w => (if e.1 = w then [e.2] else []) ++ (if e.2 = w then [e.1] else []))
      (fun d e w => by rw [ddAppend_apply, ddAppend_apply, List.append_assoc])]
    rw [List.nil_append, List.map_flatMap, List.flatMap_map]
    congr 1; funext e
    rw [List.map_append]
    congr 1
    · split <;> rfl
    · split <;> rfl
  | false =>
    simp only [Bool.false_eq_true, if_false, false_and, List.append_nil]
    rw [foldl_ddAppend _ (fun e w => if e.1 = w then [e.2] else []) (fun d e w => ddAppend_apply ..)]
    rw [List.nil_append, List.map_flatMap, List.flatMap_map]
    congr 1; funext e
    split <;> rfl

theorem mappingGet_of_mem {X : Type} {items : List (V × List X)} (hn : (items.map Prod.fst).Nodup)
    {p : V × List X} (hp : p ∈ items) : mappingGet items p.1 = p.2 := by
  induction items with
  | nil => simp at hp
  | cons q items ih =>
    rw [List.map_cons, List.nodup_cons] at hn
    unfold mappingGet
    rw [List.find?_cons]
    rcases List.mem_cons.1 hp with rfl | hp
    · simp
    · have hne : q.1 ≠ p.1 := fun e => hn.1 (e ▸ List.mem_map_of_mem hp)
      simp only [hne, decide_false]
      exact ih hn.2 hp

theorem mappingGet_of_not_mem {X : Type} {items : List (V × List X)} {v : V} (hv : v ∉ items.map Prod.fst) :
    mappingGet items v = [] := by
  unfold mappingGet
  rw [List.find?_eq_none.2]
  intro p hp
  have : p.1 ≠ v := fun e => hv (e ▸ List.mem_map_of_mem hp)
  simpa using this

theorem mapM_prepend {W : Type} (l : List (W × OutSeq W D)) (h : ∀ q ∈ l, q.2.isTuple = true) :
    l.mapM (fun q => prependVertex q.1 q.2) =
      Except.ok (l.map (fun q => (⟨true, q.1, q.2.to, q.2.data⟩ : FullSeq W D))) := by
  induction l with
  | nil => rfl
  | cons q l ih =>
    rw [List.mapM_cons, ih (fun r hr => h r (List.mem_cons_of_mem _ hr))]
    simp [prependVertex, h q List.mem_cons_self, bind, Except.bind, pure, Except.pure]

/-- **C43, mapping, with data.** `adapt_edge_index` for a mapping from vertices to their out-edges. Without
`add_inverted`: the given edges of the vertex, none if the vertex is not in the mapping. With `add_inverted`: if all edges
are tuples, exactly the given edges and the inverted edges, in the order of the mapping. -/
theorem C43_mapping_data_partial (items : List (V × List (OutSeq V D))) (hkeys : (items.map Prod.fst).Nodup) :
    (∃ f, adaptMappingData items false = .ok f ∧ (∀ p ∈ items, f p.1 = p.2) ∧
      ∀ v, v ∉ items.map Prod.fst → f v = []) ∧
    ((∀ p ∈ items, ∀ e ∈ p.2, e.isTuple = true) →
      ∃ f, adaptMappingData items true = .ok f ∧ ∀ v, (f v).map (fun o => (o.to, o.data)) =
        edgesOf (items.flatMap (fun p => p.2.map (fun e => (p.1, e.to, e.data)))) true v) := by
  refine ⟨⟨_, rfl, fun p hp => mappingGet_of_mem hkeys hp, fun v hv => mappingGet_of_not_mem hv⟩, fun ht => ?_⟩
  refine ⟨adaptIterableData ((items.flatMap (fun p => p.2.map (fun e => (p.1, e)))).map
      (fun q => ⟨true, q.1, q.2.to, q.2.data⟩)) true, ?_, fun v => ?_⟩
  · unfold adaptMappingData
    rw [if_pos rfl, mapM_prepend _ (fun q hq => ?_)]
    · rfl
    · obtain ⟨p, hp, hq⟩ := List.mem_flatMap.1 hq
      obtain ⟨e, he, rfl⟩ := List.mem_map.1 hq
      exact ht p hp e he
  · rw [C43_iterable_data]
    congr 1
    simp [List.map_flatMap, Function.comp_def]

/-- **C43, mapping, without data.** -/
theorem C43_mapping_plain (items : List (V × List V)) (hkeys : (items.map Prod.fst).Nodup) :
    ((∀ p ∈ items, adaptMappingPlain items false p.1 = p.2) ∧
      ∀ v, v ∉ items.map Prod.fst → adaptMappingPlain items false v = []) ∧
    ∀ v, adaptMappingPlain items true v =
      (edgesOf (items.flatMap (fun p => p.2.map (fun w => (p.1, w, ())))) true v).map Prod.fst := by
  refine ⟨⟨fun p hp => mappingGet_of_mem hkeys hp, fun v hv => mappingGet_of_not_mem hv⟩, fun v => ?_⟩
  unfold adaptMappingPlain
  rw [if_pos rfl, C43_iterable_plain]
  congr 2
  simp [List.map_flatMap, Function.comp_def]

theorem sequenceGet_nonneg {X : Type} (index : List (List X)) (v : Nat) :
    sequenceGet index (v : Int) = (index[v]?).getD [] := by
  unfold sequenceGet pyIndex
  rw [if_pos (Int.natCast_nonneg v), Int.toNat_natCast]

/-- **C43, sequence, with data.** `adapt_edge_index` for a sequence, where vertices are positions in the sequence.
Without `add_inverted`, for vertices that are not negative: the edges at this position of the sequence, none behind its
end. With `add_inverted`: if all edges are tuples, exactly the given edges and the inverted edges. -/
theorem C43_sequence_data_partial (index : List (List (OutSeq Int D))) :
    (∃ f, adaptSequenceData index false = .ok f ∧ ∀ v : Nat, f v = (index[v]?).getD []) ∧
    ((∀ es ∈ index, ∀ e ∈ es, e.isTuple = true) →
      ∃ f, adaptSequenceData index true = .ok f ∧ ∀ v, (f v).map (fun o => (o.to, o.data)) =
        edgesOf (sequenceEdges OutSeq.to OutSeq.data index) true v) := by
  refine ⟨⟨_, rfl, sequenceGet_nonneg index⟩, fun ht => ?_⟩
  refine ⟨adaptIterableData (((numbered index).flatMap (fun p => p.2.map (fun e => (p.1, e)))).map
      (fun q => ⟨true, q.1, q.2.to, q.2.data⟩)) true, ?_, fun v => ?_⟩
  · unfold adaptSequenceData
    rw [if_pos rfl, mapM_prepend _ (fun q hq => ?_)]
    · rfl
    · obtain ⟨p, hp, hq⟩ := List.mem_flatMap.1 hq
      obtain ⟨e, he, rfl⟩ := List.mem_map.1 hq
      obtain ⟨x, hx, rfl⟩ := List.mem_map.1 hp
      refine ht x.1 ?_ e he
      obtain ⟨h1, h2⟩ := List.mem_zipIdx' hx
      rw [h2]; exact List.getElem_mem _
  · rw [C43_iterable_data]
    congr 1
    simp [sequenceEdges, numbered, List.map_flatMap, List.flatMap_map, Function.comp_def]

/-- **C43, sequence, without data.** -/
theorem C43_sequence_plain_partial (index : List (List Int)) :
    (∀ v : Nat, adaptSequencePlain index false v = (index[v]?).getD []) ∧
    ∀ v, adaptSequencePlain index true v =
      (edgesOf (sequenceEdges id (fun _ => ()) index) true v).map Prod.fst := by
  refine ⟨sequenceGet_nonneg index, fun v => ?_⟩
  unfold adaptSequencePlain
  rw [if_pos rfl, C43_iterable_plain]
  congr 2
  simp [sequenceEdges, numbered, List.map_flatMap, List.flatMap_map, Function.comp_def]

/-- **C43 is wrong for sequences and negative vertices.** In the graph with edges 0 → -1, 0 → 1 and 1 → 0, vertex -1 has
no edges, but gets those of vertex 1, the last of the sequence. -/
theorem C43_counterexample_negative :
    adaptSequencePlain [[-1, 1], [0]] false (-1) = [0] ∧
    edgesOf (sequenceEdges id (fun _ => ()) [[-1, 1], [0]]) false (-1) = [] := by decide

/-- **C43 is wrong for edges that are lists.** An edge may be any sequence, but with `add_inverted`, an edge given as list
leads to a `TypeError`; without, it works. -/
theorem C43_counterexample_list_edges :
    (∃ f, adaptMappingData [((0 : Nat), [(⟨false, 1, 'a'⟩ : OutSeq Nat Char)])] false = .ok f ∧ f 0 = [⟨false, 1, 'a'⟩]) ∧
    adaptMappingData [((0 : Nat), [(⟨false, 1, 'a'⟩ : OutSeq Nat Char)])] true = .error .typeError :=
  ⟨⟨_, rfl, by decide⟩, rfl⟩

/-! ## Non-vacuity -/

/-- Parallel edges, a self loop, and inverted edges. -/
example : (adaptIterableData [(⟨true, 0, 1, 'a'⟩ : FullSeq Nat Char), ⟨true, 1, 0, 'b'⟩, ⟨true, 0, 0, 'c'⟩,
      ⟨true, 0, 1, 'd'⟩] true 0).map (fun o => (o.to, o.data)) =
    [(1, 'a'), (1, 'b'), (0, 'c'), (0, 'c'), (1, 'd')] := by decide

/-- The hypotheses for mappings: different keys, all edges are tuples. -/
example : ∃ f, adaptMappingData [((0 : Nat), [(⟨true, 1, 'a'⟩ : OutSeq Nat Char), ⟨true, 2, 'b'⟩]), (2, [⟨true, 0, 'c'⟩])]
      true = .ok f ∧ f 0 = [⟨true, 1, 'a'⟩, ⟨true, 2, 'b'⟩, ⟨true, 2, 'c'⟩] ∧ f 1 = [⟨true, 0, 'a'⟩] ∧ f 3 = [] :=
  ⟨_, rfl, by decide, by decide, by decide⟩

example : adaptSequencePlain [[1, 2], [], [0]] false 0 = [1, 2] ∧ adaptSequencePlain [[1, 2], [], [0]] false 7 = [] ∧
    adaptSequencePlain [[1, 2], [], [0]] true 0 = [1, 2, 2] := by decide

end NoGraphs
