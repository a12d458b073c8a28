import Verif.Spec.Paths
import Verif.Proofs.Paths

/-! Lemmas for paths stored by histories of `append_edge`. -/

set_option linter.unusedSectionVars false

namespace NoGraphs

open Spec

variable {V K L M ML : Type} [DecidableEq V] [DecidableEq K]

/-- A container filled by a history of `append_edge` calls, started with empty paths for the start vertices
(`_strategies/utils.py` 170-181: `predecessor[id] = vertex`; `_paths.py` 343-360, 415-437). -/
def fillPaths (mo : MapOps M K V) (lo : MapOps ML K L) (vid : V → K) (starts : List V)
    (hist : List (V × V × L)) : M × ML :=
  hist.foldl (fun c e => appendEdge mo lo c.1 c.2 e.1 (vid e.2.1) e.2.2)
    (mo.setAll mo.empty (starts.map (fun v => (vid v, v))), lo.empty)

/-- Relation between a specified path of `v` and the collections. -/
def StoredPath (get : K → Option V) (lab : K → Option L) (vid : V → K) (v : V) (p : SPath V L) : Prop :=
  Chain get vid v p.verts.reverse ∧
  (rawEdges vid p.verts.reverse).map (fun t => (t.1, t.2.1, lab t.2.2)) =
    p.edges.reverse.map (fun e => (e.1, e.2.1, some e.2.2))

theorem edgesFrom_snoc (s : V) (steps : List (V × L)) (t : V) (l : L) :
    edgesFrom s (steps ++ [(t, l)]) =
      edgesFrom s steps ++ [((s :: steps.map Prod.fst).getLast (by simp), t, l)] := by
  induction steps generalizing s with
  | nil => rfl
  | cons a r ih =>
    obtain ⟨a, la⟩ := a
    simp only [List.cons_append, edgesFrom, ih, List.map_cons]
    rw [List.getLast_cons (l := a :: r.map Prod.fst) (by simp)]

theorem SPath.verts_snoc (p : SPath V L) (t : V) (l : L) : (p.snoc t l).verts = p.verts ++ [t] := by
  simp [SPath.verts, SPath.snoc]

theorem rawEdges_mem (vid : V → K) (l : List V) (t : V × V × K) (h : t ∈ rawEdges vid l) :
    t.2.1 ∈ l ∧ t.2.2 = vid t.2.1 := by
  induction l with
  | nil => simp [rawEdges] at h
  | cons a r ih =>
    cases r with
    | nil => simp [rawEdges] at h
    | cons b r =>
      simp only [rawEdges, List.mem_cons] at h
      rcases h with rfl | h
      · simp
      · have := ih h
        exact ⟨List.mem_cons_of_mem _ this.1, this.2⟩

theorem StoredPath.frame {get get' : K → Option V} {lab lab' : K → Option L} {vid : V → K} {v : V}
    {p : SPath V L} (h : StoredPath get lab vid v p)
    (hg : ∀ u ∈ p.verts, get' (vid u) = get (vid u)) (hl : ∀ u ∈ p.verts, lab' (vid u) = lab (vid u)) :
    StoredPath get' lab' vid v p := by
  refine ⟨h.1.congr (fun u hu => hg u (by simpa using hu)), ?_⟩
  rw [← h.2]
  apply List.map_congr_left
  intro t ht
  have := rawEdges_mem vid _ t ht
  rw [this.2, hl _ (by simpa using this.1)]

theorem StoredPath.extend {get : K → Option V} {lab : K → Option L} {vid : V → K} {v : V}
    {p : SPath V L} (h : StoredPath get lab vid v p) {t : V} {l : L} (hg : get (vid t) = some v)
    (hl : lab (vid t) = some l) (hne : v ≠ t) : StoredPath get lab vid t (p.snoc t l) := by
  have hv : p.verts.reverse.head? = some v := h.1.head
  have hlast : p.verts.getLast? = some v := by simpa using hv
  constructor
  · rw [SPath.verts_snoc, List.reverse_append]
    exact .step hg hne h.1
  · rw [SPath.verts_snoc, List.reverse_append]
    cases hr : p.verts.reverse with
    | nil => rw [hr] at hv; simp at hv
    | cons a r =>
      have ha : a = v := by rw [hr] at hv; simpa using hv
      subst ha
      simp only [List.reverse_cons, List.reverse_nil, List.nil_append, List.cons_append, rawEdges,
        List.map_cons]
      have h2 := h.2
      rw [hr] at h2
      rw [h2]
      have : (p.snoc t l).edges = p.edges ++ [(a, t, l)] := by
        unfold SPath.edges SPath.snoc
        simp only [edgesFrom_snoc]
        congr 3
        have : (p.first :: p.steps.map Prod.fst).getLast? = some a := hlast
        rw [List.getLast?_eq_some_getLast (by simp)] at this
        simpa using this
      rw [this]
      simp [hl]

/-- The relation kept by every legal history. -/
def StoreInv (get : K → Option V) (lab : K → Option L) (vid : V → K) (st : Store V L) : Prop :=
  ∀ v, (∀ p, st v = some p → StoredPath get lab vid v p) ∧ (st v = none → get (vid v) = none)

theorem StoreInv.verts {get : K → Option V} {lab : K → Option L} {vid : V → K} {st : Store V L}
    (h : StoreInv get lab vid st) {v : V} {p : SPath V L} (hp : st v = some p) :
    ∀ u ∈ p.verts, (st u).isSome := by
  intro u hu
  have := ((h v).1 p hp).1.mem_get u (by simpa using hu)
  cases hs : st u with
  | some _ => rfl
  | none => rw [(h u).2 hs] at this; simp at this

theorem fill_inv (mo : MapOps M K V) (lo : MapOps ML K L) {validV : V → Prop} {validL : L → Prop}
    (hm : mo.Lawful validV) (hl : lo.Lawful validL) (vid : V → K) (hinj : Function.Injective vid)
    (hist : List (V × V × L)) (hvV : ∀ e ∈ hist, validV e.1) (hvL : ∀ e ∈ hist, validL e.2.2)
    (c : M × ML) (st : Store V L)
    (hinv : StoreInv (mo.get? c.1) (lo.get? c.2) vid st) (hleg : st.Legal hist) :
    let c' := hist.foldl (fun c e => appendEdge mo lo c.1 c.2 e.1 (vid e.2.1) e.2.2) c
    StoreInv (mo.get? c'.1) (lo.get? c'.2) vid (st.run hist) := by
  induction hist generalizing c st with
  | nil => exact hinv
  | cons e rest ih =>
    obtain ⟨f, t, l⟩ := e
    simp only [Store.Legal] at hleg
    apply ih (fun e he => hvV e (List.mem_cons_of_mem _ he)) (fun e he => hvL e (List.mem_cons_of_mem _ he)) _ _ _ hleg.2.2
    intro v
    simp only [appendEdge]
    have hgt : ∀ j, mo.get? (mo.set c.1 (vid t) f) j = if j = vid t then some f else mo.get? c.1 j :=
      fun j => hm.get_set _ _ _ _ (hvV _ List.mem_cons_self)
    have hlt : ∀ j, lo.get? (lo.set c.2 (vid t) l) j = if j = vid t then some l else lo.get? c.2 j :=
      fun j => hl.get_set _ _ _ _ (hvL _ List.mem_cons_self)
    have hframe : ∀ u p, st u = some p →
        StoredPath (mo.get? (mo.set c.1 (vid t) f)) (lo.get? (lo.set c.2 (vid t) l)) vid u p := by
      intro u p hp
      have hnt : ∀ w ∈ p.verts, vid w ≠ vid t := by
        intro w hw e
        have hw' := hinv.verts hp w hw
        rw [hinj e, hleg.2.1] at hw'
        simp at hw'
      apply ((hinv u).1 p hp).frame
      · intro w hw; rw [hgt, if_neg (hnt w hw)]
      · intro w hw; rw [hlt, if_neg (hnt w hw)]
    by_cases hvt : v = t
    · subst hvt
      constructor
      · intro p hp
        simp only [Store.append, if_true, Option.map_eq_some_iff] at hp
        rcases hp with ⟨q, hq, rfl⟩
        apply (hframe f q hq).extend
        · rw [hgt]; simp
        · rw [hlt]; simp
        · intro e; rw [e, hleg.2.1] at hq; simp at hq
      · intro hn
        simp only [Store.append, if_true, Option.map_eq_none_iff] at hn
        rw [hn] at hleg; simp at hleg
    · constructor
      · intro p hp
        simp only [Store.append, if_neg hvt] at hp
        exact hframe v p hp
      · intro hn
        simp only [Store.append, if_neg hvt] at hn
        rw [hgt, if_neg (fun e => hvt (hinj e))]
        exact (hinv v).2 hn

theorem starts_get (mo : MapOps M K V) {validV : V → Prop} (hm : mo.Lawful validV) (vid : V → K)
    (hinj : Function.Injective vid) (starts : List V) (hvV : ∀ v ∈ starts, validV v) (m : M) (v : V) :
    mo.get? (mo.setAll m (starts.map (fun v => (vid v, v)))) (vid v) =
      if v ∈ starts then some v else mo.get? m (vid v) := by
  unfold MapOps.setAll
  induction starts generalizing m with
  | nil => simp
  | cons s r ih =>
    simp only [List.map_cons, List.foldl_cons]
    rw [ih (fun v hv => hvV v (List.mem_cons_of_mem _ hv)), hm.get_set _ _ _ _ (hvV s List.mem_cons_self)]
    by_cases h1 : v ∈ r
    · simp [h1]
    · by_cases h2 : v = s
      · subst h2; simp
      · have : vid v ≠ vid s := fun e => h2 (hinj e)
        simp [h1, h2, this]

theorem starts_inv (mo : MapOps M K V) (lo : MapOps ML K L) {validV : V → Prop}
    (hm : mo.Lawful validV) (vid : V → K) (hinj : Function.Injective vid)
    (starts : List V) (hvV : ∀ v ∈ starts, validV v) :
    StoreInv (mo.get? (mo.setAll mo.empty (starts.map (fun v => (vid v, v))))) (lo.get? lo.empty) vid
      (Store.ofStarts starts) := by
  intro v
  have hs := starts_get mo hm vid hinj starts hvV mo.empty v
  constructor
  · intro p hp
    simp only [Store.ofStarts] at hp
    split at hp
    · rename_i hv
      simp only [Option.some.injEq] at hp
      subst hp
      constructor
      · simp only [SPath.verts, List.map_nil, List.reverse_cons, List.reverse_nil, List.nil_append]
        exact .start (by rw [hs, if_pos hv])
      · simp [SPath.verts, SPath.edges, edgesFrom, rawEdges]
    · simp at hp
  · intro hn
    simp only [Store.ofStarts] at hn
    split at hn
    · simp at hn
    · rename_i hv
      rw [hs, if_neg hv, hm.get_empty]

theorem pairwise_rawEdges (vid : V → K) (l : List V) :
    (rawEdges vid l).map (fun t => (t.1, t.2.1)) = (pairwise l).map (fun e => (e.2, e.1)) := by
  induction l with
  | nil => rfl
  | cons a r ih =>
    cases r with
    | nil => rfl
    | cons b r => simp only [rawEdges, pairwise, List.map_cons]; rw [ih]

theorem edgesFrom_pairwise (s : V) (steps : List (V × L)) :
    (edgesFrom s steps).map (fun e => (e.1, e.2.1)) = pairwise (s :: steps.map Prod.fst) := by
  induction steps generalizing s with
  | nil => rfl
  | cons a r ih =>
    obtain ⟨a, l⟩ := a
    simp only [edgesFrom, List.map_cons, pairwise]
    rw [ih]

/-- Everything a user can iterate for a stored path. -/
theorem stored_observations (pv : PathsView V K L) (get : K → Option V) (lab : K → Option L)
    (hc : ∀ k, pv.contains k = (get k).isSome)
    (hraw : ∀ k x, get k = some x → pv.rawPred k = some (some x))
    (hrawl : ∀ k x, lab k = some x → pv.rawLabel k = some (some x))
    {v : V} {p : SPath V L} (h : StoredPath get lab pv.vid v p) (fuel : Nat)
    (hf : p.steps.length < fuel) :
    pv.iterVerticesToStart fuel v = (p.verts.reverse, .done) ∧
    pv.iterVerticesFromStart fuel v = (p.verts, .done) ∧
    pv.iterEdgesToStart fuel v = ((p.edges.map (fun e => (e.1, e.2.1))).reverse, .done) ∧
    pv.iterEdgesFromStart fuel v = (p.edges.map (fun e => (e.1, e.2.1)), .done) ∧
    pv.iterLabeledEdgesToStart fuel v = (p.edges.reverse, .done) ∧
    pv.iterLabeledEdgesFromStart fuel v = (p.edges, .done) := by
  have hlen : p.verts.reverse.length ≤ fuel := by simp [SPath.verts]; omega
  have hcv : pv.contains (pv.vid v) = true := by rw [hc]; exact h.1.get_isSome
  have hA : pv.iterVerticesToStart fuel v = (p.verts.reverse, .done) := by
    unfold PathsView.iterVerticesToStart
    rw [if_pos hcv, iterVertsLoop_chain pv get hraw h.1 fuel hlen]
  have hR : pv.iterRawEdgesToStart fuel v = (rawEdges pv.vid p.verts.reverse, .done) := by
    unfold PathsView.iterRawEdgesToStart
    rw [if_pos hcv, iterRawLoop_chain pv get hraw h.1 fuel hlen]
  have hE : (rawEdges pv.vid p.verts.reverse).map (fun t => (t.1, t.2.1)) =
      (p.edges.map (fun e => (e.1, e.2.1))).reverse := by
    have := congrArg (List.map (fun e : V × V × Option L => (e.1, e.2.1))) h.2
    simp only [List.map_map] at this
    simpa [Function.comp_def] using this
  have hB : pv.iterEdgesToStart fuel v = ((p.edges.map (fun e => (e.1, e.2.1))).reverse, .done) := by
    unfold PathsView.iterEdgesToStart
    rw [hR]; simp only [hE]
  have hL : ∀ t ∈ rawEdges pv.vid p.verts.reverse, ∃ l, lab t.2.2 = some l := by
    intro t ht
    have : (t.1, t.2.1, lab t.2.2) ∈ p.edges.reverse.map (fun e => (e.1, e.2.1, some e.2.2)) := by
      rw [← h.2]; exact List.mem_map.2 ⟨t, ht, rfl⟩
    rcases List.mem_map.1 this with ⟨e, _, he⟩
    simp only [Prod.mk.injEq] at he
    exact ⟨e.2.2, he.2.2.symm⟩
  have hLab : ∀ raw : List (V × V × K), (∀ t ∈ raw, t ∈ rawEdges pv.vid p.verts.reverse) →
      ∀ out, raw.map (fun t => (t.1, t.2.1, lab t.2.2)) = out.map (fun e : V × V × L => (e.1, e.2.1, some e.2.2)) →
      pv.iterPathEdges raw .done = (out, .done) := by
    intro raw hr
    induction raw with
    | nil => intro out ho; cases out <;> simp_all [PathsView.iterPathEdges]
    | cons t rest ih =>
      intro out ho
      cases out with
      | nil => simp at ho
      | cons e out =>
        simp only [List.map_cons, List.cons.injEq, Prod.mk.injEq] at ho
        obtain ⟨u, w, k⟩ := t
        have hlk := hrawl k _ ho.1.2.2
        rw [PathsView.iterPathEdges, hlk]
        simp only
        rw [ih (fun t ht => hr t (List.mem_cons_of_mem _ ht)) out ho.2]
        obtain ⟨e1, e2, e3⟩ := e
        simp only at ho ⊢
        rw [ho.1.1, ho.1.2.1]
  refine ⟨hA, ?_, hB, ?_, ?_, ?_⟩
  · unfold PathsView.iterVerticesFromStart; rw [hA]; simp
  · unfold PathsView.iterEdgesFromStart; rw [hB]; simp
  · unfold PathsView.iterLabeledEdgesToStart
    rw [hR]
    exact hLab _ (fun t ht => ht) _ h.2
  · unfold PathsView.iterLabeledEdgesFromStart
    rw [hR]
    apply hLab _ (fun t ht => by simpa using ht)
    rw [List.map_reverse, h.2, List.map_reverse, List.reverse_reverse]


end NoGraphs
