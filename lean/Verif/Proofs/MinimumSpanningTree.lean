import Verif.Model.MinimumSpanningTree
import Verif.Proofs.Machine
import Verif.Proofs.Heap
import Verif.Proofs.PathVis
import Verif.Proofs.SpanningTree

/-! Invariants of the traversal for minimum spanning trees. -/

set_option linter.unusedSectionVars false

namespace NoGraphs

open Spec

variable {V K L W S M ML : Type} [DecidableEq V] [DecidableEq K] [LinearOrder W]
variable {g : TravGear V K L S M ML} {c : MstCfg V K L W} {starts : List V}

/-- The vertices connected by the edges `T`, in order. -/
def mstReached (starts : List V) (T : List (V × V × W × L)) : List V := starts ++ T.map (fun e => e.2.1)

/-- The edges read so far, in order. -/
def MstRead (next : V → List (V × W × L)) (starts : List V) (T : List (V × V × W × L)) (C : List (V × V × W × L)) :
    MstPc V L W → Prop
  | .starts vs => T = [] ∧ ∃ ds, starts = ds ++ vs ∧ C = outEdges next ds
  | .loop => C = outEdges next (mstReached starts T)
  | .expand v => ∃ R, mstReached starts T = R ++ [v] ∧ C = outEdges next R
  | .edges v es => ∃ R ds, mstReached starts T = R ++ [v] ∧ next v = ds ++ es ∧
      C = outEdges next R ++ ds.map (fun e => (v, e))

/-- The edge leads to a vertex not connected so far. -/
def mstNew (vid : V → K) (R : List V) (e : V × V × W × L) : Bool := decide (vid e.2.1 ∉ R.map vid)

/-- The heap holds the edges read so far, at least those to vertices not connected so far. -/
def MstHeap (vid : V → K) (R : List V) (C : List (V × V × W × L)) (heap : List (HEntry W (V × V × W × L))) (no : Int) : Prop :=
  ∃ A : List (HEntry W (V × V × W × L)), A.Pairwise (fun a b => a.no < b.no) ∧ (∀ e ∈ A, e.no < no) ∧
    (∀ e ∈ A, e.key = e.item.2.2.1) ∧
    (A.map (fun e => e.item)).filter (mstNew vid R) = C.filter (mstNew vid R) ∧ (∀ e ∈ heap, e ∈ A) ∧
    ∀ e ∈ A, mstNew vid R e.item = true → e ∈ heap

/-- The pc is before the main loop. -/
def MstPc.early : MstPc V L W → Prop
  | .starts _ => True
  | _ => False

/-- The invariant. `T`: the reported edges. -/
structure MstInv (g : TravGear V K L S M ML) (c : MstCfg V K L W) (starts : List V) (T : List (V × V × W × L))
    (s : MstState V L W S M ML) : Prop where
  vis : ∀ k, g.so.contains s.visited k = decide (k ∈ (mstReached starts T).map c.vid)
  prim : PrimSeq c.next c.vid starts T
  heap : ∃ C, MstRead c.next starts T C s.pc ∧ MstHeap c.vid (mstReached starts T) C s.heap s.no
  sorted : s.pc.early ∨ s.heap.Pairwise HEntry.le

theorem mstReached_snoc (T : List (V × V × W × L)) (e : V × V × W × L) :
    mstReached starts (T ++ [e]) = mstReached starts T ++ [e.2.1] := by
  simp [mstReached]

theorem outEdges_append (next : V → List (V × W × L)) (a b : List V) :
    outEdges next (a ++ b) = outEdges next a ++ outEdges next b := by simp [outEdges]

theorem mstEntries_spec (v : V) (es : List (V × W × L)) (no : Int) :
    (mstEntries v es no).Pairwise (fun a b => a.no < b.no) ∧
    (∀ e ∈ mstEntries v es no, no ≤ e.no ∧ e.no < no + es.length ∧ e.key = e.item.2.2.1) ∧
    (mstEntries v es no).map (fun e => e.item) = es.map (fun e => (v, e)) := by
  induction es generalizing no with
  | nil => simp [mstEntries]
  | cons e es ih =>
    obtain ⟨h1, h2, h3⟩ := ih (no + 1)
    refine ⟨?_, ?_, ?_⟩
    · rw [mstEntries, List.pairwise_cons]
      exact ⟨fun b hb => by have := h2 b hb; simp; omega, h1⟩
    · intro f hf
      rw [mstEntries, List.mem_cons] at hf
      rcases hf with rfl | hf
      · exact ⟨Int.le_refl _, by simp; omega, rfl⟩
      · obtain ⟨h4, h5, h6⟩ := h2 f hf
        rw [List.length_cons]
        exact ⟨by omega, by omega, h6⟩
    · rw [mstEntries, List.map_cons, h3, List.map_cons]

theorem MstHeap.congr {vid : V → K} {R : List V} {C : List (V × V × W × L)} {heap heap' : List (HEntry W (V × V × W × L))}
    {no : Int} (h : MstHeap vid R C heap no) (hp : ∀ e, e ∈ heap' ↔ e ∈ heap) : MstHeap vid R C heap' no := by
  obtain ⟨A, h1, h2, h3, h4, h5, h6⟩ := h
  exact ⟨A, h1, h2, h3, h4, fun e he => h5 e ((hp e).1 he), fun e he hn => (hp e).2 (h6 e he hn)⟩

theorem mstNew_mono {vid : V → K} {R : List V} {v : V} {e : V × V × W × L} (h : mstNew vid (R ++ [v]) e = true) :
    mstNew vid R e = true := by
  simp only [mstNew, List.map_append, List.mem_append, decide_eq_true_eq] at h ⊢
  exact fun hh => h (.inl hh)

theorem filter_of_imp {α : Type} {p q : α → Bool} (h : ∀ a, q a = true → p a = true) (l : List α) :
    (l.filter p).filter q = l.filter q := by
  rw [List.filter_filter]
  apply List.filter_congr
  intro a _
  cases hq : q a with
  | false => rfl
  | true => rw [h a hq]; rfl

theorem MstHeap.pop {vid : V → K} {R : List V} {C : List (V × V × W × L)} {rest : List (HEntry W (V × V × W × L))}
    {e : HEntry W (V × V × W × L)} {no : Int} (h : MstHeap vid R C (e :: rest) no) (hn : mstNew vid R e.item = false) :
    MstHeap vid R C rest no := by
  obtain ⟨A, h1, h2, h3, h4, h5, h6⟩ := h
  refine ⟨A, h1, h2, h3, h4, fun f hf => h5 f (List.mem_cons_of_mem _ hf), fun f hf hn' => ?_⟩
  rcases List.mem_cons.1 (h6 f hf hn') with rfl | hf'
  · rw [hn] at hn'; simp at hn'
  · exact hf'

theorem MstHeap.take {vid : V → K} {R : List V} {C : List (V × V × W × L)} {rest : List (HEntry W (V × V × W × L))}
    {e : HEntry W (V × V × W × L)} {no : Int} (h : MstHeap vid R C (e :: rest) no) :
    MstHeap vid (R ++ [e.item.2.1]) C rest no := by
  obtain ⟨A, h1, h2, h3, h4, h5, h6⟩ := h
  refine ⟨A, h1, h2, h3, ?_, fun f hf => h5 f (List.mem_cons_of_mem _ hf), fun f hf hn' => ?_⟩
  · have := congrArg (List.filter (mstNew vid (R ++ [e.item.2.1]))) h4
    rwa [filter_of_imp (fun a => mstNew_mono), filter_of_imp (fun a => mstNew_mono)] at this
  · rcases List.mem_cons.1 (h6 f hf (mstNew_mono hn')) with rfl | hf'
    · simp [mstNew] at hn'
    · exact hf'

theorem MstHeap.first {vid : V → K} {R : List V} {C : List (V × V × W × L)} {rest : List (HEntry W (V × V × W × L))}
    {e : HEntry W (V × V × W × L)} {no : Int} (h : MstHeap vid R C (e :: rest) no) (hs : (e :: rest).Pairwise HEntry.le)
    (hn : mstNew vid R e.item = true) : FirstLightest (C.filter (mstNew vid R)) e.item := by
  obtain ⟨A, h1, h2, h3, h4, h5, h6⟩ := h
  have heA := h5 e List.mem_cons_self
  obtain ⟨A1, A2, rfl⟩ := List.append_of_mem heA
  have hle : ∀ a ∈ A1 ++ e :: A2, mstNew vid R a.item = true → a ≠ e → e.le a := by
    intro a ha hna hne
    rcases List.mem_cons.1 (h6 a ha hna) with rfl | hr
    · exact absurd rfl hne
    · exact (List.pairwise_cons.1 hs).1 a hr
  rw [List.pairwise_append] at h1
  obtain ⟨-, h12, h13⟩ := h1
  rw [← h4]
  refine ⟨(A1.map (fun e => e.item)).filter (mstNew vid R), (A2.map (fun e => e.item)).filter (mstNew vid R), ?_, ?_, ?_⟩
  · rw [List.map_append, List.filter_append, List.map_cons, List.filter_cons_of_pos hn]
  · intro x hx
    obtain ⟨hx, hnx⟩ := List.mem_filter.1 hx
    obtain ⟨a, ha, rfl⟩ := List.mem_map.1 hx
    have hlt := h13 a ha e List.mem_cons_self
    have := hle a (by simp [ha]) hnx (fun h => by rw [h] at hlt; omega)
    rw [← h3 a (by simp [ha]), ← h3 e (by simp)]
    rcases this with h | ⟨_, h⟩
    · exact h
    · omega
  · intro x hx
    obtain ⟨hx, hnx⟩ := List.mem_filter.1 hx
    obtain ⟨a, ha, rfl⟩ := List.mem_map.1 hx
    have hlt := (List.pairwise_cons.1 h12).1 a ha
    have := hle a (by simp [ha]) hnx (fun h => by rw [h] at hlt; omega)
    rw [← h3 a (by simp [ha]), ← h3 e (by simp)]
    exact this.key_le

theorem MstHeap.skip {vid : V → K} {R : List V} {C : List (V × V × W × L)} {heap : List (HEntry W (V × V × W × L))}
    {x : V × V × W × L} {no : Int} (h : MstHeap vid R C heap no) (hn : mstNew vid R x = false) :
    MstHeap vid R (C ++ [x]) heap no := by
  obtain ⟨A, h1, h2, h3, h4, h5, h6⟩ := h
  refine ⟨A, h1, h2, h3, ?_, h5, h6⟩
  rw [h4, List.filter_append, List.filter_cons_of_neg (by simp [hn])]; simp

theorem MstHeap.extend {vid : V → K} {R : List V} {C : List (V × V × W × L)} {heap heap' : List (HEntry W (V × V × W × L))}
    {no : Int} (h : MstHeap vid R C heap no) (v : V) (es : List (V × W × L))
    (hp : ∀ e, e ∈ heap' ↔ e ∈ heap ∨ e ∈ mstEntries v es no) :
    MstHeap vid R (C ++ es.map (fun e => (v, e))) heap' (no + es.length) := by
  obtain ⟨A, h1, h2, h3, h4, h5, h6⟩ := h
  obtain ⟨i1, i2, i3⟩ := mstEntries_spec v es no
  refine ⟨A ++ mstEntries v es no, ?_, ?_, ?_, ?_, ?_, ?_⟩
  · rw [List.pairwise_append]
    exact ⟨h1, i1, fun a ha b hb => by have := h2 a ha; have := (i2 b hb).1; omega⟩
  · intro e he
    rcases List.mem_append.1 he with he | he
    · have := h2 e he; omega
    · exact (i2 e he).2.1
  · intro e he
    rcases List.mem_append.1 he with he | he
    · exact h3 e he
    · exact (i2 e he).2.2
  · rw [List.map_append, List.filter_append, List.filter_append, h4, i3]
  · intro e he
    rw [List.mem_append]
    rcases (hp e).1 he with he | he
    · exact .inl (h5 e he)
    · exact .inr he
  · intro e he hn
    rcases List.mem_append.1 he with he | he
    · exact (hp e).2 (.inl (h6 e he hn))
    · exact (hp e).2 (.inr he)

/-- The invariant in the initial state. -/
theorem mst_inv_init (hg : g.so.Lawful) : MstInv g c starts [] (mstInit g c starts) where
  vis k := by
    simp only [mstInit, hg.contains_addAll, hg.contains_empty, mstReached, List.map_nil, List.append_nil, Bool.or_false]
  prim := PrimSeq.nil
  heap := ⟨[], ⟨rfl, [], rfl, rfl⟩, [], by simp, by simp, by simp, rfl, by simp [mstInit], by simp⟩
  sorted := .inl trivial

/-- The edges to report. -/
def mstEdges (h : List (Ev (MstReport V L W M ML))) : List (V × V × W × L) := (repsOf h).map (fun r => r.edge)

theorem mstNew_eq {T : List (V × V × W × L)} {s : MstState V L W S M ML} (hi : MstInv g c starts T s) (x : V × V × W × L) :
    mstNew c.vid (mstReached starts T) x = !g.so.contains s.visited (c.vid x.2.1) := by
  rw [hi.vis, mstNew, decide_not]

/-- The invariant is kept by steps. -/
theorem mst_inv_step (hg : g.so.Lawful) {T : List (V × V × W × L)} {s : MstState V L W S M ML} (hi : MstInv g c starts T s) :
    match mstStep g c s with
    | .stop _ => leavingEdges c.next c.vid (mstReached starts T) = []
    | .fail _ => False
    | .tau s' => MstInv g c starts T s'
    | .emit r s' => MstInv g c starts (T ++ [r.edge]) s' ∧ r.vertex = r.edge.2.1 ∧
        FirstLightest (leavingEdges c.next c.vid (mstReached starts T)) r.edge
    | .expand s' => MstInv g c starts T s' := by
  obtain ⟨C, hread, hheap⟩ := hi.heap
  have hnew := mstNew_eq hi
  obtain ⟨vis, prim, -, sorted⟩ := hi
  unfold mstStep
  cases hpc : s.pc with
  | starts vs =>
    rw [hpc] at hread
    cases vs with
    | nil =>
      obtain ⟨rfl, ds, h1, h2⟩ := hread
      dsimp only
      refine ⟨vis, prim, ⟨C, ?_, hheap.congr (fun e => mem_heapify)⟩, .inr (heapify_sorted _)⟩
      simp only [MstRead, mstReached, List.map_nil, List.append_nil]
      rw [h2, h1, List.append_nil]
    | cons v vs =>
      obtain ⟨rfl, ds, h1, h2⟩ := hread
      dsimp only
      refine ⟨vis, prim, ⟨C ++ (c.next v).map (fun e => (v, e)), ⟨rfl, ds ++ [v], by rw [h1]; simp, ?_⟩,
        hheap.extend v _ (fun e => by rw [List.mem_append])⟩, .inl trivial⟩
      rw [h2, outEdges_append]; simp [outEdges]
  | loop =>
    rw [hpc] at hread
    have hsort : s.heap.Pairwise HEntry.le := by
      rcases sorted with h | h
      · rw [hpc] at h; exact h.elim
      · exact h
    cases hh : s.heap with
    | nil =>
      dsimp only
      rw [hh] at hheap
      obtain ⟨A, -, -, -, h4, -, h6⟩ := hheap
      show (outEdges c.next (mstReached starts T)).filter (mstNew c.vid (mstReached starts T)) = []
      rw [← hread, ← h4, List.filter_eq_nil_iff]
      intro a ha hn
      obtain ⟨e, he, rfl⟩ := List.mem_map.1 ha
      exact absurd (h6 e he hn) List.not_mem_nil
    | cons e rest =>
      rw [hh] at hheap hsort
      dsimp only
      rw [hg.checkAdd_fst]
      cases hv : g.so.contains s.visited (c.vid e.item.2.1) with
      | true =>
        rw [if_pos rfl]
        dsimp only
        refine ⟨vis, prim, ⟨C, hread, hheap.pop (by rw [hnew, hv]; rfl)⟩,
          .inr (List.pairwise_cons.1 hsort).2⟩
      | false =>
        rw [if_neg (by simp)]
        dsimp only
        have hf := hheap.first hsort (by rw [hnew, hv]; rfl)
        rw [hread] at hf
        refine ⟨⟨?_, prim.snoc hf, ⟨C, ⟨mstReached starts T, mstReached_snoc _ _, hread⟩, ?_⟩,
          .inr (List.pairwise_cons.1 hsort).2⟩, rfl, hf⟩
        · intro k
          rw [hg.contains_checkAdd, mstReached_snoc, vis, List.map_append]
          by_cases h1 : k = c.vid e.item.2.1 <;> simp [h1]
        · rw [mstReached_snoc]; exact hheap.take
  | expand v =>
    rw [hpc] at hread
    obtain ⟨R, h1, h2⟩ := hread
    dsimp only
    refine ⟨vis, prim, ⟨C, ⟨R, [], h1, rfl, by rw [h2]; simp⟩, hheap⟩, .inr ?_⟩
    rcases sorted with h | h
    · rw [hpc] at h; exact h.elim
    · exact h
  | edges v es =>
    rw [hpc] at hread
    have hsort : s.heap.Pairwise HEntry.le := by
      rcases sorted with h | h
      · rw [hpc] at h; exact h.elim
      · exact h
    obtain ⟨R, ds, h1, h2, h3⟩ := hread
    cases es with
    | nil =>
      dsimp only
      refine ⟨vis, prim, ⟨C, ?_, hheap⟩, .inr hsort⟩
      show C = _
      rw [h3, h1, outEdges_append, List.append_nil] at *
      simp [outEdges, h2]
    | cons e es =>
      dsimp only
      cases hv : g.so.contains s.visited (c.vid e.1) with
      | true =>
        rw [if_pos rfl]
        dsimp only
        refine ⟨vis, prim, ⟨C ++ [(v, e)], ⟨R, ds ++ [e], h1, by rw [h2]; simp, by rw [h3]; simp⟩,
          hheap.skip (by rw [hnew]; simp [hv])⟩, .inr hsort⟩
      | false =>
        rw [if_neg (by simp)]
        dsimp only
        refine ⟨vis, prim, ⟨C ++ [e].map (fun e => (v, e)), ⟨R, ds ++ [e], h1, by rw [h2]; simp, by rw [h3]; simp⟩, ?_⟩,
          .inr (heapPush_sorted _ hsort)⟩
        exact hheap.extend v [e] (fun f => by simp [mstEntries, or_comm])

theorem mst_inv (hg : g.so.Lawful) {h : List (Ev (MstReport V L W M ML))} {s : MstState V L W S M ML}
    (hr : Reaches (mstStep g c) (mstInit g c starts) h s) :
    MstInv g c starts (mstEdges h) s ∧ ∀ r ∈ repsOf h, r.vertex = r.edge.2.1 := by
  refine Reaches.invariant (fun h s => MstInv g c starts (mstEdges h) s ∧ ∀ r ∈ repsOf h, r.vertex = r.edge.2.1)
    ⟨mst_inv_init hg, by simp⟩ ?_ ?_ ?_ hr
  · intro h s s' ⟨hi, hv⟩ e
    have := mst_inv_step hg hi
    rw [e] at this
    exact ⟨this, hv⟩
  · intro h s r s' ⟨hi, hv⟩ e
    have := mst_inv_step hg hi
    rw [e] at this
    refine ⟨?_, ?_⟩
    · simpa [mstEdges] using this.1
    · intro r' hr'
      simp only [repsOf_append, repsOf_rep, repsOf_nil, List.mem_append, List.mem_singleton] at hr'
      rcases hr' with h | rfl
      · exact hv _ h
      · exact this.2.1
  · intro h s s' ⟨hi, hv⟩ e
    have := mst_inv_step hg hi
    rw [e] at this
    exact ⟨by simpa [mstEdges] using this, by simpa using hv⟩

theorem mst_not_fail (hg : g.so.Lawful) {h : List (Ev (MstReport V L W M ML))} {s : MstState V L W S M ML} {e : PyErr}
    (hr : Reaches (mstStep g c) (mstInit g c starts) h s) : mstStep g c s ≠ .fail e := by
  intro he
  have := mst_inv_step hg (mst_inv hg hr).1
  rw [he] at this
  exact this

theorem Spec.PrimSeq.reachable {next : V → List (V × W × L)} {vid : V → K} {T : List (V × V × W × L)}
    (h : PrimSeq next vid starts T) : ∀ v ∈ mstReached starts T, WReachable next starts v := by
  induction T using List.reverseRecOn with
  | nil =>
    intro v hv
    simp only [mstReached, List.map_nil, List.append_nil] at hv
    exact ⟨0, .start hv⟩
  | append_singleton T e ih =>
    have h' : PrimSeq next vid starts T := by
      rintro T1 f T2 rfl
      exact h T1 f (T2 ++ [e]) (by simp)
    intro v hv
    rw [mstReached_snoc, List.mem_append, List.mem_singleton] at hv
    rcases hv with hv | rfl
    · exact ih h' v hv
    · obtain ⟨h1, h2, -⟩ := h.facts.1 T e [] rfl
      obtain ⟨n, hn⟩ := ih h' e.1 h2
      exact ⟨n + 1, .step hn ⟨_, _, h1⟩⟩

theorem reached_closed {next : V → List (V × W × L)} {vid : V → K} (hc : WCompat next vid) {R : List V}
    (hsub : ∀ v ∈ starts, v ∈ R) (hnil : leavingEdges next vid R = []) {v : V} (hv : WReachable next starts v) :
    vid v ∈ R.map vid := by
  obtain ⟨n, hn⟩ := hv
  induction hn with
  | start h => exact List.mem_map_of_mem (hsub _ h)
  | @step n u w _ he ih =>
    obtain ⟨x, he⟩ := he
    obtain ⟨u', hu', hvu⟩ := List.mem_map.1 ih
    obtain ⟨w', ⟨l, hl⟩, hw'⟩ := hc u u' w x hvu.symm he
    by_contra hcon
    have : (u', w', x, l) ∈ leavingEdges next vid R := mem_leavingEdges.2 ⟨hu', hl, by rw [hw']; exact hcon⟩
    rw [hnil] at this
    exact absurd this List.not_mem_nil

/-! ### Termination -/

/-- Measure for termination. -/
def mstMeasure (g : TravGear V K L S M ML) (ids : List K) (s : MstState V L W S M ML) : Nat × Nat × Nat × Nat :=
  match s.pc with
  | .starts vs => (vs.length + 1, 0, 0, 0)
  | .loop => (0, (ids.filter (fun j => !g.so.contains s.visited j)).length, 0, s.heap.length)
  | .expand _ => (0, (ids.filter (fun j => !g.so.contains s.visited j)).length, 2, 0)
  | .edges _ es => (0, (ids.filter (fun j => !g.so.contains s.visited j)).length, 1, es.length)

theorem mst_terminates (hg : g.so.Lawful) {ids : List K} (hids : ∀ v, WReachable c.next starts v → c.vid v ∈ ids) :
    ∃ N, ∀ fuel, N ≤ fuel → ∀ lim, (runMachine (mstStep g c) fuel lim (mstInit g c starts)).ending ≠ .outOfFuel := by
  refine run_terminates_reach _ lex4 lex4_wf (mstMeasure g ids) _ ?_
  intro h s s' hr hs
  have hi := (mst_inv hg hr).1
  have hstep := mst_inv_step hg hi
  revert hs hstep
  unfold mstStep mstMeasure
  cases hpc : s.pc with
  | starts vs =>
    cases vs with
    | nil =>
      dsimp only
      rintro ⟨rfl⟩ _
      rw [lex4_iff]; simp
    | cons v vs =>
      dsimp only
      rintro ⟨rfl⟩ _
      rw [lex4_iff]; simp
  | loop =>
    cases hh : s.heap with
    | nil => rintro ⟨⟩
    | cons e rest =>
      dsimp only
      rw [hg.checkAdd_fst]
      cases hv : g.so.contains s.visited (c.vid e.item.2.1) with
      | true =>
        rw [if_pos rfl]
        rintro ⟨rfl⟩ _
        rw [lex4_iff]; simp
      | false =>
        rw [if_neg (by simp)]
        rintro ⟨rfl⟩ hstep
        rw [lex4_iff]
        refine .inr ⟨rfl, .inl ?_⟩
        apply filter_not_lt ids (fun j => g.so.contains s.visited j) _ ?_ (k := c.vid e.item.2.1) ?_ hv ?_
        · intro j hj
          dsimp only
          rw [hg.contains_checkAdd, hj, Bool.or_true]
        · exact hids _ (hstep.1.prim.reachable _ (by rw [mstReached_snoc]; simp))
        · dsimp only
          rw [hg.contains_checkAdd]; simp
  | expand v =>
    dsimp only
    rintro ⟨rfl⟩ _
    rw [lex4_iff]; simp
  | edges v es =>
    cases es with
    | nil =>
      dsimp only
      rintro ⟨rfl⟩ _
      rw [lex4_iff]; simp
    | cons e es =>
      dsimp only
      split
      · rintro ⟨rfl⟩ _
        rw [lex4_iff]; simp
      · rintro ⟨rfl⟩ _
        rw [lex4_iff]; simp

/-! ### Stored paths -/

/-- What storing paths needs: the gear can store the reachable vertices and the labels of edges, and different start
vertices have different ids. -/
structure MstStorable (g : TravGear V K L S M ML) (c : MstCfg V K L W) (starts : List V) (validV : V → Prop)
    (validL : L → Prop) : Prop where
  mo : g.mo.Lawful validV
  lo : g.lo.Lawful validL
  verts : ∀ v, WReachable c.next starts v → validV v
  labs : ∀ u e, WReachable c.next starts u → e ∈ c.next u → validL e.2.2
  distinct : ∀ s ∈ starts, ∀ t ∈ starts, c.vid s = c.vid t → s = t

theorem mem_treeNext {T : List (V × V × W × L)} {u w : V} {l : L} :
    (w, l) ∈ treeNext T u ↔ ∃ x, (u, w, x, l) ∈ T := by
  simp only [treeNext, List.mem_map, List.mem_filter, decide_eq_true_eq, Prod.mk.injEq]
  constructor
  · rintro ⟨e, ⟨he, rfl⟩, rfl, rfl⟩; exact ⟨_, he⟩
  · rintro ⟨x, h⟩; exact ⟨_, ⟨h, rfl⟩, rfl, rfl⟩

theorem Spec.IsPath.mono {next next' : V → List (V × L)} (hn : ∀ u e, e ∈ next u → e ∈ next' u) {s : V} {steps : List (V × L)}
    (h : IsPath next s steps) : IsPath next' s steps := by
  induction steps generalizing s with
  | nil => trivial
  | cons e steps ih => exact ⟨hn _ _ h.1, ih h.2⟩

theorem PathVis.mono_next {next next' : V → List (V × L)} {vid : V → K} {vis : K → Bool} {get : K → Option V}
    {lab : K → Option L} {v : V} {p : SPath V L} (h : PathVis next starts vid vis get lab v p)
    (hn : ∀ u e, e ∈ next u → e ∈ next' u) : PathVis next' starts vid vis get lab v p :=
  ⟨⟨h.1.1, h.1.2.1.mono hn, h.1.2.2⟩, h.2⟩

theorem mst_paths {validV : V → Prop} {validL : L → Prop} (hg : g.so.Lawful) (hst : MstStorable g c starts validV validL)
    (hb : c.buildPaths = true) {h : List (Ev (MstReport V L W M ML))} {s : MstState V L W S M ML}
    (hr : Reaches (mstStep g c) (mstInit g c starts) h s) :
    (∀ v ∈ mstReached starts (mstEdges h), ∃ p, PathVis (treeNext (mstEdges h)) starts c.vid
      (fun k => g.so.contains s.visited k) (g.mo.get? s.preds) (g.lo.get? s.labels) v p) ∧
    ∀ A r B, repsOf h = A ++ r :: B → ∀ v ∈ starts ++ (A ++ [r]).map (fun r => r.vertex), ∃ p,
      PathOk (treeNext ((A ++ [r]).map (fun r => r.edge))) starts c.vid (g.mo.get? r.preds) (g.lo.get? r.labels) v p := by
  refine Reaches.invariant' (fun h s => (∀ v ∈ mstReached starts (mstEdges h), ∃ p, PathVis (treeNext (mstEdges h)) starts c.vid
      (fun k => g.so.contains s.visited k) (g.mo.get? s.preds) (g.lo.get? s.labels) v p) ∧
    ∀ A r B, repsOf h = A ++ r :: B → ∀ v ∈ starts ++ (A ++ [r]).map (fun r => r.vertex), ∃ p,
      PathOk (treeNext ((A ++ [r]).map (fun r => r.edge))) starts c.vid (g.mo.get? r.preds) (g.lo.get? r.labels) v p)
    ⟨?_, ?_⟩ ?_ ?_ ?_ hr
  · intro v hv
    simp only [mstReached, mstEdges, repsOf_nil, List.map_nil, List.append_nil] at hv
    refine ⟨⟨v, []⟩, .start hv ?_ ?_⟩
    · simp only [mstInit, hb, if_true]
      exact get_starts_of_mem g.mo hst.mo c.vid starts (fun v hv => hst.verts v ⟨0, .start hv⟩) hst.distinct _ hv
    · rw [(mst_inv_init (c := c) (starts := starts) hg).vis]
      simp only [mstReached, List.map_nil, List.append_nil, decide_eq_true_eq]
      exact List.mem_map_of_mem hv
  · intro A r B h; simp at h
  · rintro h s s' hr ⟨hp, hrep⟩ e
    refine ⟨?_, hrep⟩
    have hsame : s'.visited = s.visited ∧ s'.preds = s.preds ∧ s'.labels = s.labels := by
      unfold mstStep at e
      cases hpc : s.pc with
      | starts vs => rw [hpc] at e; cases vs <;> cases e; exact ⟨rfl, rfl, rfl⟩
      | loop =>
        rw [hpc] at e
        cases hh : s.heap with
        | nil => rw [hh] at e; cases e
        | cons a rest =>
          rw [hh] at e
          dsimp only at e
          split at e
          · cases e; exact ⟨rfl, rfl, rfl⟩
          · cases e
      | expand v => rw [hpc] at e; cases e
      | edges v es =>
        rw [hpc] at e
        cases es with
        | nil => cases e; exact ⟨rfl, rfl, rfl⟩
        | cons a es =>
          dsimp only at e
          split at e <;> cases e <;> exact ⟨rfl, rfl, rfl⟩
    rw [hsame.1, hsame.2.1, hsame.2.2]
    exact hp
  · rintro h s r s' hr ⟨hp, hrep⟩ e
    have hi := (mst_inv hg hr).1
    have hstep := mst_inv_step hg hi
    have hall := (mst_inv hg hr).2
    rw [e] at hstep
    obtain ⟨hi', hrv, hfl⟩ := hstep
    have hm := mem_leavingEdges.1 hfl.mem
    have hvis : g.so.contains s.visited (c.vid r.edge.2.1) = false := by
      rw [hi.vis, decide_eq_false_iff_not]; exact hm.2.2
    have hE : mstEdges (h ++ [.rep r]) = mstEdges h ++ [r.edge] := by simp [mstEdges]
    have hval : validV r.edge.1 := hst.verts _ (hi.prim.reachable _ hm.1)
    have hlab : validL r.edge.2.2.2 := hst.labs _ _ (hi.prim.reachable _ hm.1) hm.2.1
    have hs' : s'.preds = r.preds ∧ s'.labels = r.labels ∧ r.preds = g.mo.set s.preds (c.vid r.edge.2.1) r.edge.1 ∧
        r.labels = g.lo.set s.labels (c.vid r.edge.2.1) r.edge.2.2.2 := by
      unfold mstStep at e
      cases hpc : s.pc with
      | starts vs => rw [hpc] at e; cases vs <;> cases e
      | loop =>
        rw [hpc] at e
        cases hh : s.heap with
        | nil => rw [hh] at e; cases e
        | cons a rest =>
          rw [hh] at e
          dsimp only at e
          split at e
          · cases e
          · cases e
            exact ⟨rfl, rfl, rfl, rfl⟩
      | expand v => rw [hpc] at e; cases e
      | edges v es =>
        rw [hpc] at e
        cases es with
        | nil => cases e
        | cons a es => dsimp only at e; split at e <;> cases e
    obtain ⟨e1, e2, e3, e4⟩ := hs'
    have hgv : ∀ j, g.so.contains s.visited j = true → g.mo.get? s'.preds j = g.mo.get? s.preds j := by
      intro j hj
      rw [e1, e3, hst.mo.get_set _ _ _ _ hval, if_neg]
      rintro rfl; rw [hvis] at hj; simp at hj
    have hgl : ∀ j, g.so.contains s.visited j = true → g.lo.get? s'.labels j = g.lo.get? s.labels j := by
      intro j hj
      rw [e2, e4, hst.lo.get_set _ _ _ _ hlab, if_neg]
      rintro rfl; rw [hvis] at hj; simp at hj
    have hmono : ∀ j, g.so.contains s.visited j = true → g.so.contains s'.visited j = true := by
      intro j hj
      rw [hi.vis, decide_eq_true_eq] at hj
      rw [hi'.vis, decide_eq_true_eq, mstReached_snoc, List.map_append, List.mem_append]
      exact .inl hj
    have htree : ∀ u x, x ∈ treeNext (mstEdges h) u → x ∈ treeNext (mstEdges h ++ [r.edge]) u := by
      rintro u ⟨w, l⟩ hx
      obtain ⟨y, hy⟩ := mem_treeNext.1 hx
      exact mem_treeNext.2 ⟨y, List.mem_append_left _ hy⟩
    have hnew : ∀ v ∈ mstReached starts (mstEdges h ++ [r.edge]), ∃ p, PathVis (treeNext (mstEdges h ++ [r.edge])) starts c.vid
        (fun k => g.so.contains s'.visited k) (g.mo.get? s'.preds) (g.lo.get? s'.labels) v p := by
      intro v hv
      rw [mstReached_snoc, List.mem_append, List.mem_singleton] at hv
      rcases hv with hv | rfl
      · obtain ⟨p, hp⟩ := hp v hv
        exact ⟨p, (hp.mono hmono hgv hgl).mono_next htree⟩
      · obtain ⟨p, hp⟩ := hp r.edge.1 hm.1
        refine ⟨p.snoc r.edge.2.1 r.edge.2.2.2, ((hp.mono hmono hgv hgl).mono_next htree).extend ?_ ?_ ?_ ?_ ?_⟩
        · exact mem_treeNext.2 ⟨r.edge.2.2.1, List.mem_append_right _ (by simp)⟩
        · rw [e1, e3, hst.mo.get_set _ _ _ _ hval, if_pos rfl]
        · rw [e2, e4, hst.lo.get_set _ _ _ _ hlab, if_pos rfl]
        · rw [hi'.vis, decide_eq_true_eq, mstReached_snoc]; simp
        · intro he
          apply hm.2.2
          rw [← he]
          exact List.mem_map_of_mem hm.1
    refine ⟨by rw [hE]; exact hnew, ?_⟩
    intro A r' B hAB v hv
    simp only [repsOf_append, repsOf_rep, repsOf_nil] at hAB
    rcases List.eq_nil_or_concat B with rfl | ⟨B', b, rfl⟩
    · obtain ⟨rfl, hrr⟩ := List.append_inj' hAB rfl
      simp only [List.cons.injEq, and_true] at hrr
      subst hrr
      have hv' : v ∈ mstReached starts (mstEdges h ++ [r.edge]) := by
        rw [mstReached_snoc, mstReached, mstEdges, List.map_map]
        have : (repsOf h).map (fun r => r.vertex) = (repsOf h).map ((fun e => e.2.1) ∘ fun r => r.edge) :=
          List.map_congr_left (fun r hr => hall r hr)
        rw [← this, ← hrv]
        simpa using hv
      obtain ⟨p, hp⟩ := hnew v hv'
      refine ⟨p, ?_⟩
      rw [e1, e2] at hp
      simpa [mstEdges] using hp.1
    · rw [List.concat_eq_append, ← List.cons_append, ← List.append_assoc] at hAB
      obtain ⟨hAB, -⟩ := List.append_inj' hAB rfl
      exact hrep A r' B' hAB v hv
  · rintro h s s' hr ⟨hp, hrep⟩ e
    have hsame : s'.visited = s.visited ∧ s'.preds = s.preds ∧ s'.labels = s.labels := by
      unfold mstStep at e
      cases hpc : s.pc with
      | starts vs => rw [hpc] at e; cases vs <;> cases e; exact ⟨rfl, rfl, rfl⟩
      | loop =>
        rw [hpc] at e
        cases hh : s.heap with
        | nil => rw [hh] at e; cases e
        | cons a rest =>
          rw [hh] at e
          dsimp only at e
          split at e
          · cases e
          · cases e
      | expand v => rw [hpc] at e; cases e; exact ⟨rfl, rfl, rfl⟩
      | edges v es =>
        rw [hpc] at e
        cases es with
        | nil => cases e
        | cons a es =>
          dsimp only at e
          split at e <;> cases e
    rw [hsame.1, hsame.2.1, hsame.2.2]
    have hE : mstEdges (h ++ [.exp]) = mstEdges h := by simp [mstEdges]
    rw [hE]
    refine ⟨hp, ?_⟩
    simpa using hrep

end NoGraphs
