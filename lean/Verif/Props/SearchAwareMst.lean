import Mathlib.Data.List.Nodup
import Verif.Proofs.SearchAware
import Verif.Props.MinimumSpanningTree

/-! # Search-aware graphs: C70 for the minimum spanning tree traversal -/

set_option linter.unusedSectionVars false

namespace NoGraphs

open Spec

variable {V K L W S M ML : Type} [DecidableEq V] [DecidableEq K] [LinearOrder W]
variable {g : TravGear V K L S M ML} {c : MstCfg V K L W}

theorem mst_readsOne : ReadsOne (fun next : V → List (V × W × L) => mstStep g { c with next := next }) mstWho := by
  constructor
  · intro f f' s h
    unfold mstWho at h
    unfold mstStep
    rcases hpc : s.pc with (_ | ⟨v, vs⟩) | _ | v | ⟨v, (_ | ⟨e, es⟩)⟩ <;> rw [hpc] at h <;> try rfl
    · simp only [h v rfl]
    · simp only [h v rfl]
  · intro f s v h
    unfold mstWho at h
    unfold mstStep
    rcases hpc : s.pc with (_ | ⟨u, vs⟩) | _ | u | ⟨u, es⟩ <;> rw [hpc] at h <;> simp only [reduceCtorEq] at h
    · exact ⟨_, rfl⟩
    · exact ⟨_, rfl⟩

/-- The vertices whose edges are going to be read, as far as they are already visited. -/
def mstTodo (s : MstState V L W S M ML) : List V :=
  match s.pc with
  | .starts vs => vs
  | .expand v => [v]
  | _ => []

/-- No id is expanded twice; `X` holds the ids expanded so far. -/
structure MstOnce (g : TravGear V K L S M ML) (c : MstCfg V K L W) (X : List K) (s : MstState V L W S M ML) : Prop where
  nodup : (X ++ (mstTodo s).map c.vid).Nodup
  vis : ∀ k ∈ X ++ (mstTodo s).map c.vid, g.so.contains s.visited k = true

theorem mstOnce_step (hg : g.so.Lawful) (f : V → List (V × W × L)) (X : List K) (s : MstState V L W S M ML)
    (h : MstOnce g c X s) :
    match mstStep g { c with next := f } s with
    | .tau s' => MstOnce g c X s'
    | .emit _ s' => MstOnce g c X s'
    | .expand s' => ∃ v, mstWho s = some v ∧ c.vid v ∉ X ∧ MstOnce g c (c.vid v :: X) s'
    | _ => True := by
  obtain ⟨h1, h2⟩ := h
  unfold mstStep
  rcases hpc : s.pc with (_ | ⟨v, vs⟩) | _ | v | ⟨v, (_ | ⟨e, es⟩)⟩
  · simp only [mstTodo, hpc] at h1 h2
    exact ⟨h1, h2⟩
  · simp only [mstTodo, hpc] at h1 h2
    have hp : (X ++ List.map c.vid (v :: vs)).Perm (c.vid v :: X ++ List.map c.vid vs) := by simp
    have h3 := hp.nodup_iff.1 h1
    exact ⟨v, by simp [mstWho, hpc], fun hm => (List.nodup_cons.1 h3).1 (List.mem_append_left _ hm), h3,
      fun k hk => h2 k (hp.mem_iff.2 hk)⟩
  · simp only [mstTodo, hpc, List.map_nil, List.append_nil] at h1 h2
    rcases hh : s.heap with _ | ⟨e, rest⟩
    · trivial
    · dsimp only
      by_cases hc : (g.so.checkAdd s.visited (c.vid e.item.2.1)).1 = true
      · simp only [hc, if_true]
        exact ⟨by simpa [mstTodo] using h1, by simpa [mstTodo] using h2⟩
      · simp only [hc]
        rw [hg.checkAdd_fst] at hc
        refine ⟨?_, fun k hk => ?_⟩
        · simp only [mstTodo, List.map_cons, List.map_nil]
          rw [(List.perm_append_singleton _ _).nodup_iff, List.nodup_cons]
          exact ⟨fun hm => hc (h2 _ hm), h1⟩
        · simp only [mstTodo, List.map_cons, List.map_nil, List.mem_append, List.mem_singleton] at hk
          simp only [hg.contains_checkAdd, Bool.or_eq_true, decide_eq_true_eq]
          rcases hk with hk | hk
          · exact .inr (h2 k hk)
          · exact .inl hk
  · simp only [mstTodo, hpc] at h1 h2
    have hp : (X ++ List.map c.vid [v]).Perm (c.vid v :: X) := by simp
    have h3 := hp.nodup_iff.1 h1
    exact ⟨v, by simp [mstWho, hpc], (List.nodup_cons.1 h3).1, by simpa [mstTodo] using h3,
      fun k hk => h2 k (hp.mem_iff.2 (by simpa [mstTodo] using hk))⟩
  · simp only [mstTodo, hpc] at h1 h2
    exact ⟨h1, h2⟩
  · simp only [mstTodo, hpc] at h1 h2
    by_cases hv : g.so.contains s.visited (c.vid e.1) = true
    · simp only [hv, if_true]
      exact ⟨h1, h2⟩
    · simp only [hv]
      exact ⟨h1, h2⟩

/-- Two calls of the edges function are for vertices with different ids. -/
theorem mstAware_once (hg : g.so.Lawful) (F : Nat → MstView V M ML → List (V × W × L)) (starts : List V)
    (hs : (starts.map c.vid).Nodup) (limit : Option Int) (fuel : Nat) :
    ((mstAwareCalls g c F starts limit fuel).map (fun call => c.vid call.1.vertex)).Nodup := by
  unfold mstAwareCalls
  split
  · simp
  refine (aware_once c.vid MstView.vertex (fun _ _ => rfl) (fun _ => True) (fun _ _ => trivial) (MstOnce g c)
    ?_ ?_ ?_ ?_ fuel (prepareLimit limit) (mstInit g c starts, 0) [] ?_).1
  · intro f _ X s s' h e
    have := mstOnce_step hg f X s h
    rw [e] at this
    exact this
  · intro f _ X s r s' h e
    have := mstOnce_step hg f X s h
    rw [e] at this
    exact this
  · intro f _ X s s' h hw e
    have := mstOnce_step hg f X s h
    rw [e] at this
    obtain ⟨v, hv, -⟩ := this
    rw [hv] at hw
    simp at hw
  · intro f _ X s v s' h hw e
    have := mstOnce_step hg f X s h
    rw [e] at this
    obtain ⟨u, hu, h1, h2⟩ := this
    rw [hu] at hw
    cases hw
    exact ⟨h1, h2⟩
  · refine ⟨by simpa [mstTodo, mstInit] using hs, fun k hk => ?_⟩
    simp only [mstTodo, mstInit, List.nil_append] at hk
    simp only [mstInit, hg.contains_addAll, hk, decide_true, Bool.true_or]

/-- The tree edges are edges of the graph. -/
theorem Spec.PrimSeq.mem_next {next : V → List (V × W × L)} {vid : V → K} {starts : List V} {T : List (V × V × W × L)}
    (h : PrimSeq next vid starts T) {e : V × V × W × L} (he : e ∈ T) : e.2 ∈ next e.1 := by
  obtain ⟨T1, T2, rfl⟩ := List.append_of_mem he
  exact (h.facts.1 T1 e T2 rfl).1

/-- **C70 for minimum spanning trees.** With any edges function, the traversal behaves exactly as in the ordinary graph of
the edges that the function returned, and the function is called at most once for an id. With `build_paths`, when it is
called for a vertex, the `paths` it sees show a path to this vertex, from a start vertex, along edges that the function has
returned. -/
theorem C70_mst_search_aware (hg : g.so.Lawful) (F : Nat → MstView V M ML → List (V × W × L))
    {validV : V → Prop} {validL : L → Prop} (starts : List V) (hs : (starts.map c.vid).Nodup) (limit : Option Int)
    (fuel : Nat) :
    let run := mstAwareRun g c F starts limit fuel
    let calls := mstAwareCalls g c F starts limit fuel
    let graph := graphOfCalls c.vid MstView.vertex calls
    let ordinary := mstRun g { c with next := graph } starts limit fuel
    (run.events = ordinary.events ∧ run.ending = ordinary.ending ∧ run.final.1 = ordinary.final) ∧
    (calls.map (fun call => c.vid call.1.vertex)).Nodup ∧
    (∀ call ∈ calls, graph call.1.vertex = call.2) ∧
    (c.buildPaths = true → g.mo.Lawful validV → g.lo.Lawful validL → (∀ v ∈ starts, validV v) →
      (∀ call ∈ calls, ∀ e ∈ call.2, validV e.1 ∧ validL e.2.2) →
      ∀ call ∈ calls, ∃ p : SPath V L, p.first ∈ starts ∧
        IsPath (fun v => (graph v).map (fun e => (e.1, e.2.2))) p.first p.steps ∧
        p.verts.getLast? = some call.1.vertex ∧
        ShowsPath (pathsView g.mo g.lo c.vid call.1.preds call.1.labels) call.1.vertex p) := by
  intro run calls graph ordinary
  have hnd := mstAware_once (g := g) (c := c) hg F starts hs limit fuel
  by_cases hlim : limit.any (fun k : Int => 0 ≤ k && k < starts.length) = true
  · have hcalls : calls = [] := by simp only [calls, mstAwareCalls, hlim, if_true]
    refine ⟨?_, hnd, ?_, ?_⟩
    · simp only [run, ordinary, mstAwareRun, mstRun, hlim, if_true]
      exact ⟨trivial, trivial, rfl⟩
    · simp [hcalls]
    · simp [hcalls]
  have hcalls : calls = awareCalls (fun next => mstStep g { c with next := next }) mstWho mstView F fuel
      (prepareLimit limit) (mstInit g c starts, 0) := by
    simp only [calls, mstAwareCalls, if_neg hlim]
  obtain ⟨h1, h2⟩ := aware_static (F := F) (view := mstView) c.vid MstView.vertex (fun _ _ => rfl)
    (mst_readsOne (g := g) (c := c)) fuel (prepareLimit limit) (mstInit g c starts) (calls := calls) hcalls hnd
  refine ⟨?_, hnd, fun call hc => (h1 call hc).1, ?_⟩
  · simp only [run, ordinary, mstAwareRun, mstRun, if_neg hlim]
    exact h2
  intro hb hmo hlo hsv hcv call hc
  obtain ⟨-, h', s, hr, hw, hv⟩ := h1 call hc
  have hr' : Reaches (mstStep g { c with next := graph }) (mstInit g { c with next := graph } starts) h' s := hr
  have hst : MstStorable g { c with next := graph } starts validV validL := by
    refine ⟨hmo, hlo, fun v hv => ?_, fun u e _ he => ?_, fun s hs' t ht' e => List.inj_on_of_nodup_map hs hs' ht' e⟩
    · obtain ⟨n, hv⟩ := hv
      cases hv with
      | start h => exact hsv _ h
      | step _ h =>
        obtain ⟨x, l, hl⟩ := h
        obtain ⟨call, hc, -, he⟩ := mem_graphOfCalls hl
        exact (hcv call hc _ he).1
    · obtain ⟨call, hc, -, he⟩ := mem_graphOfCalls he
      exact (hcv call hc _ he).2
  have hreach : call.1.vertex ∈ mstReached starts (mstEdges h') := by
    obtain ⟨C, hC, -⟩ := (mst_inv hg hr').1.heap
    unfold mstWho at hw
    rcases hpc : s.pc with (_ | ⟨u, vs⟩) | _ | u | ⟨u, es⟩ <;> rw [hpc] at hw hC <;>
      simp only [reduceCtorEq, Option.some.injEq] at hw
    · obtain ⟨-, ds, e, -⟩ := hC
      exact List.mem_append_left _ (by rw [e, ← hw]; simp)
    · obtain ⟨R, e, -⟩ := hC
      rw [e, ← hw]
      simp
  obtain ⟨p, hp⟩ := (mst_paths hg hst hb hr').1 _ hreach
  have hprim := (mst_inv hg hr').1.prim
  rw [← hv]
  refine ⟨p, hp.1.1, hp.1.2.1.mono ?_, hp.1.2.2.last, hp.1.2.2.shows hmo hlo⟩
  rintro u ⟨w, l⟩ he
  obtain ⟨x, hx⟩ := mem_treeNext.1 he
  exact List.mem_map.2 ⟨_, hprim.mem_next hx, rfl⟩

/-! ## Non-vacuity -/


/-- Edges function on an infinite graph that counts its calls: the edges get heavier with each call, no edges from call 4
on. -/
def exMAware {M ML : Type} (n : Nat) (t : MstView Nat M ML) : List (Nat × Int × Char) :=
  if n < 4 then [(t.vertex + 1, 2 * n, 'a'), (t.vertex + 2, n, 'b'), (t.vertex / 2, 1, 'c')] else []

/-- The calls and the reports. (The hypotheses about gears hold for `exHash`, see `Verif/Props/MinimumSpanningTree.lean`.) -/
example : (mstAwareCalls exHash ⟨fun _ => [], id, true⟩ exMAware [0, 7] none 60).map (fun x => (x.1.vertex, x.2)) =
      [(0, [(1, 0, 'a'), (2, 0, 'b'), (0, 1, 'c')]), (7, [(8, 2, 'a'), (9, 1, 'b'), (3, 1, 'c')]),
       (1, [(2, 4, 'a'), (3, 2, 'b'), (0, 1, 'c')]), (2, [(3, 6, 'a'), (4, 3, 'b'), (1, 1, 'c')]),
       (9, []), (3, []), (8, []), (4, [])] ∧
    ((mstAwareRun exHash ⟨fun _ => [], id, true⟩ exMAware [0, 7] none 60).reports.map (fun r => (r.vertex, r.edge)),
      (mstAwareRun exHash ⟨fun _ => [], id, true⟩ exMAware [0, 7] none 60).ending) =
      ([(1, 0, 1, 0, 'a'), (2, 0, 2, 0, 'b'), (9, 7, 9, 1, 'b'), (3, 7, 3, 1, 'c'), (8, 7, 8, 2, 'a'), (4, 2, 4, 3, 'b')],
        .done) := by
  refine ⟨?_, ?_⟩ <;> decide +kernel

end NoGraphs
