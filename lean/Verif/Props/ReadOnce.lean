import Verif.Props.ReadsWeighted
import Verif.Props.SearchAwareAStar
import Verif.Props.SearchAwareTopo
import Verif.Props.SearchAwareTrace
import Verif.Spec.ReadOnce

/-! # C98: the edges of a vertex are asked for only once (traversals) -/

set_option linter.unusedSectionVars false

namespace NoGraphs

open Spec

section
variable {σ ρ V E C K : Type} {m : (V → List E) → σ → Step σ ρ} {who : σ → Option V} {view : σ → V → C}

theorem Spec.readsOf_append (a b : List (Act V)) : Spec.readsOf (a ++ b) = Spec.readsOf a ++ Spec.readsOf b := by
  simp [Spec.readsOf]

/-- The reads of a run are the calls of a search-aware graph that gives the same edges. -/
theorem reads_eq_calls (next : V → List E) (vert : C → V) (vert' : ρ → V) (hview : ∀ s v, vert (view s v) = v) (fuel : Nat)
    (lim : Option Int) (s : σ) (n : Nat) :
    Spec.readsOf (actsOf (m next) who vert' fuel lim s) =
      (awareCalls m who view (fun _ x => next (vert x)) fuel lim (s, n)).map (fun call => vert call.1) := by
  induction fuel generalizing lim s n with
  | zero => rfl
  | succ fuel ih =>
    unfold actsOf awareCalls
    simp only [awareStep, hview]
    rcases hm : m next s with s' | e | s' | ⟨r, s'⟩ | s' <;> simp only
    · rfl
    · rfl
    · exact ih _ _ _
    · exact ih _ _ _
    · rcases hl : checkLimit lim with _ | lim'
      · rfl
      · rcases hw : who s with _ | v
        · simpa using ih lim' s' (n + 1)
        · have := ih lim' s' (n + 1)
          simp only [Option.toList_some, List.map_cons, List.map_nil, List.cons_append, List.nil_append, hview]
          rw [← this]
          rfl

theorem readOnce_of_calls (next : V → List E) (vid : V → K) (vert : C → V) (vert' : ρ → V)
    (hview : ∀ s v, vert (view s v) = v) (fuel : Nat) (lim : Option Int) (s : σ)
    (h : ((awareCalls m who view (fun _ x => next (vert x)) fuel lim (s, 0)).map (fun call => vid (vert call.1))).Nodup) :
    ReadOnce vid (actsOf (m next) who vert' fuel lim s) := by
  unfold ReadOnce
  rw [reads_eq_calls next vert vert' hview fuel lim s 0, List.map_map]
  exact h

end

/-! ## Breadth-first search, neighbors-before-depth, depth-first search, topological sorting -/

section
variable {V K L S M ML : Type} [DecidableEq V] [DecidableEq K]
variable {g : TravGear V K L S M ML}

/-- **C98 for breadth-first search.** If the start vertices have different ids, the edges of each vertex are read at most once,
in graphs with any cycles and any number of edges to the same vertex. -/
theorem C98_bfs {c : TravCfg V K L} (hg : g.so.Lawful) (ht : c.isTree = false) (already : S) (starts : List V)
    (hs : (starts.map c.vid).Nodup) (limit : Option Int) (fuel : Nat) :
    ReadOnce c.vid (bfsActs g c already starts limit fuel) :=
  readOnce_of_calls (m := fun next => bfsStep g { c with next := next } false) (view := bfsView) c.next c.vid BfsReport.vertex _
    (fun _ _ => rfl) fuel (prepareLimit limit) _ (bfsAware_once hg ht _ already starts hs limit fuel)

/-- **C98 for neighbors-before-depth.** -/
theorem C98_ntd {c : NtdCfg V K L} (hg : g.so.Lawful) (ht : c.isTree = false) (already : S) (starts : List V)
    (hs : (starts.map c.vid).Nodup) (limit : Option Int) (fuel : Nat) :
    ReadOnce c.vid (ntdActs g c already starts limit fuel) :=
  readOnce_of_calls (m := fun next => ntdStep g { c with next := next }) (view := ntdView c) c.next c.vid NtdReport.vertex _
    (fun _ _ => rfl) fuel (prepareLimit limit) _ (ntdAware_once hg ht _ already starts hs limit fuel)

/-- **C98 for depth-first search without trace.** The start vertices can be given in any number. -/
theorem C98_dfs {c : DfsCfg V K L} (hg : g.so.Lawful) (ht : c.isTree = false) (already : S) (starts : List V)
    (limit : Option Int) (fuel : Nat) :
    ReadOnce c.vid (dfsActs g c already starts limit fuel) :=
  readOnce_of_calls (m := fun next => dfsStep g { c with next := next }) (view := dfsView) c.next c.vid DfsReport.vertex _
    (fun _ _ => rfl) fuel (prepareLimit limit) _ (dfsAware_once hg ht _ already starts limit fuel)

/-- **C98 for depth-first search with trace, mode `DFS_TREE`** (compare `C98_dfs_trace_counterexample`). -/
theorem C98_dfs_trace_partial {c : TraceCfg V K L} (hg : g.so.Lawful) (ht : c.isTree = false) (hm : c.mode = .dfsTree)
    (already : S) (starts : List V) (limit : Option Int) (fuel : Nat) :
    ReadOnce c.vid (trActs g c already starts limit fuel) :=
  readOnce_of_calls (m := fun next => trStep g { c with next := next }) (view := trView) c.next c.vid TraceReport.vertex _
    (fun _ _ => rfl) fuel (prepareLimit limit) _ (trAware_once hg ht hm _ already starts limit fuel)

/-- **C98 for topological sorting.** Also if the graph has a cycle. -/
theorem C98_topo {c : TravCfg V K L} (hg : g.so.Lawful) (ht : c.isTree = false) (already : S) (starts : List V)
    (hs : (starts.map c.vid).Nodup) (limit : Option Int) (fuel : Nat) :
    ReadOnce c.vid (topoActs g c already starts limit fuel) := by
  unfold topoActs
  rw [if_neg (by simp [ht])]
  exact readOnce_of_calls (m := fun next => topoStep g { c with next := next }) (view := topoView g c) c.next c.vid
    TopoReport.vertex _ (fun _ _ => rfl) fuel (prepareLimit limit) _ (topoAware_once hg ht _ already starts hs limit fuel)

end

/-! ## Weighted traversals -/

section
variable {V K L W : Type} [DecidableEq V] [DecidableEq K]

/-- **C98 for minimum spanning trees.** For any weights. -/
theorem C98_mst {S M ML : Type} [LinearOrder W] {g : TravGear V K L S M ML} {c : MstCfg V K L W} (hg : g.so.Lawful)
    (starts : List V) (hs : (starts.map c.vid).Nodup) (limit : Option Int) (fuel : Nat) :
    ReadOnce c.vid (mstActs g c starts limit fuel) := by
  have h := mstAware_once (c := c) hg (fun _ x => c.next x.vertex) starts hs limit fuel
  unfold mstAwareCalls at h
  unfold mstActs
  split
  · exact List.nodup_nil
  · rename_i hl
    rw [if_neg hl] at h
    exact readOnce_of_calls (m := fun next => mstStep g { c with next := next }) (view := mstView) c.next c.vid MstView.vertex _
      (fun _ _ => rfl) fuel (prepareLimit limit) _ h

variable {M ML D : Type} [AddCommMonoid W] [LinearOrder W] [IsOrderedAddMonoid W] {g : WGear V K L W M ML D}

/-- The start of the traversal, also with known distances. -/
theorem spOnce_start {c : WCfg V K L W} (ht : c.isTree = false) (hd : g.dd.Lawful c.inf) (known : Option D) (starts : List V)
    (hs : (starts.map c.vid).Nodup) (h0 : ∀ d, known = some d → ∀ v ∈ starts, 0 ≤ g.dd.get d (c.vid v)) :
    SpOnce g c [] (spInit g c known starts : SpState V L W M ML D) 0 := by
  cases known with
  | none => exact spOnce_init hd starts hs
  | some d =>
    have hB0 : ∀ v ∈ starts, 0 ≤ g.dd.get (spDistances g c (some d) starts) (c.vid v) := by
      have hdist : spDistances g c (some d) starts = g.dd.setDefaults d (starts.map (fun v => (c.vid v, 0))) := by
        simp [spDistances, ht]
      intro v hv
      rw [hdist]
      rcases (setDefaults_start hd c.vid starts d).2 (c.vid v) with h | ⟨-, h⟩
      · rw [h]; exact h0 d rfl v hv
      · rw [h]
    have hmem : ∀ e ∈ (spInit g c (some d) starts : SpState V L W M ML D).heap, 0 ≤ e.key ∧
        e.key = g.dd.get (spInit g c (some d) starts : SpState V L W M ML D).dist (c.vid e.item.1) := by
      intro e he
      obtain ⟨h1, -, h3⟩ := spStartEntries_mem ((heapify_perm _).mem_iff.1 he)
      exact ⟨h3 ▸ hB0 _ h1, h3⟩
    refine ⟨le_refl _, heapify_sorted _, ?_, fun e he => (hmem e he).1, fun e he => (hmem e he).2.ge,
      by simp [spCur, spWho, spInit], by simp [spCur, spWho, spInit], trivial⟩
    exact ((heapify_perm _).pairwise_iff (fun {a b} hab e => (hab e.symm).symm)).2 (spStartEntries_uniq hs)

/-- **C98 for shortest paths.** Weights and known distances are not negative. -/
theorem C98_sp {c : WCfg V K L W} (ht : c.isTree = false) (hd : g.dd.Lawful c.inf) (hn : NonNeg c.next) (known : Option D)
    (starts : List V) (hs : (starts.map c.vid).Nodup)
    (h0 : ∀ d, known = some d → ∀ v ∈ starts, 0 ≤ g.dd.get d (c.vid v)) (limit : Option Int) (fuel : Nat) :
    ReadOnce c.vid (spActs g c known starts limit fuel) := by
  refine readOnce_of_calls (m := fun next => spStep g { c with next := next }) (view := spView) c.next c.vid SpReport.vertex _
    (fun s v => by unfold spView; split <;> rfl) fuel (prepareLimit limit) _
    (aware_once c.vid SpReport.vertex (fun s v => by unfold spView; split <;> rfl) (fun f => ∀ v, ∀ e ∈ f v, 0 ≤ e.2.1)
    (fun n s v e he => hn _ e.1 e.2.1 ⟨e.2.2, he⟩) (fun X s => ∃ cur, SpOnce g c X s cur) ?_ ?_ ?_ ?_ fuel (prepareLimit limit)
    (spInit g c known starts, 0) [] ⟨0, spOnce_start ht hd known starts hs h0⟩).1
  · rintro f hf X s s' ⟨cur, h⟩ e
    have := spOnce_step ht hd f hf X s cur h
    rw [e] at this
    exact this
  · rintro f hf X s r s' ⟨cur, h⟩ e
    have := spOnce_step ht hd f hf X s cur h
    rw [e] at this
    exact this
  · rintro f hf X s s' ⟨cur, h⟩ hw e
    exfalso
    unfold spWho at hw
    revert e
    refine spStep_cases (P := fun t => t = .expand s' → False) (c := { c with next := f }) ht s ?_ ?_ ?_ ?_ ?_ ?_ ?_ ?_
    · intros; contradiction
    · intros; contradiction
    · exact fun _ _ _ _ _ _ _ => ⟨fun _ h => (by cases h), fun _ h => (by cases h)⟩
    · intro v w ec hpc
      rw [hpc] at hw
      simp at hw
    all_goals intros; contradiction
  · rintro f hf X s v s' ⟨cur, h⟩ hw e
    have := spOnce_step ht hd f hf X s cur h
    rw [e] at this
    exact ⟨h.new _ (by simp [spCur, hw]), this v hw⟩

end

section
variable {V K L W M ML D : Type} [DecidableEq V] [DecidableEq K] [AddCommMonoid W] [LinearOrder W] [IsOrderedCancelAddMonoid W]
  {g : WGear V K L W M ML D}

/-- **C98 for A\*.** For consistent heuristic functions without infinite estimates (compare `C98_astar_counterexample`). -/
theorem C98_astar_partial {c : AStarCfg V K L W} (ht : c.isTree = false) (hd : g.dd.Lawful c.inf)
    (hh : HeurCompat c.heur c.vid) (hcons : Consistent c.next c.heur) (hfin : ∀ v, c.heur v ≠ c.inf) (starts : List V)
    (hs : (starts.map c.vid).Nodup) (limit : Option Int) (fuel : Nat) :
    ReadOnce c.vid (aActs g c none none starts limit fuel) :=
  readOnce_of_calls (m := fun next => aStep g { c with next := next }) (view := aView) c.next c.vid AStarReport.vertex _
    (fun s v => by unfold aView; split <;> rfl) fuel (prepareLimit limit) _
    (aAware_once ht hd hh hfin _ (fun _ x e he => hcons x.vertex e.1 e.2.1 ⟨e.2.2, he⟩) starts hs limit fuel)

end

/-! ## As often as given and reported

The following holds for all options, also for `is_tree`, for repeated start vertices, for negative weights and for inconsistent
heuristic functions. -/

section
variable {V : Type} [DecidableEq V]

theorem readsOf_reported (t : List (Act V)) (v : V) : Spec.readsOf (t ++ [.reported v]) = Spec.readsOf t := by
  simp [Spec.readsOf]

theorem readsOf_read (t : List (Act V)) (v : V) : Spec.readsOf (t ++ [.read v]) = Spec.readsOf t ++ [v] := by
  simp [Spec.readsOf]

theorem reportedOf_reported (t : List (Act V)) (v : V) : reportedOf (t ++ [.reported v]) = reportedOf t ++ [v] := by
  simp [reportedOf]

theorem reportedOf_read (t : List (Act V)) (v : V) : reportedOf (t ++ [.read v]) = reportedOf t := by
  simp [reportedOf]

/-- The vertices `todo` are still waiting for their expansion. -/
def Waiting (starts : List V) (t : List (Act V)) (todo : List V) : Prop :=
  ∀ v, (Spec.readsOf t).count v + todo.count v ≤ starts.count v + (reportedOf t).count v

theorem Waiting.per {starts : List V} {t : List (Act V)} {todo : List V} (h : Waiting starts t todo) : ReadPerReport starts t :=
  fun v => by have := h v; omega

theorem Waiting.mono {starts : List V} {t : List (Act V)} {todo todo' : List V} (h : Waiting starts t todo)
    (hc : ∀ v, todo'.count v ≤ todo.count v) : Waiting starts t todo' := fun v => by have := h v; have := hc v; omega

theorem Waiting.report {starts : List V} {t : List (Act V)} {todo todo' : List V} (h : Waiting starts t todo) (u : V)
    (hc : ∀ v, todo'.count v ≤ todo.count v + [u].count v) : Waiting starts (t ++ [.reported u]) todo' := fun v => by
  have := h v; have := hc v
  rw [readsOf_reported, reportedOf_reported, List.count_append]; omega

theorem Waiting.read {starts : List V} {t : List (Act V)} {todo todo' : List V} (h : Waiting starts t todo) (u : V)
    (hc : ∀ v, todo'.count v + [u].count v ≤ todo.count v) : Waiting starts (t ++ [.read u]) todo' := fun v => by
  have := h v; have := hc v
  rw [readsOf_read, reportedOf_read, List.count_append]; omega

theorem Waiting.init (starts : List V) : Waiting starts [] starts := fun v => by simp [Spec.readsOf, reportedOf]

end

section
variable {V K L S M ML : Type} [DecidableEq V] [DecidableEq K] {g : TravGear V K L S M ML}

/-- **C98 for breadth-first search, all options.** -/
theorem C98_bfs_per_report {c : TravCfg V K L} (already : S) (starts : List V) (limit : Option Int) (fuel : Nat) :
    ReadPerReport starts (bfsActs g c already starts limit fuel) := by
  obtain ⟨s, h⟩ := acts_inv (m := bfsStep g c false) (who := bfsWho) (vert := fun r : BfsReport V S M ML => r.vertex)
    (fun t s => Waiting starts t (s.toExpand ++ s.nextToExpand) ∧ (s.pc = .levelEnd → s.toExpand = []))
    (by
      rintro t s s' ⟨h, hl⟩ hm
      unfold bfsStep at hm
      rcases hpc : s.pc with _ | _ | ⟨v, es⟩ | _ <;> simp only [hpc] at hm
      · rcases hx : s.toExpand with _ | ⟨u, rest⟩ <;> simp only [hx, reduceCtorEq, Step.tau.injEq] at hm
        subst hm; exact ⟨by simpa [hx] using h, by simp⟩
      · rcases hx : s.toExpand with _ | ⟨u, rest⟩ <;> simp only [hx, reduceCtorEq, Step.tau.injEq] at hm
        subst hm; exact ⟨by simpa [hx] using h, fun _ => rfl⟩
      · rcases es with _ | ⟨e, es⟩ <;> simp only at hm
        · cases hm; exact ⟨h, by simp⟩
        · split at hm <;> cases hm
          exact ⟨h, by simp⟩
      · cases hm
        rw [hl hpc] at h
        exact ⟨by simpa using h, by simp⟩)
    (by
      rintro t s r s' ⟨h, hl⟩ hm
      unfold bfsStep at hm
      rcases hpc : s.pc with _ | _ | ⟨v, es⟩ | _ <;> simp only [hpc] at hm
      · rcases hx : s.toExpand with _ | ⟨u, rest⟩ <;> simp [hx] at hm
      · rcases hx : s.toExpand with _ | ⟨u, rest⟩ <;> simp [hx] at hm
      · rcases es with _ | ⟨e, es⟩ <;> simp only [reduceCtorEq] at hm
        split at hm <;> cases hm
        exact ⟨h.report _ (fun v => by simp only [List.count_append]; omega), by simp⟩
      · simp at hm)
    (by
      rintro t s s' ⟨h, hl⟩ hm
      unfold bfsStep at hm
      rcases hpc : s.pc with _ | _ | ⟨v, es⟩ | _ <;> simp only [hpc] at hm
      · rcases hx : s.toExpand with _ | ⟨u, rest⟩ <;> simp [hx] at hm
      · rcases hx : s.toExpand with _ | ⟨u, rest⟩ <;> simp only [hx, reduceCtorEq] at hm
        cases hm
        rw [hx] at h
        refine ⟨u, by simp [bfsWho, hpc, hx], h.read _ (fun v => ?_), by simp⟩
        simp only [List.count_append, List.cons_append, List.count_cons, List.count_nil]; omega
      · rcases es with _ | ⟨e, es⟩ <;> simp only [reduceCtorEq] at hm
        split at hm <;> cases hm
      · simp at hm)
    fuel (prepareLimit limit) [] (bfsInit g c already starts)
    ⟨by simpa [bfsInit] using Waiting.init starts, by simp [bfsInit]⟩
  simpa [bfsActs] using h.1.per

/-- **C98 for neighbors-before-depth, all options.** -/
theorem C98_ntd_per_report {c : NtdCfg V K L} (already : S) (starts : List V) (limit : Option Int) (fuel : Nat) :
    ReadPerReport starts (ntdActs g c already starts limit fuel) := by
  obtain ⟨s, h⟩ := acts_inv (m := ntdStep g c) (who := ntdWho c) (vert := fun r : NtdReport V S M ML => r.vertex)
    (fun t s => Waiting starts t s.toExpand)
    (by
      rintro t s s' h hm
      unfold ntdStep at hm
      rcases hpc : s.pc with _ | ⟨v, es⟩ <;> simp only [hpc] at hm
      · rcases hx : s.toExpand with _ | ⟨u, rest⟩ <;> simp only [hx, reduceCtorEq] at hm
        split at hm
        · split at hm <;> cases hm
        · cases hm
      · rcases es with _ | ⟨e, es⟩ <;> simp only at hm
        · cases hm; exact h
        · split at hm <;> cases hm
          exact h)
    (by
      rintro t s r s' h hm
      unfold ntdStep at hm
      rcases hpc : s.pc with _ | ⟨v, es⟩ <;> simp only [hpc] at hm
      · rcases hx : s.toExpand with _ | ⟨u, rest⟩ <;> simp only [hx, reduceCtorEq] at hm
        split at hm
        · split at hm <;> cases hm
        · cases hm
      · rcases es with _ | ⟨e, es⟩ <;> simp only [reduceCtorEq] at hm
        split at hm <;> cases hm
        exact h.report _ (fun v => by simp only [List.count_cons, List.count_nil]; omega))
    (by
      rintro t s s' h hm
      obtain ⟨v, hw, hx⟩ : ∃ v, ntdWho c s = some v ∧ s.toExpand = v :: s'.toExpand := by
        unfold ntdStep at hm
        unfold ntdWho
        rcases hpc : s.pc with _ | ⟨v, es⟩ <;> simp only [hpc] at hm ⊢
        · rcases hx : s.toExpand with _ | ⟨u, rest⟩ <;> simp only [hx, reduceCtorEq] at hm ⊢
          split at hm
          · rename_i hcd
            split at hm
            · cases hm
            · rename_i ms d he
              cases hm
              exact ⟨u, by simp [hcd, he], rfl⟩
          · rename_i hcd
            cases hm
            exact ⟨u, by simp [hcd], rfl⟩
        · rcases es with _ | ⟨e, es⟩ <;> simp only [reduceCtorEq] at hm
          split at hm <;> cases hm
      rw [hx] at h
      exact ⟨v, hw, h.read _ (fun u => by simp only [List.count_cons, List.count_nil]; omega)⟩)
    fuel (prepareLimit limit) [] (ntdInit g c already starts)
    ((Waiting.init starts).mono (fun v => by simp [ntdInit]))
  simpa [ntdActs] using h.per

/-- **C98 for minimum spanning trees, all options.** -/
theorem C98_mst_per_report {W : Type} [LinearOrder W] {c : MstCfg V K L W} (starts : List V) (limit : Option Int) (fuel : Nat) :
    ReadPerReport starts (mstActs g c starts limit fuel) := by
  unfold mstActs
  split
  · intro v; simp [Spec.readsOf]
  have step : ∀ t (s : MstState V L W S M ML), Waiting starts t (mstTodo s) →
      match mstStep g c s with
      | .tau s' => Waiting starts t (mstTodo s')
      | .emit r s' => Waiting starts (t ++ [.reported r.vertex]) (mstTodo s')
      | .expand s' => ∃ v, mstWho s = some v ∧ Waiting starts (t ++ [.read v]) (mstTodo s')
      | _ => True := by
    intro t s h
    unfold mstStep
    rcases hpc : s.pc with (_ | ⟨v, vs⟩) | _ | v | ⟨v, (_ | ⟨e, es⟩)⟩ <;> simp only [mstTodo, hpc] at h ⊢
    · exact h
    · exact ⟨v, by simp [mstWho, hpc], h.read _ (fun u => by simp only [List.count_cons, List.count_nil]; omega)⟩
    · rcases hx : s.heap with _ | ⟨e, rest⟩ <;> simp only
      by_cases hv : (g.so.checkAdd s.visited (c.vid e.item.2.1)).1 = true
      · simp only [if_pos hv]
        exact h
      · simp only [if_neg hv]
        exact h.report _ (fun u => by simp)
    · exact ⟨v, by simp [mstWho, hpc], h.read _ (fun u => by simp)⟩
    · exact h
    · by_cases hv : g.so.contains s.visited (c.vid e.1) = true
      · simp only [if_pos hv]
        exact h
      · simp only [if_neg hv]
        exact h
  obtain ⟨s, h⟩ := acts_inv (m := mstStep g c) (who := mstWho) (vert := fun r : MstReport V L W M ML => r.vertex)
    (fun t s => Waiting starts t (mstTodo s))
    (fun t s s' h hm => by have := step t s h; simpa only [hm] using this)
    (fun t s r s' h hm => by have := step t s h; simpa only [hm] using this)
    (fun t s s' h hm => by have := step t s h; simpa only [hm] using this)
    fuel (prepareLimit limit) [] (mstInit g c starts) (by simpa [mstTodo, mstInit] using Waiting.init starts)
  simpa using h.per

end

section
variable {V K L W M ML D : Type} [DecidableEq V] [DecidableEq K] [AddCommMonoid W] [LinearOrder W] [IsOrderedAddMonoid W]
  {g : WGear V K L W M ML D}

/-- The start vertices on the heap, and the vertex that is about to be expanded. -/
def heapTodo (pc : SpPc V L W) (h : List (HEntry W (V × Nat))) : List V :=
  (match pc with | .expand v _ _ => [v] | _ => []) ++ (h.filter (fun e => e.item.2 == 0)).map (fun e => e.item.1)

theorem heapTodo_push (pc : SpPc V L W) (h : List (HEntry W (V × Nat))) (w : W) (no : Int) (v : V) (n : Nat) (u : V) :
    (heapTodo pc (heapPush h ⟨w, no, (v, n + 1)⟩)).count u = (heapTodo pc h).count u := by
  have hp : ((heapPush h ⟨w, no, (v, n + 1)⟩).filter (fun e => e.item.2 == 0)).Perm (h.filter (fun e => e.item.2 == 0)) := by
    have := (heapPush_perm h ⟨w, no, (v, n + 1)⟩).filter (fun e : HEntry W (V × Nat) => e.item.2 == 0)
    simpa using this
  simp only [heapTodo, List.count_append, (hp.map _).count_eq]

theorem heapTodo_heapify (pc : SpPc V L W) (h : List (HEntry W (V × Nat))) (u : V) :
    (heapTodo pc (heapify h)).count u = (heapTodo pc h).count u := by
  simp only [heapTodo, List.count_append, (((heapify_perm h).filter _).map _).count_eq]

/-- **C98 for shortest paths, all options** (also for known distances). -/
theorem C98_sp_per_report {c : WCfg V K L W} (known : Option D) (starts : List V) (limit : Option Int) (fuel : Nat) :
    ReadPerReport starts (spActs g c known starts limit fuel) := by
  have step : ∀ t (s : SpState V L W M ML D), Waiting starts t (heapTodo s.pc s.heap) →
      match spStep g c s with
      | .tau s' => Waiting starts t (heapTodo s'.pc s'.heap)
      | .emit r s' => Waiting starts (t ++ [.reported r.vertex]) (heapTodo s'.pc s'.heap)
      | .expand s' => ∃ v, spWho s = some v ∧ Waiting starts (t ++ [.read v]) (heapTodo s'.pc s'.heap)
      | _ => True := by
    intro t s h
    unfold spStep
    rcases hpc : s.pc with _ | ⟨v, w, ec⟩ | ⟨v, w, ec, _ | ⟨⟨n, x, l⟩, es⟩⟩ <;> simp only [hpc] at h ⊢
    · rcases hx : s.heap with _ | ⟨e, rest⟩
      · trivial
      · rw [hx] at h
        simp only
        by_cases hc : (!c.isTree && decide (g.dd.get s.dist (c.vid e.item.1) < e.key)) = true
        · simp only [if_pos hc]
          refine h.mono (fun u => ?_)
          by_cases h0 : e.item.2 = 0 <;> simp [heapTodo, h0, List.count_cons]
        · simp only [if_neg hc]
          by_cases he : e.item.2 > 0
          · simp only [if_pos he]
            exact h.report _ (fun u => by
              have : e.item.2 ≠ 0 := by omega
              simp [heapTodo, this, List.count_cons])
          · simp only [if_neg he]
            have : e.item.2 = 0 := by omega
            exact h.mono (fun u => by simp [heapTodo, this])
    · exact ⟨v, by simp only [spWho, hpc], h.read _ (fun u => by simp [heapTodo, List.count_cons])⟩
    · exact h
    · by_cases hi : c.inf ≤ x + w
      · simp only [if_pos hi]
      · simp only [if_neg hi]
        rcases spImprove g c s.dist (c.vid n) (x + w) with _ | d
        · exact h
        · exact h.mono (fun u => by rw [heapTodo_push]; simp [heapTodo])
  have h0 : ∀ d no u, (heapTodo (.loop : SpPc V L W) (spStartEntries g c d starts no)).count u = starts.count u := by
    intro d no u
    have : (heapTodo (.loop : SpPc V L W) (spStartEntries g c d starts no)) = starts := by
      clear step
      induction starts generalizing no with
      | nil => rfl
      | cons v vs ih => simpa [heapTodo, spStartEntries] using ih (no - 1)
    rw [this]
  obtain ⟨s, h⟩ := acts_inv (m := spStep g c) (who := spWho) (vert := fun r : SpReport V W M ML D => r.vertex)
    (fun t s => Waiting starts t (heapTodo s.pc s.heap))
    (fun t s s' h hm => by have := step t s h; simpa only [hm] using this)
    (fun t s r s' h hm => by have := step t s h; simpa only [hm] using this)
    (fun t s s' h hm => by have := step t s h; simpa only [hm] using this)
    fuel (prepareLimit limit) [] (spInit g c known starts)
    ((Waiting.init starts).mono (fun u => by simp only [spInit, heapTodo_heapify, h0]; exact le_refl _))
  simpa [spActs] using h.per

/-- **C98 for A\*, all options.** -/
theorem C98_astar_per_report {c : AStarCfg V K L W} (known knownGuesses : Option D) (starts : List V) (limit : Option Int)
    (fuel : Nat) : ReadPerReport starts (aActs g c known knownGuesses starts limit fuel) := by
  have step : ∀ t (s : AStarState V L W M ML D), Waiting starts t (heapTodo s.pc s.heap) →
      match aStep g c s with
      | .tau s' => Waiting starts t (heapTodo s'.pc s'.heap)
      | .emit r s' => Waiting starts (t ++ [.reported r.vertex]) (heapTodo s'.pc s'.heap)
      | .expand s' => ∃ v, aWho s = some v ∧ Waiting starts (t ++ [.read v]) (heapTodo s'.pc s'.heap)
      | _ => True := by
    intro t s h
    unfold aStep
    rcases hpc : s.pc with _ | ⟨v, w, ec⟩ | ⟨v, w, ec, _ | ⟨⟨n, x, l⟩, es⟩⟩ <;> simp only [hpc] at h ⊢
    · rcases hx : s.heap with _ | ⟨e, rest⟩
      · trivial
      · rw [hx] at h
        simp only
        by_cases hc : (!c.isTree && decide (g.dd.get s.guesses (c.vid e.item.1) < e.key)) = true
        · simp only [if_pos hc]
          refine h.mono (fun u => ?_)
          by_cases h0 : e.item.2 = 0 <;> simp [heapTodo, h0, List.count_cons]
        · simp only [if_neg hc]
          by_cases he : e.item.2 > 0
          · simp only [if_pos he]
            exact h.report _ (fun u => by
              have : e.item.2 ≠ 0 := by omega
              simp [heapTodo, this, List.count_cons])
          · simp only [if_neg he]
            have : e.item.2 = 0 := by omega
            exact h.mono (fun u => by simp [heapTodo, this])
    · exact ⟨v, by simp only [aWho, hpc], h.read _ (fun u => by simp [heapTodo, List.count_cons])⟩
    · exact h
    · by_cases hi : c.inf ≤ x + w
      · simp only [if_pos hi]
      · simp only [if_neg hi]
        rcases aImprove g c s.dist (c.vid n) (x + w) with _ | d
        · exact h
        · simp only
          by_cases hj : c.heur n ≠ c.inf ∧ c.inf ≤ aGuess c.inf (x + w) (c.heur n)
          · simp only [if_pos hj]
          · simp only [if_neg hj]
            exact h.mono (fun u => by rw [heapTodo_push]; simp [heapTodo])
  obtain ⟨s, h⟩ := acts_inv (m := aStep g c) (who := aWho) (vert := fun r : AStarReport V W M ML D => r.vertex)
    (fun t s => Waiting starts t (heapTodo s.pc s.heap))
    (fun t s s' h hm => by have := step t s h; simpa only [hm] using this)
    (fun t s r s' h hm => by have := step t s h; simpa only [hm] using this)
    (fun t s s' h hm => by have := step t s h; simpa only [hm] using this)
    fuel (prepareLimit limit) [] (aInit g c known knownGuesses starts)
    ((Waiting.init starts).mono (fun u => by
      have : ∀ d no, heapTodo (.loop : SpPc V L W) (aStartEntries g c d starts no) = starts := by
        intro d no
        clear step
        induction starts generalizing no with
        | nil => rfl
        | cons v vs ih => simpa [heapTodo, aStartEntries] using ih (no - 1)
      simp only [aInit, heapTodo_heapify, this]; exact le_refl _))
  simpa [aActs] using h.per

end

end NoGraphs
