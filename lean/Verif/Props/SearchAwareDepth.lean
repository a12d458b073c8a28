import Verif.Props.DepthFirst
import Verif.Props.NeighborsThenDepth
import Verif.Props.SearchAware

/-! # Search-aware graphs: C70 for neighbors-before-depth and depth-first search -/

set_option linter.unusedSectionVars false

namespace NoGraphs

open Spec

variable {V K L S M ML : Type} [DecidableEq V] [DecidableEq K]

/-! ## Neighbors before depth -/

section
variable {g : TravGear V K L S M ML} {c : NtdCfg V K L}

theorem ntd_readsOne : ReadsOne (fun next => ntdStep g { c with next := next }) (ntdWho c) := by
  constructor
  · intro f f' s h
    unfold ntdWho at h
    unfold ntdStep
    rcases hpc : s.pc with _ | ⟨v, es⟩
    · simp only [hpc] at h
      rcases ht : s.toExpand with _ | ⟨v, rest⟩
      · rfl
      · simp only [ht] at h ⊢
        split
        · rename_i hc
          simp only [hc, if_true] at h
          rcases hp : ntdPop s.markers (s.depth + 1) with _ | ⟨ms, d⟩
          · rfl
          · rw [hp] at h
            simp only [h v rfl]
        · rename_i hc
          simp only [hc] at h
          simp only [h v rfl]
    · rcases es with _ | ⟨e, es⟩ <;> rfl
  · intro f s v h
    unfold ntdWho at h
    unfold ntdStep
    rcases hpc : s.pc with _ | ⟨v, es⟩ <;> simp only [hpc] at h ⊢
    · rcases ht : s.toExpand with _ | ⟨u, rest⟩ <;> simp only [ht] at h ⊢
      · simp at h
      · split
        · rename_i hc
          simp only [hc, if_true] at h
          rcases hp : ntdPop s.markers (s.depth + 1) with _ | ⟨ms, d⟩
          · rw [hp] at h; simp at h
          · exact ⟨_, rfl⟩
        · exact ⟨_, rfl⟩
    · simp at h

/-- No id is expanded twice; `X` holds the ids expanded so far. -/
structure NtdOnce (g : TravGear V K L S M ML) (c : NtdCfg V K L) (X : List K) (s : NtdState V L S M ML) : Prop where
  nodup : (X ++ s.toExpand.map c.vid).Nodup
  vis : ∀ k ∈ X ++ s.toExpand.map c.vid, g.so.contains s.visited k = true

theorem ntdOnce_step (hg : g.so.Lawful) (ht : c.isTree = false) (f : V → List (V × L)) (X : List K)
    (s : NtdState V L S M ML) (h : NtdOnce g c X s) :
    match ntdStep g { c with next := f } s with
    | .tau s' => NtdOnce g c X s'
    | .emit _ s' => NtdOnce g c X s'
    | .expand s' => ∃ v, ntdWho c s = some v ∧ c.vid v ∉ X ∧ NtdOnce g c (c.vid v :: X) s'
    | _ => True := by
  obtain ⟨h1, h2⟩ := h
  unfold ntdStep
  rcases hpc : s.pc with _ | ⟨v, es⟩
  · rcases hx : s.toExpand with _ | ⟨v, rest⟩
    · trivial
    · have hp : (X ++ List.map c.vid s.toExpand).Perm (c.vid v :: X ++ List.map c.vid rest) := by
        rw [hx]
        simp
      have h3 := hp.nodup_iff.1 h1
      have hv : c.vid v ∉ X := fun hm => (List.nodup_cons.1 h3).1 (List.mem_append_left _ hm)
      have h4 : ∀ k ∈ c.vid v :: X ++ List.map c.vid rest, g.so.contains s.visited k = true :=
        fun k hk => h2 k (hp.mem_iff.2 hk)
      by_cases hc : c.computeDepth = true
      · simp only [hc, if_true]
        rcases hp : ntdPop s.markers (s.depth + 1) with _ | ⟨ms, d⟩
        · trivial
        · exact ⟨v, by simp [ntdWho, hpc, hx, hc, hp], hv, h3, h4⟩
      · simp only [hc]
        exact ⟨v, by simp [ntdWho, hpc, hx, hc], hv, h3, h4⟩
  · rcases es with _ | ⟨e, es⟩
    · exact ⟨h1, h2⟩
    · simp only [ht]
      rcases hv : bfsVisit g false c.buildPaths c.vid s.visited s.preds s.labels v e with _ | ⟨vis, pr, la⟩
      · exact ⟨h1, h2⟩
      · obtain ⟨k1, k2, -⟩ := bfsVisit_some hg hv
        have hp : (X ++ List.map c.vid (e.1 :: s.toExpand)).Perm (c.vid e.1 :: (X ++ List.map c.vid s.toExpand)) := by
          simp
        refine ⟨?_, fun k hk => ?_⟩
        · rw [hp.nodup_iff, List.nodup_cons]
          refine ⟨fun hm => ?_, h1⟩
          have := h2 _ hm
          rw [k1] at this
          simp at this
        · rw [hp.mem_iff, List.mem_cons] at hk
          simp only [k2, Bool.or_eq_true, decide_eq_true_eq]
          exact hk.imp id (h2 k)

/-- Two calls of the edges function are for vertices with different ids. -/
theorem ntdAware_once (hg : g.so.Lawful) (ht : c.isTree = false) (F : Nat → NtdReport V S M ML → List (V × L))
    (already : S) (starts : List V) (hs : (starts.map c.vid).Nodup) (limit : Option Int) (fuel : Nat) :
    ((ntdAwareCalls g c F already starts limit fuel).map (fun call => c.vid call.1.vertex)).Nodup := by
  refine (aware_once c.vid NtdReport.vertex (fun _ _ => rfl) (fun _ => True) (fun _ _ => trivial) (NtdOnce g c)
    ?_ ?_ ?_ ?_ fuel (prepareLimit limit) (ntdInit g c already starts, 0) [] ?_).1
  · intro f _ X s s' h e
    have := ntdOnce_step hg ht f X s h
    rw [e] at this
    exact this
  · intro f _ X s r s' h e
    have := ntdOnce_step hg ht f X s h
    rw [e] at this
    exact this
  · intro f _ X s s' h hw e
    have := ntdOnce_step hg ht f X s h
    rw [e] at this
    obtain ⟨v, hv, -⟩ := this
    rw [hv] at hw
    simp at hw
  · intro f _ X s v s' h hw e
    have := ntdOnce_step hg ht f X s h
    rw [e] at this
    obtain ⟨u, hu, h1, h2⟩ := this
    rw [hu] at hw
    cases hw
    exact ⟨h1, h2⟩
  · have hp : (starts.reverse.map c.vid).Perm (starts.map c.vid) := (List.reverse_perm _).map _
    refine ⟨?_, fun k hk => ?_⟩
    · simp only [ntdInit, List.nil_append]
      exact hp.nodup_iff.2 hs
    · simp only [ntdInit, List.nil_append, hp.mem_iff] at hk
      simp only [ntdInit, ht, Bool.false_eq_true, if_false, hg.contains_addAll, hk, decide_true, Bool.true_or]

/-- **C70 for neighbors-before-depth.** With any edges function, the traversal behaves exactly as in the ordinary graph of
the edges that the function returned, and the function is called at most once for an id. When it is called for a vertex,
the depth it sees (option `compute_depth`) is the number of edges of a walk to this vertex in that graph; and with
`build_paths`, the `paths` it sees show such a path. -/
theorem C70_ntd_search_aware (hg : g.so.Lawful) (ht : c.isTree = false) (F : Nat → NtdReport V S M ML → List (V × L))
    {validV : V → Prop} {validL : L → Prop}
    (already : S) (starts : List V) (hs : (starts.map c.vid).Nodup) (limit : Option Int) (fuel : Nat) :
    let run := ntdAwareRun g c F already starts limit fuel
    let calls := ntdAwareCalls g c F already starts limit fuel
    let graph := graphOfCalls c.vid NtdReport.vertex calls
    let ordinary := ntdRun g { c with next := graph } already starts limit fuel
    (run.events = ordinary.events ∧ run.ending = ordinary.ending ∧ run.final.1 = ordinary.final) ∧
    (calls.map (fun call => c.vid call.1.vertex)).Nodup ∧
    (∀ call ∈ calls, graph call.1.vertex = call.2 ∧ ∃ d : Nat, (c.computeDepth = true → call.1.depth = d) ∧
      WalkN (Allowed graph c.vid (fun k => g.so.contains already k = true)) (· ∈ starts) d call.1.vertex) ∧
    (c.buildPaths = true → g.mo.Lawful validV → g.lo.Lawful validL → (∀ v ∈ starts, validV v) →
      (∀ call ∈ calls, ∀ e ∈ call.2, validV e.1 ∧ validL e.2) →
      ∀ call ∈ calls, ∃ p : SPath V L, p.first ∈ starts ∧ IsPath graph p.first p.steps ∧
        p.verts.getLast? = some call.1.vertex ∧ (c.computeDepth = true → call.1.depth = p.steps.length) ∧
        ShowsPath (pathsView g.mo g.lo c.vid call.1.preds call.1.labels) call.1.vertex p) := by
  intro run calls graph ordinary
  have hnd := ntdAware_once (g := g) (c := c) hg ht F already starts hs limit fuel
  obtain ⟨h1, h2⟩ := aware_static (F := F) (view := ntdView c) c.vid NtdReport.vertex (fun _ _ => rfl)
    (ntd_readsOne (g := g) (c := c)) fuel (prepareLimit limit) (ntdInit g c already starts) (calls := calls) rfl hnd
  have key : ∀ bp, NtdPathsOk g { c with next := graph } bp starts → ∀ call ∈ calls, ∃ d : Nat,
      (c.computeDepth = true → call.1.depth = d) ∧
      NtdAt g { c with next := graph } bp already starts call.1.preds call.1.labels call.1.vertex d := by
    intro bp hbp call hc
    obtain ⟨-, h', s, hr, hw, hv⟩ := h1 call hc
    obtain ⟨G, inv⟩ := ntd_inv (c := { c with next := graph }) hg ht hbp hr
    unfold ntdWho at hw
    rcases hpc : s.pc with _ | ⟨v, es⟩ <;> simp only [hpc] at hw
    · rcases hx : s.toExpand with _ | ⟨u, rest⟩ <;> simp only [hx] at hw
      · simp at hw
      · have hst := inv.stack
        rw [hx] at hst
        obtain ⟨⟨u', d⟩, G', rfl⟩ : ∃ a G', G = a :: G' := by
          rcases G with _ | ⟨a, G'⟩
          · simp at hst
          · exact ⟨a, G', rfl⟩
        simp only [List.map_cons, List.cons.injEq] at hst
        obtain ⟨rfl, -⟩ := hst
        have hat := inv.at_ _ List.mem_cons_self
        have hu : u = call.1.vertex := by
          split at hw
          · obtain ⟨x, -, e⟩ := Option.map_eq_some_iff.1 hw
            exact e
          · simpa using hw
        refine ⟨d, fun hcd => ?_, ?_⟩
        · have hm := inv.marks hcd
          simp only [List.map_cons] at hm
          obtain ⟨ms', k1, -⟩ := hm.pop
          rw [← hv]
          simp [ntdView, hcd, k1]
        · rw [← hv]
          simp only [ntdView]
          rw [← hu]
          exact hat
    · simp at hw
  refine ⟨h2, hnd, fun call hc => ⟨(h1 call hc).1, ?_⟩, ?_⟩
  · obtain ⟨d, k1, k2⟩ := key False (fun h => absurd h id) call hc
    exact ⟨d, k1, k2.walk⟩
  · intro hb hmo hlo hsv hcalls call hc
    have hst : Storable g { c with next := graph }.toTravCfg starts validV validL := by
      refine ⟨hmo, hlo, fun v hv => ?_, fun u e _ he => ?_, fun s hs' t ht' e => List.inj_on_of_nodup_map hs hs' ht' e⟩
      · obtain ⟨n, hv⟩ := hv
        cases hv with
        | start h => exact hsv _ h
        | step _ h =>
          obtain ⟨l, hl⟩ := h
          obtain ⟨call, hc, -, he⟩ := mem_graphOfCalls hl
          exact (hcalls call hc _ he).1
      · obtain ⟨call, hc, -, he⟩ := mem_graphOfCalls he
        exact (hcalls call hc _ he).2
    obtain ⟨d, k1, k2⟩ := key True (fun _ => ⟨hb, validV, validL, hst⟩) call hc
    obtain ⟨p, e, h⟩ := k2.path trivial
    refine ⟨p, h.1, h.2.1, h.2.2.last, fun hcd => ?_, h.2.2.shows hmo hlo⟩
    rw [k1 hcd, e]

end

/-! ## Depth-first search -/

section
variable {g : TravGear V K L S M ML} {c : DfsCfg V K L}

theorem dfs_readsOne : ReadsOne (fun next => dfsStep g { c with next := next }) (dfsWho c) := by
  constructor
  · intro f f' s h
    unfold dfsWho at h
    unfold dfsStep
    rcases hpc : s.pc with _ | _ | ⟨v, rep⟩ | ⟨v, es⟩
    · rfl
    · rfl
    · simp only [hpc] at h ⊢
      split
      · rfl
      · rename_i hc
        rw [if_neg hc] at h
        simp only [h v rfl]
    · rcases es with _ | ⟨e, es⟩ <;> rfl
  · intro f s v h
    unfold dfsWho at h
    unfold dfsStep
    rcases hpc : s.pc with _ | _ | ⟨u, rep⟩ | ⟨u, es⟩ <;> simp only [hpc] at h ⊢
    · simp at h
    · simp at h
    · split at h
      · simp at h
      · rename_i hc
        rw [if_neg hc]
        exact ⟨_, rfl⟩
    · simp at h

/-- No id is expanded twice; `X` holds the ids expanded so far. -/
structure DfsOnce (g : TravGear V K L S M ML) (c : DfsCfg V K L) (X : List K) (s : DfsState V L S M ML) : Prop where
  vis : ∀ k ∈ X, g.so.contains s.visited k = true
  ent : ∀ v rep, s.pc = .entered v rep → c.vid v ∉ X ∧ g.so.contains s.visited (c.vid v) = true

theorem dfsEnter_step (c : DfsCfg V K L) (s : DfsState V L S M ML) (v : V) :
    ∃ s', (dfsEnter c s v = .tau s' ∨ ∃ r, dfsEnter c s v = .emit r s') ∧ s'.visited = s.visited ∧
      (∃ rep, s'.pc = .entered v rep) ∧ (c.computeDepth = true → s'.selfDepth = s'.depth) := by
  unfold dfsEnter
  simp only
  split
  · split
    · exact ⟨_, .inr ⟨_, rfl⟩, rfl, ⟨_, rfl⟩, fun h => by simp [h]⟩
    · exact ⟨_, .inl rfl, rfl, ⟨_, rfl⟩, fun h => by simp [h]⟩
  · split
    · exact ⟨_, .inr ⟨_, rfl⟩, rfl, ⟨_, rfl⟩, fun h => by simp [h]⟩
    · exact ⟨_, .inl rfl, rfl, ⟨_, rfl⟩, fun h => by simp [h]⟩

theorem dfsPop_vis (c : DfsCfg V K L) (s : DfsState V L S M ML) : (dfsPop c s).visited = s.visited := by
  unfold dfsPop
  split <;> rfl

theorem dfsOnce_move (hg : g.so.Lawful) (ht : c.isTree = false) (f : V → List (V × L)) (X : List K)
    (s s' : DfsState V L S M ML) (h : DfsOnce g c X s)
    (e : dfsStep g { c with next := f } s = .tau s' ∨ ∃ r, dfsStep g { c with next := f } s = .emit r s') :
    DfsOnce g c X s' := by
  obtain ⟨h1, h2⟩ := h
  unfold dfsStep at e
  rcases hpc : s.pc with _ | _ | ⟨v, rep⟩ | ⟨v, es⟩ <;> simp only [hpc] at e
  · rcases hx : s.starts with _ | ⟨v, rest⟩ <;> simp only [hx] at e
    · simp at e
    · simp only [Step.tau.injEq, reduceCtorEq, exists_false, or_false] at e
      subst e
      exact ⟨h1, by simp⟩
  · have hpop : dfsPop { c with next := f } s = dfsPop c s := rfl
    simp only [hpop] at e
    rcases hx : (dfsPop c s).toVisit with _ | ⟨v, rest⟩ <;> simp only [hx] at e
    · simp only [Step.tau.injEq, reduceCtorEq, exists_false, or_false] at e
      subst e
      refine ⟨?_, by simp⟩
      rw [dfsPop_vis]
      exact h1
    · simp only [ht, Bool.false_eq_true, if_false] at e
      by_cases hchk : (g.so.checkAdd (dfsPop c s).visited (c.vid v)).1 = true
      · simp only [hchk, if_true, Step.tau.injEq, reduceCtorEq, exists_false, or_false] at e
        subst e
        refine ⟨?_, fun u rep e => ?_⟩
        · rw [dfsPop_vis]
          exact h1
        · simp only at e
          unfold dfsPop at e
          split at e <;> simp [hpc] at e
      · simp only [hchk] at e
        have hsome : c.vid v ∉ X ∧ ∀ k, g.so.contains (g.so.checkAdd (dfsPop c s).visited (c.vid v)).2 k = true ↔
            k = c.vid v ∨ g.so.contains s.visited k = true := by
          refine ⟨fun hm => ?_, fun k => ?_⟩
          · have := h1 _ hm
            rw [hg.checkAdd_fst, dfsPop_vis] at hchk
            exact hchk this
          · rw [hg.contains_checkAdd, dfsPop_vis]
            simp
        obtain ⟨s'', e3, e1, ⟨rep, e2⟩, -⟩ := dfsEnter_step c
          { dfsPop c s with toVisit := rest, visited := (g.so.checkAdd (dfsPop c s).visited (c.vid v)).2 } v
        have hE : ∀ (t : DfsState V L S M ML), dfsEnter { c with next := f } t v = dfsEnter c t v := fun _ => rfl
        rw [← ht, hE] at e
        have : s'' = s' := by
          rcases e3 with e3 | ⟨r, e3⟩ <;> rw [e3] at e <;> simpa [ht] using e
        subst this
        refine ⟨fun k hk => ?_, fun u rep' e => ?_⟩
        · rw [e1, hsome.2]
          exact .inr (h1 k hk)
        · rw [e2] at e
          cases e
          refine ⟨hsome.1, ?_⟩
          rw [e1, hsome.2]
          exact .inl rfl
  · split at e
    · simp only [Step.tau.injEq, reduceCtorEq, exists_false, or_false] at e
      subst e
      exact ⟨h1, by simp⟩
    · simp at e
  · rcases es with _ | ⟨e', es⟩ <;> simp only at e
    · simp only [Step.tau.injEq, reduceCtorEq, exists_false, or_false] at e
      subst e
      exact ⟨h1, by simp⟩
    · split at e <;> simp only [Step.tau.injEq, reduceCtorEq, exists_false, or_false] at e <;> subst e <;>
        exact ⟨h1, by simp⟩

theorem dfsOnce_expand (ht : c.isTree = false) (f : V → List (V × L)) (X : List K)
    (s s' : DfsState V L S M ML) (h : DfsOnce g c X s) (e : dfsStep g { c with next := f } s = .expand s') :
    ∃ v, dfsWho c s = some v ∧ c.vid v ∉ X ∧ DfsOnce g c (c.vid v :: X) s' := by
  obtain ⟨h1, h2⟩ := h
  unfold dfsStep at e
  rcases hpc : s.pc with _ | _ | ⟨v, rep⟩ | ⟨v, es⟩ <;> simp only [hpc] at e
  · split at e <;> simp at e
  · split at e
    · simp at e
    · simp only [ht, Bool.false_eq_true, if_false] at e
      split at e
      · simp at e
      · rename_i v rest _ _
        obtain ⟨s'', e3 | ⟨r, e3⟩, -⟩ := dfsEnter_step { c with next := f, isTree := false }
          { dfsPop { c with next := f, isTree := false } s with
            toVisit := rest,
            visited := (g.so.checkAdd (dfsPop { c with next := f, isTree := false } s).visited (c.vid v)).2 } v
        · exact absurd (e3.symm.trans e) (by simp)
        · exact absurd (e3.symm.trans e) (by simp)
  · split at e
    · simp at e
    · rename_i hc
      simp only [Step.expand.injEq] at e
      subst e
      obtain ⟨k1, k2⟩ := h2 v rep hpc
      refine ⟨v, by simp only [dfsWho, hpc]; rw [if_neg hc], k1, ?_, by simp⟩
      intro k hk
      rcases List.mem_cons.1 hk with rfl | hk
      · exact k2
      · exact h1 k hk
  · rcases es with _ | ⟨e', es⟩ <;> simp only at e
    · simp at e
    · split at e <;> simp at e

/-- Two calls of the edges function are for vertices with different ids. -/
theorem dfsAware_once (hg : g.so.Lawful) (ht : c.isTree = false) (F : Nat → DfsReport V S M ML → List (V × L))
    (already : S) (starts : List V) (limit : Option Int) (fuel : Nat) :
    ((dfsAwareCalls g c F already starts limit fuel).map (fun call => c.vid call.1.vertex)).Nodup := by
  refine (aware_once c.vid DfsReport.vertex (fun _ _ => rfl) (fun _ => True) (fun _ _ => trivial) (DfsOnce g c)
    ?_ ?_ ?_ ?_ fuel (prepareLimit limit) (dfsInit g c already starts, 0) [] ?_).1
  · intro f _ X s s' h e
    exact dfsOnce_move hg ht f X s s' h (.inl e)
  · intro f _ X s r s' h e
    exact dfsOnce_move hg ht f X s s' h (.inr ⟨r, e⟩)
  · intro f _ X s s' h hw e
    obtain ⟨v, hv, -⟩ := dfsOnce_expand ht f X s s' h e
    rw [hv] at hw
    simp at hw
  · intro f _ X s v s' h hw e
    obtain ⟨u, hu, h1, h2⟩ := dfsOnce_expand ht f X s s' h e
    rw [hu] at hw
    cases hw
    exact ⟨h1, h2⟩
  · exact ⟨by simp, by simp [dfsInit]⟩

/-- When a vertex has been entered, the attribute `depth` is up to date. -/
theorem dfs_selfDepth (ht : c.isTree = false) {already : S} {starts : List V} {h : List (Ev (DfsReport V S M ML))}
    {s : DfsState V L S M ML} (hr : Reaches (dfsStep g c) (dfsInit g c already starts) h s) :
    ∀ v rep, s.pc = .entered v rep → c.computeDepth = true → s.selfDepth = s.depth := by
  have key : ∀ s s' : DfsState V L S M ML, (dfsStep g c s = .tau s' ∨ (∃ r, dfsStep g c s = .emit r s') ∨
      dfsStep g c s = .expand s') → ∀ v rep, s'.pc = .entered v rep → c.computeDepth = true → s'.selfDepth = s'.depth := by
    intro s s' e v rep hv hcd
    unfold dfsStep at e
    rcases hpc : s.pc with _ | _ | ⟨u, rep'⟩ | ⟨u, es⟩ <;> simp only [hpc] at e
    · rcases hx : s.starts with _ | ⟨w, rest⟩ <;> simp only [hx] at e
      · simp at e
      · simp only [Step.tau.injEq, reduceCtorEq, exists_false, or_false] at e
        subst e
        simp at hv
    · rcases hx : (dfsPop c s).toVisit with _ | ⟨w, rest⟩ <;> simp only [hx] at e
      · simp only [Step.tau.injEq, reduceCtorEq, exists_false, or_false] at e
        subst e
        simp at hv
      · simp only [ht, Bool.false_eq_true, if_false] at e
        split at e
        · simp only [Step.tau.injEq, reduceCtorEq, exists_false, or_false] at e
          subst e
          simp only at hv
          unfold dfsPop at hv
          split at hv <;> simp [hpc] at hv
        · obtain ⟨s'', e3, -, -, e2⟩ := dfsEnter_step c
            { dfsPop c s with toVisit := rest, visited := (g.so.checkAdd (dfsPop c s).visited (c.vid w)).2 } w
          have : s'' = s' := by
            rcases e3 with e3 | ⟨r, e3⟩ <;> rw [e3] at e <;> simpa [ht] using e
          rw [← this]
          exact e2 hcd
    · split at e
      · simp only [Step.tau.injEq, reduceCtorEq, exists_false, or_false] at e
        subst e
        simp at hv
      · simp only [reduceCtorEq, exists_false, false_or, Step.expand.injEq] at e
        subst e
        simp at hv
    · rcases es with _ | ⟨e', es⟩ <;> simp only at e
      · simp only [Step.tau.injEq, reduceCtorEq, exists_false, or_false] at e
        subst e
        simp at hv
      · split at e <;> simp only [Step.tau.injEq, reduceCtorEq, exists_false, or_false] at e <;> subst e <;> simp at hv
  cases hr with
  | refl => intro v rep e; simp [dfsInit] at e
  | tau _ e => exact key _ _ (.inl e)
  | emit _ e => exact key _ _ (.inr (.inl ⟨_, e⟩))
  | expand _ e => exact key _ _ (.inr (.inr e))

/-- **C70 for depth-first search** (mode `DFS_TREE` without trace; start vertices may be repeated). With any edges function,
the traversal behaves exactly as in the ordinary graph of the edges that the function returned, and the function is called
at most once for an id. When it is called for a vertex, the depth it sees (option `compute_depth`) is the number of edges
of a path to this vertex in that graph; and with `build_paths`, the `paths` it sees show this path. -/
theorem C70_dfs_search_aware (hg : g.so.Lawful) (ht : c.isTree = false) (F : Nat → DfsReport V S M ML → List (V × L))
    {validV : V → Prop} {validL : L → Prop}
    (already : S) (starts : List V) (limit : Option Int) (fuel : Nat) :
    let run := dfsAwareRun g c F already starts limit fuel
    let calls := dfsAwareCalls g c F already starts limit fuel
    let graph := graphOfCalls c.vid DfsReport.vertex calls
    let ordinary := dfsRun g { c with next := graph } already starts limit fuel
    (run.events = ordinary.events ∧ run.ending = ordinary.ending ∧ run.final.1 = ordinary.final) ∧
    (calls.map (fun call => c.vid call.1.vertex)).Nodup ∧
    (∀ call ∈ calls, graph call.1.vertex = call.2 ∧
      ∃ p : SPath V L, p.first ∈ starts ∧ IsPath graph p.first p.steps ∧ p.verts.getLast? = some call.1.vertex ∧
        (c.computeDepth = true → call.1.depth = p.steps.length)) ∧
    (c.buildPaths = true → g.mo.Lawful validV → g.lo.Lawful validL → (∀ v ∈ starts, validV v) →
      (g.mo.Faithful ∨ (starts.length ≤ 1 ∧ ∀ k, g.mo.raw g.mo.empty k = none)) →
      (∀ s ∈ starts, ∀ t ∈ starts, c.vid s = c.vid t → s = t) →
      (∀ call ∈ calls, ∀ e ∈ call.2, validV e.1 ∧ validL e.2) →
      ∀ call ∈ calls, ∃ p : SPath V L, p.first ∈ starts ∧ IsPath graph p.first p.steps ∧
        p.verts.getLast? = some call.1.vertex ∧ (c.computeDepth = true → call.1.depth = p.steps.length) ∧
        ShowsPath (pathsView g.mo g.lo c.vid call.1.preds call.1.labels) call.1.vertex p) := by
  intro run calls graph ordinary
  have hnd := dfsAware_once (g := g) (c := c) hg ht F already starts limit fuel
  obtain ⟨h1, h2⟩ := aware_static (F := F) (view := dfsView) c.vid DfsReport.vertex (fun _ _ => rfl)
    (dfs_readsOne (g := g) (c := c)) fuel (prepareLimit limit) (dfsInit g c already starts) (calls := calls) rfl hnd
  have key : ∀ bp, DfsPathsOk g { c with next := graph } bp starts → ∀ call ∈ calls, ∃ p : SPath V L,
      p.last = call.1.vertex ∧ (c.computeDepth = true → call.1.depth = p.steps.length) ∧ GPath graph starts p ∧
      (bp → DfsStored g { c with next := graph } starts call.1.visited call.1.preds call.1.labels p) := by
    intro bp hbp call hc
    obtain ⟨-, h', s, hr, hw, hv⟩ := h1 call hc
    obtain ⟨G, outs, q, inv⟩ := dfs_inv (c := { c with next := graph }) hg ht hbp hr
    unfold dfsWho at hw
    rcases hpc : s.pc with _ | _ | ⟨u, rep⟩ | ⟨u, es⟩ <;> simp only [hpc] at hw
    · simp at hw
    · simp at hw
    · have hu : u = call.1.vertex := by
        split at hw
        · simp at hw
        · simpa using hw
      have hctl := inv.ctl
      unfold DfsCtl at hctl
      rw [hpc] at hctl
      obtain ⟨p, -, -, -, ⟨B, rfl⟩, hcur⟩ := hctl
      refine ⟨p, hcur.last.trans hu, fun hcd => ?_, inv.gpath.2 p hcur.mem, fun hb => ?_⟩
      · have hm := (inv.mark hcd).2
        have hown := inv.own
        have hsd := dfs_selfDepth (c := { c with next := graph }) ht hr u rep hpc hcd
        rw [← hv]
        simp only [dfsView]
        rw [hsd, hm, hown.1]
        simp
      · rw [← hv]
        exact (inv.paths hb).stored p hcur.mem
    · simp at hw
  refine ⟨h2, hnd, fun call hc => ⟨(h1 call hc).1, ?_⟩, ?_⟩
  · obtain ⟨p, k1, k2, k3, -⟩ := key False (fun h => absurd h id) call hc
    exact ⟨p, k3.1, k3.2, by rw [p.verts_getLast, k1], k2⟩
  · intro hb hmo hlo hsv hf hdist hcalls call hc
    have hst : Storable g { c with next := graph }.toTravCfg starts validV validL := by
      refine ⟨hmo, hlo, fun v hv => ?_, fun u e _ he => ?_, hdist⟩
      · obtain ⟨n, hv⟩ := hv
        cases hv with
        | start h => exact hsv _ h
        | step _ h =>
          obtain ⟨l, hl⟩ := h
          obtain ⟨call, hc, -, he⟩ := mem_graphOfCalls hl
          exact (hcalls call hc _ he).1
      · obtain ⟨call, hc, -, he⟩ := mem_graphOfCalls he
        exact (hcalls call hc _ he).2
    obtain ⟨p, k1, k2, k3, k4⟩ := key True (fun _ => ⟨hb, ⟨validV, validL, hst⟩, hf⟩) call hc
    obtain ⟨⟨m1, m2, m3⟩, -⟩ := k4 trivial
    refine ⟨p, m1, m2, by rw [p.verts_getLast, k1], k2, ?_⟩
    rw [← k1]
    exact m3.shows hmo hlo

end

/-! ## Non-vacuity (gears: see `Verif/Props/Bfs.lean`) -/

/-- Edges function on an infinite graph that ends at depth 2 of the search. -/
def exAwareN {S M ML : Type} (_ : Nat) (t : NtdReport Nat S M ML) : List (Nat × Char) :=
  if t.depth < 2 then [(t.vertex + 1, 'a'), (2 * t.vertex + 3, 'b')] else []

example : (ntdAwareCalls exBits ⟨exCfg true, true⟩ exAwareN [] [0] none 40).map (fun x => (x.1.vertex, x.1.depth, x.2)) =
      [(0, 0, [(1, 'a'), (3, 'b')]), (3, 1, [(4, 'a'), (9, 'b')]), (9, 2, []), (4, 2, []),
       (1, 1, [(2, 'a'), (5, 'b')]), (5, 2, []), (2, 2, [])] ∧
    (ntdAwareRun exBits ⟨exCfg true, true⟩ exAwareN [] [0] none 40).reports.map (fun r => (r.vertex, r.depth)) =
      [(1, 1), (3, 1), (4, 2), (9, 2), (2, 2), (5, 2)] := by
  refine ⟨?_, ?_⟩ <;> decide +kernel

/-- Edges function on an infinite graph that ends at depth 2 of the search. -/
def exAwareD {S M ML : Type} (_ : Nat) (t : DfsReport Nat S M ML) : List (Nat × Char) :=
  if t.depth < 2 then [(t.vertex + 1, 'a'), (2 * t.vertex + 3, 'b')] else []

example : (dfsAwareCalls exHash (exDfs false true) exAwareD [] [0] none 40).map (fun x => (x.1.vertex, x.1.depth, x.2)) =
      [(0, 0, [(1, 'a'), (3, 'b')]), (3, 1, [(4, 'a'), (9, 'b')]), (9, 2, []), (4, 2, []),
       (1, 1, [(2, 'a'), (5, 'b')]), (5, 2, []), (2, 2, [])] ∧
    (dfsAwareRun exHash (exDfs false true) exAwareD [] [0] none 40).reports.map (fun r => (r.vertex, r.depth)) =
      [(0, 0), (3, 1), (9, 2), (4, 2), (1, 1), (5, 2), (2, 2)] := by
  refine ⟨?_, ?_⟩ <;> decide +kernel

end NoGraphs
