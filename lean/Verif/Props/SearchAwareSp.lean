import Mathlib.Data.List.Nodup
import Verif.Proofs.SearchAware
import Verif.Props.ShortestPaths

/-! # Search-aware graphs: C70 for the shortest paths traversal -/

set_option linter.unusedSectionVars false

namespace NoGraphs

open Spec

variable {V K L W M ML D : Type} [DecidableEq V] [DecidableEq K]
variable [AddCommMonoid W] [LinearOrder W] [IsOrderedAddMonoid W]
variable {g : WGear V K L W M ML D} {c : WCfg V K L W}

theorem sp_readsOne : ReadsOne (fun next => spStep g { c with next := next }) spWho := by
  constructor
  · intro f f' s h
    unfold spWho at h
    unfold spStep
    rcases hpc : s.pc with _ | ⟨v, w, ec⟩ | ⟨v, w, ec, es⟩
    · rfl
    · rw [hpc] at h
      simp only [h v rfl]
    · rcases es with _ | ⟨e, es⟩ <;> rfl
  · intro f s v h
    unfold spWho at h
    unfold spStep
    rcases hpc : s.pc with _ | ⟨u, w, ec⟩ | ⟨u, w, ec, es⟩ <;> rw [hpc] at h <;> simp only [reduceCtorEq] at h
    exact ⟨_, rfl⟩

/-- The id of the vertex that is about to be expanded. -/
def spCur (c : WCfg V K L W) (s : SpState V L W M ML D) : List K := (spWho s).toList.map c.vid

theorem spStartEntries_next (f : V → List (V × W × L)) (d : D) (vs : List V) (no : Int) :
    spStartEntries g { c with next := f } d vs no = spStartEntries g c d vs no := by
  induction vs generalizing no with
  | nil => rfl
  | cons v vs ih => simp only [spStartEntries, ih]

/-- The state at the start does not depend on the edges. -/
theorem spInit_next (f : V → List (V × W × L)) (known : Option D) (starts : List V) :
    (spInit g { c with next := f } known starts : SpState V L W M ML D) = spInit g c known starts := by
  unfold spInit
  rw [spStartEntries_next]
  rfl

/-- No id is expanded twice; `X` holds the ids expanded so far, `cur` the largest distance of them. -/
structure SpOnce (g : WGear V K L W M ML D) (c : WCfg V K L W) (X : List K) (s : SpState V L W M ML D) (cur : W) :
    Prop where
  cur0 : 0 ≤ cur
  sorted : s.heap.Pairwise HEntry.le
  uniq : s.heap.Pairwise (fun e f => c.vid e.item.1 = c.vid f.item.1 → e.key ≠ f.key)
  lower : ∀ e ∈ s.heap, cur ≤ e.key
  ent : ∀ e ∈ s.heap, g.dd.get s.dist (c.vid e.item.1) ≤ e.key
  done : ∀ k ∈ X ++ spCur c s, g.dd.get s.dist k ≤ cur ∧
    ∀ e ∈ s.heap, c.vid e.item.1 = k → g.dd.get s.dist k < e.key
  new : ∀ k ∈ spCur c s, k ∉ X
  pcW : match s.pc with
    | .loop => True
    | .expand _ w _ => w = cur
    | .edges _ w _ es => w = cur ∧ ∀ e ∈ es, 0 ≤ e.2.1

/-- What the steps preserve. -/
theorem spOnce_step (ht : c.isTree = false) (hd : g.dd.Lawful c.inf) (f : V → List (V × W × L))
    (hf : ∀ v, ∀ e ∈ f v, 0 ≤ e.2.1) (X : List K) (s : SpState V L W M ML D) (cur : W) (h : SpOnce g c X s cur) :
    match spStep g { c with next := f } s with
    | .tau s' => ∃ cur', SpOnce g c X s' cur'
    | .emit _ s' => ∃ cur', SpOnce g c X s' cur'
    | .expand s' => ∀ v, spWho s = some v → ∃ cur', SpOnce g c (c.vid v :: X) s' cur'
    | _ => True := by
  have hpopped : ∀ e rest d, s.pc = .loop → s.heap = e :: rest → ¬ g.dd.get s.dist (c.vid e.item.1) < e.key →
      d = (if !c.keepDistances then g.dd.set s.dist (c.vid e.item.1) 0 else s.dist) →
      SpOnce g c X { s with heap := rest, dist := d, pc := .expand e.item.1 e.key e.item.2 } e.key := by
    intro e rest d hpc hh hns hde
    have hsub : ∀ f ∈ rest, f ∈ s.heap := fun f hf => by rw [hh]; exact List.mem_cons_of_mem _ hf
    have he : e ∈ s.heap := by rw [hh]; exact List.mem_cons_self
    have hso := h.sorted
    have hun := h.uniq
    rw [hh] at hso hun
    have hX : c.vid e.item.1 ∉ X := fun hm => hns ((h.done _ (List.mem_append_left _ hm)).2 e he rfl)
    have hget : ∀ k, k ≠ c.vid e.item.1 → g.dd.get d k = g.dd.get s.dist k := by
      intro k hk
      rw [hde]
      split
      · rw [hd.get_set, if_neg hk]
      · rfl
    have hcur := h.lower e he
    have hself : g.dd.get d (c.vid e.item.1) ≤ e.key := by
      rw [hde]
      split
      · rw [hd.get_set, if_pos rfl]
        exact h.cur0.trans hcur
      · exact h.ent e he
    have hrest : ∀ f ∈ rest, e.key ≤ f.key := fun f hf => ((List.pairwise_cons.1 hso).1 f hf).key_le
    refine ⟨h.cur0.trans hcur, (List.pairwise_cons.1 hso).2, (List.pairwise_cons.1 hun).2, hrest, fun f hf => ?_,
      fun k hk => ?_, ?_, rfl⟩
    · by_cases hk : c.vid f.item.1 = c.vid e.item.1
      · simp only [hk]
        exact hself.trans (hrest f hf)
      · simp only [hget _ hk]
        exact h.ent f (hsub f hf)
    · rcases List.mem_append.1 hk with hk | hk
      · have hne : k ≠ c.vid e.item.1 := fun e' => hX (e' ▸ hk)
        obtain ⟨h1, h2⟩ := h.done k (List.mem_append_left _ hk)
        simp only [hget _ hne]
        exact ⟨h1.trans hcur, fun f hf => h2 f (hsub f hf)⟩
      · simp only [spCur, spWho, Option.toList_some, List.map_cons, List.map_nil, List.mem_singleton] at hk
        subst hk
        refine ⟨hself, fun f hf ef => lt_of_le_of_lt hself (lt_of_le_of_ne (hrest f hf) ?_)⟩
        exact (List.pairwise_cons.1 hun).1 f hf ef.symm
    · intro k hk
      simp only [spCur, spWho, Option.toList_some, List.map_cons, List.map_nil, List.mem_singleton] at hk
      exact hk ▸ hX
  refine spStep_cases (P := fun t => match t with
    | .tau s' => ∃ cur', SpOnce g c X s' cur'
    | .emit _ s' => ∃ cur', SpOnce g c X s' cur'
    | .expand s' => ∀ v, spWho s = some v → ∃ cur', SpOnce g c (c.vid v :: X) s' cur'
    | _ => True) (c := { c with next := f }) ht s ?_ ?_ ?_ ?_ ?_ ?_ ?_ ?_
  · intro _ _; trivial
  · intro e rest hpc hh hst
    have hsub : ∀ f ∈ rest, f ∈ s.heap := fun f hf => by rw [hh]; exact List.mem_cons_of_mem _ hf
    have hso := h.sorted
    have hun := h.uniq
    rw [hh] at hso hun
    refine ⟨cur, h.cur0, (List.pairwise_cons.1 hso).2, (List.pairwise_cons.1 hun).2, fun f hf => h.lower f (hsub f hf),
      fun f hf => h.ent f (hsub f hf), fun k hk => ?_, h.new, h.pcW⟩
    obtain ⟨h1, h2⟩ := h.done k hk
    exact ⟨h1, fun f hf => h2 f (hsub f hf)⟩
  · intro e rest d hpc hh hns hde
    exact ⟨fun _ => ⟨_, hpopped e rest d hpc hh hns hde⟩, fun _ => ⟨_, hpopped e rest d hpc hh hns hde⟩⟩
  · intro v w ec hpc u hu
    simp only [spWho, hpc, Option.some.injEq] at hu
    subst hu
    have hcur : spCur c s = [c.vid v] := by simp [spCur, spWho, hpc]
    have hw := h.pcW
    rw [hpc] at hw
    refine ⟨cur, h.cur0, h.sorted, h.uniq, h.lower, h.ent, fun k hk => h.done k ?_, by simp [spCur, spWho], hw, hf v⟩
    rw [hcur]
    simpa [spCur, spWho, or_comm] using hk
  · intro v w ec hpc
    refine ⟨cur, h.cur0, h.sorted, h.uniq, h.lower, h.ent, fun k hk => h.done k ?_, by simp [spCur, spWho], trivial⟩
    simpa [spCur, spWho, hpc] using hk
  · intros; trivial
  · intro v w ec n x l es hpc _ _
    have hw := h.pcW
    rw [hpc] at hw
    refine ⟨cur, h.cur0, h.sorted, h.uniq, h.lower, h.ent, fun k hk => h.done k ?_, by simp [spCur, spWho], hw.1,
      fun e he => hw.2 e (List.mem_cons_of_mem _ he)⟩
    simpa [spCur, spWho, hpc] using hk
  · intro v w ec n x l es d hpc hinf himp
    have hw := h.pcW
    rw [hpc] at hw
    have hlt : x + w < c.inf := not_le.1 hinf
    have hget := hd.improve_some _ _ _ _ hlt himp
    have hless : x + w < g.dd.get s.dist (c.vid n) := by
      by_contra hno
      have := (hd.improve_none s.dist (c.vid n) (x + w) hlt).2 (not_lt.1 hno)
      rw [this] at himp
      simp at himp
    have hge : cur ≤ x + w := by
      rw [hw.1]
      exact le_add_of_nonneg_left (hw.2 _ List.mem_cons_self)
    have hperm := heapPush_perm s.heap ⟨x + w, s.no, (n, ec + 1)⟩
    have hmem : ∀ e, e ∈ heapPush s.heap ⟨x + w, s.no, (n, ec + 1)⟩ → e = ⟨x + w, s.no, (n, ec + 1)⟩ ∨ e ∈ s.heap :=
      fun e he => List.mem_cons.1 (hperm.mem_iff.1 he)
    have hX : ∀ k ∈ X, k ≠ c.vid n := fun k hk e => by
      have := (h.done k (List.mem_append_left _ hk)).1
      rw [e] at this
      exact absurd hless (not_lt_of_ge (this.trans hge))
    refine ⟨cur, h.cur0, heapPush_sorted _ h.sorted, ?_, fun e he => ?_, fun e he => ?_, fun k hk => ?_,
      by simp [spCur, spWho], hw.1, fun e he => hw.2 e (List.mem_cons_of_mem _ he)⟩
    · refine (hperm.pairwise_iff (fun {a b} hab e => (hab e.symm).symm)).2 (List.pairwise_cons.2 ⟨fun f hf ef => ?_, h.uniq⟩)
      simp only at ef ⊢
      have := h.ent f hf
      rw [← ef] at this
      exact ne_of_lt (lt_of_lt_of_le hless this)
    · rcases hmem e he with rfl | he
      · exact hge
      · exact h.lower e he
    · simp only [hget]
      rcases hmem e he with rfl | he
      · simp
      · split
        · rename_i hk
          have := h.ent e he
          rw [hk] at this
          exact hless.le.trans this
        · exact h.ent e he
    · simp only [spCur, spWho, Option.toList_none, List.map_nil, List.append_nil] at hk
      obtain ⟨h1, h2⟩ := h.done k (List.mem_append_left _ hk)
      simp only [hget, if_neg (hX k hk)]
      refine ⟨h1, fun e he ek => ?_⟩
      rcases hmem e he with rfl | he
      · exact absurd ek.symm (hX k hk)
      · exact h2 e he ek

theorem spStartEntries_uniq {d : D} {vs : List V} {no : Int} (h : (vs.map c.vid).Nodup) :
    (spStartEntries g c d vs no).Pairwise (fun e f => c.vid e.item.1 = c.vid f.item.1 → e.key ≠ f.key) := by
  induction vs generalizing no with
  | nil => exact .nil
  | cons v vs ih =>
    rw [List.map_cons, List.nodup_cons] at h
    refine .cons (fun e he ev => ?_) (ih h.2)
    exact absurd (List.mem_map.2 ⟨_, (spStartEntries_mem he).1, ev.symm⟩) h.1

theorem spOnce_init (hd : g.dd.Lawful c.inf) (starts : List V) (hs : (starts.map c.vid).Nodup) :
    SpOnce g c [] (spInit g c none starts : SpState V L W M ML D) 0 := by
  have hmem : ∀ e ∈ (spInit g c none starts : SpState V L W M ML D).heap, e.key = 0 ∧
      g.dd.get (spInit g c none starts : SpState V L W M ML D).dist (c.vid e.item.1) = 0 := by
    intro e he
    obtain ⟨h1, -, h3⟩ := spStartEntries_mem ((heapify_perm _).mem_iff.1 he)
    have : g.dd.get (spDistances g c none starts) (c.vid e.item.1) = 0 := by
      rw [spDistances_none hd, spB_start _ h1]
    exact ⟨h3.trans this, this⟩
  refine ⟨le_refl _, heapify_sorted _, ?_, fun e he => (hmem e he).1.ge, fun e he => ?_, by simp [spCur, spWho, spInit],
    by simp [spCur, spWho, spInit], trivial⟩
  · exact ((heapify_perm _).pairwise_iff (fun {a b} hab e => (hab e.symm).symm)).2 (spStartEntries_uniq hs)
  · rw [(hmem e he).1, (hmem e he).2]

/-- Two calls of the edges function are for vertices with different ids. -/
theorem spAware_once (ht : c.isTree = false) (hd : g.dd.Lawful c.inf) (F : Nat → SpReport V W M ML D → List (V × W × L))
    (hF : ∀ n view, ∀ e ∈ F n view, 0 ≤ e.2.1) (starts : List V) (hs : (starts.map c.vid).Nodup) (limit : Option Int)
    (fuel : Nat) :
    ((spAwareCalls g c F none starts limit fuel).map (fun call => c.vid call.1.vertex)).Nodup := by
  refine (aware_once c.vid SpReport.vertex (fun s v => ?_) (fun f => ∀ v, ∀ e ∈ f v, 0 ≤ e.2.1)
    (fun n s v e he => hF n _ e he) (fun X s => ∃ cur, SpOnce g c X s cur) ?_ ?_ ?_ ?_ fuel (prepareLimit limit)
    (spInit g c none starts, 0) [] ⟨0, spOnce_init hd starts hs⟩).1
  · unfold spView
    split <;> rfl
  · rintro f hf X s s' ⟨cur, h⟩ e
    have := spOnce_step ht hd f hf X s cur h
    rw [e] at this
    exact this
  · rintro f hf X s r s' ⟨cur, h⟩ e
    have := spOnce_step ht hd f hf X s cur h
    rw [e] at this
    exact this
  · rintro f hf X s s' ⟨cur, h⟩ hw e
    exfalso
    unfold spWho at hw
    revert e
    refine spStep_cases (P := fun t => t = .expand s' → False) (c := { c with next := f }) ht s ?_ ?_ ?_ ?_ ?_ ?_ ?_ ?_
    · intros; contradiction
    · intros; contradiction
    · exact fun _ _ _ _ _ _ _ => ⟨fun _ h => (by cases h), fun _ h => (by cases h)⟩
    · intro v w ec hpc
      rw [hpc] at hw
      simp at hw
    all_goals intros; contradiction
  · rintro f hf X s v s' ⟨cur, h⟩ hw e
    have := spOnce_step ht hd f hf X s cur h
    rw [e] at this
    exact ⟨h.new _ (by simp [spCur, hw]), this v hw⟩

/-- The graph of the returned edges gives equal edges to vertices with equal ids. -/
theorem graphOfCalls_wcompat {C : Type} (vid : V → K) (vert : C → V) (calls : List (C × List (V × W × L))) :
    WCompat (graphOfCalls vid vert calls) vid := by
  intro u u' v x e hE
  refine ⟨v, ?_, rfl⟩
  obtain ⟨l, hl⟩ := hE
  exact ⟨l, by rw [← graphOfCalls_id e]; exact hl⟩

/-- Each call happens in a state that the traversal reaches in the graph of the returned edges. -/
theorem spAware_static (ht : c.isTree = false) (hd : g.dd.Lawful c.inf)
    (F : Nat → SpReport V W M ML D → List (V × W × L)) (hF : ∀ n view, ∀ e ∈ F n view, 0 ≤ e.2.1) (starts : List V)
    (hs : (starts.map c.vid).Nodup) (limit : Option Int) (fuel : Nat) {graph : V → List (V × W × L)}
    (hgr : graph = graphOfCalls c.vid SpReport.vertex (spAwareCalls g c F none starts limit fuel)) :
    (∀ call ∈ spAwareCalls g c F none starts limit fuel, graph call.1.vertex = call.2 ∧
      ∃ h' s w ec, Reaches (spStep g { c with next := graph }) (spInit g { c with next := graph } none starts) h' s ∧
        s.pc = .expand call.1.vertex w ec ∧ call.1 = ⟨call.1.vertex, w, ec, s.dist, s.preds, s.labels⟩) ∧
    (spAwareRun g c F none starts limit fuel).events =
      (spRun g { c with next := graph } none starts limit fuel).events ∧
    (spAwareRun g c F none starts limit fuel).ending =
      (spRun g { c with next := graph } none starts limit fuel).ending ∧
    (spAwareRun g c F none starts limit fuel).final.1 =
      (spRun g { c with next := graph } none starts limit fuel).final := by
  subst hgr
  have hnd := spAware_once (g := g) (c := c) ht hd F hF starts hs limit fuel
  obtain ⟨h1, h2⟩ := aware_static (F := F) (view := spView) c.vid SpReport.vertex
    (fun s v => by unfold spView; split <;> rfl)
    (sp_readsOne (g := g) (c := c)) fuel (prepareLimit limit) (spInit g c none starts) rfl hnd
  unfold spRun
  rw [spInit_next]
  refine ⟨fun call hc => ⟨(h1 call hc).1, ?_⟩, h2⟩
  obtain ⟨-, h', s, hr, hw, hv⟩ := h1 call hc
  unfold spWho at hw
  rcases hpc : s.pc with _ | ⟨u, w, ec⟩ | ⟨u, w, ec, es⟩ <;> rw [hpc] at hw <;>
    simp only [reduceCtorEq, Option.some.injEq] at hw
  subst hw
  refine ⟨h', s, w, ec, hr, hpc, ?_⟩
  simp only [spView, hpc] at hv
  exact hv.symm

theorem graphOfCalls_nonneg {F : Nat → SpReport V W M ML D → List (V × W × L)} (hF : ∀ n view, ∀ e ∈ F n view, 0 ≤ e.2.1)
    {calls : List (SpReport V W M ML D × List (V × W × L))} (hc : ∀ call ∈ calls, ∃ n, call.2 = F n call.1) :
    NonNeg (graphOfCalls c.vid SpReport.vertex calls) := by
  rintro u v x ⟨l, hl⟩
  obtain ⟨call, h1, -, h2⟩ := mem_graphOfCalls hl
  obtain ⟨n, e⟩ := hc call h1
  exact hF n call.1 _ (e ▸ h2)

/-- **C70 for shortest paths.** Let the edges function be any function that may use, at each call, the attributes of the
traversal, and anything else, and that returns non-negative weights. Then the traversal behaves exactly as in the ordinary
graph of the edges that the function returned. The function is called at most once for an id. When it is called for a
vertex, the `distance` it sees is the distance of this vertex in that graph. -/
theorem C70_sp_search_aware (ht : c.isTree = false) (hd : g.dd.Lawful c.inf)
    (F : Nat → SpReport V W M ML D → List (V × W × L)) (hF : ∀ n view, ∀ e ∈ F n view, 0 ≤ e.2.1) (starts : List V)
    (hs : (starts.map c.vid).Nodup) (limit : Option Int) (fuel : Nat) :
    let run := spAwareRun g c F none starts limit fuel
    let calls := spAwareCalls g c F none starts limit fuel
    let graph := graphOfCalls c.vid SpReport.vertex calls
    let ordinary := spRun g { c with next := graph } none starts limit fuel
    (run.events = ordinary.events ∧ run.ending = ordinary.ending ∧ run.final.1 = ordinary.final) ∧
    (calls.map (fun call => c.vid call.1.vertex)).Nodup ∧
    ∀ call ∈ calls, graph call.1.vertex = call.2 ∧
      IsDist graph (· ∈ starts) c.vid call.1.vertex call.1.distance := by
  intro run calls graph ordinary
  obtain ⟨h1, h2⟩ := spAware_static (g := g) (c := c) ht hd F hF starts hs limit fuel (graph := graph) rfl
  have hn : NonNeg graph := graphOfCalls_nonneg hF (fun call hc => awareCalls_returned _ _ _ call hc)
  have hcompat : WCompat graph c.vid := graphOfCalls_wcompat _ _ _
  refine ⟨h2, spAware_once ht hd F hF starts hs limit fuel, fun call hc => ⟨(h1 call hc).1, ?_⟩⟩
  obtain ⟨-, h', s, w, ec, hr, hpc, hv⟩ := h1 call hc
  obtain ⟨Fin, cur, inv, -⟩ := sp_plain_ok (c := { c with next := graph }) ht hd hn hcompat hr
  have hp := inv.pcok
  rw [hpc] at hp
  obtain ⟨u0, e0, hd0⟩ := inv.isDist hn hcompat hp.1
  rw [hv]
  exact ⟨aw_plain hp.2.2, fun w' v' hw' e => hd0.2 w' v' hw' (e.trans e0.symm)⟩

/-- **C70, paths.** With `build_paths`, when the edges function is called for a vertex, the `paths` it sees show a path to
this vertex: from a start vertex, along edges that the function has returned, with the `distance` it sees as total weight,
and with as many edges as the `depth` it sees. -/
theorem C70_sp_paths (ht : c.isTree = false) (hb : c.buildPaths = true) (hd : g.dd.Lawful c.inf)
    (F : Nat → SpReport V W M ML D → List (V × W × L)) (hF : ∀ n view, ∀ e ∈ F n view, 0 ≤ e.2.1)
    {validV : V → Prop} {validL : L → Prop} (hmo : g.mo.Lawful validV)
    (hlo : g.lo.Lawful validL) (starts : List V) (hs : (starts.map c.vid).Nodup)
    (hsv : ∀ v ∈ starts, validV v) (limit : Option Int) (fuel : Nat)
    (hcalls : ∀ call ∈ spAwareCalls g c F none starts limit fuel, ∀ e ∈ call.2, validV e.1 ∧ validL e.2.2) :
    let calls := spAwareCalls g c F none starts limit fuel
    let graph := graphOfCalls c.vid SpReport.vertex calls
    ∀ call ∈ calls, ∃ p : SPath V L, p.first ∈ starts ∧ IsWPath graph p.first p.steps call.1.distance ∧
      p.verts.getLast? = some call.1.vertex ∧ p.steps.length = call.1.depth ∧
      ShowsPath (pathsView g.mo g.lo c.vid call.1.preds call.1.labels) call.1.vertex p := by
  intro calls graph call hc
  obtain ⟨h1, -⟩ := spAware_static (g := g) (c := c) ht hd F hF starts hs limit fuel (graph := graph) rfl
  obtain ⟨-, h', s, w, ec, hr, hpc, hv⟩ := h1 call hc
  have hn : NonNeg graph := graphOfCalls_nonneg hF (fun call hc => awareCalls_returned _ _ _ call hc)
  have hcompat : WCompat graph c.vid := graphOfCalls_wcompat _ _ _
  have hst : WStorable g.mo g.lo graph c.vid starts validV validL := by
    refine ⟨hmo, hlo, fun _ v hv => ?_, fun _ u e _ he => ?_, fun s hs' t ht' e => List.inj_on_of_nodup_map hs hs' ht' e⟩
    · cases hv with
      | start h => exact hsv _ h
      | step _ h =>
        obtain ⟨l, hl⟩ := h
        obtain ⟨call, hc, -, he⟩ := mem_graphOfCalls hl
        exact (hcalls call hc _ he).1
    · obtain ⟨call, hc, -, he⟩ := mem_graphOfCalls he
      exact (hcalls call hc _ he).2
  obtain ⟨Fin, cur, inv, pinv, -⟩ := sp_plain_ok (c := { c with next := graph }) ht hd hn hcompat hr
  have hp := (pinv hb ⟨_, _, hst⟩).pcP
  rw [hpc] at hp
  obtain ⟨p, k1, k2, k4, k5, -⟩ := hp
  rw [spB_start _ k1] at k2
  rw [hv]
  exact ⟨p, k1, k2.exact_zero, k5.last, k4, k5.shows hmo hlo⟩

/-! ## Non-vacuity -/

/-- Edges function on an infinite graph that uses the distance: a second edge only from distance 3 on, no edges from 8 on. -/
def exWAware {M ML D : Type} (_ : Nat) (t : SpReport Nat Nat M ML D) : List (Nat × Nat × Char) :=
  if t.distance < 8 then
    (t.vertex + 1, 3, 'a') :: (if 3 ≤ t.distance then [(t.vertex + 2, 4, 'b')] else [])
  else []

/-- The calls and the reports. (The hypotheses about gears hold for `exWArr`, see `Verif/Props/ShortestPaths.lean`.) -/
example : (spAwareCalls exWArr ⟨fun _ => [], id, false, true, true, 1000⟩ exWAware none [0] none 60).map
      (fun x => (x.1.vertex, x.1.distance, x.1.depth, x.2.map (fun e => (e.1, e.2.1)))) =
      [(0, 0, 0, [(1, 3)]), (1, 3, 1, [(2, 3), (3, 4)]), (2, 6, 2, [(3, 3), (4, 4)]),
       (3, 7, 2, [(4, 3), (5, 4)]), (4, 10, 3, []), (5, 11, 3, [])] ∧
    ((spAwareRun exWArr ⟨fun _ => [], id, false, true, true, 1000⟩ exWAware none [0] none 60).reports.map
        (fun r => (r.vertex, r.distance)),
      (spAwareRun exWArr ⟨fun _ => [], id, false, true, true, 1000⟩ exWAware none [0] none 60).ending) =
      ([(1, 3), (2, 6), (3, 7), (4, 10), (5, 11)], .done) := by
  refine ⟨?_, ?_⟩ <;> decide +kernel

end NoGraphs
