import Mathlib.Data.List.Nodup
import Verif.Model.SearchAwareAStar
import Verif.Proofs.SearchAware
import Verif.Props.SearchAwareSp
import Verif.Props.ReadsWeighted
import Verif.Props.AStar

/-! # Search-aware graphs: C70 for A* -/

set_option linter.unusedSectionVars false

namespace NoGraphs

open Spec

variable {V K L W M ML D : Type} [DecidableEq V] [DecidableEq K]
variable [AddCommMonoid W] [LinearOrder W] [IsOrderedCancelAddMonoid W]
variable {g : WGear V K L W M ML D} {c : AStarCfg V K L W}

/-- The id of the vertex that is about to be expanded. -/
def aCur (c : AStarCfg V K L W) (s : AStarState V L W M ML D) : List K := (aWho s).toList.map c.vid

theorem aStartEntries_aware (f : V → List (V × W × L)) (d : D) (vs : List V) (no : Int) :
    aStartEntries g { c with next := f } d vs no = aStartEntries g c d vs no := by
  induction vs generalizing no with
  | nil => rfl
  | cons v vs ih => simp only [aStartEntries, ih]

/-- The state at the start does not depend on the edges. -/
theorem aInit_aware (f : V → List (V × W × L)) (starts : List V) :
    (aInit g { c with next := f } none none starts : AStarState V L W M ML D) = aInit g c none none starts := by
  unfold aInit
  simp only [aStartEntries_aware]
  rfl

/-- No id is expanded twice; `X` holds the ids expanded so far, `cur` the largest estimate of them. -/
structure AFresh (g : WGear V K L W M ML D) (c : AStarCfg V K L W) (X : List K) (s : AStarState V L W M ML D) (cur : W) :
    Prop where
  sorted : s.heap.Pairwise HEntry.le
  uniq : s.heap.Pairwise (fun e f => c.vid e.item.1 = c.vid f.item.1 → e.key ≠ f.key)
  lower : ∀ e ∈ s.heap, cur ≤ e.key
  ent : ∀ e ∈ s.heap, g.dd.get s.guesses (c.vid e.item.1) ≤ e.key ∧
    g.dd.get s.guesses (c.vid e.item.1) = g.dd.get s.dist (c.vid e.item.1) + c.heur e.item.1
  done : ∀ k ∈ X ++ aCur c s, g.dd.get s.guesses k ≤ cur ∧
    (∀ v, c.vid v = k → g.dd.get s.guesses k = g.dd.get s.dist k + c.heur v) ∧
    ∀ e ∈ s.heap, c.vid e.item.1 = k → g.dd.get s.guesses k < e.key
  new : ∀ k ∈ aCur c s, k ∉ X
  pcW : match s.pc with
    | .loop => True
    | .expand v w _ => w + c.heur v = cur
    | .edges v w _ es => w + c.heur v = cur ∧ ∀ e ∈ es, c.heur v ≤ e.2.1 + c.heur e.1

/-- What the steps preserve. -/
theorem aFresh_step (ht : c.isTree = false) (hd : g.dd.Lawful c.inf) (hh : HeurCompat c.heur c.vid)
    (hfin : ∀ v, c.heur v ≠ c.inf) (f : V → List (V × W × L))
    (hf : ∀ v, ∀ e ∈ f v, c.heur v ≤ e.2.1 + c.heur e.1) (X : List K) (s : AStarState V L W M ML D) (cur : W)
    (h : AFresh g c X s cur) :
    match aStep g { c with next := f } s with
    | .tau s' => ∃ cur', AFresh g c X s' cur'
    | .emit _ s' => ∃ cur', AFresh g c X s' cur'
    | .expand s' => ∀ v, aWho s = some v → ∃ cur', AFresh g c (c.vid v :: X) s' cur'
    | _ => True := by
  have hpopped : ∀ e rest, s.pc = .loop → s.heap = e :: rest → ¬ g.dd.get s.guesses (c.vid e.item.1) < e.key →
      AFresh g c X { s with heap := rest, pc := .expand e.item.1 (g.dd.get s.dist (c.vid e.item.1)) e.item.2 } e.key := by
    intro e rest hpc hhp hns
    have hsub : ∀ f ∈ rest, f ∈ s.heap := fun f hf => by rw [hhp]; exact List.mem_cons_of_mem _ hf
    have he : e ∈ s.heap := by rw [hhp]; exact List.mem_cons_self
    have hso := h.sorted
    have hun := h.uniq
    rw [hhp] at hso hun
    have hX : c.vid e.item.1 ∉ X := fun hm => hns ((h.done _ (List.mem_append_left _ hm)).2.2 e he rfl)
    have hcur := h.lower e he
    have hkey : g.dd.get s.guesses (c.vid e.item.1) = e.key := le_antisymm (h.ent e he).1 (le_of_not_gt hns)
    have hrest : ∀ f ∈ rest, e.key ≤ f.key := fun f hf => ((List.pairwise_cons.1 hso).1 f hf).key_le
    refine ⟨(List.pairwise_cons.1 hso).2, (List.pairwise_cons.1 hun).2, hrest, fun f hf => h.ent f (hsub f hf),
      fun k hk => ?_, ?_, ?_⟩
    · rcases List.mem_append.1 hk with hk | hk
      · obtain ⟨h1, h2, h3⟩ := h.done k (List.mem_append_left _ hk)
        exact ⟨h1.trans hcur, h2, fun f hf => h3 f (hsub f hf)⟩
      · simp only [aCur, aWho, Option.toList_some, List.map_cons, List.map_nil, List.mem_singleton] at hk
        subst hk
        refine ⟨hkey.le, fun v hv => ?_, fun f hf ef => ?_⟩
        · rw [(h.ent e he).2, hh v e.item.1 hv]
        · simp only [hkey]
          exact lt_of_le_of_ne (hrest f hf) ((List.pairwise_cons.1 hun).1 f hf ef.symm)
    · intro k hk
      simp only [aCur, aWho, Option.toList_some, List.map_cons, List.map_nil, List.mem_singleton] at hk
      exact hk ▸ hX
    · simp only
      rw [← (h.ent e he).2, hkey]
  refine aStep_cases (P := fun t => match t with
    | .tau s' => ∃ cur', AFresh g c X s' cur'
    | .emit _ s' => ∃ cur', AFresh g c X s' cur'
    | .expand s' => ∀ v, aWho s = some v → ∃ cur', AFresh g c (c.vid v :: X) s' cur'
    | _ => True) (c := { c with next := f }) ht s ?_ ?_ ?_ ?_ ?_ ?_ ?_ ?_ ?_ ?_
  · intro _ _; trivial
  · intro e rest hpc hhp hst
    have hsub : ∀ f ∈ rest, f ∈ s.heap := fun f hf => by rw [hhp]; exact List.mem_cons_of_mem _ hf
    have hso := h.sorted
    have hun := h.uniq
    rw [hhp] at hso hun
    refine ⟨cur, (List.pairwise_cons.1 hso).2, (List.pairwise_cons.1 hun).2, fun f hf => h.lower f (hsub f hf),
      fun f hf => h.ent f (hsub f hf), fun k hk => ?_, h.new, h.pcW⟩
    obtain ⟨h1, h2, h3⟩ := h.done k hk
    exact ⟨h1, h2, fun f hf => h3 f (hsub f hf)⟩
  · intro e rest hpc hhp hns _
    exact ⟨_, hpopped e rest hpc hhp hns⟩
  · intro e rest hpc hhp hns _
    exact ⟨_, hpopped e rest hpc hhp hns⟩
  · intro v w ec hpc u hu
    simp only [aWho, hpc, Option.some.injEq] at hu
    subst hu
    have hcur : aCur c s = [c.vid v] := by simp [aCur, aWho, hpc]
    have hw := h.pcW
    rw [hpc] at hw
    refine ⟨cur, h.sorted, h.uniq, h.lower, h.ent, fun k hk => h.done k ?_, by simp [aCur, aWho], hw, hf v⟩
    rw [hcur]
    simpa [aCur, aWho, or_comm] using hk
  · intro v w ec hpc
    refine ⟨cur, h.sorted, h.uniq, h.lower, h.ent, fun k hk => h.done k ?_, by simp [aCur, aWho], trivial⟩
    simpa [aCur, aWho, hpc] using hk
  · intros; trivial
  · intro v w ec n x l es hpc _ _
    have hw := h.pcW
    rw [hpc] at hw
    refine ⟨cur, h.sorted, h.uniq, h.lower, h.ent, fun k hk => h.done k ?_, by simp [aCur, aWho], hw.1,
      fun e he => hw.2 e (List.mem_cons_of_mem _ he)⟩
    simpa [aCur, aWho, hpc] using hk
  · intros; trivial
  · intro v w ec n x l es d hpc hlt himp _
    have hw := h.pcW
    rw [hpc] at hw
    have hget := hd.improve_some _ _ _ _ hlt himp
    have hless : x + w < g.dd.get s.dist (c.vid n) := by
      by_contra hno
      have := (hd.improve_none s.dist (c.vid n) (x + w) hlt).2 (not_lt.1 hno)
      rw [this] at himp
      simp at himp
    have hguess : ∀ j, g.dd.get (g.dd.set s.guesses (c.vid n) (aGuess c.inf (x + w) (c.heur n))) j =
        if j = c.vid n then x + w + c.heur n else g.dd.get s.guesses j := fun j => by
      rw [hd.get_set, aGuess_fin (hfin n)]
    have hge : cur ≤ x + w + c.heur n := by
      rw [← hw.1, add_comm x w, add_assoc]
      exact add_le_add_right (hw.2 _ List.mem_cons_self) w
    have hperm := heapPush_perm s.heap ⟨aGuess c.inf (x + w) (c.heur n), s.no, (n, ec + 1)⟩
    have hmem : ∀ e, e ∈ heapPush s.heap ⟨aGuess c.inf (x + w) (c.heur n), s.no, (n, ec + 1)⟩ →
        e = ⟨aGuess c.inf (x + w) (c.heur n), s.no, (n, ec + 1)⟩ ∨ e ∈ s.heap :=
      fun e he => List.mem_cons.1 (hperm.mem_iff.1 he)
    have hX : ∀ k ∈ X, k ≠ c.vid n := fun k hk e => by
      obtain ⟨h1, h2, -⟩ := h.done k (List.mem_append_left _ hk)
      rw [h2 n e.symm, e] at h1
      exact absurd (add_lt_add_left hless (c.heur n)) (not_lt_of_ge (h1.trans hge))
    refine ⟨cur, heapPush_sorted _ h.sorted, ?_, fun e he => ?_, fun e he => ?_, fun k hk => ?_,
      by simp [aCur, aWho], hw.1, fun e he => hw.2 e (List.mem_cons_of_mem _ he)⟩
    · refine (hperm.pairwise_iff (fun {a b} hab e => (hab e.symm).symm)).2 (List.pairwise_cons.2 ⟨fun f hf ef => ?_, h.uniq⟩)
      simp only at ef ⊢
      obtain ⟨h1, h2⟩ := h.ent f hf
      rw [h2, ← ef, ← hh n f.item.1 ef] at h1
      rw [aGuess_fin (hfin n)]
      exact ne_of_lt (lt_of_lt_of_le (add_lt_add_left hless _) h1)
    · rcases hmem e he with rfl | he
      · simp only [aGuess_fin (hfin n)]
        exact hge
      · exact h.lower e he
    · simp only [hget, hguess]
      rcases hmem e he with rfl | he
      · simp [aGuess_fin (hfin n)]
      · split
        · rename_i hk
          obtain ⟨h1, h2⟩ := h.ent e he
          rw [h2, hk, ← hh n e.item.1 hk.symm] at h1
          exact ⟨((add_lt_add_left hless _).le).trans h1, by rw [hh n e.item.1 hk.symm]⟩
        · exact h.ent e he
    · simp only [aCur, aWho, Option.toList_none, List.map_nil, List.append_nil] at hk
      obtain ⟨h1, h2, h3⟩ := h.done k (List.mem_append_left _ hk)
      simp only [hget, hguess, if_neg (hX k hk)]
      refine ⟨h1, h2, fun e he ek => ?_⟩
      rcases hmem e he with rfl | he
      · exact absurd ek.symm (hX k hk)
      · exact h3 e he ek

theorem aStartEntries_uniq {d : D} {vs : List V} {no : Int} (h : (vs.map c.vid).Nodup) :
    (aStartEntries g c d vs no).Pairwise (fun e f => c.vid e.item.1 = c.vid f.item.1 → e.key ≠ f.key) := by
  induction vs generalizing no with
  | nil => exact .nil
  | cons v vs ih =>
    rw [List.map_cons, List.nodup_cons] at h
    refine .cons (fun e he ev => ?_) (ih h.2)
    exact absurd (List.mem_map.2 ⟨_, (aStartEntries_mem he).1, ev.symm⟩) h.1

theorem aFresh_init (hd : g.dd.Lawful c.inf) (hh : HeurCompat c.heur c.vid) (hfin : ∀ v, c.heur v ≠ c.inf)
    (starts : List V) (hs : (starts.map c.vid).Nodup) :
    ∃ cur, AFresh g c [] (aInit g c none none starts : AStarState V L W M ML D) cur := by
  have hmem : ∀ e ∈ (aInit g c none none starts : AStarState V L W M ML D).heap,
      e.key = g.dd.get (aInit g c none none starts : AStarState V L W M ML D).guesses (c.vid e.item.1) ∧
      g.dd.get (aInit g c none none starts : AStarState V L W M ML D).guesses (c.vid e.item.1) =
        g.dd.get (aInit g c none none starts : AStarState V L W M ML D).dist (c.vid e.item.1) + c.heur e.item.1 := by
    intro e he
    obtain ⟨h1, -, h3⟩ := aStartEntries_mem ((heapify_perm _).mem_iff.1 he)
    refine ⟨h3, ?_⟩
    have h4 : g.dd.get (aInit g c none none starts : AStarState V L W M ML D).guesses (c.vid e.item.1) =
        aGuess c.inf 0 (c.heur e.item.1) := aGuesses_none hd hh h1
    have h5 : g.dd.get (aInit g c none none starts : AStarState V L W M ML D).dist (c.vid e.item.1) = 0 := by
      simp only [aInit, aDistances_none hd, if_pos (List.mem_map_of_mem h1)]
    rw [h4, h5, aGuess_fin (hfin _)]
  obtain ⟨cur, hcur⟩ : ∃ cur, ∀ e ∈ (aInit g c none none starts : AStarState V L W M ML D).heap, cur ≤ e.key := by
    have hso : (aInit g c none none starts : AStarState V L W M ML D).heap.Pairwise HEntry.le := heapify_sorted _
    rcases hhp : (aInit g c none none starts : AStarState V L W M ML D).heap with _ | ⟨e, rest⟩
    · exact ⟨0, by simp⟩
    · rw [hhp] at hso
      refine ⟨e.key, fun f hf => ?_⟩
      rcases List.mem_cons.1 hf with rfl | hf
      · exact le_refl _
      · exact ((List.pairwise_cons.1 hso).1 f hf).key_le
  refine ⟨cur, heapify_sorted _, ?_, hcur, fun e he => ⟨(hmem e he).1.ge, (hmem e he).2⟩, by simp [aCur, aWho, aInit],
    by simp [aCur, aWho, aInit], trivial⟩
  exact ((heapify_perm _).pairwise_iff (fun {a b} hab e => (hab e.symm).symm)).2 (aStartEntries_uniq hs)

/-- Two calls of the edges function are for vertices with different ids. -/
theorem aAware_once (ht : c.isTree = false) (hd : g.dd.Lawful c.inf) (hh : HeurCompat c.heur c.vid)
    (hfin : ∀ v, c.heur v ≠ c.inf) (F : Nat → AStarReport V W M ML D → List (V × W × L))
    (hF : ∀ n view, ∀ e ∈ F n view, c.heur view.vertex ≤ e.2.1 + c.heur e.1) (starts : List V)
    (hs : (starts.map c.vid).Nodup) (limit : Option Int) (fuel : Nat) :
    ((aAwareCalls g c F starts limit fuel).map (fun call => c.vid call.1.vertex)).Nodup := by
  have hv : ∀ (s : AStarState V L W M ML D) v, (aView s v).vertex = v := fun s v => by unfold aView; split <;> rfl
  refine (aware_once c.vid AStarReport.vertex hv (fun f => ∀ v, ∀ e ∈ f v, c.heur v ≤ e.2.1 + c.heur e.1)
    (fun n s v e he => ?_) (fun X s => ∃ cur, AFresh g c X s cur) ?_ ?_ ?_ ?_ fuel (prepareLimit limit)
    (aInit g c none none starts, 0) [] (aFresh_init hd hh hfin starts hs)).1
  · have := hF n _ e he
    rw [hv] at this
    exact this
  · rintro f hf X s s' ⟨cur, h⟩ e
    have := aFresh_step ht hd hh hfin f hf X s cur h
    rw [e] at this
    exact this
  · rintro f hf X s r s' ⟨cur, h⟩ e
    have := aFresh_step ht hd hh hfin f hf X s cur h
    rw [e] at this
    exact this
  · rintro f hf X s s' ⟨cur, h⟩ hw e
    exfalso
    unfold aWho at hw
    revert e
    refine aStep_cases (P := fun t => t = .expand s' → False) (c := { c with next := f }) ht s
      ?_ ?_ ?_ ?_ ?_ ?_ ?_ ?_ ?_ ?_
    case refine_5 =>
      intro v w ec hpc
      rw [hpc] at hw
      simp at hw
    all_goals intros; contradiction
  · rintro f hf X s v s' ⟨cur, h⟩ hw e
    have := aFresh_step ht hd hh hfin f hf X s cur h
    rw [e] at this
    exact ⟨h.new _ (by simp [aCur, hw]), this v hw⟩

/-- Each call happens in a state that the traversal reaches in the graph of the returned edges. -/
theorem aAware_static (ht : c.isTree = false) (hd : g.dd.Lawful c.inf) (hh : HeurCompat c.heur c.vid)
    (hfin : ∀ v, c.heur v ≠ c.inf) (F : Nat → AStarReport V W M ML D → List (V × W × L))
    (hF : ∀ n view, ∀ e ∈ F n view, c.heur view.vertex ≤ e.2.1 + c.heur e.1) (starts : List V)
    (hs : (starts.map c.vid).Nodup) (limit : Option Int) (fuel : Nat) {graph : V → List (V × W × L)}
    (hgr : graph = graphOfCalls c.vid AStarReport.vertex (aAwareCalls g c F starts limit fuel)) :
    (∀ call ∈ aAwareCalls g c F starts limit fuel, graph call.1.vertex = call.2 ∧
      ∃ h' s w ec, Reaches (aStep g { c with next := graph }) (aInit g { c with next := graph } none none starts) h' s ∧
        s.pc = .expand call.1.vertex w ec ∧ call.1 = ⟨call.1.vertex, w, ec, s.dist, s.preds, s.labels⟩) ∧
    (aAwareRun g c F starts limit fuel).events =
      (aRun g { c with next := graph } none none starts limit fuel).events ∧
    (aAwareRun g c F starts limit fuel).ending =
      (aRun g { c with next := graph } none none starts limit fuel).ending ∧
    (aAwareRun g c F starts limit fuel).final.1 =
      (aRun g { c with next := graph } none none starts limit fuel).final := by
  subst hgr
  have hnd := aAware_once (g := g) (c := c) ht hd hh hfin F hF starts hs limit fuel
  obtain ⟨h1, h2⟩ := aware_static (F := F) (view := aView) c.vid AStarReport.vertex
    (fun s v => by unfold aView; split <;> rfl)
    (a_readsOne (g := g) (c := c)) fuel (prepareLimit limit) (aInit g c none none starts) rfl hnd
  unfold aRun
  rw [aInit_aware]
  refine ⟨fun call hc => ⟨(h1 call hc).1, ?_⟩, h2⟩
  obtain ⟨-, h', s, hr, hw, hv⟩ := h1 call hc
  unfold aWho at hw
  rcases hpc : s.pc with _ | ⟨u, w, ec⟩ | ⟨u, w, ec, es⟩ <;> rw [hpc] at hw <;>
    simp only [reduceCtorEq, Option.some.injEq] at hw
  subst hw
  refine ⟨h', s, w, ec, hr, hpc, ?_⟩
  simp only [aView, hpc] at hv
  exact hv.symm

/-- With a consistent heuristic function, a vertex is expanded with its minimal path length. -/
theorem a_expand_min (ht : c.isTree = false) (hd : g.dd.Lawful c.inf) (hn : NonNeg c.next)
    (hc : WCompat c.next c.vid) (hh : HeurCompat c.heur c.vid) (hcons : Consistent c.next c.heur)
    (hfin : ∀ v, c.heur v ≠ c.inf) {starts : List V} {h : List (Ev (AStarReport V W M ML D))}
    {s : AStarState V L W M ML D} (hr : Reaches (aStep g c) (aInit g c none none starts) h s) :
    ∀ v w ec, s.pc = .expand v w ec → IsIdDist c.next (· ∈ starts) c.vid (c.vid v) w := by
  have step : ∀ {h : List (Ev (AStarReport V W M ML D))} {s : AStarState V L W M ML D}, AInv g c starts h s →
      match aStep g c s with
      | .tau s' => ∀ v w ec, s'.pc = .expand v w ec → IsIdDist c.next (· ∈ starts) c.vid (c.vid v) w
      | .emit _ s' => ∀ v w ec, s'.pc = .expand v w ec → IsIdDist c.next (· ∈ starts) c.vid (c.vid v) w
      | .expand s' => ∀ v w ec, s'.pc = .expand v w ec → IsIdDist c.next (· ∈ starts) c.vid (c.vid v) w
      | _ => True := by
    intro h s inv
    refine aStep_cases (P := fun t => match t with
      | .tau s' => ∀ v w ec, s'.pc = .expand v w ec → IsIdDist c.next (· ∈ starts) c.vid (c.vid v) w
      | .emit _ s' => ∀ v w ec, s'.pc = .expand v w ec → IsIdDist c.next (· ∈ starts) c.vid (c.vid v) w
      | .expand s' => ∀ v w ec, s'.pc = .expand v w ec → IsIdDist c.next (· ∈ starts) c.vid (c.vid v) w
      | _ => True) ht s ?_ ?_ ?_ ?_ ?_ ?_ ?_ ?_ ?_ ?_
    case refine_2 =>
      intro e rest hpc _ _ v w ec he
      simp only [hpc] at he
      cases he
    case refine_3 =>
      intro e rest hpc hhp hns _ v w ec he
      simp only [SpPc.expand.injEq] at he
      obtain ⟨rfl, rfl, -⟩ := he
      exact inv.accept_min hn hh hpc hhp hns (hfin _) (towardsOk_of_consistent hcons _)
    case refine_4 =>
      intro e rest hpc hhp hns _ v w ec he
      simp only [SpPc.expand.injEq] at he
      obtain ⟨rfl, rfl, -⟩ := he
      exact inv.accept_min hn hh hpc hhp hns (hfin _) (towardsOk_of_consistent hcons _)
    all_goals intros; first | trivial | (intro _ _ _ he; cases he)
  refine Reaches.invariant' (fun _ s => ∀ v w ec, s.pc = .expand v w ec →
    IsIdDist c.next (· ∈ starts) c.vid (c.vid v) w) ?_ ?_ ?_ ?_ hr
  · intro v w ec he
    simp [aInit] at he
  · intro h s s' hr _ e
    have := step (a_inv ht hd hn hc hh hr)
    rw [e] at this; exact this
  · intro h s r s' hr _ e
    have := step (a_inv ht hd hn hc hh hr)
    rw [e] at this; exact this
  · intro h s s' hr _ e
    have := step (a_inv ht hd hn hc hh hr)
    rw [e] at this; exact this

theorem graphOfCalls_a {F : Nat → AStarReport V W M ML D → List (V × W × L)}
    (hF : ∀ n view, ∀ e ∈ F n view, 0 ≤ e.2.1 ∧ c.heur view.vertex ≤ e.2.1 + c.heur e.1) (hh : HeurCompat c.heur c.vid)
    {calls : List (AStarReport V W M ML D × List (V × W × L))} (hc : ∀ call ∈ calls, ∃ n, call.2 = F n call.1) :
    NonNeg (graphOfCalls c.vid AStarReport.vertex calls) ∧
    Consistent (graphOfCalls c.vid AStarReport.vertex calls) c.heur := by
  refine ⟨?_, ?_⟩
  · rintro u v x ⟨l, hl⟩
    obtain ⟨call, h1, -, h2⟩ := mem_graphOfCalls hl
    obtain ⟨n, e⟩ := hc call h1
    exact (hF n call.1 _ (e ▸ h2)).1
  · rintro u v x ⟨l, hl⟩
    obtain ⟨call, h1, h3, h2⟩ := mem_graphOfCalls hl
    obtain ⟨n, e⟩ := hc call h1
    have := (hF n call.1 _ (e ▸ h2)).2
    rw [hh _ _ h3] at this
    exact this

/-- **C70 for A\*.** Let the edges function be any function that may use, at each call, the attributes of the traversal,
and anything else, such that the weights of the edges it returns are not negative, and the heuristic function (without
infinite estimates) is consistent for these edges. Then the traversal behaves exactly as in the ordinary graph of the edges
that the function returned. The function is called at most once for an id. When it is called for a vertex, the
`path_length` it sees is the distance of this vertex in that graph. -/
theorem C70_astar_search_aware (ht : c.isTree = false) (hd : g.dd.Lawful c.inf) (hh : HeurCompat c.heur c.vid)
    (hfin : ∀ v, c.heur v ≠ c.inf) (F : Nat → AStarReport V W M ML D → List (V × W × L))
    (hF : ∀ n view, ∀ e ∈ F n view, 0 ≤ e.2.1 ∧ c.heur view.vertex ≤ e.2.1 + c.heur e.1) (starts : List V)
    (hs : (starts.map c.vid).Nodup) (limit : Option Int) (fuel : Nat) :
    let run := aAwareRun g c F starts limit fuel
    let calls := aAwareCalls g c F starts limit fuel
    let graph := graphOfCalls c.vid AStarReport.vertex calls
    let ordinary := aRun g { c with next := graph } none none starts limit fuel
    (run.events = ordinary.events ∧ run.ending = ordinary.ending ∧ run.final.1 = ordinary.final) ∧
    (calls.map (fun call => c.vid call.1.vertex)).Nodup ∧
    ∀ call ∈ calls, graph call.1.vertex = call.2 ∧
      IsIdDist graph (· ∈ starts) c.vid (c.vid call.1.vertex) call.1.pathLength := by
  intro run calls graph ordinary
  have hF' : ∀ n view, ∀ e ∈ F n view, c.heur view.vertex ≤ e.2.1 + c.heur e.1 := fun n view e he => (hF n view e he).2
  obtain ⟨h1, h2⟩ := aAware_static (g := g) (c := c) ht hd hh hfin F hF' starts hs limit fuel (graph := graph) rfl
  obtain ⟨hn, hcons⟩ : NonNeg graph ∧ Consistent graph c.heur :=
    graphOfCalls_a hF hh (fun call hc => awareCalls_returned _ _ _ call hc)
  refine ⟨h2, aAware_once ht hd hh hfin F hF' starts hs limit fuel, fun call hc => ⟨(h1 call hc).1, ?_⟩⟩
  obtain ⟨-, h', s, w, ec, hr, hpc, hv⟩ := h1 call hc
  rw [hv]
  exact a_expand_min (c := { c with next := graph }) ht hd hn (graphOfCalls_wcompat _ _ _) hh hcons hfin hr _ _ _ hpc

/-- **C70 for A\*, paths.** With `build_paths`, when the edges function is called for a vertex, the `paths` it sees show a
path to this vertex: from a start vertex, along edges that the function has returned, with the `path_length` it sees as
total weight, and with as many edges as the `depth` it sees. (For a `vertex_to_id` that distinguishes vertices.) -/
theorem C70_astar_paths (ht : c.isTree = false) (hb : c.buildPaths = true) (hd : g.dd.Lawful c.inf)
    (hh : HeurCompat c.heur c.vid) (hfin : ∀ v, c.heur v ≠ c.inf)
    (F : Nat → AStarReport V W M ML D → List (V × W × L))
    (hF : ∀ n view, ∀ e ∈ F n view, 0 ≤ e.2.1 ∧ c.heur view.vertex ≤ e.2.1 + c.heur e.1)
    {validV : V → Prop} {validL : L → Prop} (hmo : g.mo.Lawful validV) (hlo : g.lo.Lawful validL) (starts : List V)
    (hs : (starts.map c.vid).Nodup) (hsv : ∀ v ∈ starts, validV v) (hinj : ∀ u v, c.vid u = c.vid v → u = v)
    (limit : Option Int) (fuel : Nat)
    (hcalls : ∀ call ∈ aAwareCalls g c F starts limit fuel, ∀ e ∈ call.2, validV e.1 ∧ validL e.2.2) :
    let calls := aAwareCalls g c F starts limit fuel
    let graph := graphOfCalls c.vid AStarReport.vertex calls
    ∀ call ∈ calls, ∃ p : SPath V L, p.first ∈ starts ∧ IsWPath graph p.first p.steps call.1.pathLength ∧
      p.verts.getLast? = some call.1.vertex ∧ p.steps.length = call.1.depth ∧
      ShowsPath (pathsView g.mo g.lo c.vid call.1.preds call.1.labels) call.1.vertex p := by
  intro calls graph call hc
  have hF' : ∀ n view, ∀ e ∈ F n view, c.heur view.vertex ≤ e.2.1 + c.heur e.1 := fun n view e he => (hF n view e he).2
  obtain ⟨h1, -⟩ := aAware_static (g := g) (c := c) ht hd hh hfin F hF' starts hs limit fuel (graph := graph) rfl
  obtain ⟨-, h', s, w, ec, hr, hpc, hv⟩ := h1 call hc
  obtain ⟨hn, hcons⟩ : NonNeg graph ∧ Consistent graph c.heur :=
    graphOfCalls_a hF hh (fun call hc => awareCalls_returned _ _ _ call hc)
  have hcompat : WCompat graph c.vid := graphOfCalls_wcompat _ _ _
  have hst : WStorable g.mo g.lo graph c.vid starts validV validL := by
    refine ⟨hmo, hlo, fun _ v hv => ?_, fun _ u e _ he => ?_, fun s hs' t ht' e => hinj _ _ e⟩
    · cases hv with
      | start h => exact hsv _ h
      | step _ h =>
        obtain ⟨l, hl⟩ := h
        obtain ⟨call, hc, -, he⟩ := mem_graphOfCalls hl
        exact (hcalls call hc _ he).1
    · obtain ⟨call, hc, -, he⟩ := mem_graphOfCalls he
      exact (hcalls call hc _ he).2
  have inv := a_inv (c := { c with next := graph }) ht hd hn hcompat hh hr
  obtain ⟨EC, pinv⟩ := a_path (c := { c with next := graph }) ht hb hd hn hcompat hh hst
    (fun _ _ _ _ _ _ e => hinj _ _ e) hr
  have hmin := a_expand_min (c := { c with next := graph }) ht hd hn hcompat hh hcons hfin hr _ _ _ hpc
  have hp := inv.pcok
  have hec := pinv.pce hfin
  unfold APcOk at hp
  rw [hpc] at hp hec
  obtain ⟨k1, k2, ⟨w', k3⟩, -⟩ := hp
  obtain ⟨p, y, hch⟩ := pinv.chains _ _ k3 k1
  have hle := hch.le
  simp only [k2] at hle
  have hy : y = w := le_antisymm hle (hmin.2 _ _ hch.walk rfl)
  subst hy
  obtain ⟨q1, q2, q3⟩ := hch.stored
  have hlen := hch.length hfin k2.symm
  rw [hv]
  exact ⟨p, q1, q2, q3.last, hlen.trans hec.symm, q3.shows hmo hlo⟩

/-! ## Non-vacuity -/

/-- Edges function on the number line that uses the path length: a second edge only from path length 3 on, no edges from 8
on. -/
def exAAware {M ML D : Type} (_ : Nat) (t : AStarReport Nat Nat M ML D) : List (Nat × Nat × Char) :=
  if t.pathLength < 8 then
    (t.vertex + 1, 3, 'a') :: (if 3 ≤ t.pathLength then [(t.vertex + 2, 4, 'b')] else [])
  else []

/-- The estimates count two for each step to vertex 4. -/
def exAAwareCfg : AStarCfg Nat Nat Char Nat := ⟨fun _ => [], id, false, true, 1000, fun v => 2 * (4 - v)⟩

/-- The hypotheses about the edges function and the estimates hold. -/
example : HeurCompat exAAwareCfg.heur exAAwareCfg.vid ∧ (∀ v, exAAwareCfg.heur v ≠ exAAwareCfg.inf) ∧
    ∀ (n : Nat) (view : AStarReport Nat Nat (List Nat) (List Char) (List Nat)), ∀ e ∈ exAAware n view,
      0 ≤ e.2.1 ∧ exAAwareCfg.heur view.vertex ≤ e.2.1 + exAAwareCfg.heur e.1 := by
  refine ⟨fun u v h => ?_, fun v => ?_, fun n view e he => ⟨Nat.zero_le _, ?_⟩⟩
  · simp only [exAAwareCfg, id_eq] at h ⊢; rw [h]
  · simp only [exAAwareCfg]; omega
  · unfold exAAware at he
    simp only [exAAwareCfg]
    split at he
    · split at he
      · simp at he; rcases he with rfl | rfl <;> simp <;> omega
      · simp at he; subst he; simp; omega
    · simp at he

/-- The calls and the reports. (The hypotheses about gears hold for `exWArr`, see `Verif/Props/ShortestPaths.lean`.) -/
example : (aAwareCalls exWArr exAAwareCfg exAAware [0] none 60).map
      (fun x => (x.1.vertex, x.1.pathLength, x.1.depth, x.2.map (fun e => (e.1, e.2.1)))) =
      [(0, 0, 0, [(1, 3)]), (1, 3, 1, [(2, 3), (3, 4)]), (3, 7, 2, [(4, 3), (5, 4)]), (4, 10, 3, []),
       (2, 6, 2, [(3, 3), (4, 4)]), (5, 11, 3, [])] ∧
    ((aAwareRun exWArr exAAwareCfg exAAware [0] none 60).reports.map (fun r => (r.vertex, r.pathLength)),
      (aAwareRun exWArr exAAwareCfg exAAware [0] none 60).ending) =
      ([(1, 3), (3, 7), (4, 10), (2, 6), (5, 11)], .done) := by
  refine ⟨?_, ?_⟩ <;> decide +kernel

/-- The assumption about the estimates is needed: in the graph of `C25_counterexample`, with infinite estimates, the
function is called twice for vertex 2. -/
example : (aAwareCalls exInfGear exInfCfg (fun _ view => exInfGraph view.vertex) [0] none 40).map
      (fun x => (x.1.vertex, x.1.pathLength)) = [(0, 0), (2, 5), (1, 1), (2, 2)] := by decide +kernel

end NoGraphs
