import Verif.Model.SearchAware
import Verif.Proofs.Machine
import Verif.Spec.SearchAware

/-! # Search-aware graphs: runs are runs in an ordinary graph, if no vertex is expanded twice -/

set_option linter.unusedSectionVars false

namespace NoGraphs

open Spec

variable {σ ρ V E C K : Type} [DecidableEq K]
variable {m : (V → List E) → σ → Step σ ρ} {who : σ → Option V} {view : σ → V → C} {F : Nat → C → List E}

/-- A strategy reads the edges of at most one vertex in a step, and if so, the step is an expansion. -/
structure ReadsOne (m : (V → List E) → σ → Step σ ρ) (who : σ → Option V) : Prop where
  congr : ∀ f f' s, (∀ v, who s = some v → f v = f' v) → m f s = m f' s
  expands : ∀ f s v, who s = some v → ∃ s', m f s = .expand s'

theorem aware_same (h : ReadsOne m who) (next : V → List E) (fuel : Nat) (lim : Option Int) (x : σ × Nat)
    (hn : ∀ call ∈ awareCalls m who view F fuel lim x, ∀ s v, who s = some v → view s v = call.1 → next v = call.2) :
    (runMachine (awareStep m view F) fuel lim x).events = (runMachine (m next) fuel lim x.1).events ∧
    (runMachine (awareStep m view F) fuel lim x).ending = (runMachine (m next) fuel lim x.1).ending ∧
    (runMachine (awareStep m view F) fuel lim x).final.1 = (runMachine (m next) fuel lim x.1).final := by
  induction fuel generalizing lim x with
  | zero => exact ⟨rfl, rfl, rfl⟩
  | succ fuel ih =>
    obtain ⟨s, n⟩ := x
    rcases hw : who s with _ | v
    · have e : m next s = m (fun v => F n (view s v)) s := h.congr _ _ _ (by simp [hw])
      unfold awareCalls at hn
      unfold runMachine
      simp only [awareStep, e] at hn ⊢
      rcases hm : m (fun v => F n (view s v)) s with s' | er | s' | ⟨r, s'⟩ | s' <;> simp only [hm] at hn ⊢
      · exact ⟨trivial, trivial, trivial⟩
      · exact ⟨trivial, trivial, trivial⟩
      · exact ih _ _ hn
      · obtain ⟨h1, h2, h3⟩ := ih _ _ hn
        exact ⟨by rw [h1], h2, h3⟩
      · rcases hl : checkLimit lim with _ | lim'
        · exact ⟨rfl, rfl, rfl⟩
        · simp only [hl, hw, Option.toList_none, List.map_nil, List.nil_append] at hn ⊢
          obtain ⟨h1, h2, h3⟩ := ih _ _ hn
          exact ⟨by rw [h1], h2, h3⟩
    · obtain ⟨s', hm⟩ := h.expands (fun v => F n (view s v)) s v hw
      unfold awareCalls at hn
      unfold runMachine
      simp only [awareStep, hm] at hn ⊢
      rcases hl : checkLimit lim with _ | lim'
      · obtain ⟨s'', hm'⟩ := h.expands next s v hw
        simp only [hm']
        exact ⟨trivial, trivial, trivial⟩
      · simp only [hl, hw, Option.toList_some, List.map_cons, List.map_nil, List.cons_append, List.nil_append,
          List.forall_mem_cons] at hn ⊢
        have e : m next s = m (fun v => F n (view s v)) s := h.congr _ _ _ (by
          intro v' hv'
          rw [hw] at hv'
          cases hv'
          exact hn.1 s v hw rfl)
        rw [e, hm]
        obtain ⟨h1, h2, h3⟩ := ih lim' (s', n + 1) hn.2
        exact ⟨by simp only [h1], h2, h3⟩

/-- Each call happens in a state that the strategy reaches in the ordinary graph. -/
theorem aware_reaches (h : ReadsOne m who) (next : V → List E) (fuel : Nat) (lim : Option Int) (x : σ × Nat) {s0 : σ}
    {h0 : List (Ev ρ)} (hx : Reaches (m next) s0 h0 x.1)
    (hn : ∀ call ∈ awareCalls m who view F fuel lim x, ∀ s v, who s = some v → view s v = call.1 → next v = call.2) :
    ∀ call ∈ awareCalls m who view F fuel lim x,
      ∃ h' s v, Reaches (m next) s0 h' s ∧ who s = some v ∧ view s v = call.1 := by
  induction fuel generalizing lim x h0 with
  | zero => intro call hc; simp [awareCalls] at hc
  | succ fuel ih =>
    obtain ⟨s, n⟩ := x
    rcases hw : who s with _ | v
    · have e : m next s = m (fun v => F n (view s v)) s := h.congr _ _ _ (by simp [hw])
      unfold awareCalls at hn ⊢
      simp only [awareStep] at hn ⊢
      rcases hm : m (fun v => F n (view s v)) s with s' | er | s' | ⟨r, s'⟩ | s' <;> simp only [hm] at hn ⊢
      · simp
      · simp
      · exact ih _ (s', n) (.tau hx (e.trans hm)) hn
      · exact ih _ (s', n) (.emit hx (e.trans hm)) hn
      · rcases hl : checkLimit lim with _ | lim'
        · simp
        · simp only [hl, hw, Option.toList_none, List.map_nil, List.nil_append] at hn ⊢
          exact ih _ (s', n + 1) (.expand hx (e.trans hm)) hn
    · obtain ⟨s', hm⟩ := h.expands (fun v => F n (view s v)) s v hw
      unfold awareCalls at hn ⊢
      simp only [awareStep, hm] at hn ⊢
      rcases hl : checkLimit lim with _ | lim'
      · simp
      · simp only [hl, hw, Option.toList_some, List.map_cons, List.map_nil, List.cons_append, List.nil_append,
          List.forall_mem_cons] at hn ⊢
        have e : m next s = m (fun v => F n (view s v)) s := h.congr _ _ _ (by
          intro v' hv'
          rw [hw] at hv'
          cases hv'
          exact hn.1 s v hw rfl)
        exact ⟨⟨_, s, v, hx, hw, rfl⟩, ih lim' (s', n + 1) (.expand hx (e.trans hm)) hn.2⟩

/-- If an invariant with the list of expanded ids excludes a second expansion, the ids of calls differ. -/
theorem aware_once (vid : V → K) (vert : C → V) (hview : ∀ s v, vert (view s v) = v)
    (P : (V → List E) → Prop) (hP : ∀ n s, P (fun v => F n (view s v))) (I : List K → σ → Prop)
    (hstep : ∀ f, P f → ∀ X s s', I X s → m f s = .tau s' → I X s')
    (hemit : ∀ f, P f → ∀ X s r s', I X s → m f s = .emit r s' → I X s')
    (hnone : ∀ f, P f → ∀ X s s', I X s → who s = none → m f s = .expand s' → I X s')
    (hexp : ∀ f, P f → ∀ X s v s', I X s → who s = some v → m f s = .expand s' → vid v ∉ X ∧ I (vid v :: X) s')
    (fuel : Nat) (lim : Option Int) (x : σ × Nat) (X : List K) (hI : I X x.1) :
    ((awareCalls m who view F fuel lim x).map (fun call => vid (vert call.1))).Nodup ∧
    ∀ call ∈ awareCalls m who view F fuel lim x, vid (vert call.1) ∉ X := by
  induction fuel generalizing lim x X with
  | zero => exact ⟨by simp [awareCalls], by simp [awareCalls]⟩
  | succ fuel ih =>
    obtain ⟨s, n⟩ := x
    unfold awareCalls
    simp only [awareStep]
    rcases hm : m (fun v => F n (view s v)) s with s' | er | s' | ⟨r, s'⟩ | s' <;> simp only
    · simp
    · simp
    · exact ih _ (s', n) X (hstep _ (hP n s) _ _ _ hI hm)
    · exact ih _ (s', n) X (hemit _ (hP n s) _ _ _ _ hI hm)
    · rcases hl : checkLimit lim with _ | lim'
      · simp
      · rcases hw : who s with _ | v
        · simpa using ih lim' (s', n + 1) X (hnone _ (hP n s) _ _ _ hI hw hm)
        · obtain ⟨h1, h2⟩ := hexp _ (hP n s) _ _ _ _ hI hw hm
          obtain ⟨h3, h4⟩ := ih lim' (s', n + 1) (vid v :: X) h2
          simp only [Option.toList_some, List.map_cons, List.map_nil, List.cons_append, List.nil_append, hview,
            List.nodup_cons, List.forall_mem_cons, List.mem_map, not_exists, not_and]
          refine ⟨⟨fun call hc e => h4 call hc (by simp [e]), h3⟩, h1, fun call hc hx => h4 call hc (by simp [hx])⟩

theorem graphOfCalls_of_mem {vid : V → K} {vert : C → V} {calls : List (C × List E)}
    (hnd : (calls.map (fun call => vid (vert call.1))).Nodup) {call : C × List E} (hc : call ∈ calls) {v : V}
    (hv : vid (vert call.1) = vid v) : graphOfCalls vid vert calls v = call.2 := by
  unfold graphOfCalls
  have : calls.find? (fun call => decide (vid (vert call.1) = vid v)) = some call := by
    induction calls with
    | nil => simp at hc
    | cons a as ih =>
      simp only [List.map_cons, List.nodup_cons] at hnd
      rcases List.mem_cons.1 hc with rfl | hc
      · simp [hv]
      · have : vid (vert a.1) ≠ vid v := fun e => hnd.1 (List.mem_map.2 ⟨call, hc, hv.trans e.symm⟩)
        rw [List.find?_cons_of_neg (by simpa using this)]
        exact ih hnd.2 hc
  rw [this]

theorem graphOfCalls_id {vid : V → K} {vert : C → V} {calls : List (C × List E)} {u v : V} (h : vid u = vid v) :
    graphOfCalls vid vert calls u = graphOfCalls vid vert calls v := by
  unfold graphOfCalls
  rw [h]

/-- A run with an arbitrary edges function in which no id is expanded twice is a run in an ordinary graph: that of the
edges the function returned. -/
theorem aware_static (vid : V → K) (vert : C → V) (hview : ∀ s v, vert (view s v) = v) (h : ReadsOne m who)
    (fuel : Nat) (lim : Option Int) (s0 : σ) {calls : List (C × List E)}
    (hcalls : calls = awareCalls m who view F fuel lim (s0, 0))
    (hnd : (calls.map (fun call => vid (vert call.1))).Nodup) :
      (∀ call ∈ calls, graphOfCalls vid vert calls (vert call.1) = call.2 ∧
        ∃ h' s, Reaches (m (graphOfCalls vid vert calls)) s0 h' s ∧ who s = some (vert call.1) ∧
          view s (vert call.1) = call.1) ∧
      (runMachine (awareStep m view F) fuel lim (s0, 0)).events =
        (runMachine (m (graphOfCalls vid vert calls)) fuel lim s0).events ∧
      (runMachine (awareStep m view F) fuel lim (s0, 0)).ending =
        (runMachine (m (graphOfCalls vid vert calls)) fuel lim s0).ending ∧
      (runMachine (awareStep m view F) fuel lim (s0, 0)).final.1 =
        (runMachine (m (graphOfCalls vid vert calls)) fuel lim s0).final := by
  subst hcalls
  have key : ∀ call ∈ awareCalls m who view F fuel lim (s0, 0), ∀ s v, who s = some v → view s v = call.1 →
      graphOfCalls vid vert (awareCalls m who view F fuel lim (s0, 0)) v = call.2 := by
    intro call hc s v _ hv
    refine graphOfCalls_of_mem hnd hc ?_
    rw [← hv, hview]
  refine ⟨?_, aware_same h _ fuel lim (s0, 0) key⟩
  intro call hc
  refine ⟨graphOfCalls_of_mem hnd hc rfl, ?_⟩
  obtain ⟨h', s, v, h1, h2, h3⟩ := aware_reaches h _ fuel lim (s0, 0) .refl key call hc
  have : vert call.1 = v := by rw [← h3, hview]
  rw [this]
  exact ⟨h', s, h1, h2, h3⟩

/-- An edge of this graph was returned by a call. -/
theorem mem_graphOfCalls {vid : V → K} {vert : C → V} {calls : List (C × List E)} {v : V} {e : E}
    (h : e ∈ graphOfCalls vid vert calls v) : ∃ call ∈ calls, vid (vert call.1) = vid v ∧ e ∈ call.2 := by
  unfold graphOfCalls at h
  split at h
  · rename_i call he
    exact ⟨call, List.mem_of_find?_eq_some he, by simpa using List.find?_some he, h⟩
  · simp at h

/-- The edges of a call are what the function returned. -/
theorem awareCalls_returned (fuel : Nat) (lim : Option Int) (x : σ × Nat) :
    ∀ call ∈ awareCalls m who view F fuel lim x, ∃ n, call.2 = F n call.1 := by
  induction fuel generalizing lim x with
  | zero => simp [awareCalls]
  | succ fuel ih =>
    unfold awareCalls
    split
    · simp
    · simp
    · exact ih _ _
    · exact ih _ _
    · split
      · simp
      · intro call hc
        rcases List.mem_append.1 hc with hc | hc
        · obtain ⟨v, -, rfl⟩ := List.mem_map.1 hc
          exact ⟨_, rfl⟩
        · exact ih _ _ call hc

end NoGraphs
