import Verif.Proofs.DfsSim
import Verif.Model.Topological

/-! # Topological sorting with different gears -/

set_option linter.unusedSectionVars false

namespace NoGraphs

open Spec

section machine

variable {σ σ' ρ ρ' : Type}

/-- Lockstep simulation, unless one of the machines fails with `e`. -/
theorem run_sim_either {m : σ → Step σ ρ} {m' : σ' → Step σ' ρ'} (R F : σ → σ' → Prop) (Q : ρ → ρ' → Prop) (e : PyErr)
    (hsim : ∀ s s', R s s' → m s = .fail e ∨ m' s' = .fail e ∨ StepRel R F Q (m s) (m' s')) (fuel : Nat)
    (lim : Option Int) (s : σ) (s' : σ') (h : R s s') :
    (runMachine m fuel lim s).ending = .raised e ∨ (runMachine m' fuel lim s').ending = .raised e ∨
    (List.Forall₂ (EvRel Q) (runMachine m fuel lim s).events (runMachine m' fuel lim s').events ∧
      (runMachine m fuel lim s).ending = (runMachine m' fuel lim s').ending ∧
      ((runMachine m fuel lim s).ending = .done → F (runMachine m fuel lim s).final (runMachine m' fuel lim s').final) ∧
      ((runMachine m fuel lim s).ending ≠ .done → R (runMachine m fuel lim s).final (runMachine m' fuel lim s').final)) := by
  induction fuel generalizing lim s s' with
  | zero => exact .inr (.inr ⟨.nil, rfl, fun h => by simp [runMachine] at h, fun _ => h⟩)
  | succ fuel ih =>
    rcases hsim s s' h with hf | hf | hs
    · left; unfold runMachine; rw [hf]
    · right; left; unfold runMachine; rw [hf]
    · unfold runMachine
      generalize m s = x at hs
      generalize m' s' = y at hs
      cases hs with
      | stop hr => exact .inr (.inr ⟨.nil, rfl, fun _ => hr, fun hne => absurd rfl hne⟩)
      | fail => exact .inr (.inr ⟨.nil, rfl, fun h => by simp at h, fun _ => h⟩)
      | tau hr => exact ih lim _ _ hr
      | emit hq hr =>
        exact (ih lim _ _ hr).imp_right (·.imp_right fun ⟨h1, h2, h3⟩ => ⟨.cons hq h1, h2, h3⟩)
      | expand hr =>
        simp only
        cases hl : checkLimit lim with
        | none => exact .inr (.inr ⟨.nil, rfl, fun h => by simp at h, fun _ => h⟩)
        | some l =>
          exact (ih l _ _ hr).imp_right (·.imp_right fun ⟨h1, h2, h3⟩ => ⟨.cons trivial h1, h2, h3⟩)

/-- The same, where the steps need only be related in states that the first machine reaches. -/
theorem run_sim_either_reach {m : σ → Step σ ρ} {m' : σ' → Step σ' ρ'} (R F : σ → σ' → Prop) (Q : ρ → ρ' → Prop)
    (e : PyErr) (s0 : σ)
    (hsim : ∀ h s s', Reaches m s0 h s → R s s' → m s = .fail e ∨ m' s' = .fail e ∨ StepRel R F Q (m s) (m' s'))
    (fuel : Nat) (lim : Option Int) (s0' : σ') (h0 : R s0 s0') :
    (runMachine m fuel lim s0).ending = .raised e ∨ (runMachine m' fuel lim s0').ending = .raised e ∨
    (List.Forall₂ (EvRel Q) (runMachine m fuel lim s0).events (runMachine m' fuel lim s0').events ∧
      (runMachine m fuel lim s0).ending = (runMachine m' fuel lim s0').ending) := by
  refine (run_sim_either (fun s s' => (∃ h, Reaches m s0 h s) ∧ R s s') F Q e ?_ fuel lim s0 s0'
    ⟨⟨_, .refl⟩, h0⟩).imp_right (·.imp_right fun h => ⟨h.1, h.2.1⟩)
  rintro s s' ⟨⟨h, hr⟩, hR⟩
  refine (hsim h s s' hr hR).imp_right (·.imp_right fun hs => ?_)
  generalize hx : m s = x at hs
  generalize m' s' = y at hs
  cases hs with
  | stop q => exact .stop q
  | fail => exact .fail
  | tau q => exact .tau ⟨⟨_, .tau hr hx⟩, q⟩
  | emit q1 q => exact .emit q1 ⟨⟨_, .emit hr hx⟩, q⟩
  | expand q => exact .expand ⟨⟨_, .expand hr hx⟩, q⟩

end machine

variable {V K L : Type} [DecidableEq V] [DecidableEq K]
variable {S M ML S' M' ML' : Type}
variable {g : TravGear V K L S M ML} {g' : TravGear V K L S' M' ML'} {c : TravCfg V K L} {starts : List V}

/-- The states of the two runs. -/
structure TopoSame (g : TravGear V K L S M ML) (g' : TravGear V K L S' M' ML') (c : TravCfg V K L) (starts : List V)
    (s : TopoState V L S M ML) (s' : TopoState V L S' M' ML') : Prop where
  pc : s.pc = s'.pc
  stack : s.stack = s'.stack
  leave : s.leave = s'.leave
  depth : s.depth = s'.depth
  cyc : s.cycleFromStart = s'.cycleFromStart
  trace : ∀ k, g.so.contains s.trace k = g'.so.contains s'.trace k
  same : DfsSame g g' c.buildPaths s.visited s.preds s.labels s'.visited s'.preds s'.labels
  reach : ∀ v ∈ s.stack, Reachable (Edge c.next) (· ∈ starts) v
  edges : ∀ u es, s.pc = .edges u es → Reachable (Edge c.next) (· ∈ starts) u ∧ ∀ e ∈ es, e ∈ c.next u

/-- The reports of the two runs. -/
def TopoSameRep (g : TravGear V K L S M ML) (g' : TravGear V K L S' M' ML') (c : TravCfg V K L)
    (r : TopoReport V S M ML) (r' : TopoReport V S' M' ML') : Prop :=
  r.vertex = r'.vertex ∧ r.depth = r'.depth ∧
  DfsSame g g' c.buildPaths r.visited r.preds r.labels r'.visited r'.preds r'.labels

theorem topoPush_same {validV validV' : V → Prop} {validL validL' : L → Prop}
    (hp : c.buildPaths = true → Storable g c starts validV validL ∧ Storable g' c starts validV' validL')
    {s : TopoState V L S M ML} {s' : TopoState V L S' M' ML'} (h : TopoSame g g' c starts s s') {v : V} {e : V × L}
    {es : List (V × L)} (hpc : s.pc = .edges v (e :: es)) (l : List Bool) :
    TopoSame g g' c starts { topoPush g c s v e es with leave := l } { topoPush g' c s' v e es with leave := l } := by
  obtain ⟨hv, hes⟩ := h.edges _ _ hpc
  have he := hes e List.mem_cons_self
  refine ⟨rfl, by simp [topoPush, h.stack], rfl, h.depth, h.cyc, h.trace, ⟨h.same.1, fun hb => ?_⟩, ?_, ?_⟩
  · obtain ⟨hS, hS'⟩ := hp hb
    simp only [topoPush, hb, if_true]
    refine ⟨fun k => ?_, fun k => ?_⟩
    · rw [hS.mo.get_set _ _ _ _ (hS.verts v hv), hS'.mo.get_set _ _ _ _ (hS'.verts v hv), (h.same.2 hb).1]
    · rw [hS.lo.get_set _ _ _ _ (hS.labs v e hv he), hS'.lo.get_set _ _ _ _ (hS'.labs v e hv he), (h.same.2 hb).2]
  · intro w hw
    rcases List.mem_cons.1 hw with rfl | hw
    · exact hv.step ⟨e.2, he⟩
    · exact h.reach w hw
  · intro u es' hu
    simp only [topoPush, TopoPc.edges.injEq] at hu
    obtain ⟨rfl, rfl⟩ := hu
    exact ⟨hv, fun x hx => hes x (List.mem_cons_of_mem _ hx)⟩

theorem topo_same_init (hg : g.so.Lawful) (hg' : g'.so.Lawful) {validV validV' : V → Prop}
    {validL validL' : L → Prop}
    (hp : c.buildPaths = true → Storable g c starts validV validL ∧ Storable g' c starts validV' validL')
    (already : S) (already' : S') (ha : ∀ k, g.so.contains already k = g'.so.contains already' k) :
    TopoSame g g' c starts (topoInit g c already starts) (topoInit g' c already' starts) where
  pc := rfl
  stack := rfl
  leave := rfl
  depth := rfl
  cyc := rfl
  trace k := by simp only [topoInit, hg.contains_empty, hg'.contains_empty]
  same := by
    refine ⟨?_, fun hb => ?_⟩
    · intro k
      simp only [topoInit]
      split
      · exact ha k
      · rw [Bool.eq_iff_iff, hg.contains_addAll, hg'.contains_addAll, ha]
    · obtain ⟨hS, hS'⟩ := hp hb
      simp only [topoInit, hb, if_true]
      exact ⟨fun k => setAll_same hS.mo hS'.mo c.vid starts (fun v hv => hS.verts v (.start hv))
        (fun v hv => hS'.verts v (.start hv)) _ _ (fun k => by rw [hS.mo.get_empty, hS'.mo.get_empty]) k,
        fun k => by rw [hS.lo.get_empty, hS'.lo.get_empty]⟩
  reach v hv := .start (by simpa [topoInit] using hv)
  edges u es h := by simp [topoInit] at h

theorem topo_gear_step (hg : g.so.Lawful) (hg' : g'.so.Lawful) {validV validV' : V → Prop}
    {validL validL' : L → Prop}
    (hp : c.buildPaths = true → Storable g c starts validV validL ∧ Storable g' c starts validV' validL')
    (s : TopoState V L S M ML) (s' : TopoState V L S' M' ML') (h : TopoSame g g' c starts s s') :
    topoStep g c s = .fail .assertionError ∨ topoStep g' c s' = .fail .assertionError ∨
    StepRel (TopoSame g g' c starts) (TopoSame g g' c starts) (TopoSameRep g g' c) (topoStep g c s) (topoStep g' c s') := by
  unfold topoStep
  rw [← h.pc]
  cases hpc : s.pc with
  | cycle => exact .inr (.inr .fail)
  | loop =>
    right; right
    rw [← h.stack]
    cases hst : s.stack with
    | nil => exact .stop h
    | cons v rest =>
      have hv := h.reach v (by rw [hst]; exact List.mem_cons_self)
      have hrest : ∀ w ∈ rest, Reachable (Edge c.next) (· ∈ starts) w :=
        fun w hw => h.reach w (by rw [hst]; exact List.mem_cons_of_mem _ hw)
      dsimp only
      rw [← h.trace, ← h.depth]
      by_cases h1 : g.so.contains s.trace (c.vid v) = true
      · rw [if_pos h1, if_pos h1]
        refine .emit ⟨rfl, rfl, h.same⟩ ⟨by simp, rfl, h.leave, rfl, h.cyc, ?_, h.same, hrest, ?_⟩
        · intro k
          show g.so.contains (g.so.discard _ _) k = g'.so.contains (g'.so.discard _ _) k
          rw [hg.contains_discard _ _ h1, hg'.contains_discard _ _ (by rw [← h.trace]; exact h1), h.trace]
        · intro u es hu; simp at hu
      · rw [if_neg h1, if_neg h1]
        have htr : ∀ k, g.so.contains (g.so.add s.trace (c.vid v)) k = g'.so.contains (g'.so.add s'.trace (c.vid v)) k := by
          intro k; simp only [hg.contains_add, hg'.contains_add, h.trace]
        have hed : ∀ u es, (TopoPc.edges v (c.next v) : TopoPc V L) = .edges u es →
            Reachable (Edge c.next) (· ∈ starts) u ∧ ∀ e ∈ es, e ∈ c.next u := by
          intro u es hu
          simp only [TopoPc.edges.injEq] at hu
          obtain ⟨rfl, rfl⟩ := hu
          exact ⟨hv, fun _ hx => hx⟩
        by_cases h2 : 0 < s.depth
        · rw [if_pos h2, if_pos h2]
          rw [hg.checkAdd_fst, hg'.checkAdd_fst, h.same.1]
          split
          · refine .tau ⟨by simp, rfl, h.leave, rfl, h.cyc, h.trace, h.same, hrest, ?_⟩
            intro u es hu; simp at hu
          · refine .expand ⟨rfl, rfl, h.leave, rfl, h.cyc, htr, ⟨fun k => ?_, h.same.2⟩, by rw [← hst]; exact h.reach, hed⟩
            simp only [hg.contains_checkAdd, hg'.contains_checkAdd, h.same.1]
        · rw [if_neg h2, if_neg h2]
          exact .expand ⟨rfl, rfl, h.leave, rfl, h.cyc, htr, h.same, by rw [← hst]; exact h.reach, hed⟩
  | edges v es =>
    cases es with
    | nil =>
      right; right
      exact .tau ⟨rfl, h.stack, h.leave, by simp [h.depth], h.cyc, h.trace, h.same, h.reach, by simp⟩
    | cons e es =>
      dsimp only
      rw [← h.same.1]
      by_cases h1 : g.so.contains s.visited (c.vid e.1) = true
      · rw [if_pos h1, if_pos h1]
        cases hm : g.so.mustContain s.trace (c.vid e.1) with
        | none => exact .inl rfl
        | some b =>
          cases hm' : g'.so.mustContain s'.trace (c.vid e.1) with
          | none => exact .inr (.inl rfl)
          | some b' =>
            right; right
            have hb : b = b' := by
              rw [hg.mustContain_some _ _ _ hm, hg'.mustContain_some _ _ _ hm', h.trace]
            subst hb
            cases b with
            | true =>
              refine .tau ⟨rfl, h.stack, h.leave, h.depth, ?_, h.trace, h.same, h.reach, by simp⟩
              simp only [topoReportCycle, h.stack, h.trace]
            | false =>
              refine .tau ⟨rfl, h.stack, h.leave, h.depth, h.cyc, h.trace, h.same, h.reach, ?_⟩
              intro u es' hu
              simp only [TopoPc.edges.injEq] at hu
              obtain ⟨rfl, rfl⟩ := hu
              have := h.edges _ _ hpc
              exact ⟨this.1, fun x hx => this.2 x (List.mem_cons_of_mem _ hx)⟩
      · rw [if_neg h1, if_neg h1]
        right; right
        have := topoPush_same hp h hpc s.leave
        refine .tau ?_
        rw [show topoPush g c s v e es = { topoPush g c s v e es with leave := s.leave } from rfl,
          show topoPush g' c s' v e es = { topoPush g' c s' v e es with leave := s.leave } by rw [h.leave]; rfl]
        exact this

theorem topo_tree_gear_step {validV validV' : V → Prop}
    {validL validL' : L → Prop}
    (hp : c.buildPaths = true → Storable g c starts validV validL ∧ Storable g' c starts validV' validL')
    (s : TopoState V L S M ML) (s' : TopoState V L S' M' ML') (h : TopoSame g g' c starts s s') :
    StepRel (TopoSame g g' c starts) (TopoSame g g' c starts) (TopoSameRep g g' c) (topoTreeStep g c s)
      (topoTreeStep g' c s') := by
  unfold topoTreeStep
  rw [← h.pc]
  cases hpc : s.pc with
  | cycle => exact .fail
  | loop =>
    rw [← h.stack, ← h.leave]
    cases hst : s.stack with
    | nil => exact .stop h
    | cons v rest =>
      have hv := h.reach v (by rw [hst]; exact List.mem_cons_self)
      cases hl : s.leave with
      | nil => exact .fail
      | cons b ls =>
        cases b with
        | true =>
          dsimp only
          rw [← h.depth]
          refine .emit ⟨rfl, rfl, h.same⟩ ⟨by simp, rfl, rfl, rfl, h.cyc, h.trace, h.same,
            fun w hw => h.reach w (by rw [hst]; exact List.mem_cons_of_mem _ hw), ?_⟩
          intro u es hu; simp at hu
        | false =>
          refine .expand ⟨rfl, rfl, rfl, h.depth, h.cyc, h.trace, h.same, by rw [← hst]; exact h.reach, ?_⟩
          intro u es hu
          simp only [TopoPc.edges.injEq] at hu
          obtain ⟨rfl, rfl⟩ := hu
          exact ⟨hv, fun _ hx => hx⟩
  | edges v es =>
    cases es with
    | nil => exact .tau ⟨rfl, h.stack, h.leave, by simp [h.depth], h.cyc, h.trace, h.same, h.reach, by simp⟩
    | cons e es =>
      dsimp only
      rw [← h.leave]
      exact .tau (topoPush_same hp h hpc _)

theorem topo_gear_sim (hg : g.so.Lawful) (hg' : g'.so.Lawful) {validV validV' : V → Prop}
    {validL validL' : L → Prop}
    (hp : c.buildPaths = true → Storable g c starts validV validL ∧ Storable g' c starts validV' validL')
    (already : S) (already' : S') (ha : ∀ k, g.so.contains already k = g'.so.contains already' k)
    (limit : Option Int) (fuel : Nat) :
    let run := topoRun g c already starts limit fuel
    let run' := topoRun g' c already' starts limit fuel
    run.ending = .raised .assertionError ∨ run'.ending = .raised .assertionError ∨
    (List.Forall₂ (EvRel (TopoSameRep g g' c)) run.events run'.events ∧ run.ending = run'.ending ∧
      TopoSame g g' c starts run.final run'.final) := by
  intro run run'
  have hi := topo_same_init hg hg' hp already already' ha
  have key : ∀ (m : TopoState V L S M ML → _) (m' : TopoState V L S' M' ML' → _),
      (∀ s s', TopoSame g g' c starts s s' → m s = .fail .assertionError ∨ m' s' = .fail .assertionError ∨
        StepRel (TopoSame g g' c starts) (TopoSame g g' c starts) (TopoSameRep g g' c) (m s) (m' s')) →
      (runMachine m fuel (prepareLimit limit) (topoInit g c already starts)).ending = .raised .assertionError ∨
      (runMachine m' fuel (prepareLimit limit) (topoInit g' c already' starts)).ending = .raised .assertionError ∨
      (List.Forall₂ (EvRel (TopoSameRep g g' c)) (runMachine m fuel (prepareLimit limit) (topoInit g c already starts)).events
        (runMachine m' fuel (prepareLimit limit) (topoInit g' c already' starts)).events ∧
      (runMachine m fuel (prepareLimit limit) (topoInit g c already starts)).ending =
        (runMachine m' fuel (prepareLimit limit) (topoInit g' c already' starts)).ending ∧
      TopoSame g g' c starts (runMachine m fuel (prepareLimit limit) (topoInit g c already starts)).final
        (runMachine m' fuel (prepareLimit limit) (topoInit g' c already' starts)).final) := by
    intro m m' hsim
    refine (run_sim_either _ _ _ _ hsim fuel (prepareLimit limit) _ _ hi).imp_right (·.imp_right ?_)
    rintro ⟨h1, h2, h3, h4⟩
    refine ⟨h1, h2, ?_⟩
    by_cases hd : (runMachine m fuel (prepareLimit limit) (topoInit g c already starts)).ending = .done
    · exact h3 hd
    · exact h4 hd
  cases ht : c.isTree with
  | false =>
    have := key (topoStep g c) (topoStep g' c) (topo_gear_step hg hg' hp)
    simpa only [run, run', topoRun, ht, Bool.false_eq_true, if_false] using this
  | true =>
    have := key (topoTreeStep g c) (topoTreeStep g' c) (fun s s' h => .inr (.inr (topo_tree_gear_step hp s s' h)))
    simpa only [run, run', topoRun, ht, if_true] using this

end NoGraphs
