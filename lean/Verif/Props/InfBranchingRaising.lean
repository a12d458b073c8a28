import Verif.Model.InfBranchingRaising
import Verif.Props.InfBranchingReads

/-! # Infinite branching: exceptions of the application (C91) -/

set_option linter.unusedSectionVars false

namespace NoGraphs

open Spec

variable {V W M ML D Mo Do : Type} [DecidableEq V]
variable [AddCommMonoid W] [LinearOrder W] [IsOrderedAddMonoid W]
variable (g : WGear (V × Nat) (V × Nat) Unit W M ML D) (o : IbGear V W Mo Do) (c : IbCfg V W)
variable (callFails : V → Bool) (itemFails : V → Nat → Bool)

theorem ibAsks_cases (s : IbState V W M ML D Mo Do) :
    (∃ v, (ibAsks s : List (SeqAct V W)) = [.called v, .asked v 0]) ∨ (∃ v k, (ibAsks s : List (SeqAct V W)) = [.asked v k]) ∨
      (ibAsks s : List (SeqAct V W)) = [] := by
  unfold ibAsks
  split
  · split
    · exact .inl ⟨_, rfl⟩
    · split
      · exact .inr (.inl ⟨_, _, rfl⟩)
      · exact .inr (.inr rfl)
  · exact .inr (.inr rfl)

/-- **C91 for shortest paths with infinite branching.** The run is the run without exceptions up to the first call, or demand
to an iterator, that raises: this exception is what the consumer gets, nothing is reported or asked for afterwards, and the
reports given before are the first ones. If nothing that is asked for raises, the run is the same. -/
theorem C91_ib (isCollection : Bool) (starts : List V) (limit : Option Int) (fuel : Nat) :
    let run := ibRaisingRun g o c callFails itemFails isCollection starts limit fuel
    let acts := ibActs g o c isCollection starts limit fuel
    let whole := ibRun g o c isCollection starts limit fuel
    run.seen = untilFailure (askFails callFails itemFails) acts ∧
    run.exception? = acts.find? (askFails callFails itemFails) ∧
    run.reports <+: whole.reports ∧
    seqReports run.seen = run.reports.map (fun r => (r.vertex, r.distance)) ∧
    (run.exception? = none → run.reports = whole.reports ∧ run.ending? = some whole.ending) ∧
    (run.exception? ≠ none → run.ending? = none) := by
  unfold ibRaisingRun ibActs ibRun
  generalize ibInit g o c isCollection starts = s
  generalize prepareLimit limit = lim
  induction fuel generalizing lim s with
  | zero => simp [ibRaisingFrom, ibActsFrom, runMachine, untilFailure, seqReports, RunResult.reports]
  | succ fuel ih =>
    unfold ibRaisingFrom ibActsFrom runMachine
    rcases hm : ibStep g o c s with s' | e | s' | ⟨r, s'⟩ | s' <;> simp only
    · simp [untilFailure, seqReports, RunResult.reports]
    · simp [untilFailure, seqReports, RunResult.reports]
    · exact ih s' lim
    · obtain ⟨h1, h2, h3, h4, h5, h6⟩ := ih s' lim
      refine ⟨by simp [untilFailure, askFails, h1], by simp [askFails, h2], ?_, ?_, fun hn => ?_, h6⟩
      · simp only [RunResult.reports, repsOf_rep] at h3 ⊢
        exact List.cons_prefix_cons.2 ⟨rfl, h3⟩
      · simp only [seqReports, List.filterMap_cons, List.map_cons] at h4 ⊢
        rw [h4]
      · obtain ⟨h7, h8⟩ := h5 hn
        refine ⟨?_, h8⟩
        simp only [RunResult.reports, repsOf_rep] at h7 ⊢
        rw [h7]
    · cases hl : checkLimit lim with
      | none => simp [untilFailure, seqReports, RunResult.reports]
      | some lim' =>
        simp only
        obtain ⟨h1, h2, h3, h4, h5, h6⟩ := ih s' lim'
        rcases ibAsks_cases s with ⟨v, ha⟩ | ⟨v, k, ha⟩ | ha
        · rw [ha]
          simp only
          by_cases hc : callFails v = true
          · simp [hc, untilFailure, askFails, seqReports]
          · by_cases hi : itemFails v 0 = true
            · simp [hc, hi, untilFailure, askFails, seqReports]
            · simp only [hc, hi, Bool.false_eq_true, if_false]
              refine ⟨by simp [untilFailure, askFails, hc, hi, h1], by simp [askFails, hc, hi, h2], ?_, ?_, fun hn => ?_, h6⟩
              · simpa only [RunResult.reports, repsOf_exp] using h3
              · simpa [seqReports] using h4
              · simpa only [RunResult.reports, repsOf_exp] using h5 hn
        · rw [ha]
          simp only
          by_cases hi : itemFails v k = true
          · simp [hi, untilFailure, askFails, seqReports]
          · simp only [hi, Bool.false_eq_true, if_false]
            refine ⟨by simp [untilFailure, askFails, hi, h1], by simp [askFails, hi, h2], ?_, ?_, fun hn => ?_, h6⟩
            · simpa only [RunResult.reports, repsOf_exp] using h3
            · simpa [seqReports] using h4
            · simpa only [RunResult.reports, repsOf_exp] using h5 hn
        · rw [ha]
          refine ⟨h1, h2, ?_, h4, fun hn => ?_, h6⟩
          · simpa only [RunResult.reports, repsOf_exp] using h3
          · simpa only [RunResult.reports, repsOf_exp] using h5 hn

/-- **C91 for infinite branching, later items.** An item that raises does not matter to a consumer who stops before it is
demanded: if the exception of item `k` of `v` is raised, then all reports have been given whose distance is smaller than that
of the item before it. -/
theorem C91_ib_late {isCollection : Bool} {starts : List V} (ok : IbOk g o c isCollection starts) (limit : Option Int)
    (fuel : Nat) (v : V) (k : Nat)
    (he : (ibRaisingRun g o c callFails itemFails isCollection starts limit fuel).exception? = some (.asked v k)) :
    ∃ a, SeqDist c.edges (· ∈ starts) v a ∧
      ∀ r ∈ (ibRun g o c isCollection starts limit fuel).reports, r.distance < a + weightBefore c.edges v k →
        (r.vertex, r.distance) ∈ (ibRaisingRun g o c callFails itemFails isCollection starts limit fuel).reports.map
          (fun r => (r.vertex, r.distance)) := by
  obtain ⟨h1, h2, -, h4, -, -⟩ := C91_ib g o c callFails itemFails isCollection starts limit fuel
  rw [h2] at he
  obtain ⟨hf, before, after, hb, hnf⟩ := List.find?_eq_some_iff_append.1 he
  obtain ⟨a, ha, -, hafter⟩ := C106_ib_just_in_time g o c ok limit fuel before v k after hb
  refine ⟨a, ha, fun r hr hlt => ?_⟩
  have hm : (r.vertex, r.distance) ∈ seqReports (ibActs g o c isCollection starts limit fuel) := by
    rw [C106_ib_actions]
    exact List.mem_map.2 ⟨r, hr, rfl⟩
  obtain ⟨x, hx, hxe⟩ := List.mem_filterMap.1 hm
  cases x with
  | reported u d =>
    simp only [Option.some.injEq, Prod.mk.injEq] at hxe
    obtain ⟨rfl, rfl⟩ := hxe
    rw [hb] at hx
    have hbefore : SeqAct.reported r.vertex r.distance ∈ before := by
      rcases List.mem_append.1 hx with hx | hx
      · exact hx
      · rcases List.mem_cons.1 hx with hx | hx
        · cases hx
        · exact absurd (hafter _ _ hx) (not_le.2 hlt)
    rw [← h4, h1, hb]
    have key : ∀ (l : List (SeqAct V W)) (r : List (SeqAct V W)),
        (∀ x ∈ l, (!(askFails callFails itemFails x)) = true) → ∀ x ∈ l, x ∈ untilFailure (askFails callFails itemFails) (l ++ r) := by
      intro l r hl x hx
      induction l with
      | nil => simp at hx
      | cons y l ih =>
        have hy : askFails callFails itemFails y = false := by simpa using hl y List.mem_cons_self
        simp only [List.cons_append, untilFailure, hy]
        rcases List.mem_cons.1 hx with rfl | hx
        · exact List.mem_cons_self
        · exact List.mem_cons_of_mem _ (ih (fun z hz => hl z (List.mem_cons_of_mem _ hz)) hx)
    exact List.mem_filterMap.2 ⟨_, key _ _ (fun x hx => hnf x hx) _ hbefore, rfl⟩
  | called u => simp at hxe
  | asked u j => simp at hxe

/-- Concrete case: the iterator of vertex 0 raises when it is asked for its second item. -/
example : (ibRaisingRun exIbGear exIbOut (exIbCfg true true) (fun _ => false) (fun v k => v == 0 && k == 1) true [0, 7] none
      80).exception? = some (.asked 0 1) ∧
    (ibRaisingRun exIbGear exIbOut (exIbCfg true true) (fun _ => false) (fun v k => v == 0 && k == 1) true [0, 7] none
      80).reports.map (fun r => (r.vertex, r.distance)) = [(8, 0), (10, 1)] := by decide +kernel

example := C91_ib_late exIbGear exIbOut (exIbCfg true true) (fun _ => false) (fun v k => v == 0 && k == 1)
  (exIb_ok true true) none 80 0 1 (by decide +kernel)

end NoGraphs
