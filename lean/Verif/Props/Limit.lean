import Verif.Proofs.Machine

/-! # Property C05: the calculation limit is exact

The theorems hold for every step machine, i.e., for each strategy whose model is a step machine
(`Step.expand` marks the point where the strategy checks the limit, directly before it reads edges). -/

namespace NoGraphs

variable {σ ρ : Type}

/-- Specification: the events before the read of edges number `k` (counted from 0). -/
def beforeExp : Nat → List (Ev ρ) → List (Ev ρ)
  | _, [] => []
  | k, .rep r :: t => .rep r :: beforeExp k t
  | 0, .exp :: _ => []
  | k + 1, .exp :: t => .exp :: beforeExp k t

theorem beforeExp_exps (k : Nat) (l : List (Ev ρ)) (h : k < expsOf l) : expsOf (beforeExp k l) = k := by
  induction l generalizing k with
  | nil => simp at h
  | cons e t ih =>
    cases e with
    | rep r => simp at h; simp [beforeExp, ih k h]
    | exp =>
      cases k with
      | zero => simp [beforeExp]
      | succ k => simp at h; simp [beforeExp, ih k h]

theorem run_zero_limit (m : σ → Step σ ρ) (fuel : Nat) (c : Int) (hc : c ≤ 0) (s : σ) :
    runMachine m fuel (some c) s = runMachine m fuel none s := by
  induction fuel generalizing c s with
  | zero => rfl
  | succ fuel ih =>
    unfold runMachine
    cases m s with
    | stop _ => rfl
    | fail _ => rfl
    | tau s' => exact ih c hc s'
    | emit r s' => simp only [ih c hc s']
    | expand s' =>
      simp only [checkLimit]
      by_cases h0 : c = 0
      · simp [h0, ih 0 (Int.le_refl 0) s']
      · have h1 : ¬ c - 1 = 0 := by omega
        simp [h0, h1, ih (c - 1) (by omega) s']

/-- **C05.** Without a limit or with a negative one, the run is the unlimited run. -/
theorem C05_no_limit (m : σ → Step σ ρ) (fuel : Nat) (s : σ) (k : Int) (hk : k < 0) :
    runMachine m fuel (prepareLimit (some k)) s = runMachine m fuel (prepareLimit none) s :=
  run_zero_limit m fuel (k + 1) (by omega) s

/-- **C05.** With limit `k`: if the unlimited run reads the edges of at most `k` vertices, the runs
are equal; otherwise the limited run does the same up to the point where the edges of the
`(k+1)`-th vertex would be read, and there raises `RuntimeError`. -/
theorem C05_limit_exact (m : σ → Step σ ρ) (fuel : Nat) (s : σ) (k : Nat) :
    let unlimited := runMachine m fuel (prepareLimit none) s
    let limited := runMachine m fuel (prepareLimit (some k)) s
    (expsOf unlimited.events ≤ k → limited = unlimited) ∧
    (k < expsOf unlimited.events →
      limited.events = beforeExp k unlimited.events ∧ limited.ending = .raised .runtimeError) := by
  simp only [prepareLimit, Option.map_some, Option.map_none]
  induction fuel generalizing k s with
  | zero => exact ⟨fun _ => rfl, fun h => by simp [runMachine] at h⟩
  | succ fuel ih =>
    unfold runMachine
    cases m s with
    | stop _ => exact ⟨fun _ => rfl, fun h => by simp at h⟩
    | fail _ => exact ⟨fun _ => rfl, fun h => by simp at h⟩
    | tau s' => exact ih s' k
    | emit r s' =>
      obtain ⟨h1, h2⟩ := ih s' k
      simp only [expsOf_rep]
      exact ⟨fun h => by rw [h1 h], fun h => ⟨by simp [beforeExp, (h2 h).1], (h2 h).2⟩⟩
    | expand s' =>
      simp only [checkLimit, expsOf_exp]
      cases k with
      | zero => simp [beforeExp]
      | succ k =>
        have e1 : ((k + 1 : Nat) : Int) + 1 ≠ 0 := by omega
        have e2 : ¬ ((k + 1 : Nat) : Int) + 1 - 1 = 0 := by omega
        have e3 : ((k + 1 : Nat) : Int) + 1 - 1 = (k : Int) + 1 := by omega
        obtain ⟨h1, h2⟩ := ih s' k
        rw [if_pos e1, if_neg e2, e3]
        simp only
        exact ⟨fun h => by rw [h1 (by omega)],
          fun h => ⟨by simp [beforeExp, (h2 (by omega)).1], (h2 (by omega)).2⟩⟩

/-- **C05.** Never are the edges of more than `k` vertices read. -/
theorem C05_reads_at_most (m : σ → Step σ ρ) (fuel : Nat) (s : σ) (k : Nat) :
    expsOf (runMachine m fuel (prepareLimit (some k)) s).events ≤ k := by
  obtain ⟨h1, h2⟩ := C05_limit_exact m fuel s k
  by_cases h : expsOf (runMachine m fuel (prepareLimit none) s).events ≤ k
  · rw [h1 h]; exact h
  · rw [(h2 (by omega)).1, beforeExp_exps _ _ (by omega)]

end NoGraphs
