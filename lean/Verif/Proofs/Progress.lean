import Verif.Proofs.Machine

/-! # Progress: what a machine reaches, long enough runs show; runs of machines that agree for a while -/

set_option linter.unusedSectionVars false

namespace NoGraphs

variable {σ ρ : Type}

/-- What a machine reaches is in the events of each long enough run without limit. -/
theorem Reaches.run {m : σ → Step σ ρ} {s0 s : σ} {h : List (Ev ρ)} (hr : Reaches m s0 h s) :
    ∃ k, ∀ fuel, (runMachine m (k + fuel) none s0).events = h ++ (runMachine m fuel none s).events := by
  induction hr with
  | refl => exact ⟨0, fun fuel => by simp⟩
  | @tau h s s' _ e ih =>
    obtain ⟨k, hk⟩ := ih
    refine ⟨k + 1, fun fuel => ?_⟩
    rw [show k + 1 + fuel = k + (fuel + 1) by omega, hk]
    simp only [runMachine, e]
  | @emit h s r s' _ e ih =>
    obtain ⟨k, hk⟩ := ih
    refine ⟨k + 1, fun fuel => ?_⟩
    rw [show k + 1 + fuel = k + (fuel + 1) by omega, hk]
    simp only [runMachine, e, List.append_assoc, List.singleton_append]
  | @expand h s s' _ e ih =>
    obtain ⟨k, hk⟩ := ih
    refine ⟨k + 1, fun fuel => ?_⟩
    rw [show k + 1 + fuel = k + (fuel + 1) by omega, hk]
    simp only [runMachine, e, checkLimit, List.append_assoc, List.singleton_append]

/-- A report that is made in a reachable state is made in each long enough run. -/
theorem Reaches.reported {m : σ → Step σ ρ} {s0 s : σ} {h : List (Ev ρ)} (hr : Reaches m s0 h s) :
    ∃ N, ∀ fuel, N ≤ fuel → ∃ h', (runMachine m fuel none s0).events = h ++ h' := by
  obtain ⟨k, hk⟩ := hr.run
  refine ⟨k, fun fuel hf => ?_⟩
  obtain ⟨f, rfl⟩ := Nat.exists_eq_add_of_le hf
  exact ⟨_, hk f⟩

/-- Two machines that agree as long as the events have the property `Q`. -/
theorem Reaches.transfer {m m' : σ → Step σ ρ} {s0 s : σ} {h : List (Ev ρ)} (Q : List (Ev ρ) → Prop)
    (hQ : ∀ a b, Q (a ++ b) → Q a) (hstep : ∀ h s, Reaches m s0 h s → Q h → m s = m' s)
    (hr : Reaches m s0 h s) (hq : Q h) : Reaches m' s0 h s := by
  induction hr with
  | refl => exact .refl
  | @tau h s s' hr e ih => exact .tau (ih hq) ((hstep h s hr hq).symm.trans e)
  | @emit h s r s' hr e ih => exact .emit (ih (hQ _ _ hq)) ((hstep h s hr (hQ _ _ hq)).symm.trans e)
  | @expand h s s' hr e ih => exact .expand (ih (hQ _ _ hq)) ((hstep h s hr (hQ _ _ hq)).symm.trans e)

end NoGraphs
