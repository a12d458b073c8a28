import Mathlib.Data.List.Forall2
import Mathlib.Data.Prod.Lex
import Verif.Model.Machine

/-! Reachability, invariants, simulation and limits for step machines. -/

namespace NoGraphs

variable {σ ρ σ' ρ' : Type}

@[simp] theorem repsOf_nil : repsOf ([] : List (Ev ρ)) = [] := rfl
@[simp] theorem repsOf_append (a b : List (Ev ρ)) : repsOf (a ++ b) = repsOf a ++ repsOf b := by
  simp [repsOf]
@[simp] theorem repsOf_rep (r : ρ) (h : List (Ev ρ)) : repsOf (.rep r :: h) = r :: repsOf h := by
  simp [repsOf]
@[simp] theorem repsOf_exp (h : List (Ev ρ)) : repsOf (.exp :: h) = repsOf h := by
  simp [repsOf]
@[simp] theorem expsOf_nil : expsOf ([] : List (Ev ρ)) = 0 := rfl
@[simp] theorem expsOf_append (a b : List (Ev ρ)) : expsOf (a ++ b) = expsOf a + expsOf b := by
  simp [expsOf]
@[simp] theorem expsOf_rep (r : ρ) (h : List (Ev ρ)) : expsOf (.rep r :: h) = expsOf h := by
  simp [expsOf]
@[simp] theorem expsOf_exp (h : List (Ev ρ)) : expsOf (.exp :: h) = expsOf h + 1 := by
  simp [expsOf]

/-- The states a machine reaches from `s0`, with the events on the way (without limit). -/
inductive Reaches (m : σ → Step σ ρ) (s0 : σ) : List (Ev ρ) → σ → Prop
  | refl : Reaches m s0 [] s0
  | tau {h s s'} : Reaches m s0 h s → m s = .tau s' → Reaches m s0 h s'
  | emit {h s r s'} : Reaches m s0 h s → m s = .emit r s' → Reaches m s0 (h ++ [.rep r]) s'
  | expand {h s s'} : Reaches m s0 h s → m s = .expand s' → Reaches m s0 (h ++ [.exp]) s'

theorem Reaches.trans {m : σ → Step σ ρ} {s0 s1 s2 : σ} {h1 h2 : List (Ev ρ)}
    (a : Reaches m s0 h1 s1) (b : Reaches m s1 h2 s2) : Reaches m s0 (h1 ++ h2) s2 := by
  induction b with
  | refl => simpa using a
  | tau _ e ih => exact .tau ih e
  | emit _ e ih => rw [← List.append_assoc]; exact .emit ih e
  | expand _ e ih => rw [← List.append_assoc]; exact .expand ih e

/-- Every run follows the reachability relation; how it ended tells what the last state does. -/
theorem run_reaches (m : σ → Step σ ρ) (fuel : Nat) (lim : Option Int) (s0 : σ) :
    ∃ s, Reaches m s0 (runMachine m fuel lim s0).events s ∧
      (match (runMachine m fuel lim s0).ending with
        | .done => m s = .stop (runMachine m fuel lim s0).final
        | .raised e => m s = .fail e ∨ (e = .runtimeError ∧ lim ≠ none ∧ ∃ s', m s = .expand s')
        | .outOfFuel => True) := by
  induction fuel generalizing lim s0 with
  | zero => exact ⟨s0, .refl, trivial⟩
  | succ fuel ih =>
    unfold runMachine
    split
    · rename_i s' hs; exact ⟨s0, .refl, hs⟩
    · rename_i e hs; exact ⟨s0, .refl, .inl hs⟩
    · rename_i s' hs
      obtain ⟨s, hr, he⟩ := ih lim s'
      refine ⟨s, ?_, he⟩
      exact Reaches.trans (h1 := []) (.tau .refl hs) hr
    · rename_i r s' hs
      obtain ⟨s, hr, he⟩ := ih lim s'
      refine ⟨s, ?_, he⟩
      exact Reaches.trans (h1 := [.rep r]) (.emit .refl hs) hr
    · rename_i s' hs
      split
      · rename_i hl
        refine ⟨s0, .refl, .inr ⟨rfl, ?_, s', hs⟩⟩
        intro hn; subst hn; simp [checkLimit] at hl
      · rename_i lim' hl
        obtain ⟨s, hr, he⟩ := ih lim' s'
        refine ⟨s, ?_, ?_⟩
        · exact Reaches.trans (h1 := [.exp]) (.expand .refl hs) hr
        · revert he
          simp only
          cases (runMachine m fuel lim' s').ending with
          | done => exact id
          | outOfFuel => exact id
          | raised e =>
            rintro (h | ⟨h1, h2, h3⟩)
            · exact .inl h
            · refine .inr ⟨h1, ?_, h3⟩
              intro hn; subst hn; simp [checkLimit] at hl; exact h2 hl.symm

/-- When an unlimited run raises, its final state is the reached state that raises. -/
theorem run_raised (m : σ → Step σ ρ) (fuel : Nat) (s0 : σ) {e : PyErr}
    (he : (runMachine m fuel none s0).ending = .raised e) :
    Reaches m s0 (runMachine m fuel none s0).events (runMachine m fuel none s0).final ∧
      m (runMachine m fuel none s0).final = .fail e := by
  induction fuel generalizing s0 with
  | zero => simp [runMachine] at he
  | succ fuel ih =>
    unfold runMachine at he ⊢
    cases hs : m s0 with
    | stop s' => rw [hs] at he; simp at he
    | fail e' =>
      rw [hs] at he
      simp only [Ending.raised.injEq] at he
      subst he
      exact ⟨.refl, hs⟩
    | tau s' =>
      rw [hs] at he
      obtain ⟨h1, h2⟩ := ih s' he
      exact ⟨Reaches.trans (h1 := []) (.tau .refl hs) h1, h2⟩
    | emit r s' =>
      rw [hs] at he
      obtain ⟨h1, h2⟩ := ih s' he
      exact ⟨Reaches.trans (h1 := [.rep r]) (.emit .refl hs) h1, h2⟩
    | expand s' =>
      rw [hs] at he
      simp only [checkLimit] at he ⊢
      obtain ⟨h1, h2⟩ := ih s' he
      exact ⟨Reaches.trans (h1 := [.exp]) (.expand .refl hs) h1, h2⟩

/-- Invariants over the history of events and the current state. -/
theorem Reaches.invariant {m : σ → Step σ ρ} {s0 : σ} (Inv : List (Ev ρ) → σ → Prop)
    (h0 : Inv [] s0)
    (htau : ∀ h s s', Inv h s → m s = .tau s' → Inv h s')
    (hemit : ∀ h s r s', Inv h s → m s = .emit r s' → Inv (h ++ [.rep r]) s')
    (hexp : ∀ h s s', Inv h s → m s = .expand s' → Inv (h ++ [.exp]) s')
    {h : List (Ev ρ)} {s : σ} (hr : Reaches m s0 h s) : Inv h s := by
  induction hr with
  | refl => exact h0
  | tau _ e ih => exact htau _ _ _ ih e
  | emit _ e ih => exact hemit _ _ _ _ ih e
  | expand _ e ih => exact hexp _ _ _ ih e

/-- A prefix of the events of a reachable state belongs to a reachable state. -/
theorem Reaches.prefix {m : σ → Step σ ρ} {s0 s : σ} {h : List (Ev ρ)} (hr : Reaches m s0 h s)
    {a b : List (Ev ρ)} (hab : h = a ++ b) : ∃ t, Reaches m s0 a t ∧ Reaches m t b s := by
  induction hr generalizing a b with
  | refl =>
    have : a = [] ∧ b = [] := by simpa using hab.symm
    obtain ⟨rfl, rfl⟩ := this
    exact ⟨_, .refl, .refl⟩
  | tau _ e ih =>
    obtain ⟨t, h1, h2⟩ := ih hab
    exact ⟨t, h1, .tau h2 e⟩
  | @emit h s r s' h1 e ih =>
    rcases List.eq_nil_or_concat b with rfl | ⟨b', x, rfl⟩
    · simp only [List.append_nil] at hab
      subst hab
      exact ⟨_, .emit h1 e, .refl⟩
    · rw [List.concat_eq_append, ← List.append_assoc] at hab
      have := List.append_inj' hab rfl
      obtain ⟨t, ha, hb⟩ := ih this.1
      refine ⟨t, ha, ?_⟩
      rw [List.concat_eq_append, ← this.2]
      exact .emit hb e
  | @expand h s s' h1 e ih =>
    rcases List.eq_nil_or_concat b with rfl | ⟨b', x, rfl⟩
    · simp only [List.append_nil] at hab
      subst hab
      exact ⟨_, .expand h1 e, .refl⟩
    · rw [List.concat_eq_append, ← List.append_assoc] at hab
      have := List.append_inj' hab rfl
      obtain ⟨t, ha, hb⟩ := ih this.1
      refine ⟨t, ha, ?_⟩
      rw [List.concat_eq_append, ← this.2]
      exact .expand hb e

/-- Successor state of a step, if there is one. -/
def Step.next? : Step σ ρ → Option σ
  | .tau s => some s
  | .emit _ s => some s
  | .expand s => some s
  | _ => none

/-- If, under an invariant, each step decreases a well-founded measure, runs without limit end. -/
theorem run_terminates (m : σ → Step σ ρ) {α : Type} (lt : α → α → Prop) (wf : WellFounded lt)
    (μ : σ → α) (Inv : σ → Prop)
    (hinv : ∀ s s', Inv s → (m s).next? = some s' → Inv s' ∧ lt (μ s') (μ s))
    (s0 : σ) (h0 : Inv s0) : ∃ N, ∀ fuel, N ≤ fuel → ∀ lim,
      (runMachine m fuel lim s0).ending ≠ .outOfFuel := by
  have key : ∀ a : α, ∀ s, μ s = a → Inv s → ∃ N, ∀ fuel, N ≤ fuel → ∀ lim,
      (runMachine m fuel lim s).ending ≠ .outOfFuel := by
    intro a
    induction a using wf.induction with
    | h a ih =>
      intro s hs hi
      cases hm : m s with
      | stop s' =>
        refine ⟨1, fun fuel hf lim => ?_⟩
        obtain ⟨f, rfl⟩ : ∃ f, fuel = f + 1 := ⟨fuel - 1, by omega⟩
        simp [runMachine, hm]
      | fail e =>
        refine ⟨1, fun fuel hf lim => ?_⟩
        obtain ⟨f, rfl⟩ : ∃ f, fuel = f + 1 := ⟨fuel - 1, by omega⟩
        simp [runMachine, hm]
      | tau s' =>
        obtain ⟨hi', hlt⟩ := hinv s s' hi (by rw [hm]; rfl)
        obtain ⟨N, hN⟩ := ih (μ s') (hs ▸ hlt) s' rfl hi'
        refine ⟨N + 1, fun fuel hf lim => ?_⟩
        obtain ⟨f, rfl⟩ : ∃ f, fuel = f + 1 := ⟨fuel - 1, by omega⟩
        simp only [runMachine, hm]
        exact hN f (by omega) lim
      | emit r s' =>
        obtain ⟨hi', hlt⟩ := hinv s s' hi (by rw [hm]; rfl)
        obtain ⟨N, hN⟩ := ih (μ s') (hs ▸ hlt) s' rfl hi'
        refine ⟨N + 1, fun fuel hf lim => ?_⟩
        obtain ⟨f, rfl⟩ : ∃ f, fuel = f + 1 := ⟨fuel - 1, by omega⟩
        simp only [runMachine, hm]
        exact hN f (by omega) lim
      | expand s' =>
        obtain ⟨hi', hlt⟩ := hinv s s' hi (by rw [hm]; rfl)
        obtain ⟨N, hN⟩ := ih (μ s') (hs ▸ hlt) s' rfl hi'
        refine ⟨N + 1, fun fuel hf lim => ?_⟩
        obtain ⟨f, rfl⟩ : ∃ f, fuel = f + 1 := ⟨fuel - 1, by omega⟩
        simp only [runMachine, hm]
        split
        · simp
        · exact hN f (by omega) _
  exact key (μ s0) s0 rfl h0

/-- Matching of two steps under a relation `R` of states, `F` of final states, and `Q` of reports. -/
inductive StepRel (R F : σ → σ' → Prop) (Q : ρ → ρ' → Prop) : Step σ ρ → Step σ' ρ' → Prop
  | stop {a b} : F a b → StepRel R F Q (.stop a) (.stop b)
  | fail {e} : StepRel R F Q (.fail e) (.fail e)
  | tau {a b} : R a b → StepRel R F Q (.tau a) (.tau b)
  | emit {r r' a b} : Q r r' → R a b → StepRel R F Q (.emit r a) (.emit r' b)
  | expand {a b} : R a b → StepRel R F Q (.expand a) (.expand b)

/-- Matching of events. -/
def EvRel (Q : ρ → ρ' → Prop) : Ev ρ → Ev ρ' → Prop
  | .rep r, .rep r' => Q r r'
  | .exp, .exp => True
  | _, _ => False

/-- Lockstep simulation: related states run in the same way. -/
theorem run_sim {m : σ → Step σ ρ} {m' : σ' → Step σ' ρ'} (R F : σ → σ' → Prop) (Q : ρ → ρ' → Prop)
    (hsim : ∀ s s', R s s' → StepRel R F Q (m s) (m' s')) (fuel : Nat) (lim : Option Int) (s : σ) (s' : σ')
    (h : R s s') :
    List.Forall₂ (EvRel Q) (runMachine m fuel lim s).events (runMachine m' fuel lim s').events ∧
    (runMachine m fuel lim s).ending = (runMachine m' fuel lim s').ending ∧
    ((runMachine m fuel lim s).ending = .done →
      F (runMachine m fuel lim s).final (runMachine m' fuel lim s').final) := by
  induction fuel generalizing lim s s' with
  | zero => exact ⟨.nil, rfl, fun h => by simp [runMachine] at h⟩
  | succ fuel ih =>
    have hs := hsim s s' h
    unfold runMachine
    generalize m s = x at hs
    generalize m' s' = y at hs
    cases hs with
    | stop hr => exact ⟨.nil, rfl, fun _ => hr⟩
    | fail => exact ⟨.nil, rfl, fun h => by simp at h⟩
    | tau hr => exact ih lim _ _ hr
    | emit hq hr =>
      obtain ⟨h1, h2, h3⟩ := ih lim _ _ hr
      exact ⟨.cons hq h1, h2, h3⟩
    | expand hr =>
      simp only
      cases hl : checkLimit lim with
      | none => exact ⟨.nil, rfl, fun h => by simp at h⟩
      | some l =>
        obtain ⟨h1, h2, h3⟩ := ih l _ _ hr
        exact ⟨.cons trivial h1, h2, h3⟩

/-- Related events have related reports. -/
theorem repsOf_forall₂ {Q : ρ → ρ' → Prop} {l : List (Ev ρ)} {l' : List (Ev ρ')}
    (h : List.Forall₂ (EvRel Q) l l') : List.Forall₂ Q (repsOf l) (repsOf l') := by
  induction h with
  | nil => exact .nil
  | @cons a b l l' hab _ ih =>
    cases a <;> cases b <;> simp [EvRel] at hab ⊢
    · exact ⟨hab, ih⟩
    · exact ih

/-- Related lists have equal images. -/
theorem forall₂_map_eq {α β γ : Type} {Q : α → β → Prop} {f : α → γ} {f' : β → γ} {l : List α} {l' : List β}
    (h : List.Forall₂ Q l l') (hq : ∀ a b, Q a b → f a = f' b) : l.map f = l'.map f' := by
  induction h with
  | nil => rfl
  | cons hab _ ih => simp [hq _ _ hab, ih]

end NoGraphs

namespace NoGraphs

variable {σ ρ : Type}

/-- Invariants, with reachability of the states available in each step. -/
theorem Reaches.invariant' {m : σ → Step σ ρ} {s0 : σ} (Inv : List (Ev ρ) → σ → Prop)
    (h0 : Inv [] s0)
    (htau : ∀ h s s', Reaches m s0 h s → Inv h s → m s = .tau s' → Inv h s')
    (hemit : ∀ h s r s', Reaches m s0 h s → Inv h s → m s = .emit r s' → Inv (h ++ [.rep r]) s')
    (hexp : ∀ h s s', Reaches m s0 h s → Inv h s → m s = .expand s' → Inv (h ++ [.exp]) s')
    {h : List (Ev ρ)} {s : σ} (hr : Reaches m s0 h s) : Inv h s := by
  induction hr with
  | refl => exact h0
  | tau hr e ih => exact htau _ _ _ hr ih e
  | emit hr e ih => exact hemit _ _ _ _ hr ih e
  | expand hr e ih => exact hexp _ _ _ hr ih e

/-- Termination with reachability from the initial state as invariant. -/
theorem run_terminates_reach (m : σ → Step σ ρ) {α : Type} (lt : α → α → Prop) (wf : WellFounded lt)
    (μ : σ → α) (s0 : σ)
    (hdec : ∀ h s s', Reaches m s0 h s → (m s).next? = some s' → lt (μ s') (μ s)) :
    ∃ N, ∀ fuel, N ≤ fuel → ∀ lim, (runMachine m fuel lim s0).ending ≠ .outOfFuel := by
  refine run_terminates m lt wf μ (fun s => ∃ h, Reaches m s0 h s) ?_ s0 ⟨[], .refl⟩
  rintro s s' ⟨h, hr⟩ hs
  refine ⟨?_, hdec h s s' hr hs⟩
  cases hm : m s with
  | stop _ => rw [hm] at hs; simp [Step.next?] at hs
  | fail _ => rw [hm] at hs; simp [Step.next?] at hs
  | tau t => rw [hm] at hs; simp [Step.next?] at hs; subst hs; exact ⟨_, .tau hr hm⟩
  | emit r t => rw [hm] at hs; simp [Step.next?] at hs; subst hs; exact ⟨_, .emit hr hm⟩
  | expand t => rw [hm] at hs; simp [Step.next?] at hs; subst hs; exact ⟨_, .expand hr hm⟩

/-- A machine whose reachable states never fail ends with `done` or `outOfFuel` if there is no limit. -/
theorem run_not_raised (m : σ → Step σ ρ) (s0 : σ)
    (hnf : ∀ h s e, Reaches m s0 h s → m s ≠ .fail e) (fuel : Nat) :
    (runMachine m fuel (prepareLimit none) s0).ending = .done ∨
    (runMachine m fuel (prepareLimit none) s0).ending = .outOfFuel := by
  obtain ⟨s, hr, he⟩ := run_reaches m fuel (prepareLimit none) s0
  revert he
  cases (runMachine m fuel (prepareLimit none) s0).ending with
  | done => exact fun _ => .inl rfl
  | outOfFuel => exact fun _ => .inr rfl
  | raised e =>
    intro he
    rcases he with h | h
    · exact absurd h (hnf _ _ _ hr)
    · exact absurd rfl h.2.1

/-- Number of elements of `ids` not in a growing set decreases. -/
theorem filter_not_lt {K : Type} (ids : List K) (P P' : K → Bool) (hm : ∀ j, P j = true → P' j = true)
    {k : K} (hk : k ∈ ids) (h0 : P k = false) (h1 : P' k = true) :
    (ids.filter (fun j => !P' j)).length < (ids.filter (fun j => !P j)).length := by
  have hle : ∀ l : List K, (l.filter (fun j => !P' j)).length ≤ (l.filter (fun j => !P j)).length := by
    intro l
    induction l with
    | nil => simp
    | cons a l ih =>
      by_cases h' : P' a = true
      · have e1 : (a :: l).filter (fun j => !P' j) = l.filter (fun j => !P' j) := by simp [h']
        rw [e1]
        by_cases h : P a = true
        · have e2 : (a :: l).filter (fun j => !P j) = l.filter (fun j => !P j) := by simp [h]
          rw [e2]; exact ih
        · have e2 : (a :: l).filter (fun j => !P j) = a :: l.filter (fun j => !P j) := by simp [h]
          rw [e2, List.length_cons]; omega
      · have h : ¬ P a = true := fun h => h' (hm a h)
        have e1 : (a :: l).filter (fun j => !P' j) = a :: l.filter (fun j => !P' j) := by simp [h']
        have e2 : (a :: l).filter (fun j => !P j) = a :: l.filter (fun j => !P j) := by simp [h]
        rw [e1, e2, List.length_cons, List.length_cons]; omega
  induction ids with
  | nil => simp at hk
  | cons a l ih =>
    by_cases e : a = k
    · subst e
      have e1 : (a :: l).filter (fun j => !P' j) = l.filter (fun j => !P' j) := by simp [h1]
      have e2 : (a :: l).filter (fun j => !P j) = a :: l.filter (fun j => !P j) := by simp [h0]
      rw [e1, e2, List.length_cons]; have := hle l; omega
    · have hk' : k ∈ l := by
        rcases List.mem_cons.1 hk with h | h
        · exact absurd h.symm e
        · exact h
      have := ih hk'
      by_cases h' : P' a = true
      · have e1 : (a :: l).filter (fun j => !P' j) = l.filter (fun j => !P' j) := by simp [h']
        rw [e1]
        by_cases h : P a = true
        · have e2 : (a :: l).filter (fun j => !P j) = l.filter (fun j => !P j) := by simp [h]
          rw [e2]; exact this
        · have e2 : (a :: l).filter (fun j => !P j) = a :: l.filter (fun j => !P j) := by simp [h]
          rw [e2, List.length_cons]; omega
      · have h : ¬ P a = true := fun h => h' (hm a h)
        have e1 : (a :: l).filter (fun j => !P' j) = a :: l.filter (fun j => !P' j) := by simp [h']
        have e2 : (a :: l).filter (fun j => !P j) = a :: l.filter (fun j => !P j) := by simp [h]
        rw [e1, e2, List.length_cons, List.length_cons]; omega

/-- Lexicographic order on quadruples of numbers. -/
def lex4 : (Nat × Nat × Nat × Nat) → (Nat × Nat × Nat × Nat) → Prop :=
  Prod.Lex (· < ·) (Prod.Lex (· < ·) (Prod.Lex (· < ·) (· < ·)))

theorem lex4_wf : WellFounded lex4 :=
  (Prod.lex ⟨_, Nat.lt_wfRel.wf⟩ (Prod.lex ⟨_, Nat.lt_wfRel.wf⟩ (Prod.lex ⟨_, Nat.lt_wfRel.wf⟩
    ⟨_, Nat.lt_wfRel.wf⟩))).wf

theorem lex4_iff (a b c d a' b' c' d' : Nat) : lex4 (a, b, c, d) (a', b', c', d') ↔
    a < a' ∨ (a = a' ∧ (b < b' ∨ (b = b' ∧ (c < c' ∨ (c = c' ∧ d < d'))))) := by
  simp only [lex4, Prod.lex_def]

/-- Termination with a measure that may depend on more than the state. -/
theorem run_terminates_ghost (m : σ → Step σ ρ) {α : Type} (lt : α → α → Prop) (wf : WellFounded lt)
    (Good : α → σ → Prop)
    (hstep : ∀ a s s', Good a s → (m s).next? = some s' → ∃ a', Good a' s' ∧ lt a' a)
    (s0 : σ) (a0 : α) (h0 : Good a0 s0) : ∃ N, ∀ fuel, N ≤ fuel → ∀ lim,
      (runMachine m fuel lim s0).ending ≠ .outOfFuel := by
  have key : ∀ a : α, ∀ s, Good a s → ∃ N, ∀ fuel, N ≤ fuel → ∀ lim,
      (runMachine m fuel lim s).ending ≠ .outOfFuel := by
    intro a
    induction a using wf.induction with
    | h a ih =>
      intro s hi
      have next : ∀ s', (m s).next? = some s' → ∃ N, ∀ fuel, N ≤ fuel → ∀ lim,
          (runMachine m fuel lim s').ending ≠ .outOfFuel := by
        intro s' hs
        obtain ⟨a', hg, hlt⟩ := hstep a s s' hi hs
        exact ih a' hlt s' hg
      cases hm : m s with
      | stop s' =>
        refine ⟨1, fun fuel hf lim => ?_⟩
        obtain ⟨f, rfl⟩ : ∃ f, fuel = f + 1 := ⟨fuel - 1, by omega⟩
        simp [runMachine, hm]
      | fail e =>
        refine ⟨1, fun fuel hf lim => ?_⟩
        obtain ⟨f, rfl⟩ : ∃ f, fuel = f + 1 := ⟨fuel - 1, by omega⟩
        simp [runMachine, hm]
      | tau s' =>
        obtain ⟨N, hN⟩ := next s' (by rw [hm]; rfl)
        refine ⟨N + 1, fun fuel hf lim => ?_⟩
        obtain ⟨f, rfl⟩ : ∃ f, fuel = f + 1 := ⟨fuel - 1, by omega⟩
        simp only [runMachine, hm]
        exact hN f (by omega) lim
      | emit r s' =>
        obtain ⟨N, hN⟩ := next s' (by rw [hm]; rfl)
        refine ⟨N + 1, fun fuel hf lim => ?_⟩
        obtain ⟨f, rfl⟩ : ∃ f, fuel = f + 1 := ⟨fuel - 1, by omega⟩
        simp only [runMachine, hm]
        exact hN f (by omega) lim
      | expand s' =>
        obtain ⟨N, hN⟩ := next s' (by rw [hm]; rfl)
        refine ⟨N + 1, fun fuel hf lim => ?_⟩
        obtain ⟨f, rfl⟩ : ∃ f, fuel = f + 1 := ⟨fuel - 1, by omega⟩
        simp only [runMachine, hm]
        split
        · simp
        · exact hN f (by omega) _
  exact key a0 s0 h0

/-- Each report was made by a step from a reachable state. -/
theorem Reaches.emitted {m : σ → Step σ ρ} {s0 s : σ} {h : List (Ev ρ)} (hr : Reaches m s0 h s)
    {a b : List ρ} {r : ρ} (hab : repsOf h = a ++ r :: b) :
    ∃ h1 t t', Reaches m s0 h1 t ∧ m t = .emit r t' ∧ repsOf h1 = a := by
  induction hr generalizing b with
  | refl => simp at hab
  | tau _ _ ih => exact ih hab
  | @emit h t r' t' hr he ih =>
    simp only [repsOf_append, repsOf_rep, repsOf_nil] at hab
    rcases List.eq_nil_or_concat b with rfl | ⟨b', x, rfl⟩
    · have := List.append_inj' hab rfl
      have h2 := this.2
      simp only [List.cons.injEq, and_true] at h2
      subst h2
      exact ⟨h, t, t', hr, he, this.1⟩
    · rw [List.concat_eq_append, ← List.cons_append, ← List.append_assoc] at hab
      exact ih (List.append_inj' hab rfl).1
  | expand _ _ ih => exact ih (by simpa using hab)

end NoGraphs
