import Verif.Model.Raising
import Verif.Proofs.Reads
import Verif.Spec.Raising

/-! # Runs that are ended by an exception of the edges function -/

set_option linter.unusedSectionVars false

namespace NoGraphs

open Spec

/-- Apply a function to the state after a step. -/
def Step.mapState {σ ρ : Type} (f : σ → σ) : Step σ ρ → Step σ ρ
  | .stop s => .stop (f s)
  | .fail e => .fail e
  | .tau s => .tau (f s)
  | .emit r s => .emit r (f s)
  | .expand s => .expand (f s)

variable {σ ρ V E : Type}

/-- How a step relates to the loops over edges. -/
def OpenShape (m : σ → Step σ ρ) (next : V → List E) (who : σ → Option V) (opened : σ → Option (V × List E)) (eager : σ → Bool)
    (s : σ) : Step σ ρ → Prop
  | .stop _ => opened s = none
  | .fail _ => True
  | .tau s' => match opened s with
    | some (v, _ :: es) => opened s' = some (v, es) ∨ opened s' = none ∧ ∃ e, m s' = .fail e
    | _ => opened s' = none
  | .emit _ s' => match opened s with
    | some (v, _ :: es) => opened s' = some (v, es) ∨ opened s' = none ∧ ∃ e, m s' = .fail e
    | _ => opened s' = none
  | .expand s' => opened s = none ∧ ∃ v, who s = some v ∧
      if eager s then opened s' = none else opened s' = some (v, next v)

/-- A step that neither starts nor continues a loop over edges. -/
def Step.Closed (opened : σ → Option (V × List E)) : Step σ ρ → Prop
  | .fail _ => True
  | .tau s' => opened s' = none
  | .emit _ s' => opened s' = none
  | _ => False

theorem Step.Closed.mapState {opened : σ → Option (V × List E)} {st : Step σ ρ} (h : st.Closed opened) {f : σ → σ}
    (hf : ∀ s, opened s = none → f s = s) : st.mapState f = st := by
  rcases st with s' | e | s' | ⟨r, s'⟩ | s'
  · exact h.elim
  · rfl
  · exact congrArg _ (hf s' h)
  · exact congrArg _ (hf s' h)
  · exact h.elim

theorem Step.Closed.shape {m : σ → Step σ ρ} {next : V → List E} {who : σ → Option V} {opened : σ → Option (V × List E)}
    {eager : σ → Bool} {s : σ} {st : Step σ ρ} (h : st.Closed opened) (hs : opened s = none) :
    OpenShape m next who opened eager s st := by
  rcases st with s' | e | s' | ⟨r, s'⟩ | s'
  · exact h.elim
  · trivial
  · simpa [OpenShape, hs, Step.Closed] using h
  · simpa [OpenShape, hs, Step.Closed] using h
  · exact h.elim

/-- Laws of a strategy. `more x s`: the state, if there are more edges, `x v`, for each vertex `v`. -/
structure Interruptible (m : (V → List E) → σ → Step σ ρ) (who : σ → Option V) (opened : σ → Option (V × List E))
    (eager : σ → Bool) (more : (V → List E) → σ → σ) : Prop where
  step : ∀ f x s, (∀ v, opened s = some (v, []) → x v = []) → (∀ v, who s = some v → eager s = true → x v = []) →
    m (fun v => f v ++ x v) (more x s) = (m f s).mapState (more x)
  who_more : ∀ x s, who (more x s) = who s
  /-- while the edges of a vertex are read, with the step that reads them all, there is no failure and no report -/
  expands : ∀ f s v, who s = some v → ∃ s', m f s = .expand s'
  shape : ∀ f s, OpenShape (m f) f who opened eager s (m f s)

variable {m : (V → List E) → σ → Step σ ρ} {who : σ → Option V} {opened : σ → Option (V × List E)} {eager : σ → Bool}
variable {more : (V → List E) → σ → σ}

theorem Spec.RaisesAtFirst.nil {raises : V → Bool} {d : Prop} : RaisesAtFirst raises [] none d :=
  ⟨by simp, by simp, by simp⟩

theorem Spec.RaisesAtFirst.one {raises : V → Bool} {v : V} {d : Prop} (h : ¬ d) : RaisesAtFirst raises [v] none d := by
  refine ⟨fun A u B h _ => ?_, by simp, fun h' => absurd h' h⟩
  rcases A with _ | ⟨a, A⟩
  · exact (by simpa using h.symm : u = v ∧ B = []).2
  · simp at h

theorem Spec.RaisesAtFirst.atLast {raises : V → Bool} {v : V} {d : Prop} (h : raises v = true) (hd : ¬ d) :
    RaisesAtFirst raises [v] (some v) d := by
  refine ⟨fun A u B h _ => ?_, fun u hu => ?_, fun h' => absurd h' hd⟩
  · rcases A with _ | ⟨a, A⟩
    · exact (by simpa using h.symm : u = v ∧ B = []).2
    · simp at h
  · simp only [Option.some.injEq] at hu
    subst hu
    exact ⟨h, [], rfl⟩

theorem Spec.RaisesAtFirst.cons {raises : V → Bool} {v : V} {reads : List V} {e : Option V} {d : Prop} (hv : raises v = false)
    (h : RaisesAtFirst raises reads e d) : RaisesAtFirst raises (v :: reads) e d := by
  refine ⟨fun A u B h1 hu => ?_, fun u hu => ?_, fun he u hu => ?_⟩
  · rcases A with _ | ⟨a, A⟩
    · simp only [List.nil_append, List.cons.injEq] at h1
      rw [h1.1] at hv
      rw [hv] at hu
      simp at hu
    · simp only [List.cons_append, List.cons.injEq] at h1
      exact h.last A u B h1.2 hu
  · obtain ⟨h1, A, h2⟩ := h.raised u hu
    exact ⟨h1, v :: A, by rw [h2]; rfl⟩
  · rcases List.mem_cons.1 hu with rfl | hu
    · exact hv
    · exact h.complete he u hu

theorem RaisingResult.reads_report (r : ρ) (x : RaisingResult V ρ) : (x.after (.report r)).reads = x.reads := by
  simp [RaisingResult.reads, RaisingResult.after]

theorem RaisingResult.reads_read (v : V) (x : RaisingResult V ρ) : (x.after (.read v)).reads = v :: x.reads := by
  simp [RaisingResult.reads, RaisingResult.after]

/-- The exception is that of the first vertex that has one. -/
theorem raises_at_first (h : Interruptible m who opened eager more) (raises : V → Bool) (next : V → List E) (fuel : Nat)
    (lim : Option Int) (s : σ) (cur : Option V)
    (hc : (opened s).map (·.1) = cur ∨ opened s = none ∧ ∃ e, m next s = .fail e) :
    let r := runRaising (m next) who opened eager raises fuel lim s
    RaisesAtFirst raises (cur.toList ++ r.reads) r.exception? (r.ending = .usual .done) := by
  have short : ∀ e, e ≠ Ending.done →
      RaisesAtFirst raises (cur.toList ++ []) none ((UserEnding.usual e : UserEnding V) = .usual .done) := by
    intro e he
    rcases cur with _ | v
    · exact .nil
    · exact .one (by simpa using he)
  induction fuel generalizing lim s cur with
  | zero => exact short _ (by simp)
  | succ fuel ih =>
    unfold runRaising
    rcases hr : raisedNow raises (opened s) with _ | v
    · have hs := h.shape next s
      simp only
      rcases hm : m next s with s' | e | s' | ⟨r, s'⟩ | s'
      · rw [hm] at hs
        rcases hc with hc | ⟨-, e, he⟩
        · rw [show opened s = none from hs] at hc
          subst hc
          exact .nil
        · rw [hm] at he; simp at he
      · exact short _ (by simp)
      all_goals
        rw [hm] at hs
        have hc : (opened s).map (·.1) = cur := by
          rcases hc with hc | ⟨-, e, he⟩
          · exact hc
          · rw [hm] at he; simp at he
      · simp only [OpenShape] at hs ⊢
        rcases ho : opened s with _ | ⟨v, _ | ⟨x, es⟩⟩ <;> rw [ho] at hs hc <;> simp only [Option.map_none, Option.map_some] at hc hs
        · subst hc
          exact ih lim s' none (.inl (by rw [hs]; rfl)) (fun _ _ => .nil)
        · subst hc
          rw [ho] at hr
          have hv : raises v = false := by
            simp only [raisedNow] at hr
            split at hr
            · simp at hr
            · rename_i hv; simpa using hv
          exact (ih lim s' none (.inl (by rw [hs]; rfl)) (fun _ _ => .nil)).cons hv
        · subst hc
          exact ih lim s' (some v) (hs.imp (by intro h; rw [h]; rfl) id) short
      · simp only [OpenShape, RaisingResult.reads_report] at hs ⊢
        rcases ho : opened s with _ | ⟨v, _ | ⟨x, es⟩⟩ <;> rw [ho] at hs hc <;> simp only [Option.map_none, Option.map_some] at hc hs
        · subst hc
          exact ih lim s' none (.inl (by rw [hs]; rfl)) (fun _ _ => .nil)
        · subst hc
          rw [ho] at hr
          have hv : raises v = false := by
            simp only [raisedNow] at hr
            split at hr
            · simp at hr
            · rename_i hv; simpa using hv
          exact (ih lim s' none (.inl (by rw [hs]; rfl)) (fun _ _ => .nil)).cons hv
        · subst hc
          exact ih lim s' (some v) (hs.imp (by intro h; rw [h]; rfl) id) short
      · simp only [OpenShape] at hs ⊢
        obtain ⟨h1, v, h2, h3⟩ := hs
        rw [h1] at hc
        simp only [Option.map_none] at hc
        subst hc
        rcases hl : checkLimit lim with _ | lim'
        · exact .nil
        · simp only [h2]
          rcases he : eager s with _ | _
          · simp only [he, Bool.false_and, Bool.false_eq_true, if_false, RaisingResult.reads_read] at h3 ⊢
            exact ih lim' s' (some v) (.inl (by rw [h3]; rfl)) (fun e he => .one (by simpa using he))
          · simp only [he, if_true, Bool.true_and] at h3 ⊢
            rcases hv : raises v with _ | _
            · simp only [Bool.false_eq_true, if_false, RaisingResult.reads_read]
              exact (ih lim' s' none (.inl (by rw [h3]; rfl)) (fun _ _ => .nil)).cons hv
            · simp only [if_true]
              exact .atLast hv (by simp)
    · have hv : ∃ es, opened s = some (v, es) ∧ raises v = true := by
        unfold raisedNow at hr
        split at hr
        · split at hr
          · simp only [Option.some.injEq] at hr
            subst hr
            exact ⟨_, by assumption, by assumption⟩
          · simp at hr
        · simp at hr
      obtain ⟨es, h1, h2⟩ := hv
      have h3 : cur = some v := by
        rcases hc with hc | ⟨he, -⟩
        · rw [← hc, h1]; rfl
        · rw [h1] at he; simp at he
      subst h3
      exact .atLast h2 (by simp)

theorem RaisingResult.reports_report (r : ρ) (x : RaisingResult V ρ) : (x.after (.report r)).reports = r :: x.reports := by
  simp [RaisingResult.reports, RaisingResult.after]

theorem RaisingResult.reports_read (v : V) (x : RaisingResult V ρ) : (x.after (.read v)).reports = x.reports := by
  simp [RaisingResult.reports, RaisingResult.after]

/-- The beginning of the run in the graph with more edges. -/
structure BeginsFull (vert : ρ → V) (r : RaisingResult V ρ) (full : RunResult σ ρ) (acts : List (Act V)) : Prop where
  begins : r.acts vert <+: acts
  reports : r.reports <+: full.reports
  usual : ∀ e, r.ending = .usual e → r.acts vert = acts ∧ r.reports = full.reports ∧ full.ending = e

theorem raising_begins (h : Interruptible m who opened eager more) (vert : ρ → V) (raises : V → Bool) (next x : V → List E)
    (hx : ∀ v, raises v = false → x v = []) (fuel : Nat) (lim : Option Int) (s : σ) :
    BeginsFull vert (runRaising (m next) who opened eager raises fuel lim s)
      (runMachine (m (fun v => next v ++ x v)) fuel lim (more x s))
      (actsOf (m (fun v => next v ++ x v)) who vert fuel lim (more x s)) := by
  induction fuel generalizing lim s with
  | zero => exact ⟨List.nil_prefix, List.nil_prefix, fun e he => ⟨rfl, rfl, by simpa [runRaising, runMachine] using he⟩⟩
  | succ fuel ih =>
    unfold runRaising runMachine actsOf
    rcases hr : raisedNow raises (opened s) with _ | v
    · have h1 : ∀ v, opened s = some (v, []) → x v = [] := by
        intro v hv
        rw [hv] at hr
        simp only [raisedNow] at hr
        split at hr
        · simp at hr
        · rename_i h0; exact hx v (by simpa using h0)
      by_cases h2 : ∀ v, who s = some v → eager s = true → x v = []
      · rw [h.step next x s h1 h2]
        simp only [h.who_more]
        rcases hm : m next s with s' | e | s' | ⟨r, s'⟩ | s' <;> simp only [Step.mapState]
        · exact ⟨List.nil_prefix, List.nil_prefix, fun e he => ⟨rfl, rfl, by simpa using he⟩⟩
        · exact ⟨List.nil_prefix, List.nil_prefix, fun e he => ⟨rfl, rfl, by simpa using he⟩⟩
        · exact ih lim s'
        · obtain ⟨i1, i2, i3⟩ := ih lim s'
          refine ⟨?_, ?_, fun e he => ?_⟩
          · exact List.prefix_cons_inj _ |>.2 i1
          · rw [RaisingResult.reports_report]
            exact List.prefix_cons_inj _ |>.2 i2
          · obtain ⟨j1, j2, j3⟩ := i3 e he
            rw [RaisingResult.reports_report]
            exact ⟨congrArg (Act.reported (vert r) :: ·) j1, congrArg (r :: ·) j2, j3⟩
        · rcases hl : checkLimit lim with _ | lim' <;> simp only
          · exact ⟨List.nil_prefix, List.nil_prefix, fun e he => ⟨rfl, rfl, by simpa using he⟩⟩
          · obtain ⟨i1, i2, i3⟩ := ih lim' s'
            rcases hw : who s with _ | v <;> simp only [Option.toList_none, Option.toList_some, List.map_nil, List.map_cons,
              List.nil_append, List.cons_append]
            · exact ⟨i1, i2, i3⟩
            · split
              · exact ⟨by simp [RaisingResult.acts], List.nil_prefix, by simp⟩
              · refine ⟨?_, ?_, fun e he => ?_⟩
                · exact List.prefix_cons_inj _ |>.2 i1
                · rw [RaisingResult.reports_read]
                  exact i2
                · obtain ⟨j1, j2, j3⟩ := i3 e he
                  rw [RaisingResult.reports_read]
                  exact ⟨congrArg (Act.read v :: ·) j1, j2, j3⟩
      · simp only [Classical.not_forall] at h2
        obtain ⟨v, hw, he, hv⟩ := h2
        have hrv : raises v = true := by
          by_contra h0
          exact hv (hx v (by simpa using h0))
        obtain ⟨s1, e1⟩ := h.expands next s v hw
        obtain ⟨s2, e2⟩ := h.expands (fun v => next v ++ x v) (more x s) v (by rw [h.who_more]; exact hw)
        simp only [e1, e2, h.who_more, hw, he, hrv]
        rcases hl : checkLimit lim with _ | lim' <;> simp only
        · exact ⟨List.nil_prefix, List.nil_prefix, fun e he => ⟨rfl, rfl, by simpa using he⟩⟩
        · exact ⟨by simp [RaisingResult.acts], List.nil_prefix, by simp⟩
    · exact ⟨List.nil_prefix, List.nil_prefix, by simp⟩

/-- At an exception, the run in the graph of the edges that have been given is at the end of these edges. -/
theorem raising_cut {m : σ → Step σ ρ} (vert : ρ → V) (raises : V → Bool) (fuel : Nat) (lim : Option Int) (s : σ)
    (v : V)
    (h : (runRaising m who opened (fun _ => false) raises fuel lim s).exception? = some v) :
    ∃ fuel' lim' s', opened s' = some (v, []) ∧ actsOf m who vert fuel lim s =
      (runRaising m who opened (fun _ => false) raises fuel lim s).acts vert ++ actsOf m who vert fuel' lim' s' := by
  induction fuel generalizing lim s with
  | zero => simp [runRaising, RaisingResult.exception?] at h
  | succ fuel ih =>
    unfold runRaising at h ⊢
    rcases hr : raisedNow raises (opened s) with _ | u
    · simp only [hr] at h ⊢
      rw [actsOf.eq_2]
      rcases hm : m s with s' | e | s' | ⟨r, s'⟩ | s' <;> simp only [hm] at h ⊢
      · simp [RaisingResult.exception?] at h
      · simp [RaisingResult.exception?] at h
      · exact ih lim s' h
      · obtain ⟨f', l', s2, h1, h2⟩ := ih lim s' h
        exact ⟨f', l', s2, h1, by rw [h2]; rfl⟩
      · rcases hl : checkLimit lim with _ | lim' <;> simp only [hl] at h ⊢
        · simp [RaisingResult.exception?] at h
        · rcases hw : who s with _ | u <;> simp only [hw, Bool.false_and, Bool.false_eq_true, if_false] at h ⊢
          · exact ih lim' s' h
          · obtain ⟨f', l', s2, h1, h2⟩ := ih lim' s' h
            exact ⟨f', l', s2, h1, by rw [h2]; rfl⟩
    · simp only [hr, RaisingResult.exception?, Option.some.injEq] at h ⊢
      subst h
      refine ⟨fuel + 1, lim, s, ?_, by simp [RaisingResult.acts]⟩
      unfold raisedNow at hr
      split at hr
      · rename_i w ho
        split at hr
        · simp only [Option.some.injEq] at hr
          rw [← hr]; exact ho
        · simp at hr
      · simp at hr

end NoGraphs
