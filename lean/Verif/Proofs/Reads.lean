import Verif.Model.Reads
import Verif.Proofs.Machine
import Verif.Proofs.SearchAware

/-! # Tools for the actions of a run -/

set_option linter.unusedSectionVars false

namespace NoGraphs

open Spec

variable {σ ρ V E : Type} {m : σ → Step σ ρ} {who : σ → Option V} {vert : ρ → V}

/-- An invariant of the actions so far and the state. -/
theorem acts_inv (Inv : List (Act V) → σ → Prop)
    (htau : ∀ t s s', Inv t s → m s = .tau s' → Inv t s')
    (hemit : ∀ t s r s', Inv t s → m s = .emit r s' → Inv (t ++ [.reported (vert r)]) s')
    (hexp : ∀ t s s', Inv t s → m s = .expand s' → ∃ v, who s = some v ∧ Inv (t ++ [.read v]) s')
    (fuel : Nat) (lim : Option Int) (t : List (Act V)) (s : σ) (h : Inv t s) :
    ∃ s', Inv (t ++ actsOf m who vert fuel lim s) s' := by
  induction fuel generalizing lim t s with
  | zero => exact ⟨s, by simpa [actsOf] using h⟩
  | succ fuel ih =>
    unfold actsOf
    rcases hm : m s with s' | e | s' | ⟨r, s'⟩ | s' <;> simp only
    · exact ⟨s, by simpa using h⟩
    · exact ⟨s, by simpa using h⟩
    · exact ih _ _ _ (htau _ _ _ h hm)
    · obtain ⟨s2, h2⟩ := ih lim _ _ (hemit _ _ _ _ h hm)
      exact ⟨s2, by simpa using h2⟩
    · rcases hl : checkLimit lim with _ | lim'
      · exact ⟨s, by simpa using h⟩
      · obtain ⟨v, hv, h'⟩ := hexp _ _ _ h hm
        obtain ⟨s2, h2⟩ := ih lim' _ _ h'
        exact ⟨s2, by simpa [hv] using h2⟩

theorem reportedOf_append (a b : List (Act V)) : reportedOf (a ++ b) = reportedOf a ++ reportedOf b := by
  simp [reportedOf]

/-- The reported vertices are those of the run. -/
theorem acts_reported (fuel : Nat) (lim : Option Int) (s : σ) :
    reportedOf (actsOf m who vert fuel lim s) = (runMachine m fuel lim s).reports.map vert := by
  induction fuel generalizing lim s with
  | zero => rfl
  | succ fuel ih =>
    unfold actsOf runMachine
    rcases hm : m s with s' | e | s' | ⟨r, s'⟩ | s' <;> simp only
    · rfl
    · rfl
    · exact ih _ _
    · simp only [RunResult.reports, repsOf_rep, List.map_cons]
      rw [show reportedOf (Act.reported (vert r) :: actsOf m who vert fuel lim s')
        = vert r :: reportedOf (actsOf m who vert fuel lim s') from by simp [reportedOf], ih]
      rfl
    · rcases hl : checkLimit lim with _ | lim'
      · rfl
      · rw [reportedOf_append, ih]
        have : reportedOf ((who s).toList.map Act.read) = [] := by
          cases who s <;> simp [reportedOf]
        simp only [this, List.nil_append, RunResult.reports, repsOf_exp]

/-- The number of reads is that of the run. -/
theorem acts_reads_length (hw : ∀ s s', m s = .expand s' → ∃ v, who s = some v) (fuel : Nat) (lim : Option Int) (s : σ) :
    (readsOf (actsOf m who vert fuel lim s)).length = expsOf (runMachine m fuel lim s).events := by
  induction fuel generalizing lim s with
  | zero => rfl
  | succ fuel ih =>
    unfold actsOf runMachine
    rcases hm : m s with s' | e | s' | ⟨r, s'⟩ | s' <;> simp only
    · rfl
    · rfl
    · exact ih _ _
    · rw [show readsOf (Act.reported (vert r) :: actsOf m who vert fuel lim s')
        = readsOf (actsOf m who vert fuel lim s') from by simp [readsOf], ih]
      simp
    · rcases hl : checkLimit lim with _ | lim'
      · rfl
      · obtain ⟨v, hv⟩ := hw _ _ hm
        simp only [hv, Option.toList_some, List.map_cons, List.map_nil, List.cons_append, List.nil_append, expsOf_exp]
        rw [show readsOf (Act.read v :: actsOf m who vert fuel lim' s')
          = v :: readsOf (actsOf m who vert fuel lim' s') from by simp [readsOf], List.length_cons, ih]

/-- Only the edges of the vertices that are read matter. -/
theorem run_local {m : (V → List E) → σ → Step σ ρ} (h : ReadsOne m who) (f f' : V → List E) (fuel : Nat) (lim : Option Int)
    (s : σ) (hf : ∀ v, Act.read v ∈ actsOf (m f) who vert fuel lim s → f v = f' v) :
    (runMachine (m f) fuel lim s).events = (runMachine (m f') fuel lim s).events ∧
    (runMachine (m f) fuel lim s).ending = (runMachine (m f') fuel lim s).ending := by
  induction fuel generalizing lim s with
  | zero => exact ⟨rfl, rfl⟩
  | succ fuel ih =>
    unfold actsOf at hf
    unfold runMachine
    have same : (∀ s', m f s ≠ .expand s') → m f' s = m f s := fun hne =>
      h.congr _ _ _ (fun v hv => by
        obtain ⟨s2, h2⟩ := h.expands f s v hv
        exact absurd h2 (hne s2))
    rcases hm : m f s with s' | e | s' | ⟨r, s'⟩ | s' <;> simp only [hm] at hf ⊢
    · rw [same (by simp [hm]), hm]; exact ⟨rfl, rfl⟩
    · rw [same (by simp [hm]), hm]; exact ⟨rfl, rfl⟩
    · rw [same (by simp [hm]), hm]; exact ih _ _ hf
    · rw [same (by simp [hm]), hm]
      have := ih lim s' (fun v hv => hf v (List.mem_cons_of_mem _ hv))
      exact ⟨by simp only [this.1], this.2⟩
    · rcases hl : checkLimit lim with _ | lim'
      · rcases hw : who s with _ | v
        · have hm' : m f' s = m f s := h.congr _ _ _ (by simp [hw])
          simp only [hm', hm]
          exact ⟨trivial, trivial⟩
        · obtain ⟨s2, h2⟩ := h.expands f' s v hw
          simp only [h2]
          exact ⟨trivial, trivial⟩
      · simp only [hl] at hf
        have hm' : m f' s = m f s := h.congr _ _ _ (fun v hv => (hf v (by simp [hv])).symm)
        simp only [hm', hm]
        have := ih lim' s' (fun v hv => hf v (List.mem_append_right _ hv))
        exact ⟨by rw [this.1], this.2⟩

/-! ## The specifications, action by action -/

theorem snoc_eq_split {α : Type} {t a b : List α} {x y : α} (h : t ++ [x] = a ++ y :: b) :
    (a = t ∧ x = y) ∨ ∃ b', t = a ++ y :: b' := by
  rcases List.eq_nil_or_concat b with rfl | ⟨b', z, rfl⟩
  · have := List.append_inj' h rfl
    exact .inl ⟨this.1.symm, by simpa using this.2⟩
  · right
    rw [List.concat_eq_append, ← List.cons_append, ← List.append_assoc] at h
    exact ⟨b', (List.append_inj' h rfl).1⟩

theorem Spec.OnDemand.nil {starts : List V} : OnDemand starts ([] : List (Act V)) := by
  intro a v b h; simp at h

theorem Spec.OnDemand.report {starts : List V} {t : List (Act V)} (h : OnDemand starts t) (v : V) :
    OnDemand starts (t ++ [.reported v]) := by
  intro a u b e
  rcases snoc_eq_split e with ⟨_, e⟩ | ⟨b', e⟩
  · simp at e
  · exact h _ _ _ e

theorem Spec.OnDemand.read {starts : List V} {t : List (Act V)} (h : OnDemand starts t) {v : V}
    (hv : v ∈ starts ∨ Act.reported v ∈ t) : OnDemand starts (t ++ [.read v]) := by
  intro a u b e
  rcases snoc_eq_split e with ⟨ha, e⟩ | ⟨b', e⟩
  · rw [ha]; injection e with e; exact e ▸ hv
  · exact h _ _ _ e

theorem Spec.Connected.nil {starts : List V} {ns : V → List V} : Connected starts ns ([] : List (Act V)) := by
  intro a v b h; simp at h

theorem Spec.Connected.report {starts : List V} {ns : V → List V} {t : List (Act V)} (h : Connected starts ns t) (v : V) :
    Connected starts ns (t ++ [.reported v]) := by
  intro a u b e
  rcases snoc_eq_split e with ⟨_, e⟩ | ⟨b', e⟩
  · simp at e
  · exact h _ _ _ e

theorem Spec.Connected.read {starts : List V} {ns : V → List V} {t : List (Act V)} (h : Connected starts ns t) {v : V}
    (hv : v ∈ starts ∨ ∃ u, Act.read u ∈ t ∧ v ∈ ns u) : Connected starts ns (t ++ [.read v]) := by
  intro a u b e
  rcases snoc_eq_split e with ⟨ha, e⟩ | ⟨b', e⟩
  · rw [ha]; injection e with e; exact e ▸ hv
  · exact h _ _ _ e

theorem Spec.ReadFirst.nil {K : Type} {vid : V → K} : ReadFirst vid ([] : List (Act V)) := by
  intro a v b h; simp at h

theorem Spec.ReadFirst.read {K : Type} {vid : V → K} {t : List (Act V)} (h : ReadFirst vid t) (v : V) :
    ReadFirst vid (t ++ [.read v]) := by
  intro a u b e
  rcases snoc_eq_split e with ⟨_, e⟩ | ⟨b', e⟩
  · simp at e
  · exact h _ _ _ e

theorem Spec.ReadFirst.report {K : Type} {vid : V → K} {t : List (Act V)} (h : ReadFirst vid t) {v : V}
    (hv : ∃ u, Act.read u ∈ t ∧ vid u = vid v) : ReadFirst vid (t ++ [.reported v]) := by
  intro a u b e
  rcases snoc_eq_split e with ⟨ha, e⟩ | ⟨b', e⟩
  · rw [ha]; injection e with e; exact e ▸ hv
  · exact h _ _ _ e

theorem mem_reportedOf {t : List (Act V)} {v : V} : v ∈ reportedOf t ↔ Act.reported v ∈ t := by
  simp only [reportedOf, List.mem_filterMap]
  constructor
  · rintro ⟨a, ha, e⟩
    cases a <;> simp at e
    subst e; exact ha
  · exact fun h => ⟨_, h, rfl⟩

/-- Edges that are read are those of start vertices or of vertices reported during the run. -/
theorem Spec.OnDemand.mem {starts : List V} {t : List (Act V)} (h : OnDemand starts t) {v : V} (hv : Act.read v ∈ t) :
    v ∈ starts ∨ v ∈ reportedOf t := by
  obtain ⟨a, b, rfl⟩ := List.append_of_mem hv
  rcases h a v b rfl with h | h
  · exact .inl h
  · exact .inr (mem_reportedOf.2 (List.mem_append_left _ h))

end NoGraphs
