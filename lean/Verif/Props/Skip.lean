import Verif.Model.Skip
import Verif.Props.DepthFirstTrace
import Verif.Spec.Skip

/-! # C100: skipping the expansion of a vertex -/

set_option linter.unusedSectionVars false

namespace NoGraphs

open Spec

/-- The report of an answer. -/
def Answer.report? {V ρ : Type} : Answer V ρ → Option ρ
  | .report r => some r
  | _ => none

/-- The reports of a conversation. -/
def heardReports {V ρ : Type} (conv : List (Ask × List V × Answer V ρ)) : List ρ := conv.filterMap (fun x => x.2.2.report?)

/-- The vertices whose edges have been read during a conversation. -/
def heardReads {V ρ : Type} (conv : List (Ask × List V × Answer V ρ)) : List V := conv.flatMap (fun x => x.2.1)

section generic
variable {σ ρ V : Type}

/-- A part of a run from its begin, with its reports and reads. -/
inductive SPathTo (m : σ → Step σ ρ) (who : σ → Option V) (lim0 : Option Int) (s0 : σ) :
    List ρ → List V → Option Int → σ → Prop where
  | refl : SPathTo m who lim0 s0 [] [] lim0 s0
  | tau {reps reads lim s s'} : SPathTo m who lim0 s0 reps reads lim s → m s = .tau s' → SPathTo m who lim0 s0 reps reads lim s'
  | emit {reps reads lim s r s'} : SPathTo m who lim0 s0 reps reads lim s → m s = .emit r s' →
      SPathTo m who lim0 s0 (reps ++ [r]) reads lim s'
  | expand {reps reads lim s s' lim'} : SPathTo m who lim0 s0 reps reads lim s → m s = .expand s' →
      checkLimit lim = some lim' → SPathTo m who lim0 s0 reps (reads ++ (who s).toList) lim' s'

theorem SPathTo.run {m : σ → Step σ ρ} {who : σ → Option V} {lim0 : Option Int} {s0 : σ} {reps : List ρ} {reads : List V}
    {lim : Option Int} {s : σ} (vert : ρ → V) (h : SPathTo m who lim0 s0 reps reads lim s) :
    ∃ f, ∀ k, (runMachine m (f + k) lim0 s0).reports = reps ++ (runMachine m k lim s).reports ∧
      Spec.readsOf (actsOf m who vert (f + k) lim0 s0) = reads ++ Spec.readsOf (actsOf m who vert k lim s) := by
  induction h with
  | refl => exact ⟨0, fun k => by simp⟩
  | @tau reps reads lim s s' h e ih =>
    obtain ⟨f, ih⟩ := ih
    refine ⟨f + 1, fun k => ?_⟩
    rw [Nat.add_assoc, Nat.add_comm 1 k]
    refine ⟨(ih (k + 1)).1.trans ?_, (ih (k + 1)).2.trans ?_⟩
    · rw [runMachine]; simp only [e]
    · rw [actsOf.eq_2]; simp only [e]
  | @emit reps reads lim s r s' h e ih =>
    obtain ⟨f, ih⟩ := ih
    refine ⟨f + 1, fun k => ?_⟩
    rw [Nat.add_assoc, Nat.add_comm 1 k]
    refine ⟨(ih (k + 1)).1.trans ?_, (ih (k + 1)).2.trans ?_⟩
    · rw [runMachine]; simp [e, RunResult.reports]
    · rw [actsOf.eq_2]; simp [e, Spec.readsOf]
  | @expand reps reads lim s s' lim' h e hl ih =>
    obtain ⟨f, ih⟩ := ih
    refine ⟨f + 1, fun k => ?_⟩
    rw [Nat.add_assoc, Nat.add_comm 1 k]
    refine ⟨(ih (k + 1)).1.trans ?_, (ih (k + 1)).2.trans ?_⟩
    · rw [runMachine]; simp [e, hl, RunResult.reports]
    · rw [actsOf.eq_2]
      cases hw : who s <;> simp [e, hl, hw, Spec.readsOf]

variable {m : (Nat → Bool) → σ → Step σ ρ} {who : (Nat → Bool) → σ → Option V} {n : σ → Nat} {catches : σ → Option (V × σ)}

/-- How the decisions to skip are used: decision `n s` in state `s`, and then the next one. -/
structure SkipLaws (m : (Nat → Bool) → σ → Step σ ρ) (who : (Nat → Bool) → σ → Option V) (n : σ → Nat)
    (catches : σ → Option (V × σ)) : Prop where
  same : ∀ sk sk' s, sk (n s) = sk' (n s) → m sk s = m sk' s ∧ who sk s = who sk' s
  count : ∀ sk s s', (m sk s).next? = some s' →
    n s' = n s + 1 ∨ (n s' = n s ∧ ∀ sk', m sk' s = m sk s ∧ who sk' s = who sk s)
  caught : ∀ s v s', catches s = some (v, s') → ∀ sk : Nat → Bool, sk (n s) = true → m sk s = .tau s'

theorem SPathTo.swap (law : SkipLaws m who n catches) {sk sk' : Nat → Bool} {lim0 : Option Int} {s0 : σ} {reps : List ρ}
    {reads : List V} {lim : Option Int} {s : σ} (h : SPathTo (m sk) (who sk) lim0 s0 reps reads lim s)
    (hk : ∀ k, k < n s → sk k = sk' k) : SPathTo (m sk') (who sk') lim0 s0 reps reads lim s := by
  have key : ∀ s s', (m sk s).next? = some s' → (∀ k, k < n s' → sk k = sk' k) →
      (∀ k, k < n s → sk k = sk' k) ∧ m sk' s = m sk s ∧ who sk' s = who sk s := by
    intro s s' e hk
    rcases law.count sk s s' e with h | ⟨h, h2⟩
    · obtain ⟨h3, h4⟩ := law.same sk sk' s (hk _ (by omega))
      exact ⟨fun k hk' => hk k (by omega), h3.symm, h4.symm⟩
    · exact ⟨fun k hk' => hk k (by omega), h2 sk'⟩
  induction h with
  | refl => exact .refl
  | @tau reps reads lim s s' h e ih =>
    obtain ⟨h1, h2, -⟩ := key s s' (by rw [e]; rfl) hk
    exact .tau (ih h1) (h2.trans e)
  | @emit reps reads lim s r s' h e ih =>
    obtain ⟨h1, h2, -⟩ := key s s' (by rw [e]; rfl) hk
    exact .emit (ih h1) (h2.trans e)
  | @expand reps reads lim s s' lim' h e hl ih =>
    obtain ⟨h1, h2, h3⟩ := key s s' (by rw [e]; rfl) hk
    rw [← h3]
    exact .expand (ih h1) (h2.trans e) hl

/-- What `next` does belongs to the run without further skipping. -/
theorem resume_path (law : SkipLaws m who n catches) {sk : Nat → Bool} {lim0 : Option Int} {s0 : σ} (fuel : Nat) :
    ∀ {reps : List ρ} {reads : List V} {lim : Option Int} {s : σ}, SPathTo (m sk) (who sk) lim0 s0 reps reads lim s →
    (∀ k, n s ≤ k → sk k = false) →
    let res := resume (m (fun _ => false)) (who (fun _ => false)) fuel lim s
    ∃ lim' s', SPathTo (m sk) (who sk) lim0 s0 (reps ++ res.2.1.report?.toList) (reads ++ res.1) lim' s' ∧
      (res.2.2 = .reported lim' s' ∨ res.2.2 = .finished ∨ res.2.2 = .hanging) := by
  induction fuel with
  | zero =>
    intro reps reads lim s h _
    exact ⟨lim, s, by simpa [resume, Answer.report?] using h, .inr (.inr rfl)⟩
  | succ fuel ih =>
    intro reps reads lim s h hk
    obtain ⟨e1, e2⟩ := law.same sk (fun _ => false) s (hk _ (le_refl _))
    have hk' : ∀ s', (m sk s).next? = some s' → ∀ k, n s' ≤ k → sk k = false := by
      intro s' e k hle
      rcases law.count sk s s' e with h | ⟨h, -⟩ <;> exact hk k (by omega)
    intro res
    have hres : res = resume (m (fun _ => false)) (who (fun _ => false)) (fuel + 1) lim s := rfl
    rw [resume, ← e1, ← e2] at hres
    split at hres
    · exact ⟨lim, s, by rw [hres]; simpa [Answer.report?] using h, .inr (.inl (by rw [hres]))⟩
    · exact ⟨lim, s, by rw [hres]; simpa [Answer.report?] using h, .inr (.inl (by rw [hres]))⟩
    · rename_i s' e
      rw [hres]
      exact ih (.tau h e) (hk' s' (by rw [e]; rfl))
    · rename_i r s' e
      exact ⟨lim, s', by rw [hres]; simpa [Answer.report?] using SPathTo.emit h e, .inl (by rw [hres])⟩
    · rename_i s' e
      split at hres
      · exact ⟨lim, s, by rw [hres]; simpa [Answer.report?] using h, .inr (.inl (by rw [hres]))⟩
      · rename_i lim' hl
        obtain ⟨lim2, s2, h1, h2⟩ := ih (.expand h e hl) (hk' s' (by rw [e]; rfl))
        rw [hres]
        exact ⟨lim2, s2, by simpa [List.append_assoc] using h1, h2⟩

/-- A conversation so far belongs to a run where the decisions to skip are fixed in advance. -/
def Told (m : (Nat → Bool) → σ → Step σ ρ) (who : (Nat → Bool) → σ → Option V) (lim0 : Option Int) (s0 : σ)
    (reps : List ρ) (reads : List V) (rest : Resting σ) : Prop :=
  ∃ sk lim s, SPathTo (m sk) (who sk) lim0 s0 reps reads lim s ∧
    match rest with
    | .reported lim' s' => lim' = lim ∧ s' = s
    | .unguarded lim' s' => lim' = lim ∧ s' = s
    | _ => True

theorem ask_told (law : SkipLaws m who n catches) {lim0 : Option Int} {s0 : σ} {reps : List ρ} {reads : List V}
    {rest : Resting σ} (h : Told m who lim0 s0 reps reads rest) (fuel : Nat) (a : Ask) :
    let res := ask (m (fun _ => false)) (who (fun _ => false)) catches fuel a rest
    Told m who lim0 s0 (reps ++ res.2.1.report?.toList) (reads ++ res.1) res.2.2 := by
  obtain ⟨sk, lim, s, hp, hr⟩ := h
  have hnext : let res := resume (m (fun _ => false)) (who (fun _ => false)) fuel lim s
      Told m who lim0 s0 (reps ++ res.2.1.report?.toList) (reads ++ res.1) res.2.2 := by
    intro res
    obtain ⟨lim', s', h1, h2⟩ := resume_path law (sk := fun k => if k < n s then sk k else false) fuel
      (hp.swap law (fun k hk => by rw [if_pos hk])) (fun k hk => by rw [if_neg (by omega)])
    refine ⟨_, lim', s', h1, ?_⟩
    change res.2.2 = _ ∨ res.2.2 = _ ∨ res.2.2 = _ at h2
    rcases h2 with h2 | h2 | h2 <;> rw [h2]
    · exact ⟨rfl, rfl⟩
    · trivial
    · trivial
  have hkeep : Told m who lim0 s0 (reps ++ []) (reads ++ []) (.finished : Resting σ) := by
    simp only [List.append_nil]
    exact ⟨sk, lim, s, hp, trivial⟩
  cases rest with
  | reported lim' s' =>
    obtain ⟨rfl, rfl⟩ := hr
    cases a with
    | next => exact hnext
    | skip =>
      simp only [ask]
      cases hc : catches s' with
      | none => exact hkeep
      | some x =>
        obtain ⟨v, s''⟩ := x
        simp only [Answer.report?, Option.toList, List.append_nil]
        refine ⟨fun k => if k < n s' then sk k else true, lim', s'', .tau (hp.swap law (fun k hk => by rw [if_pos hk])) ?_, rfl,
          rfl⟩
        exact law.caught _ _ _ hc _ (by simp)
  | unguarded lim' s' =>
    obtain ⟨rfl, rfl⟩ := hr
    cases a with
    | next => exact hnext
    | skip => exact hkeep
  | finished => cases a <;> exact hkeep
  | hanging =>
    have : Told m who lim0 s0 (reps ++ []) (reads ++ []) (.hanging : Resting σ) := by
      simp only [List.append_nil]
      exact ⟨sk, lim, s, hp, trivial⟩
    cases a <;> exact this

theorem converse_told (law : SkipLaws m who n catches) {lim0 : Option Int} {s0 : σ} (fuel : Nat) (asks : List Ask) :
    ∀ {reps : List ρ} {reads : List V} {rest : Resting σ}, Told m who lim0 s0 reps reads rest →
    let conv := converse (m (fun _ => false)) (who (fun _ => false)) catches fuel asks rest
    ∃ sk lim s, SPathTo (m sk) (who sk) lim0 s0 (reps ++ heardReports conv) (reads ++ heardReads conv) lim s := by
  induction asks with
  | nil =>
    rintro reps reads rest ⟨sk, lim, s, h, -⟩
    exact ⟨sk, lim, s, by simpa [converse, heardReports, heardReads] using h⟩
  | cons a asks ih =>
    intro reps reads rest h
    obtain ⟨sk, lim, s, h'⟩ := ih (ask_told law h fuel a)
    refine ⟨sk, lim, s, ?_⟩
    have e : ∀ (x : Ask × List V × Answer V ρ) l, heardReports (x :: l) = x.2.2.report?.toList ++ heardReports l := by
      intro x l
      cases hx : x.2.2.report? <;> simp [heardReports, hx]
    rw [converse, e]
    simpa [heardReads, List.append_assoc] using h'

/-- **C100, generic.** -/
theorem converse_run (law : SkipLaws m who n catches) (vert : ρ → V) (lim0 : Option Int) (s0 : σ) (fuel : Nat)
    (asks : List Ask) :
    let conv := converse (m (fun _ => false)) (who (fun _ => false)) catches fuel asks (.unguarded lim0 s0)
    ∃ skip fuel', (runMachine (m skip) fuel' lim0 s0).reports = heardReports conv ∧
      Spec.readsOf (actsOf (m skip) (who skip) vert fuel' lim0 s0) = heardReads conv := by
  intro conv
  obtain ⟨sk, lim, s, h⟩ := converse_told law fuel asks (reps := []) (reads := []) (lim0 := lim0) (s0 := s0)
    (rest := .unguarded lim0 s0) ⟨fun _ => false, lim0, s0, .refl, rfl, rfl⟩
  obtain ⟨f, hf⟩ := h.run vert
  refine ⟨sk, f, ?_⟩
  have := hf 0
  simpa [runMachine, actsOf.eq_1, RunResult.reports, Spec.readsOf] using this

/-- The state of a suspended generator. -/
def Resting.Has (I : σ → Prop) : Resting σ → Prop
  | .reported _ s => I s
  | .unguarded _ s => I s
  | _ => True

/-- What an answer says about the state of the generator. `I`: an invariant. -/
def Follows (m : σ → Step σ ρ) (catches : σ → Option (V × σ)) (I : σ → Prop) : Answer V ρ → Resting σ → Prop
  | .report r, rest => ∃ lim s s0, rest = .reported lim s ∧ I s0 ∧ m s0 = .emit r s
  | .confirmed v, rest => ∃ lim s s0, rest = .unguarded lim s ∧ catches s0 = some (v, s)
  | .hangs, rest => rest = .hanging
  | _, rest => rest = .finished

theorem resume_follows {m : σ → Step σ ρ} {who : σ → Option V} {I : σ → Prop}
    (hI : ∀ s s', I s → (m s).next? = some s' → I s') (fuel : Nat) :
    ∀ (lim : Option Int) (s : σ), I s → Follows m catches I (resume m who fuel lim s).2.1 (resume m who fuel lim s).2.2 ∧
      (resume m who fuel lim s).2.2.Has I := by
  induction fuel with
  | zero => intro lim s _; exact ⟨rfl, trivial⟩
  | succ fuel ih =>
    intro lim s hs
    have hs' := hI s
    rw [resume]
    split <;> rename_i e
    · exact ⟨rfl, trivial⟩
    · exact ⟨rfl, trivial⟩
    · exact ih _ _ (hs' _ hs (by rw [e]; rfl))
    · exact ⟨⟨lim, _, s, rfl, hs, e⟩, hs' _ hs (by rw [e]; rfl)⟩
    · split
      · exact ⟨rfl, trivial⟩
      · exact ih _ _ (hs' _ hs (by rw [e]; rfl))

theorem ask_follows {m : σ → Step σ ρ} {who : σ → Option V} {I : σ → Prop}
    (hI : ∀ s s', I s → (m s).next? = some s' → I s') (hC : ∀ s v s', I s → catches s = some (v, s') → I s') (fuel : Nat)
    (a : Ask) (rest : Resting σ) (hr : rest.Has I) :
    Follows m catches I (ask m who catches fuel a rest).2.1 (ask m who catches fuel a rest).2.2 ∧
      (ask m who catches fuel a rest).2.2.Has I := by
  cases rest <;> cases a
  · exact resume_follows hI _ _ _ hr
  · simp only [ask]
    split
    · rename_i e
      exact ⟨⟨_, _, _, rfl, e⟩, hC _ _ _ hr e⟩
    · exact ⟨rfl, trivial⟩
  · exact resume_follows hI _ _ _ hr
  all_goals exact ⟨rfl, trivial⟩

/-- Two calls in a row. -/
theorem converse_two {m : σ → Step σ ρ} {who : σ → Option V} {I : σ → Prop}
    (hI : ∀ s s', I s → (m s).next? = some s' → I s') (hC : ∀ s v s', I s → catches s = some (v, s') → I s')
    {fuel : Nat} {asks : List Ask} {rest : Resting σ} (hr : rest.Has I)
    {before after : List (Ask × List V × Answer V ρ)} {x y : Ask × List V × Answer V ρ}
    (h : converse m who catches fuel asks rest = before ++ x :: y :: after) :
    ∃ st asks', Follows m catches I x.2.2 st ∧ y.2.1 = (ask m who catches fuel y.1 st).1 ∧
      y.2.2 = (ask m who catches fuel y.1 st).2.1 ∧
      after = converse m who catches fuel asks' (ask m who catches fuel y.1 st).2.2 := by
  induction before generalizing asks rest with
  | nil =>
    cases asks with
    | nil => simp [converse] at h
    | cons a asks =>
      cases asks with
      | nil => simp [converse] at h
      | cons b asks =>
        simp only [converse, List.nil_append, List.cons.injEq] at h
        obtain ⟨rfl, rfl, rfl⟩ := h
        exact ⟨_, asks, (ask_follows hI hC fuel a rest hr).1, rfl, rfl, rfl⟩
  | cons z before ih =>
    cases asks with
    | nil => simp [converse] at h
    | cons a asks =>
      simp only [converse, List.cons_append, List.cons.injEq] at h
      exact ih (ask_follows hI hC fuel a rest hr).2 h.2

/-- A finished generator stays finished. -/
theorem converse_finished {m : σ → Step σ ρ} {who : σ → Option V} (fuel : Nat) (asks : List Ask) :
    ∀ x ∈ converse m who catches fuel asks .finished, x.2 = ([], .stopIteration) := by
  induction asks with
  | nil => intro x hx; simp [converse] at hx
  | cons a asks ih =>
    intro x hx
    rw [converse] at hx
    rcases List.mem_cons.1 hx with rfl | hx
    · cases a <;> rfl
    · refine ih x ?_
      cases a <;> exact hx

/-- Confirmed exactly at the reports of entered vertices. -/
theorem converse_skip {m : σ → Step σ ρ} {who : σ → Option V} {I : σ → Prop}
    (hI : ∀ s s', I s → (m s).next? = some s' → I s') (hC : ∀ s v s', I s → catches s = some (v, s') → I s')
    (vert : ρ → V) (event : ρ → DfsEvent)
    (hc : ∀ s0 r s, I s0 → m s0 = .emit r s → (IsEntering (event r) → ∃ s', catches s = some (vert r, s')) ∧
      (¬ IsEntering (event r) → catches s = none))
    {fuel : Nat} {asks : List Ask} {rest : Resting σ} (hr : rest.Has I) {before after : List (Ask × List V × Answer V ρ)}
    {a : Ask} {rd rd' : List V} {ans ans' : Answer V ρ}
    (h : converse m who catches fuel asks rest = before ++ (a, rd, ans) :: (.skip, rd', ans') :: after) :
    rd' = [] ∧ (∀ r, ans = .report r → IsEntering (event r) → ans' = .confirmed (vert r)) ∧
    ((∃ r, ans = .report r ∧ ¬ IsEntering (event r)) ∨ (∃ v, ans = .confirmed v) →
      ans' = .raised .runtimeError ∧ ∀ x ∈ after, x.2 = ([], .stopIteration)) := by
  obtain ⟨st, asks', h1, h2, h3, h4⟩ := converse_two hI hC hr h
  simp only at h1 h2 h3 h4
  refine ⟨?_, fun r hr hen => ?_, fun hbad => ?_⟩
  · rw [h2]
    cases st <;> simp only [ask]
    split <;> rfl
  · subst hr
    obtain ⟨lim, s, s0, rfl, i0, e⟩ := h1
    obtain ⟨s', hs'⟩ := (hc _ _ _ i0 e).1 hen
    rw [h3]
    simp only [ask, hs']
  · have key : (ask m who catches fuel .skip st).2 = (.raised .runtimeError, .finished) := by
      rcases hbad with ⟨r, rfl, hen⟩ | ⟨v, rfl⟩
      · obtain ⟨lim, s, s0, rfl, i0, e⟩ := h1
        simp only [ask, (hc _ _ _ i0 e).2 hen]
      · obtain ⟨lim, s, -, rfl, -⟩ := h1
        rfl
    rw [h3, h4, key]
    exact ⟨rfl, converse_finished fuel asks'⟩

/-- If all entered vertices are reported, the edges of a vertex are read directly after its report. -/
theorem resume_reads_nil {m : σ → Step σ ρ} {who : σ → Option V} (P : σ → Prop)
    (hP : ∀ s, P s → match m s with | .tau s' => P s' | .expand _ => False | _ => True) (fuel : Nat) :
    ∀ (lim : Option Int) (s : σ), P s → (resume m who fuel lim s).1 = [] := by
  induction fuel with
  | zero => intro lim s _; rfl
  | succ fuel ih =>
    intro lim s hs
    have := hP s hs
    rw [resume]
    cases e : m s <;> simp only [e] at this ⊢
    exact ih _ _ this

/-- What `next` reads: `P` says that nothing is read before the next report. -/
theorem converse_reads {m : σ → Step σ ρ} {who : σ → Option V} {I : σ → Prop}
    (hI : ∀ s s', I s → (m s).next? = some s' → I s') (hC : ∀ s v s', I s → catches s = some (v, s') → I s')
    (vert : ρ → V) (event : ρ → DfsEvent) (P : σ → Prop)
    (hP : ∀ s, P s → match m s with | .tau s' => P s' | .expand _ => False | _ => True)
    (hent : ∀ s0 r s, I s0 → m s0 = .emit r s → IsEntering (event r) → ∃ s', m s = .expand s' ∧ who s = some (vert r) ∧ P s')
    (hnot : ∀ s0 r s, I s0 → m s0 = .emit r s → ¬ IsEntering (event r) → P s)
    (hcat : ∀ s0 v s, catches s0 = some (v, s) → P s)
    {fuel : Nat} {asks : List Ask} {rest : Resting σ} (hr : rest.Has I) {before after : List (Ask × List V × Answer V ρ)}
    {a : Ask} {rd rd' : List V} {ans ans' : Answer V ρ}
    (h : converse m who catches fuel asks rest = before ++ (a, rd, ans) :: (.next, rd', ans') :: after) :
    (∀ r, ans = .report r → IsEntering (event r) →
      rd' = [vert r] ∨ rd' = [] ∧ (ans' = .raised .runtimeError ∨ ans' = .hangs)) ∧
    ((∃ r, ans = .report r ∧ ¬ IsEntering (event r)) ∨ (∃ v, ans = .confirmed v) → rd' = []) := by
  obtain ⟨st, asks', h1, h2, h3, -⟩ := converse_two hI hC hr h
  simp only at h1 h2 h3
  refine ⟨fun r hr hen => ?_, fun hbad => ?_⟩
  · subst hr
    obtain ⟨lim, s, s0, rfl, i0, e⟩ := h1
    obtain ⟨s', e', hw, hp⟩ := hent _ _ _ i0 e hen
    rw [h2, h3]
    simp only [ask]
    cases fuel with
    | zero => exact .inr ⟨rfl, .inr rfl⟩
    | succ fuel =>
      simp only [resume, e']
      cases checkLimit lim with
      | none => exact .inr ⟨rfl, .inl rfl⟩
      | some lim' =>
        left
        simp only [hw, Option.toList_some, resume_reads_nil P hP fuel lim' s' hp, List.append_nil]
  · rw [h2]
    rcases hbad with ⟨r, rfl, hen⟩ | ⟨v, rfl⟩
    · obtain ⟨lim, s, s0, rfl, i0, e⟩ := h1
      exact resume_reads_nil P hP fuel lim s (hnot _ _ _ i0 e hen)
    · obtain ⟨lim, s, s0, rfl, e⟩ := h1
      exact resume_reads_nil P hP fuel lim s (hcat _ _ _ e)

end generic

section dfs
variable {V K L S M ML : Type} [DecidableEq V] {g : TravGear V K L S M ML} {c : DfsCfg V K L}

theorem dfs_skipLaws : SkipLaws (fun skip => dfsStep g { c with skip := skip }) (fun skip => dfsWho { c with skip := skip })
    (fun s : DfsState V L S M ML => s.n) dfsCatches := by
  have henter : ∀ (sk : Nat → Bool) (s s' : DfsState V L S M ML) v,
      (dfsEnter { c with skip := sk } s v : Step _ (DfsReport V S M ML)).next? = some s' → s'.n = s.n := by
    intro sk s s' v e
    unfold dfsEnter at e
    by_cases h1 : some v = s.cur <;> cases h2 : c.reportStart <;> cases h3 : c.reportSucc <;>
      simp only [h1, h2, h3, if_true, if_false, Step.next?, Option.some.injEq, Bool.false_eq_true] at e <;> subst e <;> rfl
  refine ⟨fun sk sk' s h => ?_, fun sk s s' e => ?_, fun s v s' e sk hk => ?_⟩
  · constructor
    · unfold dfsStep
      split
      all_goals first | rfl | skip
      simp only [h]
    · unfold dfsWho
      split
      · simp only [h]
      · rfl
  · have hind : (∀ v rep, s.pc ≠ .entered v rep) → ∀ sk', dfsStep g { c with skip := sk' } s = dfsStep g { c with skip := sk } s ∧
        dfsWho { c with skip := sk' } s = dfsWho { c with skip := sk } s := by
      intro hp sk'
      constructor
      · unfold dfsStep
        split
        all_goals first | rfl | skip
        rename_i v rep hp'
        exact absurd hp' (hp v rep)
      · unfold dfsWho
        split
        · rename_i v rep hp'
          exact absurd hp' (hp v rep)
        · rfl
    cases hp : s.pc with
    | entered v rep =>
      left
      simp only [dfsStep, hp] at e
      split at e <;> simp only [Step.next?, Option.some.injEq] at e <;> subst e <;> rfl
    | start =>
      refine .inr ⟨?_, hind (by simp [hp])⟩
      simp only [dfsStep, hp] at e
      split at e <;> simp only [Step.next?, Option.some.injEq, reduceCtorEq] at e
      subst e; rfl
    | loop =>
      refine .inr ⟨?_, hind (by simp [hp])⟩
      have hpop : (dfsPop { c with skip := sk } s).n = s.n := by
        unfold dfsPop; split <;> rfl
      simp only [dfsStep, hp] at e
      split at e
      · simp only [Step.next?, Option.some.injEq] at e
        subst e; exact hpop
      · split at e
        · exact (henter _ _ _ _ e).trans hpop
        · split at e
          · simp only [Step.next?, Option.some.injEq] at e
            subst e; exact hpop
          · exact (henter _ _ _ _ e).trans hpop
    | edges v es =>
      refine .inr ⟨?_, hind (by simp [hp])⟩
      cases es with
      | nil =>
        simp only [dfsStep, hp, Step.next?, Option.some.injEq] at e
        subst e; rfl
      | cons x es =>
        simp only [dfsStep, hp] at e
        split at e <;> simp only [Step.next?, Option.some.injEq] at e <;> subst e <;> rfl
  · unfold dfsCatches at e
    split at e
    · rename_i v' hp
      simp only [Option.some.injEq, Prod.mk.injEq] at e
      obtain ⟨rfl, rfl⟩ := e
      simp [dfsStep, hp, hk]
    · simp at e

theorem dfs_emit_caught (s0 : DfsState V L S M ML) (r : DfsReport V S M ML)
    (s : DfsState V L S M ML) (h : dfsStep g c s0 = .emit r s) : ∃ s', dfsCatches s = some (r.vertex, s') := by
  have henter : ∀ (t : DfsState V L S M ML) v, dfsEnter c t v = .emit r s → ∃ s', dfsCatches s = some (r.vertex, s') := by
    intro t v e
    unfold dfsEnter at e
    by_cases h1 : some v = t.cur <;> cases h2 : c.reportStart <;> cases h3 : c.reportSucc <;>
      simp only [h1, h2, h3, if_true, if_false, Step.emit.injEq, Bool.false_eq_true, reduceCtorEq] at e <;>
      obtain ⟨rfl, rfl⟩ := e <;> exact ⟨_, rfl⟩
  cases hp : s0.pc with
  | start =>
    simp only [dfsStep, hp] at h
    split at h <;> simp at h
  | loop =>
    simp only [dfsStep, hp] at h
    split at h
    · simp at h
    · split at h
      · exact henter _ _ h
      · split at h
        · simp at h
        · exact henter _ _ h
  | entered v rep =>
    simp only [dfsStep, hp] at h
    split at h <;> contradiction
  | edges v es =>
    cases es with
    | nil => simp [dfsStep, hp] at h
    | cons x es =>
      simp only [dfsStep, hp] at h
      split at h <;> contradiction

/-- **C100 for depth-first search without trace: skipping in a conversation.** The reports and reads of a conversation are
those of a traversal where it is known in advance which vertices are not to be expanded. -/
theorem C100_dfs (already : S) (starts : List V) (limit : Option Int) (fuel : Nat) (asks : List Ask) :
    ∃ skip fuel', (dfsRun g { c with skip := skip } already starts limit fuel').reports =
        heardReports (dfsConverse g c already starts limit fuel asks) ∧
      Spec.readsOf (dfsActs g { c with skip := skip } already starts limit fuel') =
        heardReads (dfsConverse g c already starts limit fuel asks) :=
  converse_run (m := fun skip => dfsStep g { c with skip := skip }) (who := fun skip => dfsWho { c with skip := skip })
    dfs_skipLaws (fun r => r.vertex) (prepareLimit limit) (dfsInit g c already starts) fuel (.next :: asks)

/-- **C100 for depth-first search without trace: when skipping is possible.** Here, all reports are reports of entered
vertices. -/
theorem C100_dfs_skip (already : S) (starts : List V) (limit : Option Int) (fuel : Nat) (asks : List Ask)
    {before after : List (Ask × List V × Answer V (DfsReport V S M ML))} {a : Ask} {rd rd' : List V}
    {ans ans' : Answer V (DfsReport V S M ML)}
    (h : dfsConverse g c already starts limit fuel asks = before ++ (a, rd, ans) :: (.skip, rd', ans') :: after) :
    rd' = [] ∧ (∀ r, ans = .report r → ans' = .confirmed r.vertex) ∧
    (∀ v, ans = .confirmed v → ans' = .raised .runtimeError ∧ ∀ x ∈ after, x.2 = ([], .stopIteration)) := by
  obtain ⟨h1, h2, h3⟩ := converse_skip (I := fun _ => True) (fun _ _ _ _ => trivial) (fun _ _ _ _ _ => trivial)
    (fun r => r.vertex) (fun _ => .enteringStart)
    (fun s0 r s _ e => ⟨fun _ => dfs_emit_caught s0 r s e, fun h => absurd (.inl rfl) h⟩)
    (rest := .unguarded (prepareLimit limit) (dfsInit g c already starts)) trivial h
  exact ⟨h1, fun r hr => h2 r hr (.inl rfl), fun v hv => h3 (.inr ⟨v, hv⟩)⟩

/-- **C100 for depth-first search without trace: what is read.** -/
theorem C100_dfs_reads (hrep : c.reportStart = true ∧ c.reportSucc = true) (already : S) (starts : List V)
    (limit : Option Int) (fuel : Nat) (asks : List Ask)
    {before after : List (Ask × List V × Answer V (DfsReport V S M ML))} {a : Ask} {rd rd' : List V}
    {ans ans' : Answer V (DfsReport V S M ML)}
    (h : dfsConverse g c already starts limit fuel asks = before ++ (a, rd, ans) :: (.next, rd', ans') :: after) :
    (∀ r, ans = .report r → rd' = [r.vertex] ∨ rd' = [] ∧ (ans' = .raised .runtimeError ∨ ans' = .hangs)) ∧
    (∀ v, ans = .confirmed v → rd' = []) := by
  have henter : ∀ (t : DfsState V L S M ML) v, ∃ r s,
      dfsEnter { c with skip := fun _ => false } t v = .emit r s := by
    intro t v
    unfold dfsEnter
    by_cases h1 : some v = t.cur
    · simp only [if_pos h1, hrep.1, if_true]
      exact ⟨_, _, rfl⟩
    · simp only [if_neg h1, hrep.2, if_true]
      exact ⟨_, _, rfl⟩
  suffices key : (∀ r, ans = .report r → IsEntering .enteringStart →
      rd' = [r.vertex] ∨ rd' = [] ∧ (ans' = .raised .runtimeError ∨ ans' = .hangs)) ∧
      ((∃ r, ans = .report r ∧ ¬ IsEntering .enteringStart) ∨ (∃ v, ans = .confirmed v) → rd' = []) from
    ⟨fun r hr => key.1 r hr (.inl rfl), fun v hv => key.2 (.inr ⟨v, hv⟩)⟩
  refine converse_reads (I := fun _ => True) (fun _ _ _ _ => trivial) (fun _ _ _ _ _ => trivial)
    (fun r => r.vertex) (fun _ => .enteringStart) (fun s => ∀ v b, s.pc ≠ .entered v b) (fun s hs => ?_)
    (fun s0 r s _ e _ => ?_) (fun s0 r s _ e h => absurd (.inl rfl) h) (fun s0 v s e => ?_)
    (rest := .unguarded (prepareLimit limit) (dfsInit g c already starts)) trivial h
  · cases hp : s.pc with
    | start =>
      simp only [dfsStep, hp]
      cases s.starts with
      | nil => trivial
      | cons x xs => simp
    | loop =>
      simp only [dfsStep, hp]
      cases ht : (dfsPop { c with skip := fun _ => false } s).toVisit with
      | nil => simp
      | cons x xs =>
        simp only
        by_cases h1 : c.isTree = true
        · simp only [if_pos h1]
          obtain ⟨r, s', e⟩ := henter { dfsPop { c with skip := fun _ => false } s with toVisit := xs } x
          rw [e]
          trivial
        · simp only [if_neg h1]
          by_cases h2 : (g.so.checkAdd (dfsPop { c with skip := fun _ => false } s).visited (c.vid x)).1 = true
          · simp only [if_pos h2]
            unfold dfsPop
            split <;> simp [hp]
          · simp only [if_neg h2]
            obtain ⟨r, s', e⟩ := henter { dfsPop { c with skip := fun _ => false } s with
              toVisit := xs
              visited := (g.so.checkAdd (dfsPop { c with skip := fun _ => false } s).visited (c.vid x)).2 } x
            rw [e]
            trivial
    | entered v b => exact absurd hp (hs v b)
    | edges v es =>
      cases es with
      | nil => simp [dfsStep, hp]
      | cons x es =>
        simp only [dfsStep, hp]
        by_cases hx : ((!c.isTree || c.buildPaths) && g.so.contains s.visited (c.vid x.1)) = true
        · simp only [if_pos hx]
          simp
        · simp only [if_neg hx]
          simp
  · obtain ⟨s', e'⟩ := dfs_emit_caught s0 r s e
    unfold dfsCatches at e'
    split at e'
    · rename_i v hp
      simp only [Option.some.injEq, Prod.mk.injEq] at e'
      obtain ⟨rfl, rfl⟩ := e'
      exact ⟨_, by simp only [dfsStep, hp, Bool.and_false]; rfl, by simp [dfsWho, hp], by simp⟩
    · simp at e'
  · unfold dfsCatches at e
    split at e
    · simp only [Option.some.injEq, Prod.mk.injEq] at e
      obtain ⟨rfl, rfl⟩ := e
      simp
    · simp at e

end dfs

section trace
variable {V K L S M ML : Type} [DecidableEq V] [DecidableEq K] {g : TravGear V K L S M ML} {c : TraceCfg V K L}

/-- Between two reports of leaving a vertex, the event is not one of entering a vertex. -/
def LeaveInv (s : TraceState V K L S M ML) : Prop :=
  match s.pc with
  | .loop false => ¬ IsEntering s.event
  | .leave _ _ false => ¬ IsEntering s.event
  | _ => True

/-- What a step does that does not begin with an entered vertex: the counter of entered vertices stays the same, and a report
is one of an entered vertex if and only if the generator catches `StopIteration`. `rep`: each entered vertex is reported. -/
def Plain (rep : Bool) (k : Nat) (t : Step (TraceState V K L S M ML) (TraceReport V K L S M ML)) : Prop :=
  match t with
  | .tau s' => s'.n = k ∧ LeaveInv s' ∧ (rep = true → ∀ v b, s'.pc ≠ .entered v b)
  | .emit r s' => s'.n = k ∧ LeaveInv s' ∧ (IsEntering r.event → s'.pc = .entered r.vertex true) ∧
      (¬ IsEntering r.event → ∀ v b, s'.pc ≠ .entered v b)
  | .expand _ => False
  | _ => True

theorem Plain.next {rep : Bool} {k : Nat} {t : Step (TraceState V K L S M ML) (TraceReport V K L S M ML)} (h : Plain rep k t)
    {s' : TraceState V K L S M ML} (e : t.next? = some s') : s'.n = k ∧ LeaveInv s' := by
  cases t with
  | tau s => simp only [Step.next?, Option.some.injEq] at e; subst e; exact ⟨h.1, h.2.1⟩
  | emit r s => simp only [Step.next?, Option.some.injEq] at e; subst e; exact ⟨h.1, h.2.1⟩
  | expand s => exact absurd h (by simp [Plain])
  | stop s => simp [Step.next?] at e
  | fail s => simp [Step.next?] at e

/-- Each entered vertex is reported. -/
def TraceCfg.reportsEntered (c : TraceCfg V K L) : Bool := c.report .enteringStart && c.report .enteringSuccessor

theorem trEnter_plain (s : TraceState V K L S M ML) (v : V) : Plain c.reportsEntered s.n (trEnter g c s v) := by
  unfold trEnter
  split
  · trivial
  · have hen : ∀ b : Bool, IsEntering (if b then DfsEvent.enteringStart else .enteringSuccessor) := by
      intro b; cases b
      · exact .inr rfl
      · exact .inl rfl
    generalize he : (if some v = s.cur then DfsEvent.enteringStart else .enteringSuccessor) = event
    have he' : IsEntering event := by
      rw [← he]
      have := hen (decide (some v = s.cur))
      simpa using this
    cases hrep : c.report event with
    | false =>
      simp only [hrep]
      refine ⟨rfl, trivial, fun h => ?_⟩
      exfalso
      simp only [TraceCfg.reportsEntered, Bool.and_eq_true] at h
      rcases he' with rfl | rfl
      · rw [h.1] at hrep; simp at hrep
      · rw [h.2] at hrep; simp at hrep
    | true =>
      simp only [hrep]
      exact ⟨rfl, trivial, fun _ => rfl, fun h => absurd he' h⟩

theorem trShowEdge_plain (s : TraceState V K L S M ML) (v : V) (event : DfsEvent) (he : ¬ IsEntering event) (rep : Bool) :
    Plain rep s.n (trShowEdge c s v event) := by
  unfold trShowEdge
  split
  · split
    · trivial
    · exact ⟨rfl, trivial, fun h => absurd h he, fun _ => by simp⟩
  · exact ⟨rfl, trivial, fun _ => by simp⟩

theorem trRevisit_plain (s : TraceState V K L S M ML) (v : V) (event : DfsEvent) (he : ¬ IsEntering event) (rep : Bool) :
    Plain rep s.n (trRevisit g c s v event) := by
  unfold trRevisit
  split
  · exact trShowEdge_plain _ _ _ (by decide) _
  · split
    · simp only
      split
      · trivial
      · rename_i event' hb
        have he' : ¬ IsEntering event' := by
          split at hb
          · split at hb
            · simp at hb
            · simp only [Option.some.injEq] at hb
              rw [← hb]
              split
              · decide
              · exact he
          · simp only [Option.some.injEq] at hb
            exact hb ▸ he
        split
        · split
          · trivial
          · refine trShowEdge_plain _ _ _ ?_ _
            split <;> split <;> decide
        · exact trShowEdge_plain _ _ _ he' _
    · exact ⟨rfl, trivial, fun _ => by simp⟩

theorem trTry_plain (s : TraceState V K L S M ML) (v : V) : Plain c.reportsEntered s.n (trTry g c s v) := by
  unfold trTry
  split
  · exact trEnter_plain _ _
  · split
    · exact trEnter_plain _ _
    · simp only
      split
      · split
        · split
          · exact ⟨rfl, trivial, fun h => absurd h (by unfold IsEntering; simp), fun _ => by simp⟩
          · exact ⟨rfl, trivial, fun _ => by simp⟩
        · exact trRevisit_plain _ _ _ (by decide) _
      · exact trEnter_plain _ _
    · simp only
      split
      · refine trRevisit_plain _ _ _ ?_ _
        split <;> decide
      · exact trEnter_plain _ _

theorem trPop_plain (s : TraceState V K L S M ML) : Plain c.reportsEntered s.n (trPop g c s) := by
  unfold trPop
  split
  · trivial
  · split
    · split
      · trivial
      · exact trTry_plain _ _
    · exact trTry_plain _ _

theorem trStep_plain (s : TraceState V K L S M ML) (hp : ∀ v rep, s.pc ≠ .entered v rep) (hl : LeaveInv s) :
    Plain c.reportsEntered s.n (trStep g c s) := by
  cases hpc : s.pc with
  | start =>
    simp only [trStep, hpc]
    split
    · trivial
    · exact ⟨rfl, trivial, fun _ => by simp⟩
  | loop nl =>
    simp only [trStep, hpc]
    split
    · exact ⟨rfl, trivial, fun _ => by simp⟩
    · exact trPop_plain _
    · split
      · trivial
      · have hl' : nl = false → ¬ IsEntering s.event := by
          rintro rfl
          simpa only [LeaveInv, hpc] using hl
        split
        · split
          · have : ¬ IsEntering (if nl then DfsEvent.leavingSuccessor else s.event) := by
              cases nl with
              | true => simp [IsEntering]
              | false => exact hl' rfl
            exact ⟨rfl, this, fun h => absurd h this, fun _ => by simp⟩
          · refine ⟨rfl, ?_, fun _ => by simp⟩
            cases nl with
            | true => trivial
            | false => exact hl' rfl
        · split
          · refine ⟨rfl, ?_, fun h => absurd h (by unfold IsEntering; simp), fun _ => by simp⟩
            cases nl with
            | true => trivial
            | false =>
              simp only [LeaveInv]
              decide
          · refine ⟨rfl, ?_, fun _ => by simp⟩
            cases nl with
            | true => trivial
            | false => exact hl' rfl
  | leave v last nl =>
    simp only [trStep, hpc]
    split
    · trivial
    · split
      · trivial
      · refine ⟨rfl, ?_, fun _ => by simp⟩
        cases nl with
        | true => trivial
        | false => simpa only [LeaveInv, hpc] using hl
  | startShown =>
    simp only [trStep, hpc]
    exact ⟨rfl, trivial, fun _ => by simp⟩
  | edgeShown =>
    simp only [trStep, hpc]
    exact ⟨rfl, trivial, fun _ => by simp⟩
  | entered v rep => exact absurd hpc (hp v rep)
  | edges v es =>
    cases es with
    | nil =>
      simp only [trStep, hpc]
      exact ⟨rfl, trivial, fun _ => by simp⟩
    | cons e es =>
      simp only [trStep, hpc]
      exact ⟨rfl, trivial, fun _ => by simp⟩

theorem trStep_n (s s' : TraceState V K L S M ML) (hp : ∀ v rep, s.pc ≠ .entered v rep)
    (e : (trStep g c s).next? = some s') : s'.n = s.n := by
  cases hpc : s.pc with
  | loop nl =>
    simp only [trStep, hpc] at e
    split at e
    · simp only [Step.next?, Option.some.injEq] at e; subst e; rfl
    · exact ((trPop_plain _).next e).1
    · split at e
      · simp [Step.next?] at e
      · split at e
        · split at e <;> simp only [TraceState.yield, Step.next?, Option.some.injEq] at e <;> subst e <;> rfl
        · split at e <;> simp only [TraceState.yield, Step.next?, Option.some.injEq] at e <;> subst e <;> rfl
  | leave v last nl =>
    simp only [trStep, hpc] at e
    split at e
    · simp [Step.next?] at e
    · split at e
      · simp [Step.next?] at e
      · simp only [Step.next?, Option.some.injEq] at e; subst e; rfl
  | _ => exact ((trStep_plain s hp (by simp [LeaveInv, hpc])).next e).1

theorem trStep_skip_indep (sk sk' : Nat → Bool) (s : TraceState V K L S M ML) (hp : ∀ v rep, s.pc ≠ .entered v rep) :
    trStep g { c with skip := sk' } s = trStep g { c with skip := sk } s ∧
      trWho { c with skip := sk' } s = trWho { c with skip := sk } s := by
  constructor
  · unfold trStep
    split
    all_goals first | rfl | skip
    rename_i v rep hp'
    exact absurd hp' (hp v rep)
  · unfold trWho
    split
    · rename_i v rep hp'
      exact absurd hp' (hp v rep)
    · rfl

theorem tr_skipLaws : SkipLaws (fun skip => trStep g { c with skip := skip }) (fun skip => trWho { c with skip := skip })
    (fun s : TraceState V K L S M ML => s.n) trCatches := by
  refine ⟨fun sk sk' s h => ?_, fun sk s s' e => ?_, fun s v s' e sk hk => ?_⟩
  · by_cases hp : ∀ v rep, s.pc ≠ .entered v rep
    · exact trStep_skip_indep _ _ s hp
    · simp only [not_forall, not_not] at hp
      obtain ⟨v, rep, hp⟩ := hp
      simp only [trStep, trWho, hp, h]
      exact ⟨trivial, trivial⟩
  · by_cases hp : ∀ v rep, s.pc ≠ .entered v rep
    · exact .inr ⟨trStep_n s s' hp e, fun sk' => trStep_skip_indep _ _ s hp⟩
    · simp only [not_forall, not_not] at hp
      obtain ⟨v, rep, hp⟩ := hp
      left
      simp only [trStep, hp] at e
      split at e <;> simp only [Step.next?, Option.some.injEq] at e <;> subst e <;> rfl
  · unfold trCatches at e
    split at e
    · rename_i v' hp
      simp only [Option.some.injEq, Prod.mk.injEq] at e
      obtain ⟨rfl, rfl⟩ := e
      simp [trStep, hp, hk]
    · simp at e

/-- **C100 for depth-first search with trace: skipping in a conversation.** (Compare `C100_dfs`.) -/
theorem C100_dfs_trace (already : S) (starts : List V) (limit : Option Int) (fuel : Nat) (asks : List Ask) :
    ∃ skip fuel', (trRun g { c with skip := skip } already starts limit fuel').reports =
        heardReports (trConverse g c already starts limit fuel asks) ∧
      Spec.readsOf (trActs g { c with skip := skip } already starts limit fuel') =
        heardReads (trConverse g c already starts limit fuel asks) :=
  converse_run (m := fun skip => trStep g { c with skip := skip }) (who := fun skip => trWho { c with skip := skip })
    tr_skipLaws (fun r => r.vertex) (prepareLimit limit) (trInit g already starts) fuel (.next :: asks)

/-- The invariant is preserved. -/
theorem leaveInv_step (s s' : TraceState V K L S M ML) (h : LeaveInv s) (e : (trStep g c s).next? = some s') : LeaveInv s' := by
  by_cases hp : ∀ v rep, s.pc ≠ .entered v rep
  · exact ((trStep_plain s hp h).next e).2
  · simp only [not_forall, not_not] at hp
    obtain ⟨v, rep, hp⟩ := hp
    simp only [trStep, hp] at e
    split at e <;> simp only [Step.next?, Option.some.injEq] at e <;> subst e <;> trivial

theorem leaveInv_catches (s : TraceState V K L S M ML) (v : V) (s' : TraceState V K L S M ML) (h : LeaveInv s)
    (e : trCatches s = some (v, s')) : LeaveInv s' := by
  unfold trCatches at e
  split at e
  · simp only [Option.some.injEq, Prod.mk.injEq] at e
    obtain ⟨rfl, rfl⟩ := e
    trivial
  · simp at e

/-- A report of an entered vertex, or not. -/
theorem tr_emit (s0 : TraceState V K L S M ML) (r : TraceReport V K L S M ML) (s : TraceState V K L S M ML) (h : LeaveInv s0)
    (e : trStep g c s0 = .emit r s) :
    (IsEntering r.event → s.pc = .entered r.vertex true) ∧ (¬ IsEntering r.event → ∀ v b, s.pc ≠ .entered v b) := by
  by_cases hp : ∀ v rep, s0.pc ≠ .entered v rep
  · have := trStep_plain (g := g) (c := c) s0 hp h
    rw [e] at this
    exact this.2.2
  · simp only [not_forall, not_not] at hp
    obtain ⟨v, rep, hp⟩ := hp
    simp only [trStep, hp] at e
    split at e <;> contradiction

/-- **C100 for depth-first search with trace: when skipping is possible.** A call of `skip_expanding_entered_vertex` after the
report of an entered vertex is confirmed, and the vertex is returned. After the report of another event, or after a
confirmation, it raises a `RuntimeError`, and the traversal is over. No edges are read. -/
theorem C100_dfs_trace_skip (already : S) (starts : List V) (limit : Option Int) (fuel : Nat) (asks : List Ask)
    {before after : List (Ask × List V × Answer V (TraceReport V K L S M ML))} {a : Ask} {rd rd' : List V}
    {ans ans' : Answer V (TraceReport V K L S M ML)}
    (h : trConverse g c already starts limit fuel asks = before ++ (a, rd, ans) :: (.skip, rd', ans') :: after) :
    rd' = [] ∧ (∀ r, ans = .report r → IsEntering r.event → ans' = .confirmed r.vertex) ∧
    ((∃ r, ans = .report r ∧ ¬ IsEntering r.event) ∨ (∃ v, ans = .confirmed v) →
      ans' = .raised .runtimeError ∧ ∀ x ∈ after, x.2 = ([], .stopIteration)) := by
  refine converse_skip (I := LeaveInv) leaveInv_step leaveInv_catches (fun r => r.vertex) (fun r => r.event) ?_
    (rest := .unguarded (prepareLimit limit) (trInit g already starts)) trivial h
  intro s0 r s hi e
  obtain ⟨h1, h2⟩ := tr_emit s0 r s hi e
  refine ⟨fun hen => ?_, fun hen => ?_⟩
  · simp only [trCatches, h1 hen]
    exact ⟨_, rfl⟩
  · have := h2 hen
    unfold trCatches
    split
    · rename_i v hp
      exact absurd hp (this v true)
    · rfl

/-- **C100 for depth-first search with trace: what is read.** If entered vertices are reported, a call of `next` reads the edges
of the vertex that has just been reported as entered (if the calculation limit is not reached), and nothing else; after a
confirmed skip, or another event, it reads nothing. -/
theorem C100_dfs_trace_reads (hrep : c.report .enteringStart = true ∧ c.report .enteringSuccessor = true) (already : S)
    (starts : List V) (limit : Option Int) (fuel : Nat) (asks : List Ask)
    {before after : List (Ask × List V × Answer V (TraceReport V K L S M ML))} {a : Ask} {rd rd' : List V}
    {ans ans' : Answer V (TraceReport V K L S M ML)}
    (h : trConverse g c already starts limit fuel asks = before ++ (a, rd, ans) :: (.next, rd', ans') :: after) :
    (∀ r, ans = .report r → IsEntering r.event →
      rd' = [r.vertex] ∨ rd' = [] ∧ (ans' = .raised .runtimeError ∨ ans' = .hangs)) ∧
    ((∃ r, ans = .report r ∧ ¬ IsEntering r.event) ∨ (∃ v, ans = .confirmed v) → rd' = []) := by
  have hr : c.reportsEntered = true := by simp [TraceCfg.reportsEntered, hrep]
  refine converse_reads (I := LeaveInv) leaveInv_step leaveInv_catches (fun r => r.vertex) (fun r => r.event)
    (fun s => LeaveInv s ∧ ∀ v b, s.pc ≠ .entered v b) ?_ ?_ ?_ ?_
    (rest := .unguarded (prepareLimit limit) (trInit g already starts)) trivial h
  · rintro s ⟨h1, h2⟩
    have := trStep_plain (g := g) (c := { c with skip := fun _ => false }) s h2 h1
    revert this
    cases e : trStep g { c with skip := fun _ => false } s <;> intro this
    · trivial
    · trivial
    · exact ⟨this.2.1, this.2.2 hr⟩
    · trivial
    · exact this
  · intro s0 r s hi e hen
    have hp := (tr_emit s0 r s hi e).1 hen
    exact ⟨{ s with pc := .edges r.vertex (c.next r.vertex), n := s.n + 1 }, by simp [trStep, hp], by simp [trWho, hp],
      trivial, by simp⟩
  · intro s0 r s hi e hen
    exact ⟨leaveInv_step _ _ hi (by rw [e]; rfl), (tr_emit s0 r s hi e).2 hen⟩
  · intro s0 v s e
    unfold trCatches at e
    split at e
    · simp only [Option.some.injEq, Prod.mk.injEq] at e
      obtain ⟨rfl, rfl⟩ := e
      exact ⟨trivial, by simp⟩
    · simp at e

end trace

/-! ## Non-vacuity -/

/-- What is read and answered. -/
def heard {V ρ : Type} (vert : ρ → V) (x : Ask × List V × Answer V ρ) : List V × Answer V V :=
  (x.2.1, match x.2.2 with
    | .report r => .report (vert r)
    | .confirmed v => .confirmed v
    | .stopIteration => .stopIteration
    | .raised e => .raised e
    | .hangs => .hangs)

/-- Vertex 1 is not expanded, so vertex 3 is found later; a second call at the same vertex raises the exception. -/
example : (dfsConverse exHash (exDfs true true) [] [0] none 100 [.next, .next]).map (heard (fun r => r.vertex)) =
      [([], .report 0), ([0], .report 1), ([1], .report 3)] ∧
    (dfsConverse exHash (exDfs true true) [] [0] none 100 [.next, .skip, .next, .next, .skip, .skip, .next]).map
        (heard (fun r => r.vertex)) =
      [([], .report 0), ([0], .report 1), ([], .confirmed 1), ([], .report 2), ([2], .report 3), ([], .confirmed 3),
        ([], .raised .runtimeError), ([], .stopIteration)] := by
  constructor <;> decide +kernel

/-- Mode `ALL_PATHS`: skip the expansion of vertex 3; a call when it has been left raises the exception. -/
example : (exTraceCfg ⟨exNext, id, false, true⟩ (exOptions .allPaths exInOut)).reportsEntered = true ∧
    (trConverse exHash (exTraceCfg ⟨exNext, id, false, true⟩ (exOptions .allPaths exInOut)) exHash.so.empty [0] none 100
        [.next, .next, .skip, .next, .next, .skip, .next]).map (heard (fun r => r.vertex)) =
      [([], .report 0), ([0], .report 1), ([1], .report 3), ([], .confirmed 3), ([], .report 3), ([], .report 1),
        ([], .raised .runtimeError), ([], .stopIteration)] := by
  constructor <;> decide +kernel

end NoGraphs
