import Mathlib.Tactic.SplitIfs
import Verif.Model.StartSource
import Verif.Proofs.Machine

/-! # Start vertices from a generator: the run is that for the list of the start vertices it returned -/

set_option linter.unusedSectionVars false

namespace NoGraphs

variable {σ σ' ρ V E C : Type}

/-- Change the state of a step. -/
def Step.map (f : σ → σ') : Step σ ρ → Step σ' ρ
  | .stop s => .stop (f s)
  | .fail e => .fail e
  | .tau s => .tau (f s)
  | .emit r s => .emit r (f s)
  | .expand s => .expand (f s)

/-- A strategy looks at its start vertices only at the head of its loop over them, and there it takes the first one. -/
structure TakesStarts (m : σ → Step σ ρ) (lp : StartLoop σ V) : Prop where
  put_put : ∀ s vs vs', lp.put (lp.put s vs) vs' = lp.put s vs'
  asks_put : ∀ s vs, lp.asks (lp.put s vs) = lp.asks s
  nil : ∀ s, lp.asks s = true → ∃ s', m (lp.put s []) = .stop (lp.put s' [])
  cons : ∀ s, lp.asks s = true → ∀ v, ∃ s', ∀ vs, m (lp.put s (v :: vs)) = .tau (lp.put s' vs)
  other : ∀ s, lp.asks s = false → ∀ vs, m (lp.put s vs) = (m s).map (fun s => lp.put s vs)

variable {m : σ → Step σ ρ} {lp : StartLoop σ V} {G : Nat → σ → Option V}

theorem TakesStarts.other_mem (h : TakesStarts m lp) {s : σ} (hs : lp.put s [] = s) (ha : lp.asks s = false) :
    (m s).map (fun s => lp.put s []) = m s := by
  rw [← h.other s ha, hs]

/-- The run with a source is the run with the list of the start vertices that the source returned. -/
theorem source_run (h : TakesStarts m lp) (fuel : Nat) (lim : Option Int) (s : σ) (n : Nat) (past : List (Ev ρ))
    (hs : lp.put s [] = s) :
    (runMachine (sourceStep m lp G) fuel lim (s, n)).events =
      (runMachine m fuel lim (lp.put s (gotOf (demands m lp G fuel lim (s, n) past)))).events ∧
    (runMachine (sourceStep m lp G) fuel lim (s, n)).ending =
      (runMachine m fuel lim (lp.put s (gotOf (demands m lp G fuel lim (s, n) past)))).ending ∧
    (runMachine (sourceStep m lp G) fuel lim (s, n)).final.1 =
      (runMachine m fuel lim (lp.put s (gotOf (demands m lp G fuel lim (s, n) past)))).final := by
  induction fuel generalizing lim s n past with
  | zero => exact ⟨rfl, rfl, hs.symm⟩
  | succ fuel ih =>
    rcases ha : lp.asks s with _ | _
    · have ho := h.other s ha
      have hm := h.other_mem hs ha
      unfold demands
      unfold runMachine
      simp only [sourceStep, ha, Bool.false_eq_true, if_false, List.nil_append]
      rcases e : m s with s' | er | s' | ⟨r, s'⟩ | s' <;> simp only [e, Step.map] at ho hm ⊢ <;> simp only [ho]
      · simp only [Step.stop.injEq] at hm
        exact ⟨trivial, trivial, by simpa [gotOf] using hm.symm⟩
      · exact ⟨trivial, trivial, by simpa [gotOf] using hs.symm⟩
      · simp only [Step.tau.injEq] at hm
        exact ih lim s' n past hm
      · simp only [Step.emit.injEq, true_and] at hm
        obtain ⟨h1, h2, h3⟩ := ih lim s' n (past ++ [.rep r]) hm
        exact ⟨by rw [h1], h2, h3⟩
      · simp only [Step.expand.injEq] at hm
        rcases hl : checkLimit lim with _ | lim'
        · exact ⟨rfl, rfl, by simpa [gotOf] using hs.symm⟩
        · obtain ⟨h1, h2, h3⟩ := ih lim' s' n (past ++ [.exp]) hm
          exact ⟨by simp only [h1], h2, h3⟩
    · rcases hG : G n s with _ | v
      · obtain ⟨s', e⟩ := h.nil s ha
        unfold demands
        unfold runMachine
        simp only [sourceStep, ha, if_true, hG, Option.toList_none, e, gotOf, List.append_nil, List.filterMap_cons,
          List.filterMap_nil]
        exact ⟨trivial, trivial, trivial⟩
      · obtain ⟨s', e⟩ := h.cons s ha v
        have hg : gotOf (demands m lp G (fuel + 1) lim (s, n) past) =
            v :: gotOf (demands m lp G fuel lim (lp.put s' [], n + 1) past) := by
          rw [demands]
          simp only [sourceStep, ha, if_true, hG, Option.toList_some, e, gotOf, List.cons_append, List.nil_append,
            List.filterMap_cons]
        rw [hg]
        unfold runMachine
        simp only [sourceStep, ha, if_true, hG, Option.toList_some, e]
        have := ih lim (lp.put s' []) (n + 1) past (h.put_put _ _ _)
        rw [h.put_put] at this
        exact this

/-- When the source is asked, the run with the list of the start vertices returned before is complete: it has the same
history, and it stops in the state that the source sees. -/
theorem source_moment (h : TakesStarts m lp) (fuel : Nat) (lim : Option Int) (s : σ) (n : Nat) (past : List (Ev ρ))
    (hs : lp.put s [] = s) (A B : List (Demand σ ρ V)) (d : Demand σ ρ V)
    (hd : demands m lp G fuel lim (s, n) past = A ++ d :: B) :
    past ++ (runMachine m fuel lim (lp.put s (gotOf A))).events = d.past ∧
    (runMachine m fuel lim (lp.put s (gotOf A))).ending = .done ∧
    m d.seen = .stop (runMachine m fuel lim (lp.put s (gotOf A))).final ∧ lp.asks d.seen = true ∧
    d.got = G (n + A.length) d.seen ∧ A.length = (gotOf A).length := by
  induction fuel generalizing lim s n past A with
  | zero => simp [demands] at hd
  | succ fuel ih =>
    rcases ha : lp.asks s with _ | _
    · have ho := h.other s ha (gotOf A)
      have hm := h.other_mem hs ha
      unfold demands at hd
      unfold runMachine
      simp only [sourceStep, ha, Bool.false_eq_true, if_false, List.nil_append] at hd ⊢
      rcases e : m s with s' | er | s' | ⟨r, s'⟩ | s' <;> simp only [e, Step.map] at ho hm hd <;> simp only [ho]
      · simp at hd
      · simp at hd
      · simp only [Step.tau.injEq] at hm
        exact ih lim s' n past hm A hd
      · simp only [Step.emit.injEq, true_and] at hm
        obtain ⟨h1, h2⟩ := ih lim s' n (past ++ [.rep r]) hm A hd
        exact ⟨by rw [← h1]; simp, h2⟩
      · simp only [Step.expand.injEq] at hm
        rcases hl : checkLimit lim with _ | lim'
        · simp [hl] at hd
        · simp only [hl] at hd
          obtain ⟨h1, h2⟩ := ih lim' s' n (past ++ [.exp]) hm A hd
          exact ⟨by rw [← h1]; simp, h2⟩
    · unfold demands at hd
      simp only [sourceStep, ha, if_true, List.cons_append, List.nil_append] at hd
      rcases A with _ | ⟨a, A⟩
      · simp only [List.nil_append, List.cons.injEq] at hd
        obtain ⟨rfl, -⟩ := hd
        obtain ⟨s', e⟩ := h.nil s ha
        rw [hs] at e
        simp only [gotOf, List.filterMap_nil, hs]
        unfold runMachine
        simp only [e]
        simp [ha]
      · simp only [List.cons_append, List.cons.injEq] at hd
        obtain ⟨rfl, hd⟩ := hd
        rcases hG : G n s with _ | v
        · obtain ⟨s', e⟩ := h.nil s ha
          simp [hG, e] at hd
        · obtain ⟨s', e⟩ := h.cons s ha v
          simp only [hG, Option.toList_some, e] at hd
          have h1 := ih lim (lp.put s' []) (n + 1) past (h.put_put _ _ _) A hd
          rw [h.put_put] at h1
          have hg : gotOf ((⟨past, s, some v⟩ : Demand σ ρ V) :: A) = v :: gotOf A := rfl
          rw [hg]
          unfold runMachine
          simp only [e]
          obtain ⟨k1, k2, k3, k4, k5, k6⟩ := h1
          refine ⟨k1, k2, k3, k4, ?_, by simp [k6]⟩
          rw [k5]
          simp only [List.length_cons]
          congr 1
          omega

/-- The past of a demand is the beginning of the history of the run. -/
theorem demand_past (fuel : Nat) (lim : Option Int) (x : σ × Nat) (past : List (Ev ρ)) :
    ∀ d ∈ demands m lp G fuel lim x past, d.past <+: past ++ (runMachine (sourceStep m lp G) fuel lim x).events := by
  induction fuel generalizing lim x past with
  | zero => simp [demands]
  | succ fuel ih =>
    intro d hd
    unfold demands at hd
    rcases List.mem_append.1 hd with hd | hd
    · split at hd
      · simp only [List.mem_singleton] at hd
        subst hd
        exact List.prefix_append _ _
      · simp at hd
    · unfold runMachine
      rcases e : sourceStep m lp G x with y | er | y | ⟨r, y⟩ | y <;> simp only [e] at hd ⊢
      · simp at hd
      · simp at hd
      · exact ih lim y past d hd
      · have := ih lim y (past ++ [.rep r]) d hd
        rwa [List.append_assoc] at this
      · rcases hl : checkLimit lim with _ | lim' <;> simp only [hl] at hd ⊢
        · simp at hd
        · have := ih lim' y (past ++ [.exp]) d hd
          rwa [List.append_assoc] at this

/-- In a search-aware graph, start vertices are taken in the same way. -/
theorem TakesStarts.aware {m : (V → List E) → σ → Step σ ρ} {view : σ → V → C} {F : Nat → C → List E}
    (h : ∀ next, TakesStarts (m next) lp) (hv : ∀ s vs, view (lp.put s vs) = view s) :
    TakesStarts (awareStep m view F) lp.aware := by
  have h0 := h (fun _ => [])
  refine ⟨fun s vs vs' => ?_, fun s vs => h0.asks_put _ _, fun s ha => ?_, fun s ha v => ?_, fun s ha vs => ?_⟩
  · simp [StartLoop.aware, h0.put_put]
  · obtain ⟨s', e⟩ := (h (fun v => F s.2 (view s.1 v))).nil s.1 ha
    exact ⟨(s', s.2), by simp [awareStep, StartLoop.aware, hv, e]⟩
  · obtain ⟨s', e⟩ := (h (fun v => F s.2 (view s.1 v))).cons s.1 ha v
    exact ⟨(s', s.2), fun vs => by simp [awareStep, StartLoop.aware, hv, e]⟩
  · have e := (h (fun v => F s.2 (view s.1 v))).other s.1 ha vs
    simp only [awareStep, StartLoop.aware, hv, e]
    rcases m (fun v => F s.2 (view s.1 v)) s.1 with s' | er | s' | ⟨r, s'⟩ | s' <;> rfl

section
variable {K L S M ML : Type} [DecidableEq V] {g : TravGear V K L S M ML}

theorem dfs_takesStarts (c : DfsCfg V K L) : TakesStarts (dfsStep g c) dfsLoop := by
  refine ⟨fun _ _ _ => rfl, fun _ _ => rfl, fun s ha => ?_, fun s ha v => ?_, fun s ha vs => ?_⟩
  · rcases hpc : s.pc with _ | _ | ⟨v, rep⟩ | ⟨v, es⟩ <;> simp [dfsLoop, hpc] at ha
    exact ⟨{ s with selfDepth := -1 }, by simp [dfsStep, dfsLoop, hpc]⟩
  · rcases hpc : s.pc with _ | _ | ⟨v, rep⟩ | ⟨v, es⟩ <;> simp [dfsLoop, hpc] at ha
    exact ⟨{ s with
        pc := .loop, cur := some v, toVisit := v :: s.toVisit
        markers := if c.computeDepth then false :: s.markers else s.markers
        preds := if c.buildPaths then setStart g s.preds (c.vid v) v else s.preds },
      fun vs => by simp [dfsStep, dfsLoop, hpc]⟩
  · obtain ⟨pc, starts, cur, tv, mk, d, sd, n, ev, vis, pr, lb⟩ := s
    rcases pc with _ | _ | ⟨v, rep⟩ | ⟨v, _ | ⟨e, es⟩⟩
    · simp [dfsLoop] at ha
    · have hE : ∀ (t t' : DfsState V L S M ML) v, t' = { t with starts := vs } → dfsEnter c t' v =
          (dfsEnter c t v).map (fun s => { s with starts := vs }) := by
        rintro t _ v rfl
        unfold dfsEnter
        simp only
        split_ifs <;> rfl
      rcases hcd : c.computeDepth with _ | _ <;> rcases tv with _ | ⟨v, tv⟩ <;>
        simp only [dfsStep, dfsLoop, dfsPop, hcd, Bool.false_eq_true, if_false, if_true]
      · rfl
      · split_ifs
        · exact hE _ _ _ rfl
        · rfl
        · exact hE _ _ _ rfl
      · rfl
      · split_ifs
        · exact hE _ _ _ rfl
        · rfl
        · exact hE _ _ _ rfl
    · by_cases hb : (rep && c.skip n) = true <;> simp only [dfsStep, dfsLoop, hb] <;> rfl
    · rfl
    · by_cases hb : ((!c.isTree || c.buildPaths) && g.so.contains vis (c.vid e.1)) = true <;>
        simp only [dfsStep, dfsLoop, hb] <;> rfl

variable [DecidableEq K]

theorem tr_takesStarts (c : TraceCfg V K L) : TakesStarts (trStep g c) trLoop := by
  refine ⟨fun _ _ _ => rfl, fun _ _ => rfl, fun s ha => ?_, fun s ha v => ?_, fun s ha vs => ?_⟩
  · rcases hpc : s.pc with _ | nl | ⟨v, last, nl⟩ | _ | _ | ⟨v, rep⟩ | ⟨v, es⟩ <;> simp [trLoop, hpc] at ha
    exact ⟨s, by simp [trStep, trLoop, hpc]⟩
  · rcases hpc : s.pc with _ | nl | ⟨v, last, nl⟩ | _ | _ | ⟨v, rep⟩ | ⟨v, es⟩ <;> simp [trLoop, hpc] at ha
    exact ⟨{ s with pc := .loop true, cur := some v, toVisit := v :: s.toVisit, markers := false :: s.markers },
      fun vs => by simp [trStep, trLoop, hpc]⟩
  · have hE : ∀ (t t' : TraceState V K L S M ML) v, t' = { t with starts := vs } → trEnter g c t' v =
        (trEnter g c t v).map (fun s => { s with starts := vs }) := by
      rintro t _ v rfl
      unfold trEnter
      simp only
      split_ifs <;> rfl
    have hS : ∀ (t t' : TraceState V K L S M ML) v e, t' = { t with starts := vs } → trShowEdge c t' v e =
        (trShowEdge c t v e).map (fun s => { s with starts := vs }) := by
      rintro t _ v e rfl
      unfold trShowEdge
      simp only
      split_ifs <;> rfl
    have hR : ∀ (t t' : TraceState V K L S M ML) v e, t' = { t with starts := vs } → trRevisit g c t' v e =
        (trRevisit g c t v e).map (fun s => { s with starts := vs }) := by
      rintro t _ v e rfl
      obtain ⟨pc, starts, cur, tv, tl, mk, lab, d, n, ev, ti, vis, ot, tr, trl, ix, pr, lb⟩ := t
      unfold trRevisit
      simp only
      by_cases h1 : c.report .someNonTreeEdge = true
      · simp only [h1, if_true]
        exact hS _ _ _ _ rfl
      · by_cases h2 : (c.report .backEdge || c.report .forwardEdge || c.report .crossEdge ||
            c.report .forwardOrCrossEdge) = true
        · simp only [h1, h2, if_true]
          generalize (if (c.report .backEdge && decide (e ≠ .backEdge)) = true then _ else _ : Option DfsEvent) = back
          rcases back with _ | e'
          · rfl
          · simp only
            by_cases h3 : (decide (e' = .none) && (c.report .forwardEdge || c.report .crossEdge)) = true
            · simp only [h3, if_true]
              rcases tr with _ | ⟨u, tr⟩
              · rfl
              · exact hS _ _ _ _ rfl
            · simp only [h3]
              exact hS _ _ _ _ rfl
        · simp only [h1, h2]
          rfl
    have hT : ∀ (t t' : TraceState V K L S M ML) v, t' = { t with starts := vs } → trTry g c t' v =
        (trTry g c t v).map (fun s => { s with starts := vs }) := by
      rintro t _ v rfl
      unfold trTry
      rcases ht : c.isTree <;> rcases hm : c.mode <;> simp only [if_true] <;> try (exact hE _ _ _ rfl)
      · simp only [Bool.false_eq_true, if_false]
        rcases hc : (g.so.checkAdd t.visited (c.vid v)).1
        · simp only [Bool.false_eq_true, if_false]
          exact hE _ _ _ rfl
        · simp only [if_true]
          rcases he : t.trace.isEmpty
          · simp only [Bool.false_eq_true, if_false]
            exact hR _ _ _ _ rfl
          · rcases hr : c.report .skippingStart <;> simp only [if_true] <;> rfl
      · simp only [Bool.false_eq_true, if_false]
        rcases hc : (g.so.checkAdd t.onTrace (c.vid v)).1
        · simp only [Bool.false_eq_true, if_false]
          exact hE _ _ _ rfl
        · simp only [if_true]
          exact hR _ _ _ _ rfl
    have hP : ∀ (t t' : TraceState V K L S M ML), t' = { t with starts := vs } → trPop g c t' =
        (trPop g c t).map (fun s => { s with starts := vs }) := by
      rintro t _ rfl
      unfold trPop
      simp only
      rcases t.toVisit with _ | ⟨v, tv⟩
      · rfl
      · simp only
        split_ifs
        · rcases t.toLabels with _ | ⟨l, tl⟩
          · rfl
          · exact hT _ _ _ rfl
        · exact hT _ _ _ rfl
    obtain ⟨pc, starts, cur, tv, tl, mk, lab, d, n, ev, ti, vis, ot, tr, trl, ix, pr, lb⟩ := s
    rcases pc with _ | nl | ⟨v, last, nl⟩ | _ | _ | ⟨v, rep⟩ | ⟨v, _ | ⟨e, es⟩⟩
    · simp [trLoop] at ha
    · rcases mk with _ | ⟨_ | _, mk⟩
      · rfl
      · exact hP _ _ rfl
      · rcases tr with _ | ⟨v, tr⟩
        · rfl
        · rcases h1 : !mk.isEmpty <;> rcases h2 : c.report .leavingSuccessor <;> rcases h3 : c.report .leavingStart <;>
            simp only [trStep, trLoop, h1, h2, h3] <;> rfl
    · by_cases hb : (c.labeled && !last && trl.isEmpty) = true
      · simp only [trStep, trLoop, hb]; rfl
      · simp only [trStep, trLoop, hb]
        generalize (if c.computeOnTrace = true then g.so.drop ot (c.vid v) else Except.ok ot) = o
        rcases o with _ | _ <;> rfl
    · rfl
    · rfl
    · by_cases hb : (rep && c.skip n) = true <;> simp only [trStep, trLoop, hb] <;> rfl
    · rfl
    · rfl

end

end NoGraphs
