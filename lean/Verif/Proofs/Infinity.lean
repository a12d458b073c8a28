import Verif.Proofs.Machine
import Verif.Proofs.Gear
import Verif.Proofs.Heap
import Verif.Model.ShortestPaths
import Verif.Model.AStar
import Mathlib.Algebra.Order.Monoid.Defs

/-! # Runs with different infinity values -/

set_option linter.unusedSectionVars false

namespace NoGraphs

section machine

variable {σ σ' ρ ρ' : Type}

/-- Lockstep simulation, up to the point where the first machine fails with `e`. -/
theorem run_sim_until {m : σ → Step σ ρ} {m' : σ' → Step σ' ρ'} (R : σ → σ' → Prop) (Q : ρ → ρ' → Prop) (e : PyErr)
    (hsim : ∀ s s', R s s' → m s = .fail e ∨ StepRel R (fun _ _ => True) Q (m s) (m' s')) (fuel : Nat)
    (lim : Option Int) (s : σ) (s' : σ') (h : R s s') :
    (List.Forall₂ (EvRel Q) (runMachine m fuel lim s).events (runMachine m' fuel lim s').events ∧
      (runMachine m fuel lim s).ending = (runMachine m' fuel lim s').ending) ∨
    ((runMachine m fuel lim s).ending = .raised e ∧ ∃ pre rest, (runMachine m' fuel lim s').events = pre ++ rest ∧
      List.Forall₂ (EvRel Q) (runMachine m fuel lim s).events pre) := by
  induction fuel generalizing lim s s' with
  | zero => exact .inl ⟨.nil, rfl⟩
  | succ fuel ih =>
    rcases hsim s s' h with hf | hs
    · right
      unfold runMachine
      rw [hf]
      exact ⟨rfl, [], _, rfl, .nil⟩
    · unfold runMachine
      generalize m s = x at hs
      generalize m' s' = y at hs
      cases hs with
      | stop hr => exact .inl ⟨.nil, rfl⟩
      | fail => exact .inl ⟨.nil, rfl⟩
      | tau hr => exact ih lim _ _ hr
      | emit hq hr =>
        rcases ih lim _ _ hr with ⟨h1, h2⟩ | ⟨h1, pre, rest, h2, h3⟩
        · exact .inl ⟨.cons hq h1, h2⟩
        · exact .inr ⟨h1, .rep _ :: pre, rest, by simp only [h2, List.cons_append], .cons hq h3⟩
      | expand hr =>
        simp only
        cases hl : checkLimit lim with
        | none => exact .inl ⟨.nil, rfl⟩
        | some l =>
          rcases ih l _ _ hr with ⟨h1, h2⟩ | ⟨h1, pre, rest, h2, h3⟩
          · exact .inl ⟨.cons trivial h1, h2⟩
          · exact .inr ⟨h1, .exp :: pre, rest, by simp only [h2, List.cons_append], .cons trivial h3⟩

/-- The reports in the two cases of `run_sim_until`. -/
theorem reports_until {Q : ρ → ρ' → Prop} {r1 : RunResult σ ρ} {r2 : RunResult σ' ρ'} {e : PyErr}
    (h : (List.Forall₂ (EvRel Q) r1.events r2.events ∧ r1.ending = r2.ending) ∨
      (r1.ending = .raised e ∧ ∃ pre rest, r2.events = pre ++ rest ∧ List.Forall₂ (EvRel Q) r1.events pre)) :
    (List.Forall₂ Q r1.reports r2.reports ∧ r1.ending = r2.ending) ∨
    (r1.ending = .raised e ∧ ∃ pre rest, r2.reports = pre ++ rest ∧ List.Forall₂ Q r1.reports pre) := by
  rcases h with ⟨h1, h2⟩ | ⟨h1, pre, rest, h2, h3⟩
  · exact .inl ⟨repsOf_forall₂ h1, h2⟩
  · refine .inr ⟨h1, repsOf pre, repsOf rest, ?_, repsOf_forall₂ h3⟩
    unfold RunResult.reports
    rw [h2, repsOf_append]

end machine

variable {V K L W M ML D D' : Type} [DecidableEq V] [DecidableEq K]
variable [AddCommMonoid W] [LinearOrder W]

/-- The same values, up to the infinity value. -/
def SameFin (dd : DistOps D K W) (dd' : DistOps D' K W) (inf inf' : W) (d : D) (d' : D') : Prop :=
  ∀ k, (dd.get d k = dd'.get d' k ∧ dd.get d k < inf) ∨ (dd.get d k = inf ∧ dd'.get d' k = inf')

variable {dd : DistOps D K W} {dd' : DistOps D' K W} {inf inf' : W}

theorem SameFin.empty (hd : dd.Lawful inf) (hd' : dd'.Lawful inf') : SameFin dd dd' inf inf' dd.empty dd'.empty :=
  fun k => .inr ⟨hd.get_empty k, hd'.get_empty k⟩

theorem SameFin.set (hd : dd.Lawful inf) (hd' : dd'.Lawful inf') {d : D} {d' : D'} (h : SameFin dd dd' inf inf' d d')
    (k : K) {w : W} (hw : w < inf) : SameFin dd dd' inf inf' (dd.set d k w) (dd'.set d' k w) := by
  intro j
  rw [hd.get_set, hd'.get_set]
  split
  · exact .inl ⟨rfl, hw⟩
  · exact h j

theorem SameFin.setAll (hd : dd.Lawful inf) (hd' : dd'.Lawful inf') (kvs : List (K × W)) (hw : ∀ p ∈ kvs, p.2 < inf)
    {d : D} {d' : D'} (h : SameFin dd dd' inf inf' d d') :
    SameFin dd dd' inf inf' (dd.setAll d kvs) (dd'.setAll d' kvs) := by
  induction kvs generalizing d d' with
  | nil => exact h
  | cons p kvs ih =>
    simp only [DistOps.setAll, List.foldl_cons] at ih ⊢
    exact ih (fun q hq => hw q (List.mem_cons_of_mem _ hq)) (h.set hd hd' p.1 (hw p List.mem_cons_self))

theorem SameFin.lt_iff {d : D} {d' : D'} (h : SameFin dd dd' inf inf' d d') (hle : inf ≤ inf') (k : K) {w : W}
    (hw : w < inf) : dd.get d k < w ↔ dd'.get d' k < w := by
  rcases h k with ⟨e, -⟩ | ⟨e, e'⟩
  · rw [e]
  · rw [e, e']
    exact ⟨fun h => absurd (h.trans hw) (lt_irrefl _), fun h => absurd (hle.trans_lt h |>.trans hw) (lt_irrefl _)⟩

theorem SameFin.improve (hd : dd.Lawful inf) (hd' : dd'.Lawful inf') {d : D} {d' : D'}
    (h : SameFin dd dd' inf inf' d d') (hle : inf ≤ inf') (k : K) {w : W} (hw : w < inf) :
    (dd.improve d k w = none ∧ dd'.improve d' k w = none) ∨
    ∃ e e', dd.improve d k w = some e ∧ dd'.improve d' k w = some e' ∧ SameFin dd dd' inf inf' e e' := by
  have hw' : w < inf' := hw.trans_le hle
  have hiff : dd.get d k ≤ w ↔ dd'.get d' k ≤ w := by
    rcases h k with ⟨e, -⟩ | ⟨e, e'⟩
    · rw [e]
    · rw [e, e']
      exact ⟨fun h => absurd (h.trans_lt hw) (lt_irrefl _), fun h => absurd (h.trans_lt hw') (lt_irrefl _)⟩
  rcases h1 : dd.improve d k w with _ | e
  · have := hiff.1 ((hd.improve_none d k w hw).1 h1)
    exact .inl ⟨rfl, (hd'.improve_none d' k w hw').2 this⟩
  · rcases h2 : dd'.improve d' k w with _ | e'
    · have := (hd.improve_none d k w hw).2 (hiff.2 ((hd'.improve_none d' k w hw').1 h2))
      rw [h1] at this
      simp at this
    · refine .inr ⟨e, e', rfl, rfl, fun j => ?_⟩
      rw [hd.improve_some d k w e hw h1, hd'.improve_some d' k w e' hw' h2]
      split
      · exact .inl ⟨rfl, hw⟩
      · exact h j

/-! ## Shortest paths -/

section sp

variable (g : WGear V K L W M ML D) (dd' : DistOps D' K W) (c : WCfg V K L W) (inf' : W)

/-- The same report, up to the infinity value of missing distances. -/
def SpSameRep (r : SpReport V W M ML D) (r' : SpReport V W M ML D') : Prop :=
  r.vertex = r'.vertex ∧ r.distance = r'.distance ∧ r.depth = r'.depth ∧ r.preds = r'.preds ∧ r.labels = r'.labels ∧
  SameFin g.dd dd' c.inf inf' r.dist r'.dist

/-- The states of the two runs. -/
def SpInfRel (s : SpState V L W M ML D) (s' : SpState V L W M ML D') : Prop :=
  s.pc = s'.pc ∧ s.heap = s'.heap ∧ s.no = s'.no ∧ s.preds = s'.preds ∧ s.labels = s'.labels ∧
  SameFin g.dd dd' c.inf inf' s.dist s'.dist ∧ ∀ e ∈ s.heap, e.key < c.inf

variable {g dd' c inf'}

theorem spStartEntries_fin {d : D} {d' : D'} (h : SameFin g.dd dd' c.inf inf' d d') (vs : List V)
    (hv : ∀ v ∈ vs, g.dd.get d (c.vid v) < c.inf) (no : Int) :
    spStartEntries g c d vs no = spStartEntries ⟨g.mo, g.lo, dd'⟩ { c with inf := inf' } d' vs no ∧
    ∀ e ∈ spStartEntries g c d vs no, e.key < c.inf := by
  induction vs generalizing no with
  | nil => exact ⟨rfl, by simp [spStartEntries]⟩
  | cons v vs ih =>
    obtain ⟨h1, h2⟩ := ih (fun u hu => hv u (List.mem_cons_of_mem _ hu)) (no - 1)
    have hlt := hv v List.mem_cons_self
    have he : g.dd.get d (c.vid v) = dd'.get d' (c.vid v) := by
      rcases h (c.vid v) with ⟨e, -⟩ | ⟨e, -⟩
      · exact e
      · rw [e] at hlt; exact absurd hlt (lt_irrefl _)
    refine ⟨by simp only [spStartEntries, h1, he], ?_⟩
    simp only [spStartEntries, List.mem_cons]
    rintro e (rfl | he)
    · exact hlt
    · exact h2 e he

theorem sp_inf_sim (hd : g.dd.Lawful c.inf) (hd' : dd'.Lawful inf') (hle : c.inf ≤ inf') (h0 : 0 < c.inf)
    (starts : List V) (limit : Option Int) (fuel : Nat) :
    let run := spRun g c none starts limit fuel
    let run' := spRun ⟨g.mo, g.lo, dd'⟩ { c with inf := inf' } none starts limit fuel
    (List.Forall₂ (SpSameRep g dd' c inf') run.reports run'.reports ∧ run.ending = run'.ending) ∨
    (run.ending = .raised .overflowError ∧ ∃ pre rest, run'.reports = pre ++ rest ∧
      List.Forall₂ (SpSameRep g dd' c inf') run.reports pre) := by
  intro run run'
  apply reports_until
  apply run_sim_until (SpInfRel g dd' c inf')
  · rintro ⟨pc, heap, no, d, pr, la⟩ ⟨pc', heap', no', d', pr', la'⟩ ⟨h1, h2, h3, h4, h5, h6, h7⟩
    dsimp only at h1 h2 h3 h4 h5 h6 h7
    subst h1 h2 h3 h4 h5
    cases pc with
    | loop =>
      right
      cases heap with
      | nil => exact .stop trivial
      | cons e rest =>
        have hrest : ∀ f ∈ rest, f.key < c.inf := fun f hf => h7 f (List.mem_cons_of_mem _ hf)
        have hiff := h6.lt_iff hle (c.vid e.item.1) (h7 e List.mem_cons_self)
        simp only [spStep, hiff]
        split
        · exact .tau ⟨rfl, rfl, rfl, rfl, rfl, h6, hrest⟩
        · have hs : SameFin g.dd dd' c.inf inf'
              (if !c.isTree && !c.keepDistances then g.dd.set d (c.vid e.item.1) 0 else d)
              (if !c.isTree && !c.keepDistances then dd'.set d' (c.vid e.item.1) 0 else d') := by
            split
            · exact h6.set hd hd' _ h0
            · exact h6
          split
          · exact .emit ⟨rfl, rfl, rfl, rfl, rfl, hs⟩ ⟨rfl, rfl, rfl, rfl, rfl, hs, hrest⟩
          · exact .tau ⟨rfl, rfl, rfl, rfl, rfl, hs, hrest⟩
    | expand v w ec => exact .inr (.expand ⟨rfl, rfl, rfl, rfl, rfl, h6, h7⟩)
    | edges v w ec es =>
      cases es with
      | nil => exact .inr (.tau ⟨rfl, rfl, rfl, rfl, rfl, h6, h7⟩)
      | cons x es =>
        obtain ⟨n, x, l⟩ := x
        simp only [spStep]
        by_cases hf : c.inf ≤ x + w
        · left
          rw [if_pos hf]
        · right
          have hlt := not_le.1 hf
          rw [if_neg hf, if_neg (not_le.2 (hlt.trans_le hle))]
          have himp : (spImprove g c d (c.vid n) (x + w) = none ∧
              spImprove ⟨g.mo, g.lo, dd'⟩ { c with inf := inf' } d' (c.vid n) (x + w) = none) ∨
              ∃ e e', spImprove g c d (c.vid n) (x + w) = some e ∧
                spImprove ⟨g.mo, g.lo, dd'⟩ { c with inf := inf' } d' (c.vid n) (x + w) = some e' ∧
                SameFin g.dd dd' c.inf inf' e e' := by
            unfold spImprove
            cases ht : c.isTree
            · exact h6.improve hd hd' hle _ hlt
            · exact .inr ⟨d, d', rfl, rfl, h6⟩
          rcases himp with ⟨e1, e2⟩ | ⟨e, e', e1, e2, hs⟩
          · rw [e1, e2]
            exact .tau ⟨rfl, rfl, rfl, rfl, rfl, h6, h7⟩
          · rw [e1, e2]
            refine .tau ⟨rfl, rfl, rfl, rfl, rfl, hs, ?_⟩
            intro f hf'
            rcases mem_heapPush.1 hf' with rfl | hf'
            · exact hlt
            · exact h7 f hf'
  · have hs : SameFin g.dd dd' c.inf inf' (spDistances g c none starts)
        (spDistances ⟨g.mo, g.lo, dd'⟩ { c with inf := inf' } none starts) :=
      SameFin.setAll hd hd' _ (by simp [h0]) (.empty hd hd')
    have hv : ∀ v ∈ starts, g.dd.get (spDistances g c none starts) (c.vid v) < c.inf := by
      intro v hv
      rw [show spDistances g c none starts = g.dd.setAll g.dd.empty (starts.map (fun v => (c.vid v, (0 : W)))) from rfl]
      have : ∀ (vs : List V) (m : D), (v ∈ vs ∨ g.dd.get m (c.vid v) < c.inf) →
          g.dd.get (g.dd.setAll m (vs.map (fun v => (c.vid v, (0 : W))))) (c.vid v) < c.inf := by
        intro vs
        induction vs with
        | nil => intro m h; simpa [DistOps.setAll] using h
        | cons u vs ih =>
          intro m h
          simp only [List.map_cons, DistOps.setAll, List.foldl_cons] at ih ⊢
          apply ih
          rw [hd.get_set]
          split
          · exact .inr h0
          · rename_i hne
            rcases h with h | h
            · rcases List.mem_cons.1 h with rfl | h
              · exact absurd rfl hne
              · exact .inl h
            · exact .inr h
      exact this starts _ (.inl hv)
    obtain ⟨e1, e2⟩ := spStartEntries_fin hs starts hv 256
    refine ⟨rfl, ?_, rfl, rfl, rfl, hs, ?_⟩
    · simp only [spInit, e1]
    · intro e he
      exact e2 e (mem_heapify.1 he)

end sp

/-! ## A* -/

section astar

variable (g : WGear V K L W M ML D) (dd' : DistOps D' K W) (c : AStarCfg V K L W) (inf' : W)

/-- The same report, up to the infinity value of missing distances. -/
def ASameRep (r : AStarReport V W M ML D) (r' : AStarReport V W M ML D') : Prop :=
  r.vertex = r'.vertex ∧ r.pathLength = r'.pathLength ∧ r.depth = r'.depth ∧ r.preds = r'.preds ∧
  r.labels = r'.labels ∧ SameFin g.dd dd' c.inf inf' r.dist r'.dist

/-- The states of the two runs. -/
def AInfRel (s : AStarState V L W M ML D) (s' : AStarState V L W M ML D') : Prop :=
  s.pc = s'.pc ∧ s.heap = s'.heap ∧ s.no = s'.no ∧ s.preds = s'.preds ∧ s.labels = s'.labels ∧
  SameFin g.dd dd' c.inf inf' s.dist s'.dist ∧ SameFin g.dd dd' c.inf inf' s.guesses s'.guesses ∧
  ∀ e ∈ s.heap, e.key < c.inf ∧ g.dd.get s.dist (c.vid e.item.1) < c.inf

variable {g dd' c inf'}

theorem SameFin.eq_of_lt {d : D} {d' : D'} {k : K} (h : SameFin dd dd' inf inf' d d') (hlt : dd.get d k < inf) :
    dd.get d k = dd'.get d' k := by
  rcases h k with ⟨e, -⟩ | ⟨e, -⟩
  · exact e
  · rw [e] at hlt; exact absurd hlt (lt_irrefl _)

theorem aStartEntries_fin {d : D} {d' : D'} (h : SameFin g.dd dd' c.inf inf' d d') (vs : List V)
    (hv : ∀ v ∈ vs, g.dd.get d (c.vid v) < c.inf) (no : Int) :
    aStartEntries g c d vs no = aStartEntries ⟨g.mo, g.lo, dd'⟩ { c with inf := inf' } d' vs no ∧
    ∀ e ∈ aStartEntries g c d vs no, e.key < c.inf ∧ e.item.1 ∈ vs := by
  induction vs generalizing no with
  | nil => exact ⟨rfl, by simp [aStartEntries]⟩
  | cons v vs ih =>
    obtain ⟨h1, h2⟩ := ih (fun u hu => hv u (List.mem_cons_of_mem _ hu)) (no - 1)
    have hlt := hv v List.mem_cons_self
    refine ⟨by simp only [aStartEntries, h1, h.eq_of_lt hlt], ?_⟩
    simp only [aStartEntries, List.mem_cons]
    rintro e (rfl | he)
    · exact ⟨hlt, .inl rfl⟩
    · exact ⟨(h2 e he).1, .inr (h2 e he).2⟩

/-- Values that have been stored are below infinity. -/
theorem get_setAll_lt (hd : dd.Lawful inf) (kvs : List (K × W)) (hw : ∀ p ∈ kvs, p.2 < inf) (m : D) (k : K)
    (h : k ∈ kvs.map Prod.fst ∨ dd.get m k < inf) : dd.get (dd.setAll m kvs) k < inf := by
  induction kvs generalizing m with
  | nil => simpa [DistOps.setAll] using h
  | cons p kvs ih =>
    simp only [DistOps.setAll, List.foldl_cons] at ih ⊢
    apply ih (fun q hq => hw q (List.mem_cons_of_mem _ hq))
    rw [hd.get_set]
    split
    · exact .inr (hw p List.mem_cons_self)
    · rename_i hne
      rcases h with h | h
      · rcases List.mem_cons.1 h with rfl | h
        · exact absurd rfl hne
        · exact .inl h
      · exact .inr h

theorem a_inf_sim (hd : g.dd.Lawful c.inf) (hd' : dd'.Lawful inf') (hle : c.inf ≤ inf') (h0 : 0 < c.inf)
    (hh : ∀ v, c.heur v < c.inf) (starts : List V) (limit : Option Int) (fuel : Nat) :
    let run := aRun g c none none starts limit fuel
    let run' := aRun ⟨g.mo, g.lo, dd'⟩ { c with inf := inf' } none none starts limit fuel
    (List.Forall₂ (ASameRep g dd' c inf') run.reports run'.reports ∧ run.ending = run'.ending) ∨
    (run.ending = .raised .overflowError ∧ ∃ pre rest, run'.reports = pre ++ rest ∧
      List.Forall₂ (ASameRep g dd' c inf') run.reports pre) := by
  intro run run'
  apply reports_until
  apply run_sim_until (AInfRel g dd' c inf')
  · rintro ⟨pc, heap, no, d, gu, pr, la⟩ ⟨pc', heap', no', d', gu', pr', la'⟩ ⟨h1, h2, h3, h4, h5, h6, h8, h7⟩
    dsimp only at h1 h2 h3 h4 h5 h6 h7 h8
    subst h1 h2 h3 h4 h5
    cases pc with
    | loop =>
      right
      cases heap with
      | nil => exact .stop trivial
      | cons e rest =>
        have hrest : ∀ f ∈ rest, f.key < c.inf ∧ g.dd.get d (c.vid f.item.1) < c.inf :=
          fun f hf => h7 f (List.mem_cons_of_mem _ hf)
        obtain ⟨hk, hlt⟩ := h7 e List.mem_cons_self
        have hiff := h8.lt_iff hle (c.vid e.item.1) hk
        have hw := h6.eq_of_lt hlt
        simp only [aStep, hiff, hw]
        split
        · exact .tau ⟨rfl, rfl, rfl, rfl, rfl, h6, h8, hrest⟩
        · split
          · exact .emit ⟨rfl, rfl, rfl, rfl, rfl, h6⟩ ⟨rfl, rfl, rfl, rfl, rfl, h6, h8, hrest⟩
          · exact .tau ⟨rfl, rfl, rfl, rfl, rfl, h6, h8, hrest⟩
    | expand v w ec => exact .inr (.expand ⟨rfl, rfl, rfl, rfl, rfl, h6, h8, h7⟩)
    | edges v w ec es =>
      cases es with
      | nil => exact .inr (.tau ⟨rfl, rfl, rfl, rfl, rfl, h6, h8, h7⟩)
      | cons x es =>
        obtain ⟨n, x, l⟩ := x
        simp only [aStep]
        by_cases hf : c.inf ≤ x + w
        · left
          rw [if_pos hf]
        · have hlt := not_le.1 hf
          rw [if_neg hf, if_neg (not_le.2 (hlt.trans_le hle))]
          have himp : (aImprove g c d (c.vid n) (x + w) = none ∧
              aImprove ⟨g.mo, g.lo, dd'⟩ { c with inf := inf' } d' (c.vid n) (x + w) = none) ∨
              ∃ e e', aImprove g c d (c.vid n) (x + w) = some e ∧
                aImprove ⟨g.mo, g.lo, dd'⟩ { c with inf := inf' } d' (c.vid n) (x + w) = some e' ∧
                SameFin g.dd dd' c.inf inf' e e' ∧ ∀ j, g.dd.get e j = if j = c.vid n then x + w else g.dd.get d j := by
            unfold aImprove
            cases ht : c.isTree
            · rcases h6.improve hd hd' hle (c.vid n) hlt with h | ⟨e, e', e1, e2, hs⟩
              · exact .inl h
              · exact .inr ⟨e, e', e1, e2, hs, hd.improve_some _ _ _ _ hlt e1⟩
            · exact .inr ⟨_, _, rfl, rfl, h6.set hd hd' _ hlt, hd.get_set _ _ _⟩
          rcases himp with ⟨e1, e2⟩ | ⟨e, e', e1, e2, hs, hget⟩
          · rw [e1, e2]
            exact .inr (.tau ⟨rfl, rfl, rfl, rfl, rfl, h6, h8, h7⟩)
          · rw [e1, e2]
            have hn := (hh n).ne
            have hn' := ((hh n).trans_le hle).ne
            have eg : aGuess c.inf (x + w) (c.heur n) = x + w + c.heur n := by simp [aGuess, hn]
            have eg' : aGuess inf' (x + w) (c.heur n) = x + w + c.heur n := by simp [aGuess, hn']
            simp only [eg, eg']
            by_cases hf2 : c.inf ≤ x + w + c.heur n
            · left
              rw [if_pos ⟨hn, hf2⟩]
            · have hlt2 := not_le.1 hf2
              right
              have hA : ¬ (c.heur n ≠ c.inf ∧ c.inf ≤ x + w + c.heur n) := fun h => hf2 h.2
              have hB : ¬ (c.heur n ≠ inf' ∧ inf' ≤ x + w + c.heur n) := fun h => not_le.2 (hlt2.trans_le hle) h.2
              rw [if_neg hA, if_neg hB]
              refine .tau ⟨rfl, rfl, rfl, rfl, rfl, hs, ?_, ?_⟩
              · dsimp only
                split
                · exact h8
                · exact h8.set hd hd' _ hlt2
              · intro f hf'
                dsimp only
                rw [hget]
                rcases mem_heapPush.1 hf' with rfl | hf'
                · exact ⟨hlt2, by simpa using hlt⟩
                · refine ⟨(h7 f hf').1, ?_⟩
                  split
                  · exact hlt
                  · exact (h7 f hf').2
  · have hs : SameFin g.dd dd' c.inf inf' (aDistances g c none starts)
        (aDistances ⟨g.mo, g.lo, dd'⟩ { c with inf := inf' } none starts) :=
      SameFin.setAll hd hd' _ (by simp [h0]) (.empty hd hd')
    have hv : ∀ v ∈ starts, g.dd.get (aDistances g c none starts) (c.vid v) < c.inf := by
      intro v hv
      refine get_setAll_lt hd _ (by simp [h0]) _ _ (.inl ?_)
      simpa using ⟨v, hv, rfl⟩
    have h0v : ∀ v ∈ starts, g.dd.get (aDistances g c none starts) (c.vid v) = 0 := by
      intro v hv
      have : ∀ (vs : List V) (m : D), (v ∈ vs ∨ g.dd.get m (c.vid v) = 0) →
          g.dd.get (g.dd.setAll m (vs.map (fun v => (c.vid v, (0 : W))))) (c.vid v) = 0 := by
        intro vs
        induction vs with
        | nil => intro m h; simpa [DistOps.setAll] using h
        | cons u vs ih =>
          intro m h
          simp only [List.map_cons, DistOps.setAll, List.foldl_cons] at ih ⊢
          apply ih
          rw [hd.get_set]
          split
          · exact .inr rfl
          · rename_i hne
            rcases h with h | h
            · rcases List.mem_cons.1 h with rfl | h
              · exact absurd rfl hne
              · exact .inl h
            · exact .inr h
      exact this starts _ (.inl hv)
    have ekvs : starts.map (fun v => (c.vid v, g.dd.get (aDistances g c none starts) (c.vid v) + c.heur v)) =
        starts.map (fun v => (c.vid v, dd'.get (aDistances ⟨g.mo, g.lo, dd'⟩ { c with inf := inf' } none starts) (c.vid v) +
          c.heur v)) := by
      refine List.map_congr_left fun v hv' => ?_
      rw [hs.eq_of_lt (hv v hv')]
    have hkv : ∀ p ∈ starts.map (fun v => (c.vid v, g.dd.get (aDistances g c none starts) (c.vid v) + c.heur v)),
        p.2 < c.inf := by
      intro p hp
      obtain ⟨v, hv', rfl⟩ := List.mem_map.1 hp
      dsimp only
      rw [h0v v hv', zero_add]
      exact hh v
    have hgs : SameFin g.dd dd' c.inf inf' (aGuesses g c none (aDistances g c none starts) starts)
        (aGuesses ⟨g.mo, g.lo, dd'⟩ { c with inf := inf' } none
          (aDistances ⟨g.mo, g.lo, dd'⟩ { c with inf := inf' } none starts) starts) := by
      unfold aGuesses
      dsimp only
      rw [← ekvs]
      exact SameFin.setAll hd hd' _ hkv (.empty hd hd')
    have hgv : ∀ v ∈ starts, g.dd.get (aGuesses g c none (aDistances g c none starts) starts) (c.vid v) < c.inf := by
      intro v hv'
      refine get_setAll_lt hd _ hkv _ _ (.inl ?_)
      simpa using ⟨v, hv', rfl⟩
    obtain ⟨e1, e2⟩ := aStartEntries_fin hgs starts hgv 256
    refine ⟨rfl, ?_, rfl, rfl, rfl, hs, hgs, ?_⟩
    · simp only [aInit, e1]
    · intro e he
      obtain ⟨h1, h2⟩ := e2 e (mem_heapify.1 he)
      exact ⟨h1, hv _ h2⟩

end astar

end NoGraphs
