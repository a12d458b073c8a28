import Verif.Model.HeuristicCalls
import Verif.Props.AStar
import Mathlib.Data.List.Induction

/-! # C105: calls and exceptions of the heuristic function of A* -/

set_option linter.unusedSectionVars false

namespace NoGraphs

open NoGraphs.Spec

variable {V K L W M ML D ρ σ : Type}

/-! ## Machines -/

section Machine
variable {m m' : σ → Step σ ρ} {asks : σ → Option (V × W)} {fails : V → Bool}

theorem HeurResult.reports_asked (v : V) (w : W) (r : HeurResult V W ρ) : (r.after (.asked v w)).reports = r.reports := rfl
theorem HeurResult.reports_report (x : ρ) (r : HeurResult V W ρ) :
    (r.after (.report x)).reports = x :: r.reports := rfl
theorem HeurResult.calls_asked (v : V) (w : W) (r : HeurResult V W ρ) :
    (r.after (.asked v w)).calls = (v, w) :: r.calls := rfl
theorem HeurResult.calls_report (x : ρ) (r : HeurResult V W ρ) : (r.after (.report x)).calls = r.calls := rfl

/-- One step of `runAsking`, without the call of the function. -/
def askGo (m : σ → Step σ ρ) (asks : σ → Option (V × W)) (fails : V → Bool) (fuel : Nat) (lim : Option Int) (s : σ) :
    HeurResult V W ρ :=
  match m s with
  | .stop _ => ⟨[], .usual .done⟩
  | .fail e => ⟨[], .usual (.raised e)⟩
  | .tau s' => runAsking m asks fails fuel lim s'
  | .emit r s' => (runAsking m asks fails fuel lim s').after (.report r)
  | .expand s' =>
    match checkLimit lim with
    | none => ⟨[], .usual (.raised .runtimeError)⟩
    | some lim' => runAsking m asks fails fuel lim' s'

theorem runAsking_succ (fuel : Nat) (lim : Option Int) (s : σ) : runAsking m asks fails (fuel + 1) lim s =
    match asks s with
    | none => askGo m asks fails fuel lim s
    | some (v, w) => if fails v then ⟨[.asked v w], .exception v⟩ else (askGo m asks fails fuel lim s).after (.asked v w) := rfl

/-- The reports are a prefix of those without exceptions of the function. -/
theorem runAsking_prefix (fuel : Nat) (lim : Option Int) (s : σ) :
    (runAsking m asks fails fuel lim s).reports <+: (runMachine m fuel lim s).reports ∧
    ∀ e, (runAsking m asks fails fuel lim s).ending = .usual e →
      (runAsking m asks fails fuel lim s).reports = (runMachine m fuel lim s).reports ∧ (runMachine m fuel lim s).ending = e := by
  induction fuel generalizing lim s with
  | zero => exact ⟨List.prefix_refl _, fun e h => by cases h; exact ⟨rfl, rfl⟩⟩
  | succ fuel ih =>
    have hgo : (askGo m asks fails fuel lim s).reports <+: (runMachine m (fuel + 1) lim s).reports ∧
        ∀ e, (askGo m asks fails fuel lim s).ending = .usual e →
          (askGo m asks fails fuel lim s).reports = (runMachine m (fuel + 1) lim s).reports ∧
          (runMachine m (fuel + 1) lim s).ending = e := by
      unfold askGo
      rw [runMachine]
      cases m s with
      | stop s' => exact ⟨List.prefix_refl _, fun e h => by cases h; exact ⟨rfl, rfl⟩⟩
      | fail e => exact ⟨List.prefix_refl _, fun e h => by cases h; exact ⟨rfl, rfl⟩⟩
      | tau s' => exact ih lim s'
      | emit r s' =>
        refine ⟨(List.prefix_cons_inj r).2 (ih lim s').1, fun e h => ⟨?_, ((ih lim s').2 e h).2⟩⟩
        exact congrArg (r :: ·) ((ih lim s').2 e h).1
      | expand s' =>
        cases checkLimit lim with
        | none => exact ⟨List.prefix_refl _, fun e h => by cases h; exact ⟨rfl, rfl⟩⟩
        | some lim' => exact ih lim' s'
    rw [runAsking_succ]
    cases asks s with
    | none => exact hgo
    | some p =>
      obtain ⟨v, w⟩ := p
      by_cases hf : fails v = true
      · simp only [hf, if_true]
        exact ⟨List.nil_prefix, fun e h => by cases h⟩
      · simp only [hf]
        exact hgo

/-- The exception ends the run at once. -/
theorem runAsking_exception (fuel : Nat) (lim : Option Int) (s : σ) :
    ∀ pre post v w, (runAsking m asks fails fuel lim s).seen = pre ++ .asked v w :: post →
      fails v = true → post = [] ∧ (runAsking m asks fails fuel lim s).ending = .exception v := by
  induction fuel generalizing lim s with
  | zero => intro pre post v w h; simp [runAsking] at h
  | succ fuel ih =>
    have hgo : ∀ pre post v w, (askGo m asks fails fuel lim s).seen = pre ++ .asked v w :: post →
        fails v = true → post = [] ∧ (askGo m asks fails fuel lim s).ending = .exception v := by
      unfold askGo
      cases m s with
      | stop s' => intro pre post v w h; simp at h
      | fail e => intro pre post v w h; simp at h
      | tau s' => exact ih lim s'
      | emit r s' =>
        intro pre post v w h hv
        cases pre with
        | nil => simp [HeurResult.after] at h
        | cons p pre =>
          simp only [HeurResult.after, List.cons_append, List.cons.injEq] at h
          exact ih lim s' pre post v w h.2 hv
      | expand s' =>
        cases checkLimit lim with
        | none => intro pre post v w h; simp at h
        | some lim' => exact ih lim' s'
    rw [runAsking_succ]
    cases asks s with
    | none => exact hgo
    | some p =>
      obtain ⟨v, w⟩ := p
      by_cases hf : fails v = true
      · simp only [hf, if_true]
        intro pre post v' w' h _
        cases pre with
        | nil =>
          simp only [List.nil_append, List.cons.injEq, HeurSeen.asked.injEq] at h
          obtain ⟨⟨rfl, -⟩, rfl⟩ := h
          exact ⟨rfl, rfl⟩
        | cons p pre => simp at h
      · simp only [hf]
        intro pre post v' w' h hv
        cases pre with
        | nil =>
          simp only [HeurResult.after, List.nil_append, List.cons.injEq, HeurSeen.asked.injEq, Bool.false_eq_true, if_false] at h
          obtain ⟨⟨rfl, -⟩, -⟩ := h
          exact absurd hv hf
        | cons p pre =>
          simp only [HeurResult.after, List.cons_append, List.cons.injEq, Bool.false_eq_true, if_false] at h
          exact hgo pre post v' w' h.2 hv

/-- Only the function can raise the exception. -/
theorem runAsking_raised (fuel : Nat) (lim : Option Int) (s : σ) (v : V)
    (h : (runAsking m asks fails fuel lim s).ending = .exception v) :
    fails v = true ∧ ∃ pre w, (runAsking m asks fails fuel lim s).seen = pre ++ [.asked v w] := by
  induction fuel generalizing lim s with
  | zero => cases h
  | succ fuel ih =>
    have hgo : (askGo m asks fails fuel lim s).ending = .exception v →
        fails v = true ∧ ∃ pre w, (askGo m asks fails fuel lim s).seen = pre ++ [.asked v w] := by
      unfold askGo
      cases m s with
      | stop s' => intro h; cases h
      | fail e => intro h; cases h
      | tau s' => exact ih lim s'
      | emit r s' =>
        intro h
        obtain ⟨h1, pre, w, h2⟩ := ih lim s' h
        exact ⟨h1, .report r :: pre, w, by simp [HeurResult.after, h2]⟩
      | expand s' =>
        cases checkLimit lim with
        | none => intro h; cases h
        | some lim' => exact ih lim' s'
    rw [runAsking_succ] at h ⊢
    cases ha : asks s with
    | none => rw [ha] at h; exact hgo h
    | some p =>
      rw [ha] at h
      obtain ⟨u, w⟩ := p
      by_cases hf : fails u = true
      · simp only [hf, if_true] at h ⊢
        cases h
        exact ⟨hf, [], w, rfl⟩
      · simp only [hf, Bool.false_eq_true, if_false] at h ⊢
        obtain ⟨h1, pre, w', h2⟩ := hgo h
        exact ⟨h1, .asked u w :: pre, w', by simp [HeurResult.after, h2]⟩

/-- Machines that agree as long as the calls do give the same run. -/
theorem runAsking_congr {ok : V → W → Prop} (hm : ∀ s, (∀ v w, asks s = some (v, w) → ok v w) → m s = m' s)
    (fuel : Nat) (lim : Option Int) (s : σ)
    (hok : ∀ v w, .asked v w ∈ (runAsking m asks fails fuel lim s).seen → fails v = false → ok v w) :
    runAsking m' asks fails fuel lim s = runAsking m asks fails fuel lim s := by
  induction fuel generalizing lim s with
  | zero => rfl
  | succ fuel ih =>
    have hgo : m s = m' s → (∀ v w, .asked v w ∈ (askGo m asks fails fuel lim s).seen → fails v = false → ok v w) →
        askGo m' asks fails fuel lim s = askGo m asks fails fuel lim s := by
      unfold askGo
      intro h
      rw [← h]
      cases m s with
      | stop s' => intro _; rfl
      | fail e => intro _; rfl
      | tau s' => exact ih lim s'
      | emit r s' =>
        intro h
        simp only
        rw [ih lim s' (fun v w hm => h v w (List.mem_cons_of_mem _ hm))]
      | expand s' =>
        simp only
        cases checkLimit lim with
        | none => intro _; rfl
        | some lim' => exact ih lim' s'
    rw [runAsking_succ] at hok
    rw [runAsking_succ, runAsking_succ]
    cases ha : asks s with
    | none =>
      rw [ha] at hok
      exact hgo (hm s (by simp [ha])) hok
    | some p =>
      rw [ha] at hok
      obtain ⟨u, w⟩ := p
      by_cases hf : fails u = true
      · simp only [hf, if_true]
      · simp only [hf, Bool.false_eq_true, if_false] at hok ⊢
        rw [hgo]
        · refine hm s (fun v' w' h => ?_)
          rw [ha] at h
          obtain ⟨rfl, rfl⟩ := Prod.mk.inj (Option.some.inj h)
          exact hok _ _ (List.mem_cons_self ..) (by simpa using hf)
        · exact fun v' w' h => hok v' w' (List.mem_cons_of_mem _ h)

/-- Invariants of runs and what has been seen so far. -/
theorem runAsking_inv {Inv : List (HeurSeen V W ρ) → σ → Prop} {Good : List (HeurSeen V W ρ) → V → W → Prop}
    (h1 : ∀ pre s v w, Inv pre s → asks s = some (v, w) → Good pre v w)
    (h2 : ∀ pre s s', Inv pre s → m s = .tau s' ∨ m s = .expand s' →
      Inv (pre ++ (asks s).toList.map (fun p => .asked p.1 p.2)) s')
    (h3 : ∀ pre s r s', Inv pre s → m s = .emit r s' →
      Inv (pre ++ (asks s).toList.map (fun p => .asked p.1 p.2) ++ [.report r]) s')
    (fuel : Nat) (lim : Option Int) (s : σ) (pre0 : List (HeurSeen V W ρ)) (h0 : Inv pre0 s) :
    ∀ pre post v w, (runAsking m asks fails fuel lim s).seen = pre ++ .asked v w :: post → Good (pre0 ++ pre) v w := by
  induction fuel generalizing lim s pre0 with
  | zero => intro pre post v w h; simp [runAsking] at h
  | succ fuel ih =>
    have hgo : ∀ pre post v w, (askGo m asks fails fuel lim s).seen = pre ++ .asked v w :: post →
        Good (pre0 ++ (asks s).toList.map (fun p => .asked p.1 p.2) ++ pre) v w := by
      unfold askGo
      have h2 := h2 pre0 s
      have h3 := h3 pre0 s
      cases hms : m s with
      | stop s' => intro pre post v w h; simp at h
      | fail e => intro pre post v w h; simp at h
      | tau s' => exact ih lim s' _ (h2 s' h0 (.inl hms))
      | emit r s' =>
        intro pre post v w h
        cases pre with
        | nil => simp [HeurResult.after] at h
        | cons p pre =>
          simp only [HeurResult.after, List.cons_append, List.cons.injEq] at h
          obtain ⟨rfl, h⟩ := h
          have := ih lim s' _ (h3 r s' h0 hms) pre post v w h
          rwa [List.append_assoc (_ ++ _), List.singleton_append] at this
      | expand s' =>
        simp only
        cases checkLimit lim with
        | none => intro pre post v w h; simp at h
        | some lim' => exact ih lim' s' _ (h2 s' h0 (.inr hms))
    rw [runAsking_succ]
    cases ha : asks s with
    | none =>
      simp only [ha, Option.toList_none, List.map_nil, List.append_nil] at hgo
      exact hgo
    | some p =>
      obtain ⟨u, x⟩ := p
      simp only [ha, Option.toList_some, List.map_cons, List.map_nil] at hgo
      intro pre post v w h
      cases pre with
      | nil =>
        rw [List.append_nil]
        have : u = v ∧ x = w := by
          by_cases hf : fails u = true
          · simp only [hf, if_true, List.nil_append, List.cons.injEq, HeurSeen.asked.injEq] at h
            exact h.1
          · simp only [hf, Bool.false_eq_true, if_false, HeurResult.after, List.nil_append, List.cons.injEq,
              HeurSeen.asked.injEq] at h
            exact h.1
        obtain ⟨rfl, rfl⟩ := this
        exact h1 _ _ _ _ h0 ha
      | cons p pre =>
        by_cases hf : fails u = true
        · simp [hf] at h
        · simp only [hf, Bool.false_eq_true, if_false, HeurResult.after, List.cons_append, List.cons.injEq] at h
          obtain ⟨rfl, h⟩ := h
          have := hgo pre post v w h
          rwa [List.append_assoc, List.singleton_append] at this

theorem askStarts_cons (dist : V → W) (rest : HeurResult V W ρ) (v : V) (vs : List V) :
    askStarts fails dist rest (v :: vs) =
      if fails v then ⟨[.asked v (dist v)], .exception v⟩ else (askStarts fails dist rest vs).after (.asked v (dist v)) := rfl

/-- Either no call for a start vertex raises an exception, or the first one that does ends the run. -/
theorem askStarts_cases (dist : V → W) (rest : HeurResult V W ρ) (vs : List V) :
    ((∀ v ∈ vs, fails v = false) ∧
      askStarts fails dist rest vs = ⟨vs.map (fun v => .asked v (dist v)) ++ rest.seen, rest.ending⟩) ∨
    ∃ xs v ys, vs = xs ++ v :: ys ∧ (∀ x ∈ xs, fails x = false) ∧ fails v = true ∧
      askStarts fails dist rest vs = ⟨(xs ++ [v]).map (fun v => .asked v (dist v)), .exception v⟩ := by
  induction vs with
  | nil => exact .inl ⟨by simp, rfl⟩
  | cons v vs ih =>
    rw [askStarts_cons]
    by_cases hf : fails v = true
    · simp only [hf, if_true]
      exact .inr ⟨[], v, vs, rfl, by simp, hf, rfl⟩
    · have hf' : fails v = false := by simpa using hf
      simp only [hf, Bool.false_eq_true, if_false]
      rcases ih with ⟨h1, h2⟩ | ⟨xs, y, ys, rfl, h1, h2, h3⟩
      · exact .inl ⟨by simpa [hf'] using h1, by rw [h2]; rfl⟩
      · exact .inr ⟨v :: xs, y, ys, rfl, by simpa [hf'] using h1, h2, by rw [h3]; rfl⟩

/-- If a call for a start vertex raises, the rest does not matter. -/
theorem askStarts_fail (dist : V → W) (rest rest' : HeurResult V W ρ) (vs : List V) (h : ∃ v ∈ vs, fails v = true) :
    askStarts fails dist rest vs = askStarts fails dist rest' vs := by
  induction vs with
  | nil => simp at h
  | cons v vs ih =>
    rw [askStarts_cons, askStarts_cons]
    by_cases hf : fails v = true
    · simp only [hf, if_true]
    · rw [ih]
      obtain ⟨u, hu, hfu⟩ := h
      rcases List.mem_cons.1 hu with rfl | hu
      · exact absurd hfu hf
      · exact ⟨u, hu, hfu⟩

end Machine

section AStar
variable [AddCommMonoid W] [LinearOrder W] (g : WGear V K L W M ML D) (c : AStarCfg V K L W)

/-- `aHeurRun`, split into the two parts. -/
theorem aHeurRun_cases (fails : V → Bool) (known knownGuesses : Option D) (starts : List V) (limit : Option Int) (fuel : Nat) :
    let dist := fun v => g.dd.get (aDistances g c known starts) (c.vid v)
    let rest := runAsking (aStep g c) (aAsks g c) fails fuel (prepareLimit limit) (aInit g c known knownGuesses starts)
    let vs := aAskedStarts c knownGuesses starts
    ((∀ v ∈ vs, fails v = false) ∧ aHeurRun g c fails known knownGuesses starts limit fuel =
      ⟨vs.map (fun v => .asked v (dist v)) ++ rest.seen, rest.ending⟩) ∨
    ∃ xs v ys, vs = xs ++ v :: ys ∧ (∀ x ∈ xs, fails x = false) ∧ fails v = true ∧
      aHeurRun g c fails known knownGuesses starts limit fuel =
        ⟨(xs ++ [v]).map (fun v => .asked v (dist v)), .exception v⟩ :=
  askStarts_cases _ _ _

theorem reports_map_asked (dist : V → W) (vs : List V) (rest : List (HeurSeen V W ρ)) (e : UserEnding V) :
    (HeurResult.mk (vs.map (fun v => .asked v (dist v)) ++ rest) e).reports = (HeurResult.mk rest e).reports := by
  simp [HeurResult.reports, List.filterMap_append, List.filterMap_map]

/-- **C105, reports before an exception.** Whatever the heuristic function raises, and for which vertices: the vertices,
distances, depths and paths reported before are the first reports of the same traversal without exceptions, and if there is
no exception of the function, reports and end are exactly the same. -/
theorem C105_prefix (fails : V → Bool) (known knownGuesses : Option D) (starts : List V) (limit : Option Int) (fuel : Nat) :
    (aHeurRun g c fails known knownGuesses starts limit fuel).reports <+: (aRun g c known knownGuesses starts limit fuel).reports ∧
    ∀ e, (aHeurRun g c fails known knownGuesses starts limit fuel).ending = .usual e →
      (aHeurRun g c fails known knownGuesses starts limit fuel).reports = (aRun g c known knownGuesses starts limit fuel).reports ∧
      (aRun g c known knownGuesses starts limit fuel).ending = e := by
  have hp := runAsking_prefix (m := aStep g c) (asks := aAsks g c) (fails := fails) fuel (prepareLimit limit)
    (aInit g c known knownGuesses starts)
  rcases aHeurRun_cases g c fails known knownGuesses starts limit fuel with ⟨-, h⟩ | ⟨xs, v, ys, -, -, -, h⟩
  · rw [h, reports_map_asked]
    exact hp
  · rw [h]
    refine ⟨?_, fun e he => by cases he⟩
    have := reports_map_asked (ρ := AStarReport V W M ML D) (fun v => g.dd.get (aDistances g c known starts) (c.vid v)) (xs ++ [v]) []
      (.exception v)
    rw [List.append_nil] at this
    rw [this]
    exact List.nil_prefix

/-- **C105, the exception is not hidden.** A call that raises is the last thing that happens, and the consumer gets its
exception; and no other exception is presented as one of the heuristic function. -/
theorem C105_exception (fails : V → Bool) (known knownGuesses : Option D) (starts : List V) (limit : Option Int) (fuel : Nat) :
    (∀ pre post v w, (aHeurRun g c fails known knownGuesses starts limit fuel).seen = pre ++ .asked v w :: post →
      fails v = true → post = [] ∧ (aHeurRun g c fails known knownGuesses starts limit fuel).ending = .exception v) ∧
    (∀ v, (aHeurRun g c fails known knownGuesses starts limit fuel).ending = .exception v →
      fails v = true ∧ ∃ pre w, (aHeurRun g c fails known knownGuesses starts limit fuel).seen = pre ++ [.asked v w]) := by
  unfold aHeurRun
  refine ⟨?_, ?_⟩
  · induction aAskedStarts c knownGuesses starts with
    | nil => exact runAsking_exception fuel _ _
    | cons u vs ih =>
      rw [askStarts_cons]
      by_cases hf : fails u = true
      · simp only [hf, if_true]
        intro pre post v' w' h _
        cases pre with
        | nil =>
          simp only [List.nil_append, List.cons.injEq, HeurSeen.asked.injEq] at h
          obtain ⟨⟨rfl, -⟩, rfl⟩ := h
          exact ⟨rfl, rfl⟩
        | cons p pre => simp at h
      · simp only [hf, Bool.false_eq_true, if_false]
        intro pre post v' w' h hv
        cases pre with
        | nil =>
          simp only [HeurResult.after, List.nil_append, List.cons.injEq, HeurSeen.asked.injEq] at h
          obtain ⟨⟨rfl, -⟩, -⟩ := h
          exact absurd hv hf
        | cons p pre =>
          simp only [HeurResult.after, List.cons_append, List.cons.injEq] at h
          exact ih pre post v' w' h.2 hv
  · induction aAskedStarts c knownGuesses starts with
    | nil => exact fun v h => runAsking_raised fuel _ _ v h
    | cons u vs ih =>
      intro v h
      rw [askStarts_cons] at h ⊢
      by_cases hf : fails u = true
      · simp only [hf, if_true] at h ⊢
        cases h
        exact ⟨hf, [], _, rfl⟩
      · simp only [hf, Bool.false_eq_true, if_false] at h ⊢
        obtain ⟨h1, pre, w, h2⟩ := ih v h
        exact ⟨h1, _ :: pre, w, by rw [HeurResult.after, h2]; rfl⟩

/-- A step uses only the value of the heuristic function that it asks for. -/
theorem aStep_heur (h' : V → W) (s : AStarState V L W M ML D)
    (h : ∀ v w, aAsks g c s = some (v, w) → c.heur v = h' v) : aStep g c s = aStep g { c with heur := h' } s := by
  unfold aAsks at h
  unfold aStep
  cases hpc : s.pc with
  | loop => rfl
  | expand v w ec => rfl
  | edges v w ec es =>
    cases es with
    | nil => rfl
    | cons e es =>
      obtain ⟨n, x, l⟩ := e
      simp only [hpc] at h ⊢
      by_cases hi : c.inf ≤ x + w
      · simp only [hi, if_true]
      · simp only [hi, if_false] at h ⊢
        have e1 : aImprove g { c with heur := h' } s.dist (c.vid n) (x + w) = aImprove g c s.dist (c.vid n) (x + w) := rfl
        rw [e1]
        cases hq : aImprove g c s.dist (c.vid n) (x + w) with
        | none => rfl
        | some d =>
          simp only [hq] at h ⊢
          rw [h n _ rfl]

/-- **C105, only the values asked for matter.** Heuristic functions with the same values for the vertices they are called for
(and where they do not raise) lead to the same reports, calls and end: the results do not depend on what they would give for
other vertices. -/
theorem C105_unused (h' : V → W) (fails : V → Bool) (known knownGuesses : Option D) (starts : List V) (limit : Option Int)
    (fuel : Nat) (heq : ∀ p ∈ (aHeurRun g c fails known knownGuesses starts limit fuel).calls,
      fails p.1 = false → c.heur p.1 = h' p.1) :
    aHeurRun g { c with heur := h' } fails known knownGuesses starts limit fuel =
      aHeurRun g c fails known knownGuesses starts limit fuel := by
  have hmem : ∀ v w, .asked v w ∈ (aHeurRun g c fails known knownGuesses starts limit fuel).seen → fails v = false →
      c.heur v = h' v := by
    intro v w hm hf
    exact heq (v, w) (List.mem_filterMap.2 ⟨_, hm, rfl⟩) hf
  rcases aHeurRun_cases g c fails known knownGuesses starts limit fuel with ⟨h0, h⟩ | ⟨xs, u, ys, h1, -, hu, -⟩
  · rw [h] at hmem
    have hinit : aInit g { c with heur := h' } known knownGuesses starts = aInit g c known knownGuesses starts := by
      have hgu : aGuesses g { c with heur := h' } knownGuesses (aDistances g c known starts) starts =
          aGuesses g c knownGuesses (aDistances g c known starts) starts := by
        by_cases hk : (knownGuesses.isSome && c.isTree) = true
        · obtain ⟨k, rfl⟩ := Option.isSome_iff_exists.1 (Bool.and_eq_true_iff.1 hk).1
          simp [aGuesses, (Bool.and_eq_true_iff.1 hk).2]
        · have hs : aAskedStarts c knownGuesses starts = starts := by simp [aAskedStarts, hk]
          rw [hs] at hmem h0
          have : starts.map (fun v => (c.vid v, g.dd.get (aDistances g c known starts) (c.vid v) + h' v)) =
              starts.map (fun v => (c.vid v, g.dd.get (aDistances g c known starts) (c.vid v) + c.heur v)) := by
            refine List.map_congr_left (fun v hv => ?_)
            rw [hmem v _ (List.mem_append_left _ (List.mem_map_of_mem hv)) (h0 v hv)]
          unfold aGuesses
          simp only [this]
      have e1 : aDistances g { c with heur := h' } known starts = aDistances g c known starts := rfl
      have e3 : ∀ gu vs no, aStartEntries g { c with heur := h' } gu vs no = aStartEntries g c gu vs no := by
        intro gu vs
        induction vs with
        | nil => intro no; rfl
        | cons v vs ih => intro no; simp only [aStartEntries, ih]
      unfold aInit
      simp only [e1, hgu, e3]
    have := runAsking_congr (m := aStep g c) (m' := aStep g { c with heur := h' }) (asks := aAsks g c) (fails := fails)
      (ok := fun v _ => c.heur v = h' v) (fun s hs => aStep_heur g c h' s hs) fuel (prepareLimit limit)
      (aInit g c known knownGuesses starts) (fun v w hm hf => hmem v w (List.mem_append_right _ hm) hf)
    have e2 : aAsks g { c with heur := h' } = aAsks g c := rfl
    unfold aHeurRun
    rw [hinit, e2, this]
    rfl
  · exact askStarts_fail _ _ _ _ ⟨u, by
      have : aAskedStarts { c with heur := h' } knownGuesses starts = aAskedStarts c knownGuesses starts := rfl
      rw [this, h1]; simp, hu⟩

/-- What is seen before a call, for calls for start vertices and for other ones. -/
theorem aHeurRun_before (fails : V → Bool) (known knownGuesses : Option D) (starts : List V) (limit : Option Int) (fuel : Nat)
    (pre post : List (HeurSeen V W (AStarReport V W M ML D))) (v : V) (w : W)
    (h : (aHeurRun g c fails known knownGuesses starts limit fuel).seen = pre ++ .asked v w :: post) :
    (∃ xs ys, aAskedStarts c knownGuesses starts = xs ++ v :: ys ∧
      w = g.dd.get (aDistances g c known starts) (c.vid v) ∧
      pre = xs.map (fun v => .asked v (g.dd.get (aDistances g c known starts) (c.vid v)))) ∨
    ∃ pre', pre = (aAskedStarts c knownGuesses starts).map
        (fun v => .asked v (g.dd.get (aDistances g c known starts) (c.vid v))) ++ pre' ∧
      (runAsking (aStep g c) (aAsks g c) fails fuel (prepareLimit limit) (aInit g c known knownGuesses starts)).seen =
        pre' ++ .asked v w :: post := by
  unfold aHeurRun at h
  generalize aAskedStarts c knownGuesses starts = vs at h ⊢
  induction vs generalizing pre with
  | nil => exact .inr ⟨pre, rfl, h⟩
  | cons u vs ih =>
    rw [askStarts_cons] at h
    cases pre with
    | nil =>
      have : u = v ∧ g.dd.get (aDistances g c known starts) (c.vid u) = w := by
        by_cases hf : fails u = true
        · simp only [hf, if_true, List.nil_append, List.cons.injEq, HeurSeen.asked.injEq] at h
          exact h.1
        · simp only [hf, Bool.false_eq_true, if_false, HeurResult.after, List.nil_append, List.cons.injEq,
            HeurSeen.asked.injEq] at h
          exact h.1
      obtain ⟨rfl, rfl⟩ := this
      exact .inl ⟨[], vs, rfl, rfl, rfl⟩
    | cons p pre =>
      by_cases hf : fails u = true
      · simp [hf] at h
      · simp only [hf, Bool.false_eq_true, if_false, HeurResult.after, List.cons_append, List.cons.injEq] at h
        obtain ⟨rfl, h⟩ := h
        rcases ih pre h with ⟨xs, ys, h1, h2, h3⟩ | ⟨pre', h1, h2⟩
        · exact .inl ⟨u :: xs, ys, by rw [h1]; rfl, h2, by rw [h3]; rfl⟩
        · exact .inr ⟨pre', by rw [h1]; rfl, h2⟩

/-- The vertex is a start vertex, or it has been reported. -/
def SeenBefore (starts : List V) (pre : List (HeurSeen V W (AStarReport V W M ML D))) (u : V) : Prop :=
  u ∈ starts ∨ ∃ r, .report r ∈ pre ∧ r.vertex = u

/-- Invariant for `C105_origin`. -/
structure AskInv (starts : List V) (pre : List (HeurSeen V W (AStarReport V W M ML D))) (s : AStarState V L W M ML D) :
    Prop where
  heap : ∀ e ∈ s.heap, e.item.2 = 0 → e.item.1 ∈ starts
  pc : match s.pc with
    | .loop => True
    | .expand v _ _ => SeenBefore starts pre v
    | .edges v _ _ es => SeenBefore starts pre v ∧ ∀ e ∈ es, e ∈ c.next v

theorem SeenBefore.mono {starts : List V} {pre : List (HeurSeen V W (AStarReport V W M ML D))} {u : V}
    (h : SeenBefore starts pre u) (post : List (HeurSeen V W (AStarReport V W M ML D))) : SeenBefore starts (pre ++ post) u := by
  rcases h with h | ⟨r, h, e⟩
  · exact .inl h
  · exact .inr ⟨r, List.mem_append_left _ h, e⟩

/-- What a step does. -/
theorem aStep_calls_cases (s : AStarState V L W M ML D) :
    (∃ v w ec es, s.pc = .expand v w ec ∧ es = c.next v ∧ aStep g c s = .expand { s with pc := .edges v w ec es }) ∨
    (s.pc = .loop ∧ ∃ e rest, s.heap = e :: rest ∧ (aStep g c s = .tau { s with heap := rest } ∨
      ∃ w, let s' : AStarState V L W M ML D := { s with heap := rest, pc := .expand e.item.1 w e.item.2 }
        if e.item.2 > 0 then aStep g c s = .emit ⟨e.item.1, w, e.item.2, s.dist, s.preds, s.labels⟩ s'
        else aStep g c s = .tau s')) ∨
    (s.pc = .loop ∧ aStep g c s = .stop s) ∨
    (∃ v w ec, s.pc = .edges v w ec [] ∧ aStep g c s = .tau { s with pc := .loop }) ∨
    (∃ v w ec n x l es, s.pc = .edges v w ec ((n, x, l) :: es) ∧
      ((∃ e, aStep g c s = .fail e) ∨
       (aAsks g c s = none ∧ aStep g c s = .tau { s with pc := .edges v w ec es }) ∨
       (∃ d s', aAsks g c s = some (n, x + w) ∧ x + w < c.inf ∧ aImprove g c s.dist (c.vid n) (x + w) = some d ∧
          aStep g c s = .tau s' ∧ s'.pc = .edges v w ec es ∧ s'.dist = d ∧
          ∃ k, s'.heap = heapPush s.heap ⟨k, s.no, (n, ec + 1)⟩))) := by
  unfold aAsks aStep
  cases hpc : s.pc with
  | expand v w ec => exact .inl ⟨v, w, ec, _, rfl, rfl, rfl⟩
  | loop =>
    right
    cases hh : s.heap with
    | nil => exact .inr (.inl ⟨rfl, rfl⟩)
    | cons e rest =>
      refine .inl ⟨rfl, e, rest, rfl, ?_⟩
      simp only
      split
      · exact .inl rfl
      · refine .inr ⟨g.dd.get s.dist (c.vid e.item.1), ?_⟩
        by_cases hec : e.item.2 > 0
        · simp only [hec, if_true]
        · simp only [hec, if_false]
  | edges v w ec es =>
    right; right; right
    cases es with
    | nil => exact .inl ⟨v, w, ec, rfl, rfl⟩
    | cons e es =>
      obtain ⟨n, x, l⟩ := e
      refine .inr ⟨v, w, ec, n, x, l, es, rfl, ?_⟩
      simp only
      by_cases hi : c.inf ≤ x + w
      · simp only [hi, if_true]; exact .inl ⟨_, rfl⟩
      · simp only [hi, if_false]
        cases hq : aImprove g c s.dist (c.vid n) (x + w) with
        | none => exact .inr (.inl ⟨rfl, rfl⟩)
        | some d =>
          simp only
          split
          · exact .inl ⟨_, rfl⟩
          · exact .inr (.inr ⟨d, _, trivial, not_le.1 hi, rfl, rfl, rfl, rfl, _, rfl⟩)

theorem askInv_step (starts : List V) (pre : List (HeurSeen V W (AStarReport V W M ML D))) (s : AStarState V L W M ML D)
    (h : AskInv c starts pre s) :
    (∀ s' q, aStep g c s = .tau s' ∨ aStep g c s = .expand s' → AskInv c starts (pre ++ q) s') ∧
    (∀ r s' q, aStep g c s = .emit r s' → AskInv c starts (pre ++ q ++ [.report r]) s') := by
  obtain ⟨hh, hp⟩ := h
  rcases aStep_calls_cases g c s with ⟨v, w, ec, es, hpc, rfl, he⟩ | ⟨hpc, e, rest, hheap, he⟩ | ⟨hpc, he⟩ | ⟨v, w, ec, hpc, he⟩ |
    ⟨v, w, ec, n, x, l, es, hpc, he⟩
  · rw [he]
    rw [hpc] at hp
    constructor
    · rintro s' q (h | h) <;> cases h
      exact ⟨hh, hp.mono q, fun _ h => h⟩
    · intro r s' q h; cases h
  · have hrest : ∀ e' ∈ rest, e'.item.2 = 0 → e'.item.1 ∈ starts := fun e' h => hh e' (by rw [hheap]; simp [h])
    rcases he with he | ⟨w, he⟩
    · rw [he]
      constructor
      · rintro s' q (h | h) <;> cases h
        exact ⟨hrest, by simp only [hpc]⟩
      · intro r s' q h; cases h
    · simp only at he
      split at he
      · rw [he]
        constructor
        · rintro s' q (h | h) <;> cases h
        · intro r s' q h; cases h
          exact ⟨hrest, .inr ⟨_, List.mem_append_right _ (List.mem_singleton.2 rfl), rfl⟩⟩
      · rename_i hec
        rw [he]
        constructor
        · rintro s' q (h | h) <;> cases h
          exact ⟨hrest, .inl (hh e (by rw [hheap]; simp) (by omega))⟩
        · intro r s' q h; cases h
  · rw [he]
    constructor
    · rintro s' q (h | h) <;> cases h
    · intro r s' q h; cases h
  · rw [he]
    constructor
    · rintro s' q (h | h) <;> cases h
      exact ⟨hh, trivial⟩
    · intro r s' q h; cases h
  · rw [hpc] at hp
    have hes : ∀ q, SeenBefore starts (pre ++ q) v ∧ ∀ e ∈ es, e ∈ c.next v :=
      fun q => ⟨hp.1.mono q, fun e h => hp.2 e (List.mem_cons_of_mem _ h)⟩
    rcases he with ⟨e, he⟩ | ⟨-, he⟩ | ⟨d, s1, -, -, -, he, hpc', -, k, hk⟩
    · rw [he]
      constructor
      · rintro s' q (h | h) <;> cases h
      · intro r s' q h; cases h
    · rw [he]
      constructor
      · rintro s' q (h | h) <;> cases h
        exact ⟨hh, hes q⟩
      · intro r s' q h; cases h
    · rw [he]
      constructor
      · rintro s' q (h | h) <;> cases h
        refine ⟨fun e h1 h2 => ?_, by rw [hpc']; exact hes q⟩
        rw [hk, mem_heapPush] at h1
        rcases h1 with rfl | h1
        · simp at h2
        · exact hh e h1 h2
      · intro r s' q h; cases h

/-- **C105, when the function is called.** A call is for a start vertex, or for a neighbor of a vertex that is a start vertex
or has been reported before. -/
theorem C105_origin (fails : V → Bool) (known knownGuesses : Option D) (starts : List V) (limit : Option Int) (fuel : Nat)
    (pre post : List (HeurSeen V W (AStarReport V W M ML D))) (v : V) (w : W)
    (h : (aHeurRun g c fails known knownGuesses starts limit fuel).seen = pre ++ .asked v w :: post) :
    v ∈ starts ∨ ∃ u x, (u ∈ starts ∨ ∃ r, .report r ∈ pre ∧ r.vertex = u) ∧ WEdge c.next u v x := by
  have hsub : ∀ v ∈ aAskedStarts c knownGuesses starts, v ∈ starts := by
    intro v hv
    unfold aAskedStarts at hv
    split at hv
    · simp at hv
    · exact hv
  rcases aHeurRun_before g c fails known knownGuesses starts limit fuel pre post v w h with ⟨xs, ys, h1, -, -⟩ | ⟨pre', rfl, h2⟩
  · exact .inl (hsub v (by rw [h1]; simp))
  · right
    have := runAsking_inv (m := aStep g c) (asks := aAsks g c) (fails := fails) (Inv := AskInv c starts)
      (Good := fun pre v _ => ∃ u x, SeenBefore starts pre u ∧ WEdge c.next u v x)
      (by
        intro pre s v w hi ha
        obtain ⟨-, hp⟩ := hi
        unfold aAsks at ha
        cases hpc : s.pc with
        | loop => rw [hpc] at ha; cases ha
        | expand v w ec => rw [hpc] at ha; cases ha
        | edges u y ec es =>
          rw [hpc] at ha hp
          cases es with
          | nil => cases ha
          | cons e es =>
            obtain ⟨n, x, l⟩ := e
            simp only at ha
            split at ha
            · cases ha
            · split at ha
              · cases ha
              · cases ha
                exact ⟨u, x, hp.1, l, hp.2 _ (List.mem_cons_self ..)⟩)
      (fun pre s s' hi hs => (askInv_step g c starts pre s hi).1 s' _ hs)
      (fun pre s r s' hi hs => (askInv_step g c starts pre s hi).2 r s' _ hs)
      fuel (prepareLimit limit) (aInit g c known knownGuesses starts) []
      ⟨fun e he h0 => (by
          have hst : ∀ (gu : D) (vs : List V) (no : Int) (e : HEntry W (V × Nat)), e ∈ aStartEntries g c gu vs no →
              e.item.1 ∈ vs := by
            intro gu vs
            induction vs with
            | nil => intro no e h; simp [aStartEntries] at h
            | cons v vs ih =>
              intro no e h
              rcases List.mem_cons.1 h with rfl | h
              · exact List.mem_cons_self ..
              · exact List.mem_cons_of_mem _ (ih _ _ h)
          exact hst _ _ _ _ (mem_heapify.1 he)), trivial⟩ pre' post v w h2
    obtain ⟨u, x, h3, h4⟩ := this
    refine ⟨u, x, ?_, h4⟩
    rcases h3 with h3 | ⟨r, h3, h5⟩
    · exact .inl h3
    · exact .inr ⟨r, List.mem_append_right _ h3, h5⟩

variable [DecidableEq K]

/-- **C105, a vertex is asked for again only if a smaller distance has been found.** (The start vertices have different ids.) -/
theorem C105_improved (hd : g.dd.Lawful c.inf) (ht : c.isTree = false) (fails : V → Bool) (known knownGuesses : Option D)
    (starts : List V) (hns : (starts.map c.vid).Nodup) (limit : Option Int) (fuel : Nat) :
    (aHeurRun g c fails known knownGuesses starts limit fuel).calls.Pairwise
      (fun p q => c.vid p.1 = c.vid q.1 → q.2 < p.2) := by
  have hvs : aAskedStarts c knownGuesses starts = starts := by simp [aAskedStarts, ht]
  have key : ∀ pre post v w, (aHeurRun g c fails known knownGuesses starts limit fuel).seen = pre ++ .asked v w :: post →
      ∀ v' w', .asked v' w' ∈ pre → c.vid v' = c.vid v → w < w' := by
    intro pre post v w h
    rcases aHeurRun_before g c fails known knownGuesses starts limit fuel pre post v w h with ⟨xs, ys, h1, -, rfl⟩ | ⟨pre', rfl, h2⟩
    · intro v' w' hm he
      exfalso
      obtain ⟨y, hy, hb⟩ := List.mem_map.1 hm
      cases hb
      rw [hvs] at h1
      rw [h1, List.map_append, List.nodup_append] at hns
      exact hns.2.2 _ (List.mem_map_of_mem hy) _ (List.mem_map_of_mem (List.mem_cons_self ..)) he
    · refine runAsking_inv (m := aStep g c) (asks := aAsks g c) (fails := fails)
        (Inv := fun pre s => ∀ v' w', .asked v' w' ∈ pre → g.dd.get s.dist (c.vid v') ≤ w')
        (Good := fun pre v w => ∀ v' w', .asked v' w' ∈ pre → c.vid v' = c.vid v → w < w')
        ?_ ?_ ?_ fuel (prepareLimit limit) (aInit g c known knownGuesses starts) _ ?_ pre' post v w h2
      · intro pre s v w hi ha v' w' hm he
        rcases aStep_calls_cases g c s with ⟨_, _, _, _, hpc, -, -⟩ | ⟨hpc, -⟩ | ⟨hpc, -⟩ | ⟨_, _, _, hpc, -⟩ |
          ⟨u, y, ec, n, x, l, es, hpc, hst⟩
        · simp [aAsks, hpc] at ha
        · simp [aAsks, hpc] at ha
        · simp [aAsks, hpc] at ha
        · simp [aAsks, hpc] at ha
        · simp only [aAsks, hpc] at ha
          split at ha
          · cases ha
          · rename_i hlt
            split at ha
            · cases ha
            · rename_i d him
              cases ha
              simp only [aImprove, ht, Bool.false_eq_true, if_false] at him
              have := hi v' w' hm
              refine lt_of_lt_of_le (not_le.1 (fun hle => ?_)) this
              rw [he] at hle
              rw [(hd.improve_none _ _ _ (not_le.1 hlt)).2 hle] at him
              cases him
      · intro pre s s' hi hst v' w' hm
        have hold : s'.dist = s.dist → aAsks g c s = none → g.dd.get s'.dist (c.vid v') ≤ w' := by
          intro h1 h2
          rw [h2] at hm
          rw [h1]
          exact hi v' w' (by simpa using hm)
        rcases aStep_calls_cases g c s with ⟨_, _, _, _, hpc, -, he⟩ | ⟨hpc, e, rest, -, he | ⟨_, he⟩⟩ | ⟨hpc, he⟩ | ⟨_, _, _, hpc, he⟩ |
          ⟨u, y, ec, n, x, l, es, hpc, ⟨_, he⟩ | ⟨ha, he⟩ | ⟨d, s1, ha, hlt, him, he, -, hdd, -⟩⟩
        · rw [he] at hst; rcases hst with h | h <;> cases h
          exact hold rfl (by simp [aAsks, hpc])
        · rw [he] at hst; rcases hst with h | h <;> cases h
          exact hold rfl (by simp [aAsks, hpc])
        · simp only at he
          split at he
          · rw [he] at hst; rcases hst with h | h <;> cases h
          · rw [he] at hst; rcases hst with h | h <;> cases h
            exact hold rfl (by simp [aAsks, hpc])
        · rw [he] at hst; rcases hst with h | h <;> cases h
        · rw [he] at hst; rcases hst with h | h <;> cases h
          exact hold rfl (by simp [aAsks, hpc])
        · rw [he] at hst; rcases hst with h | h <;> cases h
        · rw [he] at hst; rcases hst with h | h <;> cases h
          exact hold rfl ha
        · rw [he] at hst; rcases hst with h | h <;> cases h
          simp only [aImprove, ht, Bool.false_eq_true, if_false] at him
          rw [hdd, hd.improve_some _ _ _ _ hlt him]
          have hgt : x + y < g.dd.get s.dist (c.vid n) := by
            refine not_le.1 (fun hle => ?_)
            rw [(hd.improve_none _ _ _ hlt).2 hle] at him
            cases him
          rw [ha] at hm
          simp only [Option.toList_some, List.map_cons, List.map_nil, List.mem_append, List.mem_singleton,
            HeurSeen.asked.injEq] at hm
          rcases hm with hm | ⟨rfl, rfl⟩
          · split
            · rename_i heq
              have := hi v' w' hm
              rw [heq] at this
              exact hgt.le.trans this
            · exact hi v' w' hm
          · simp
      · intro pre s r s' hi hst v' w' hm
        rcases aStep_calls_cases g c s with ⟨_, _, _, _, hpc, -, he⟩ | ⟨hpc, e, rest, -, he | ⟨_, he⟩⟩ | ⟨hpc, he⟩ | ⟨_, _, _, hpc, he⟩ |
          ⟨u, y, ec, n, x, l, es, hpc, ⟨_, he⟩ | ⟨ha, he⟩ | ⟨d, s1, ha, hlt, him, he, -, hdd, -⟩⟩
        · rw [he] at hst; cases hst
        · rw [he] at hst; cases hst
        · simp only at he
          split at he
          · rw [he] at hst; cases hst
            have : aAsks g c s = none := by simp [aAsks, hpc]
            rw [this] at hm
            exact hi v' w' (by simpa using hm)
          · rw [he] at hst; cases hst
        · rw [he] at hst; cases hst
        · rw [he] at hst; cases hst
        · rw [he] at hst; cases hst
        · rw [he] at hst; cases hst
        · rw [he] at hst; cases hst
      · intro v' w' hm
        obtain ⟨y, hy, hb⟩ := List.mem_map.1 hm
        cases hb
        exact le_refl _
  unfold HeurResult.calls
  rw [List.pairwise_filterMap]
  generalize (aHeurRun g c fails known knownGuesses starts limit fuel).seen = seen at key
  induction seen using List.reverseRecOn with
  | nil => exact .nil
  | append_singleton xs x ih =>
    rw [List.pairwise_append]
    refine ⟨ih (fun pre post v w h => key pre (post ++ [x]) v w (by rw [h]; simp)), List.pairwise_singleton _ _, ?_⟩
    intro a ha b hb p hp q hq he
    rw [List.mem_singleton] at hb
    subst hb
    cases b with
    | report r => cases hq
    | asked v w =>
      cases a with
      | report r => cases hp
      | asked v' w' =>
        cases hp; cases hq
        exact key xs [] v w rfl v' w' ha he

end AStar

/-! ## Examples -/

/-- The function raises for vertex 3: it is called for the start vertex, for its neighbors 1 and 2, after the report of 2 for
1 again (with a smaller distance) and for 4, and after the report of 4 for 3. Without the exception, it would be called for 3
again. -/
example : (aHeurRun exWHash exACfg (fun v => v == 3) none none [0] none 200).calls =
      [(0, 0), (1, 5), (2, 1), (1, 3), (4, 1), (3, 8)] ∧
    (aHeurRun exWHash exACfg (fun v => v == 3) none none [0] none 200).reports.map (·.vertex) = [2, 4] ∧
    (aHeurRun exWHash exACfg (fun v => v == 3) none none [0] none 200).exception? = some 3 ∧
    (aHeurRun exWHash exACfg (fun _ => false) none none [0] none 200).calls =
      [(0, 0), (1, 5), (2, 1), (1, 3), (4, 1), (3, 8), (3, 4)] ∧
    (aHeurRun exWHash exACfg (fun _ => false) none none [0] none 200).reports.map (·.vertex) = [2, 4, 1, 3] ∧
    (aHeurRun exWHash exACfg (fun v => v == 5) none none [0, 5, 1] none 200).calls = [(0, 0), (5, 0)] := by decide +kernel

example := C105_improved exWHash exACfg (dictDist_lawful _) rfl (fun v => v == 3) none none [0] (by decide) none 200

/-- The hypothesis of `C105_unused` holds for a function with other values for the vertices that do not occur. -/
example : aHeurRun exWHash { exACfg with heur := fun v => if v < 5 then exACfg.heur v else 77 } (fun v => v == 3) none none [0] none
    200 = aHeurRun exWHash exACfg (fun v => v == 3) none none [0] none 200 :=
  C105_unused exWHash exACfg _ (fun v => v == 3) none none [0] none 200 (by decide +kernel)

end NoGraphs
