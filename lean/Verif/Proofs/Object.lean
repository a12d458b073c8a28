import Verif.Model.ObjectStrategies
import Verif.Spec.Object
import Verif.Proofs.Machine

/-! # Proofs about traversal objects: the generator delivers the reports of a run, call by call -/

set_option linter.unusedSectionVars false

namespace NoGraphs

variable {G G₁ G₂ K W ρ σ A P T C : Type} [DecidableEq K] [LinearOrder W]

/-! ## Two generators that deliver the same -/

section sim
variable (ops₁ : GenOps G₁ ρ) (ops₂ : GenOps G₂ ρ) (id : ρ → K) (dist : ρ → W) (Rl : Nat → G₁ → G₂ → Prop)

/-- Fetching from both gives the same, unless it takes too long. -/
def SeekSim : Prop :=
  ∀ N p g₁ g₂, Rl (N + 1) g₁ g₂ → (ops₁.seek p g₁).1 ≠ .hangs →
    (ops₂.seek p g₂).1 = (ops₁.seek p g₁).1 ∧ Rl N (ops₁.seek p g₁).2 (ops₂.seek p g₂).2

variable {ops₁ ops₂ Rl}

theorem SeekSim.cases (h : SeekSim ops₁ ops₂ Rl) {N : Nat} {g₁ : G₁} {g₂ : G₂} (hr : Rl (N + 1) g₁ g₂) (p : ρ → Bool) :
    (∃ g, ops₁.seek p g₁ = (.hangs, g)) ∨
      ∃ f g g', ops₁.seek p g₁ = (f, g) ∧ ops₂.seek p g₂ = (f, g') ∧ f ≠ .hangs ∧ Rl N g g' := by
  by_cases hh : (ops₁.seek p g₁).1 = .hangs
  · exact .inl ⟨(ops₁.seek p g₁).2, Prod.ext hh rfl⟩
  · obtain ⟨e, r⟩ := h N p g₁ g₂ hr hh
    exact .inr ⟨_, _, _, rfl, Prod.ext e rfl, hh, r⟩

theorem fetchShowing_sim (h : SeekSim ops₁ ops₂ Rl) {N : Nat} {g₁ : G₁} {g₂ : G₂} (hr : Rl (N + 1) g₁ g₂) (stop : W)
    (hh : (fetchShowing (K := K) ops₁ dist stop g₁).1 ≠ .hangs) :
    (fetchShowing (K := K) ops₂ dist stop g₂).1 = (fetchShowing (K := K) ops₁ dist stop g₁).1 ∧
    (fetchShowing (K := K) ops₂ dist stop g₂).2.1 = (fetchShowing (K := K) ops₁ dist stop g₁).2.1 ∧
    Rl N (fetchShowing (K := K) ops₁ dist stop g₁).2.2 (fetchShowing (K := K) ops₂ dist stop g₂).2.2 := by
  unfold fetchShowing at hh ⊢
  rcases h.cases hr (fun _ => true) with ⟨g, e⟩ | ⟨f, g, g', e₁, e₂, hf, hr'⟩
  · simp [e] at hh
  · rw [e₁, e₂]
    cases f with
    | found r => by_cases hs : stop ≤ dist r <;> simp [hs, hr']
    | stopped => simp [hr']
    | raised x => simp [hr']
    | hangs => exact absurd rfl hf

theorem fetchFrom_sim (h : SeekSim ops₁ ops₂ Rl) (hmono : ∀ N g₁ g₂, Rl (N + 1) g₁ g₂ → Rl N g₁ g₂)
    {N : Nat} {g₁ : G₁} {g₂ : G₂} (hr : Rl (N + 2) g₁ g₂) (it : GoIter K W)
    (hh : (fetchFrom ops₁ id dist it g₁).1 ≠ .hangs) :
    (fetchFrom ops₂ id dist it g₂).1 = (fetchFrom ops₁ id dist it g₁).1 ∧
    (fetchFrom ops₂ id dist it g₂).2.1 = (fetchFrom ops₁ id dist it g₁).2.1 ∧
    Rl N (fetchFrom ops₁ id dist it g₁).2.2 (fetchFrom ops₂ id dist it g₂).2.2 := by
  cases it with
  | over => exact ⟨rfl, rfl, hmono _ _ _ (hmono _ _ _ hr)⟩
  | vertices ids count silent =>
    simp only [fetchFrom] at hh ⊢
    by_cases hc : count = 0
    · simp only [hc, if_true]; exact ⟨trivial, trivial, hmono _ _ _ (hmono _ _ _ hr)⟩
    · simp only [hc, if_false] at hh ⊢
      rcases h.cases hr (fun r => decide (id r ∈ ids)) with ⟨g, e⟩ | ⟨f, g, g', e₁, e₂, hf, hr'⟩
      · simp [e] at hh
      · rw [e₁, e₂]
        cases f with
        | found r => exact ⟨rfl, rfl, hmono _ _ _ hr'⟩
        | stopped => exact ⟨rfl, rfl, hmono _ _ _ hr'⟩
        | raised x => exact ⟨rfl, rfl, hmono _ _ _ hr'⟩
        | hangs => exact absurd rfl hf
  | skipping start stop =>
    simp only [fetchFrom] at hh ⊢
    rcases h.cases hr (fun r => decide (start ≤ dist r)) with ⟨g, e⟩ | ⟨f, g, g', e₁, e₂, hf, hr'⟩
    · simp [e] at hh
    · rw [e₁] at hh ⊢
      rw [e₂]
      cases f with
      | found r =>
        simp only at hh ⊢
        by_cases hs : dist r < stop
        · simp only [hs, if_true]; exact ⟨trivial, trivial, hmono _ _ _ hr'⟩
        · simp only [hs, if_false] at hh ⊢
          exact fetchShowing_sim dist h hr' stop hh
      | stopped => exact fetchShowing_sim dist h hr' stop hh
      | raised x => exact ⟨rfl, rfl, hmono _ _ _ hr'⟩
      | hangs => exact absurd rfl hf
  | showing stop =>
    exact fetchShowing_sim dist h (hmono _ _ _ hr) stop hh

theorem use_sim (h : SeekSim ops₁ ops₂ Rl) (hmono : ∀ N g₁ g₂, Rl (N + 1) g₁ g₂ → Rl N g₁ g₂)
    {N : Nat} {g₁ : G₁} {g₂ : G₂} (hr : Rl (N + 2) g₁ g₂) (u : Use K W) (its : List (GoIter K W))
    (hh : (use ops₁ id dist u its g₁).1 ≠ .hangs) :
    (use ops₂ id dist u its g₂).1 = (use ops₁ id dist u its g₁).1 ∧
    (use ops₂ id dist u its g₂).2.1 = (use ops₁ id dist u its g₁).2.1 ∧
    Rl N (use ops₁ id dist u its g₁).2.2 (use ops₂ id dist u its g₂).2.2 := by
  cases u with
  | next =>
    simp only [use, genNext] at hh ⊢
    rcases h.cases hr (fun _ => true) with ⟨g, e⟩ | ⟨f, g, g', e₁, e₂, hf, hr'⟩
    · simp [e] at hh
    · rw [e₁, e₂]
      cases f with
      | hangs => exact absurd rfl hf
      | _ => exact ⟨rfl, trivial, hmono _ _ _ hr'⟩
  | goTo k silent =>
    simp only [use, genGoTo] at hh ⊢
    rcases h.cases hr (fun r => decide (id r = k)) with ⟨g, e⟩ | ⟨f, g, g', e₁, e₂, hf, hr'⟩
    · simp [e] at hh
    · rw [e₁, e₂]
      cases f with
      | hangs => exact absurd rfl hf
      | _ => exact ⟨rfl, trivial, hmono _ _ _ hr'⟩
  | goForVertices ids silent => exact ⟨rfl, rfl, hmono _ _ _ (hmono _ _ _ hr)⟩
  | goForRange start stop => exact ⟨rfl, rfl, hmono _ _ _ (hmono _ _ _ hr)⟩
  | fetch i =>
    simp only [use] at hh ⊢
    cases hi : its[i]? with
    | none => exact ⟨rfl, rfl, hmono _ _ _ (hmono _ _ _ hr)⟩
    | some it =>
      simp only [hi] at hh
      obtain ⟨e₁, e₂, hr'⟩ := fetchFrom_sim id dist h hmono hr it hh
      exact ⟨e₁, by simp only [e₂], hr'⟩

theorem useAll_cons (ops : GenOps G ρ) (its : List (GoIter K W)) (g : G) (u : Use K W) (us : List (Use K W))
    (h : (use ops id dist u its g).1 ≠ .hangs) :
    useAll ops id dist its g (u :: us) =
      (use ops id dist u its g).1 :: useAll ops id dist (use ops id dist u its g).2.1 (use ops id dist u its g).2.2 us := by
  rw [useAll]
  split
  · next e => rw [e] at h; exact absurd rfl h
  · next e => rw [e]

theorem useAll_cons_hangs (ops : GenOps G ρ) (its : List (GoIter K W)) (g : G) (u : Use K W) (us : List (Use K W))
    (h : (use ops id dist u its g).1 = .hangs) : useAll ops id dist its g (u :: us) = [.hangs] := by
  rw [useAll]
  split
  · rfl
  · next hne e => rw [e] at h; exact absurd h hne

theorem useAll_sim (h : SeekSim ops₁ ops₂ Rl) (hmono : ∀ N g₁ g₂, Rl (N + 1) g₁ g₂ → Rl N g₁ g₂)
    (us : List (Use K W)) : ∀ {g₁ : G₁} {g₂ : G₂} (its : List (GoIter K W)), Rl (2 * us.length) g₁ g₂ →
    .hangs ∉ useAll ops₁ id dist its g₁ us → useAll ops₂ id dist its g₂ us = useAll ops₁ id dist its g₁ us := by
  induction us with
  | nil => intros; rfl
  | cons u us ih =>
    intro g₁ g₂ its hr hh
    by_cases hu : (use ops₁ id dist u its g₁).1 = .hangs
    · rw [useAll_cons_hangs id dist ops₁ its g₁ u us hu] at hh; simp at hh
    · have hr' : Rl (2 * us.length + 2) g₁ g₂ := by
        have : 2 * (u :: us).length = 2 * us.length + 2 := by simp only [List.length_cons]; omega
        rwa [this] at hr
      obtain ⟨e₁, e₂, hr''⟩ := use_sim id dist h hmono hr' u its hu
      rw [useAll_cons id dist ops₁ its g₁ u us hu] at hh ⊢
      rw [useAll_cons id dist ops₂ its g₂ u us (e₁ ▸ hu), e₁, e₂, ih _ hr'']
      exact fun hm => hh (List.mem_cons_of_mem _ hm)

end sim

/-! ## The generator of a strategy -/

section machine
variable (m : σ → Step σ ρ)

/-- More steps change nothing for a run that has come to its end. -/
theorem run_more : ∀ F lim s, (runMachine m F lim s).ending ≠ .outOfFuel → ∀ F', F ≤ F' →
    runMachine m F' lim s = runMachine m F lim s := by
  intro F
  induction F with
  | zero => intro lim s h; exact absurd rfl h
  | succ F ih =>
    intro lim s h F' hF
    obtain ⟨F', rfl⟩ : ∃ n, F' = n + 1 := ⟨F' - 1, by omega⟩
    have hF' : F ≤ F' := by omega
    rw [runMachine] at h
    rw [runMachine, runMachine]
    cases hm : m s with
    | stop s' => rfl
    | fail e => rfl
    | tau s' => simp only [hm] at h ⊢; exact ih _ _ h _ hF'
    | emit r s' => simp only [hm] at h ⊢; rw [ih _ _ h _ hF']
    | expand s' =>
      simp only [hm] at h ⊢
      cases hl : checkLimit lim with
      | none => rfl
      | some l => simp only [hl] at h ⊢; rw [ih _ _ h _ hF']

/-- The abstract generator for a run. -/
def runList (F : Nat) (lim : Option Int) (s : σ) : List ρ × Ending :=
  ((runMachine m F lim s).reports, (runMachine m F lim s).ending)

/-- What is expected from the generator after a call, relative to the abstract generator. -/
def SeekPost (F : Nat) (f : Found ρ) (lim : Option Int) (s : σ) (a : Found ρ × (List ρ × Ending)) : Prop :=
  a.1 = f ∧ (match f with | .found _ => a.2 = runList m F lim s | _ => a.2 = ([], .done))

/-- If a loop that fetches reports comes to its end in `n` steps, it sees the reports of the run, and leaves the remaining ones. -/
theorem seek_le (p : ρ → Bool) : ∀ n F lim s, n ≤ F → (seekMachine m p n lim s).1 ≠ .hangs →
    ∃ F', F - n ≤ F' ∧ SeekPost m F' (seekMachine m p n lim s).1 (seekMachine m p n lim s).2.1 (seekMachine m p n lim s).2.2
      (listSeek p (runList m F lim s).1 (runList m F lim s).2) := by
  intro n
  induction n with
  | zero => intro F lim s _ h; exact absurd rfl h
  | succ n ih =>
    intro F lim s hF h
    obtain ⟨F, rfl⟩ : ∃ k, F = k + 1 := ⟨F - 1, by omega⟩
    have hF' : n ≤ F := by omega
    rw [seekMachine] at h
    simp only [runList, RunResult.reports]
    rw [seekMachine, runMachine]
    cases hm : m s with
    | stop s' => exact ⟨F, by omega, rfl, rfl⟩
    | fail e => exact ⟨F, by omega, rfl, rfl⟩
    | tau s' =>
      simp only [hm] at h ⊢
      obtain ⟨F', h1, h2⟩ := ih F lim s' hF' h
      exact ⟨F', by omega, h2⟩
    | emit r s' =>
      simp only [hm] at h ⊢
      simp only [repsOf, List.filterMap_cons, listSeek]
      by_cases hp : p r
      · simp only [hp, if_true]
        exact ⟨F, by omega, rfl, rfl⟩
      · simp only [hp] at h ⊢
        obtain ⟨F', h1, h2⟩ := ih F lim s' hF' h
        exact ⟨F', by omega, h2⟩
    | expand s' =>
      simp only [hm] at h ⊢
      cases hl : checkLimit lim with
      | none => exact ⟨F, by omega, rfl, rfl⟩
      | some l =>
        simp only [hl] at h ⊢
        obtain ⟨F', h1, h2⟩ := ih F l s' hF' h
        exact ⟨F', by omega, h2⟩

/-- If the run comes to its end in `F` steps, and the loop may take as many, it comes to its end. -/
theorem seek_ends (p : ρ → Bool) : ∀ F n lim s, F ≤ n → (runMachine m F lim s).ending ≠ .outOfFuel →
    (seekMachine m p n lim s).1 ≠ .hangs ∧
    (∀ r, (seekMachine m p n lim s).1 = .found r →
      (runMachine m F (seekMachine m p n lim s).2.1 (seekMachine m p n lim s).2.2).ending ≠ .outOfFuel) := by
  intro F
  induction F with
  | zero => intro n lim s _ h; exact absurd rfl h
  | succ F ih =>
    intro n lim s hF h
    obtain ⟨n, rfl⟩ : ∃ k, n = k + 1 := ⟨n - 1, by omega⟩
    have hF' : F ≤ n := by omega
    have up : ∀ lim s, (runMachine m F lim s).ending ≠ .outOfFuel → (runMachine m (F + 1) lim s).ending ≠ .outOfFuel := by
      intro lim s h; rwa [run_more m F lim s h (F + 1) (by omega)]
    rw [runMachine] at h
    rw [seekMachine]
    cases hm : m s with
    | stop s' => simp
    | fail e => simp
    | tau s' =>
      simp only [hm] at h ⊢
      exact ⟨(ih n lim s' hF' h).1, fun r hr => up _ _ ((ih n lim s' hF' h).2 r hr)⟩
    | emit r s' =>
      simp only [hm] at h ⊢
      by_cases hp : p r
      · simp only [hp, if_true]; exact ⟨by simp, fun _ _ => up _ _ h⟩
      · simp only [hp]
        exact ⟨(ih n lim s' hF' h).1, fun r hr => up _ _ ((ih n lim s' hF' h).2 r hr)⟩
    | expand s' =>
      simp only [hm] at h ⊢
      cases hl : checkLimit lim with
      | none => simp
      | some l =>
        simp only [hl] at h ⊢
        exact ⟨(ih n l s' hF' h).1, fun r hr => up _ _ ((ih n l s' hF' h).2 r hr)⟩

end machine

section strat
variable (st : Strat A P T C σ ρ) (id : ρ → K) (dist : ρ → W) (fuel : Nat)

/-- The run that begins with the attributes `p`, up to `F` steps: the reports, and how it ends. -/
def Strat.runOf (F : Nat) (t : T) (p : P) : List ρ × Ending :=
  match st.body t p with
  | .error e => ([], .raised e)
  | .ok (c, lim, s) => runList (st.step c) F lim s

/-- A generator, and a list with the reports it will still make. -/
inductive GenRel (p : P) : Nat → PyGen T C σ → List ρ × Ending → Prop
  | notStarted (N) : GenRel p N .notStarted ([], .raised .runtimeError)
  | finished (N) : GenRel p N .finished ([], .done)
  | suspended (N F) (c : C) (lim s) : fuel * N ≤ F → GenRel p N (.suspended c lim s) (runList (st.step c) F lim s)
  | fresh (N F) (t : T) : fuel * N ≤ F → GenRel p N (.fresh t) (st.runOf F t p)

theorem genRel_mono (p : P) (N g₁ g₂) (h : GenRel st fuel p (N + 1) g₁ g₂) : GenRel st fuel p N g₁ g₂ := by
  have key : ∀ F, fuel * (N + 1) ≤ F → fuel * N ≤ F := fun F h => by rw [Nat.mul_add] at h; omega
  cases h with
  | notStarted => exact .notStarted _
  | finished => exact .finished _
  | suspended F c lim s h => exact .suspended _ _ _ _ _ (key F h)
  | fresh F t h => exact .fresh _ _ _ (key F h)

theorem genAfter_sim (p : P) (N F : Nat) (hF : fuel * (N + 1) ≤ F) (q : ρ → Bool) (c : C) (lim : Option Int) (s : σ)
    (h : (genAfter (T := T) c (seekMachine (st.step c) q fuel lim s)).1 ≠ .hangs) :
    (listSeek q (runList (st.step c) F lim s).1 (runList (st.step c) F lim s).2).1 =
      (genAfter (T := T) c (seekMachine (st.step c) q fuel lim s)).1 ∧
    GenRel st fuel p N (genAfter (T := T) c (seekMachine (st.step c) q fuel lim s)).2
      (listSeek q (runList (st.step c) F lim s).1 (runList (st.step c) F lim s).2).2 := by
  have hn : (seekMachine (st.step c) q fuel lim s).1 ≠ .hangs := by
    intro e
    apply h
    rcases hx : seekMachine (st.step c) q fuel lim s with ⟨f, l, x⟩
    rw [hx] at e
    simp only at e
    subst e; rfl
  rw [Nat.mul_add] at hF
  obtain ⟨F', h1, h2, h3⟩ := seek_le (st.step c) q fuel F lim s (by omega) hn
  rcases hx : seekMachine (st.step c) q fuel lim s with ⟨f, l, x⟩
  rw [hx] at h2 h3 hn
  cases f with
  | found r => exact ⟨h2, by simp only at h3; rw [h3]; exact .suspended _ _ _ _ _ (by omega)⟩
  | stopped => exact ⟨h2, by simp only at h3; rw [h3]; exact .finished _⟩
  | raised e => exact ⟨h2, by simp only at h3; rw [h3]; exact .finished _⟩
  | hangs => exact absurd rfl hn

theorem pyGen_sim (p : P) : SeekSim (pyGen st fuel p) listGen (GenRel st fuel p) := by
  intro N q g₁ g₂ hr hh
  cases hr with
  | notStarted => exact ⟨rfl, .finished _⟩
  | finished => exact ⟨rfl, .finished _⟩
  | suspended F c lim s hF => exact genAfter_sim st fuel p N F hF q c lim s hh
  | fresh F t hF =>
    simp only [pyGen, listGen, Strat.runOf] at hh ⊢
    cases hb : st.body t p with
    | error e => exact ⟨rfl, .finished _⟩
    | ok x =>
      obtain ⟨c, lim, s⟩ := x
      simp only [hb] at hh
      exact genAfter_sim st fuel p N F hF q c lim s hh

/-! ## Histories -/

theorem TravObj.calls_uses (us : List (Use K W)) : ∀ o : TravObj P T C σ K W,
    (o.calls st id dist fuel (us.map .use)).1 = useAll (pyGen st fuel o.attrs) id dist o.iters o.gen us := by
  induction us with
  | nil => intro o; rfl
  | cons u us ih =>
    intro o
    simp only [List.map_cons, TravObj.calls, TravObj.call]
    by_cases hu : (use (pyGen st fuel o.attrs) id dist u o.iters o.gen).1 = .hangs
    · rw [useAll_cons_hangs id dist _ _ _ u us hu]
      simp only [hu]
    · rw [useAll_cons id dist _ _ _ u us hu]
      split
      · next e => exact absurd (congrArg Prod.fst e) hu
      · next e =>
        cases e
        simp only [ih]

theorem TravObj.calls_append (h₁ h₂ : List (Call A K W)) : ∀ o : TravObj P T C σ K W,
    .hangs ∉ (o.calls st id dist fuel h₁).1 →
    o.calls st id dist fuel (h₁ ++ h₂) =
      ((o.calls st id dist fuel h₁).1 ++ ((o.calls st id dist fuel h₁).2.calls st id dist fuel h₂).1,
        ((o.calls st id dist fuel h₁).2.calls st id dist fuel h₂).2) := by
  induction h₁ with
  | nil => intros; rfl
  | cons a as ih =>
    intro o hh
    rw [List.cons_append, TravObj.calls]
    rw [TravObj.calls] at hh
    conv_rhs => rw [TravObj.calls]
    rcases hc : o.call st id dist fuel a with ⟨out, o'⟩
    rw [hc] at hh
    cases out with
    | hangs => simp at hh
    | _ =>
      simp only [List.mem_cons, not_or] at hh ⊢
      rw [ih _ hh.2]
      rfl

theorem TravObj.calls_append_hangs (h₁ h₂ : List (Call A K W)) : ∀ o : TravObj P T C σ K W,
    .hangs ∈ (o.calls st id dist fuel h₁).1 → .hangs ∈ (o.calls st id dist fuel (h₁ ++ h₂)).1 := by
  induction h₁ with
  | nil => intro o h; simp [TravObj.calls] at h
  | cons a as ih =>
    intro o hh
    rw [List.cons_append, TravObj.calls]
    rw [TravObj.calls] at hh
    rcases hc : o.call st id dist fuel a with ⟨out, o'⟩
    rw [hc] at hh
    cases out with
    | hangs => simp
    | _ =>
      simp only [List.mem_cons] at hh ⊢
      rcases hh with hh | hh
      · cases hh
      · exact .inr (ih _ hh)

/-- After any history, a start that is accepted, followed by calls that use the traversal, gives the outcomes of these calls on
the list of the reports of the run. -/
theorem TravObj.restart (o : TravObj P T C σ K W) (h : List (Call A K W)) (a : A) (us : List (Use K W)) (F : Nat)
    (RE : List ρ × Ending) (hF : fuel * (2 * us.length) ≤ F)
    (hs : ∀ p, ∃ p', st.start a p = (p', none) ∧ st.runOf F (st.kind p') p' = RE)
    (hh : .hangs ∉ (o.calls st id dist fuel (h ++ .start a :: us.map .use)).1) :
    (o.calls st id dist fuel (h ++ .start a :: us.map .use)).1 =
      (o.calls st id dist fuel h).1 ++ .ok :: useAll listGen id dist [] RE us := by
  have h1 : .hangs ∉ (o.calls st id dist fuel h).1 := fun hx => hh (TravObj.calls_append_hangs st id dist fuel _ _ o hx)
  rw [TravObj.calls_append st id dist fuel _ _ o h1] at hh ⊢
  obtain ⟨p', e, hr⟩ := hs (o.calls st id dist fuel h).2.attrs
  simp only [TravObj.calls, TravObj.call, e, TravObj.calls_uses] at hh ⊢
  congr 2
  refine (useAll_sim id dist (pyGen_sim st fuel p') (genRel_mono st fuel p') us [] ?_ ?_).symm
  · rw [← hr]; exact .fresh _ _ _ hF
  · intro hx; apply hh; simp [hx]

/-! ## Calls come to their end if the run does -/

theorem useAll_ends (ops : GenOps G ρ) (I : G → Prop) (hI : ∀ p g, I g → (ops.seek p g).1 ≠ .hangs ∧ I (ops.seek p g).2)
    (us : List (Use K W)) : ∀ (its : List (GoIter K W)) (g : G), I g → .hangs ∉ useAll ops id dist its g us := by
  have hshow : ∀ (stop : W) g, I g → (fetchShowing (K := K) ops dist stop g).1 ≠ .hangs ∧
      I (fetchShowing (K := K) ops dist stop g).2.2 := by
    intro stop g hg
    have h := hI (fun _ => true) g hg
    unfold fetchShowing
    rcases hx : ops.seek (fun _ => true) g with ⟨f, g'⟩
    rw [hx] at h
    cases f with
    | found r => by_cases hs : stop ≤ dist r <;> simp [hs, h.2]
    | hangs => exact absurd rfl h.1
    | _ => simp [h.2]
  have hfetch : ∀ (it : GoIter K W) g, I g → (fetchFrom ops id dist it g).1 ≠ .hangs ∧
      I (fetchFrom ops id dist it g).2.2 := by
    intro it g hg
    cases it with
    | over => exact ⟨by simp [fetchFrom], hg⟩
    | showing stop => exact hshow stop g hg
    | vertices ids count silent =>
      simp only [fetchFrom]
      by_cases hc : count = 0
      · simp [hc, hg]
      · simp only [hc, if_false]
        have h := hI (fun r => decide (id r ∈ ids)) g hg
        rcases hx : ops.seek (fun r => decide (id r ∈ ids)) g with ⟨f, g'⟩
        rw [hx] at h
        cases f with
        | stopped => cases silent <;> simp [h.2]
        | hangs => exact absurd rfl h.1
        | _ => simp [h.2]
    | skipping start stop =>
      simp only [fetchFrom]
      have h := hI (fun r => decide (start ≤ dist r)) g hg
      rcases hx : ops.seek (fun r => decide (start ≤ dist r)) g with ⟨f, g'⟩
      rw [hx] at h
      cases f with
      | found r =>
        by_cases hs : dist r < stop
        · simp [hs, h.2]
        · simp only [hs, if_false]; exact hshow stop g' h.2
      | stopped => exact hshow stop g' h.2
      | hangs => exact absurd rfl h.1
      | raised e => simp [h.2]
  have huse : ∀ (u : Use K W) its g, I g → (use ops id dist u its g).1 ≠ .hangs ∧ I (use ops id dist u its g).2.2 := by
    intro u its g hg
    cases u with
    | next =>
      simp only [use, genNext]
      have h := hI (fun _ => true) g hg
      rcases hx : ops.seek (fun _ => true) g with ⟨f, g'⟩
      rw [hx] at h
      cases f with
      | hangs => exact absurd rfl h.1
      | _ => simp [h.2]
    | goTo k silent =>
      simp only [use, genGoTo]
      have h := hI (fun r => decide (id r = k)) g hg
      rcases hx : ops.seek (fun r => decide (id r = k)) g with ⟨f, g'⟩
      rw [hx] at h
      cases f with
      | stopped => cases silent <;> simp [h.2]
      | hangs => exact absurd rfl h.1
      | _ => simp [h.2]
    | goForVertices ids silent => exact ⟨by simp [use], hg⟩
    | goForRange start stop => exact ⟨by simp [use], hg⟩
    | fetch i =>
      simp only [use]
      cases hi : its[i]? with
      | none => exact ⟨by simp, hg⟩
      | some it => exact hfetch it g hg
  induction us with
  | nil => intro its g _; simp [useAll]
  | cons u us ih =>
    intro its g hg
    rw [useAll_cons id dist ops its g u us (huse u its g hg).1]
    simp only [List.mem_cons, not_or]
    exact ⟨fun h => (huse u its g hg).1 h.symm, ih _ _ (huse u its g hg).2⟩

/-- If the run comes to its end in `F ≤ fuel` steps, so do all calls. -/
theorem TravObj.calls_end (o : TravObj P T C σ K W) (h : List (Call A K W)) (a : A) (us : List (Use K W)) (F : Nat)
    (RE : List ρ × Ending) (hF : F ≤ fuel) (hRE : RE.2 ≠ .outOfFuel)
    (hs : ∀ p, ∃ p', st.start a p = (p', none) ∧ st.runOf F (st.kind p') p' = RE)
    (hh : .hangs ∉ (o.calls st id dist fuel h).1) :
    .hangs ∉ (o.calls st id dist fuel (h ++ .start a :: us.map .use)).1 := by
  rw [TravObj.calls_append st id dist fuel _ _ o hh]
  obtain ⟨p', e, hr⟩ := hs (o.calls st id dist fuel h).2.attrs
  simp only [TravObj.calls, TravObj.call, e, TravObj.calls_uses]
  simp only [List.mem_append, List.mem_cons, reduceCtorEq, false_or, not_or]
  refine ⟨hh, ?_⟩
  have hsus : ∀ (p : ρ → Bool) c lim s, (runMachine (st.step c) F lim s).ending ≠ .outOfFuel →
      (genAfter (T := T) c (seekMachine (st.step c) p fuel lim s)).1 ≠ .hangs ∧
      (∀ c' l' x', (genAfter (T := T) c (seekMachine (st.step c) p fuel lim s)).2 = .suspended c' l' x' →
        (runMachine (st.step c') F l' x').ending ≠ .outOfFuel) ∧
      (∀ t, (genAfter (T := T) c (seekMachine (st.step c) p fuel lim s)).2 ≠ .fresh t) ∧
      (genAfter (T := T) c (seekMachine (st.step c) p fuel lim s)).2 ≠ .notStarted := by
    intro p c lim s hrun
    obtain ⟨h1, h2⟩ := seek_ends (st.step c) p F fuel lim s hF hrun
    rcases hx : seekMachine (st.step c) p fuel lim s with ⟨f, l, x⟩
    rw [hx] at h1 h2
    cases f with
    | found r =>
      refine ⟨by simp [genAfter], ?_, by simp [genAfter], by simp [genAfter]⟩
      intro c' l' x' he
      simp only [genAfter, PyGen.suspended.injEq] at he
      obtain ⟨rfl, rfl, rfl⟩ := he
      exact h2 r rfl
    | hangs => exact absurd rfl h1
    | _ => simp [genAfter]
  refine useAll_ends id dist (pyGen st fuel p')
    (fun g => (∀ c lim s, g = .suspended c lim s → (runMachine (st.step c) F lim s).ending ≠ .outOfFuel) ∧
      (∀ t, g = .fresh t → (st.runOf F t p').2 ≠ .outOfFuel)) ?_ us [] _ ?_
  · intro p g ⟨h1, h2⟩
    cases g with
    | notStarted => simp [pyGen]
    | finished => simp [pyGen]
    | suspended c lim s =>
      obtain ⟨a1, a2, a3, a4⟩ := hsus p c lim s (h1 _ _ _ rfl)
      exact ⟨a1, a2, fun t ht => absurd ht (a3 t)⟩
    | fresh t =>
      have h3 := h2 t rfl
      simp only [pyGen, Strat.runOf] at h3 ⊢
      cases hb : st.body t p' with
      | error e => simp
      | ok x =>
        obtain ⟨c, lim, s⟩ := x
        simp only [hb] at h3
        obtain ⟨a1, a2, a3, a4⟩ := hsus p c lim s h3
        exact ⟨a1, a2, fun t ht => absurd ht (a3 t)⟩
  · refine ⟨by simp, ?_⟩
    intro t ht
    cases ht
    rw [hr]; exact hRE

end strat

end NoGraphs
