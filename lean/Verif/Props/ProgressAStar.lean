import Verif.Props.ProgressSp
import Verif.Props.AStar

/-! # C71: progress in infinite graphs, for A* -/

set_option linter.unusedSectionVars false

namespace NoGraphs

open Spec

variable {V K L W M ML D : Type} [DecidableEq V] [DecidableEq K]
variable [AddCommMonoid W] [LinearOrder W] [IsOrderedCancelAddMonoid W]
variable {g : WGear V K L W M ML D} {c : AStarCfg V K L W}

theorem aStartEntries_next (f : V → List (V × W × L)) (d : D) (vs : List V) (no : Int) :
    aStartEntries g { c with next := f } d vs no = aStartEntries g c d vs no := by
  induction vs generalizing no with
  | nil => rfl
  | cons v vs ih => simp only [aStartEntries, ih]

theorem aInit_next (f : V → List (V × W × L)) (known knownGuesses : Option D) (starts : List V) :
    (aInit g { c with next := f } known knownGuesses starts : AStarState V L W M ML D) =
      aInit g c known knownGuesses starts := by
  unfold aInit
  dsimp only
  rw [aStartEntries_next]
  rfl

/-- The vertex that is expanded has a small sum of distance and estimate. -/
def ANear (c : AStarCfg V K L W) (d : W) (s : AStarState V L W M ML D) : Prop :=
  match s.pc with
  | .loop => True
  | .expand u w _ => w + c.heur u ≤ d
  | .edges u w _ _ => w + c.heur u ≤ d

variable {starts : List V} {h : List (Ev (AStarReport V W M ML D))} {s : AStarState V L W M ML D}

/-- As long as the goal has not been reported, only entries with a small key are taken from the heap. -/
theorem AInv.pop_near (inv : AInv g c starts h s) (hn : NonNeg c.next) {v : V} {d : W}
    (hadm : Admissible c.next c.heur (fun u => c.vid u = c.vid v))
    (hv : c.vid v ∉ starts.map c.vid) (hw : WalkW c.next (· ∈ starts) d v) (hd : d < c.inf)
    (hno : ∀ r ∈ repsOf h, c.vid r.vertex ≠ c.vid v) (hpc : s.pc = .loop) {e : HEntry W (V × Nat)}
    {rest : List (HEntry W (V × Nat))} (hheap : s.heap = e :: rest)
    (hst : ¬ g.dd.get s.guesses (c.vid e.item.1) < e.key) :
    g.dd.get s.dist (c.vid e.item.1) + c.heur e.item.1 ≤ d := by
  have hmem : e ∈ s.heap := by rw [hheap]; exact List.mem_cons_self
  have hkey : e.key ≤ d := by
    rcases inv.frontier hpc hw with ⟨-, -, -, h1 | ⟨r, h1, h2⟩⟩ | ⟨e', he', u, w1, w2, h1, h2, h3, h4, h5, h6⟩
    · exact absurd h1 hv
    · exact absurd h2 (hno r h1)
    · have ha := hadm u w2 v h5 rfl
      have h0 : 0 ≤ w1 := (inv.nonneg hn h4).trans h3
      have hle : e'.key ≤ d := by
        rw [h2, inv.guess u h4]
        unfold aGuess
        split
        · rename_i hi
          rw [hi] at ha
          exact absurd hd (not_lt_of_ge (ha.trans (h6 ▸ le_add_of_nonneg_left h0)))
        · rw [← h6]
          exact add_le_add h3 ha
      have hso := inv.sorted
      rw [hheap] at hso he'
      rcases List.mem_cons.1 he' with rfl | hm
      · exact hle
      · rcases (List.pairwise_cons.1 hso).1 e' hm with h | h
        · exact h.le.trans hle
        · exact h.1.le.trans hle
  have hk := inv.known_ent hmem
  have heq : e.key = g.dd.get s.guesses (c.vid e.item.1) := le_antisymm (le_of_not_gt hst) (inv.guess_le hmem)
  rw [heq, inv.guess _ hk] at hkey
  unfold aGuess at hkey
  split at hkey
  · exact absurd hd (not_lt_of_ge hkey)
  · exact hkey

/-- As long as the goal has not been reported, the traversal only expands vertices with a small sum of distance and
estimate. -/
theorem a_near (ht : c.isTree = false) (hd : g.dd.Lawful c.inf) (hn : NonNeg c.next) (hc : WCompat c.next c.vid)
    (hh : HeurCompat c.heur c.vid) {v : V} {d : W} (hadm : Admissible c.next c.heur (fun u => c.vid u = c.vid v))
    (hv : c.vid v ∉ starts.map c.vid) (hw : WalkW c.next (· ∈ starts) d v) (hdi : d < c.inf)
    (hr : Reaches (aStep g c) (aInit g c none none starts) h s) :
    (∀ r ∈ repsOf h, c.vid r.vertex ≠ c.vid v) → ANear c d s := by
  have key : ∀ h s, Reaches (aStep g c) (aInit g c none none starts) h s →
      ((∀ r ∈ repsOf h, c.vid r.vertex ≠ c.vid v) → ANear c d s) → (∀ r ∈ repsOf h, c.vid r.vertex ≠ c.vid v) →
      match aStep g c s with
      | .tau s' | .emit _ s' | .expand s' => ANear c d s'
      | _ => True := by
    intro h s hr ih hno
    have inv := a_inv ht hd hn hc hh hr
    have hnear := ih hno
    unfold ANear at hnear
    apply aStep_cases (P := fun st => match st with
      | .tau s' | .emit _ s' | .expand s' => ANear c d s'
      | _ => True) ht s
    · intros; trivial
    · intro e rest hpc _ _
      simp only [ANear, hpc]
    · intro e rest hpc hheap hst _
      exact inv.pop_near hn hadm hv hw hdi hno hpc hheap hst
    · intro e rest hpc hheap hst _
      exact inv.pop_near hn hadm hv hw hdi hno hpc hheap hst
    · intro u w ec hpc
      rw [hpc] at hnear
      exact hnear
    · intros; trivial
    · intros; trivial
    · intro u w ec n x l es hpc _ _
      rw [hpc] at hnear
      exact hnear
    · intros; trivial
    · intro u w ec n x l es dd hpc _ _ _
      rw [hpc] at hnear
      exact hnear
  refine Reaches.invariant' (fun h s => (∀ r ∈ repsOf h, c.vid r.vertex ≠ c.vid v) → ANear c d s) ?_ ?_ ?_ ?_ hr
  · intro _; trivial
  · intro h s s' hr ih e hno
    have := key h s hr ih hno
    rw [e] at this; exact this
  · intro h s r s' hr ih e hno
    have := key h s hr ih (fun r' hr' => hno r' (by rw [repsOf_append]; exact List.mem_append_left _ hr'))
    rw [e] at this; exact this
  · intro h s s' hr ih e hno
    have := key h s hr ih (fun r' hr' => hno r' (by rw [repsOf_append]; exact List.mem_append_left _ hr'))
    rw [e] at this; exact this

/-- **C71 for A\*.** Also in an infinite graph, a goal to which a walk of total weight `d` leads is reported
after finitely many steps, if the heuristic function never overestimates the weight of a walk to the goal, if the sum of
the weight of a walk and the estimate for its end is at most `d` only for finitely many vertices, and if the sums
that occur there are smaller than the infinity value of the gear. (The graph may have infinitely many vertices
that are nearer than the goal: the heuristic function can exclude them.) -/
theorem C71_astar_progress (ht : c.isTree = false) (hd : g.dd.Lawful c.inf) (hn : NonNeg c.next)
    (hc : WCompat c.next c.vid) (hh : HeurCompat c.heur c.vid) (starts : List V) (v : V) (d : W)
    (hadm : Admissible c.next c.heur (fun u => c.vid u = c.vid v))
    (hv : c.vid v ∉ starts.map c.vid) (hw : WalkW c.next (· ∈ starts) d v)
    (hfin : ∃ ids : List K, ∀ x u, WalkW c.next (· ∈ starts) x u → x + c.heur u ≤ d → c.vid u ∈ ids)
    (hinf : ∀ x u u' y, WalkW c.next (· ∈ starts) x u → x + c.heur u ≤ d → WEdge c.next u u' y →
      x + y < c.inf ∧ (c.heur u' ≠ c.inf → x + y + c.heur u' < c.inf)) :
    ∃ N, ∀ fuel, N ≤ fuel → ∃ r ∈ (aRun g c none none starts none fuel).reports, c.vid r.vertex = c.vid v := by
  classical
  obtain ⟨ids, hids⟩ := hfin
  have hdi : d < c.inf := by
    cases hw with
    | start h => exact absurd (List.mem_map_of_mem h) hv
    | @step x u _ y hu he =>
      refine (hinf x u v y hu (add_le_add_right ?_ x) he).1
      have := hadm u (0 + y) v (.step (.start rfl) he) rfl
      rwa [zero_add] at this
  let c' : AStarCfg V K L W := { c with next := cutNext c.next c.vid ids }
  have hsub : ∀ u e, e ∈ c'.next u → e ∈ c.next u := fun u e he => cutNext_sub he
  have hc' : WCompat c'.next c'.vid := cutNext_wcompat hc ids
  have hn' : NonNeg c'.next := fun u w x ⟨l, hl⟩ => hn u w x ⟨l, cutNext_sub hl⟩
  have hadm' : Admissible c'.next c'.heur (fun u => c'.vid u = c'.vid v) :=
    fun u w t hwt => hadm u w t (hwt.mono_next hsub)
  -- the walk to the goal is a walk of the cut graph
  have hcut : ∀ x u, WalkW c.next (· ∈ starts) x u → ∀ y, WalkW c.next (· = u) y v → x + y = d →
      WalkW c'.next (· ∈ starts) x u := by
    intro x u hw
    induction hw with
    | start h => exact fun _ _ _ => .start h
    | @step x u w z hw he ih =>
      intro y hy hxy
      have hz : WalkW c.next (· = u) (z + y) v := by
        have := (WalkW.step (WalkW.start rfl : WalkW c.next (· = u) 0 u) he).trans hy
        rwa [zero_add] at this
      have hle : x + c.heur u ≤ d := by
        rw [← hxy, add_assoc]
        exact add_le_add_right (hadm u _ v hz rfl) x
      obtain ⟨l, hl⟩ := he
      refine .step (ih (z + y) hz (by rw [← add_assoc]; exact hxy)) ⟨l, ?_⟩
      simp only [c', cutNext, if_pos (hids x u hw hle)]
      exact hl
  have hw' : WalkW c'.next (· ∈ starts) d v := hcut d v hw 0 (.start rfl) (add_zero d)
  have hfin' : WFinitelyReachable c'.next (· ∈ starts) c'.vid := cutNext_finite hc ids starts
  -- vertices that are expanded before the report of the goal
  have hexp : ∀ h s, Reaches (aStep g c') (aInit g c' none none starts) h s →
      (∀ r ∈ repsOf h, c.vid r.vertex ≠ c.vid v) → ∀ u w, (∃ ec, s.pc = .expand u w ec) ∨ (∃ ec es, s.pc = .edges u w ec es) →
      ∃ u', c.vid u' = c.vid u ∧ WalkW c.next (· ∈ starts) w u' ∧ w + c.heur u' ≤ d := by
    intro h s hr hno u w hpc
    have inv := a_inv (c := c') ht hd hn' hc' hh hr
    have hnear := a_near (c := c') ht hd hn' hc' hh hadm' hv hw' hdi hr hno
    have hp := inv.pcok
    unfold ANear at hnear
    unfold APcOk at hp
    have : (AKnown g c' starts s (c'.vid u) ∧ g.dd.get s.dist (c'.vid u) = w) ∧ w + c.heur u ≤ d := by
      rcases hpc with ⟨ec, hpc⟩ | ⟨ec, es, hpc⟩
      · rw [hpc] at hnear hp
        exact ⟨⟨hp.1, hp.2.1⟩, hnear⟩
      · rw [hpc] at hnear hp
        exact ⟨⟨hp.1.1, hp.1.2.1⟩, hnear⟩
    obtain ⟨⟨h1, h2⟩, h3⟩ := this
    obtain ⟨u', e, hwu⟩ := inv.walk _ h1
    rw [h2] at hwu
    have e : c.vid u' = c.vid u := e
    exact ⟨u', e, hwu.mono_next hsub, by rw [hh u' u e]; exact h3⟩
  -- the goal is reported in the cut graph
  have hrep : ∃ N, ∃ r ∈ (aRun g c' none none starts none N).reports, c.vid r.vertex = c.vid v := by
    obtain ⟨N, hN⟩ := C24_astar_terminates (g := g) (c := c') ht hd hn' hc' hh starts hfin'
    refine ⟨N, ?_⟩
    rcases hN N (Nat.le_refl _) with hdone | ⟨hov, -⟩
    · exact ((C24_astar_complete g c' ht hd hn' hc' hh starts none N hdone).1 d v hw').resolve_left hv
    · by_contra hno
      obtain ⟨s, hs, he⟩ := run_reaches (aStep g c') N (prepareLimit none) (aInit g c' none none starts)
      have hno' : ∀ r ∈ repsOf (runMachine (aStep g c') N (prepareLimit none) (aInit g c' none none starts)).events,
          c.vid r.vertex ≠ c.vid v := fun r hr e => hno ⟨r, hr, e⟩
      unfold aRun at hov
      rw [hov] at he
      rcases he with he | he
      · have hexp' := hexp _ s hs hno'
        have inv := a_inv (c := c') ht hd hn' hc' hh hs
        have edge : ∀ u w ec n x l es, s.pc = .edges u w ec ((n, x, l) :: es) →
            x + w < c.inf ∧ (c.heur n ≠ c.inf → x + w + c.heur n < c.inf) := by
          intro u w ec n x l es hpc
          obtain ⟨u', e1, hwu, hle⟩ := hexp' u w (.inr ⟨_, _, hpc⟩)
          have hp := inv.pcok
          unfold APcOk at hp
          rw [hpc] at hp
          have hm : (n, x, l) ∈ c.next u := cutNext_sub (hp.2.1 _ List.mem_cons_self)
          obtain ⟨n', hn', e2⟩ := hc u u' n x e1.symm ⟨l, hm⟩
          have := hinf w u' n' x hwu hle hn'
          rw [hh n' n e2, add_comm w] at this
          exact this
        have hnf : ∀ e, aStep g c' s ≠ .fail e := by
          intro e
          apply aStep_cases (g := g) (c := c') (P := fun st => st ≠ .fail e) ht s
          case hover =>
            intro u w ec n x l es hpc hi
            exact absurd hi (not_le_of_gt (edge u w ec n x l es hpc).1)
          case hover2 =>
            intro u w ec n x l es dd hpc hlt him hne hi
            rw [aGuess_fin hne] at hi
            exact absurd hi (not_le_of_gt ((edge u w ec n x l es hpc).2 hne))
          all_goals (intros; simp)
        exact hnf _ he
      · exact absurd rfl he.2.1
  obtain ⟨N, r0, hr0, e0⟩ := hrep
  obtain ⟨r, hfind⟩ : ∃ r, (aRun g c' none none starts none N).reports.find? (fun r => decide (c.vid r.vertex = c.vid v)) =
      some r := by
    rw [← Option.isSome_iff_exists, List.find?_isSome]
    exact ⟨r0, hr0, by simpa using e0⟩
  obtain ⟨hrv, a, b, hab, hbefore⟩ := List.find?_eq_some_iff_append.1 hfind
  have hrv : c.vid r.vertex = c.vid v := by simpa using hrv
  obtain ⟨s, hs, -⟩ := run_reaches (aStep g c') N (prepareLimit none) (aInit g c' none none starts)
  obtain ⟨h1, t, t', ha, hb, hbef⟩ := hs.emitted hab
  have hno1 : ∀ r ∈ repsOf h1, c.vid r.vertex ≠ c.vid v := by
    intro r hr
    rw [hbef] at hr
    simpa using hbefore r hr
  have hagree : ∀ h s, Reaches (aStep g c') (aInit g c' none none starts) h s →
      (∀ r ∈ repsOf h, c.vid r.vertex ≠ c.vid v) → aStep g c' s = aStep g c s := by
    intro h s hs hno
    unfold aStep
    rcases hpc : s.pc with _ | ⟨u, w, ec⟩ | ⟨u, w, ec, es⟩
    · rfl
    · obtain ⟨u', e1, hwu, hle⟩ := hexp h s hs hno u w (.inl ⟨_, hpc⟩)
      have hu : c.vid u ∈ ids := e1 ▸ hids w u' hwu hle
      simp only [c', cutNext, if_pos hu]
    · rcases es with _ | ⟨e, es⟩ <;> rfl
  have hQ : Reaches (aStep g c) (aInit g c' none none starts) h1 t := by
    refine Reaches.transfer (fun h => ∀ r ∈ repsOf h, c.vid r.vertex ≠ c.vid v) ?_ hagree ha hno1
    intro a b h r hr
    exact h r (by rw [repsOf_append]; exact List.mem_append_left _ hr)
  have hQ' : Reaches (aStep g c) (aInit g c' none none starts) (h1 ++ [.rep r]) t' :=
    .emit hQ ((hagree h1 t ha hno1).symm.trans hb)
  obtain ⟨N', hN'⟩ := hQ'.reported
  refine ⟨N', fun fuel hf => ?_⟩
  obtain ⟨h', e⟩ := hN' fuel hf
  refine ⟨r, ?_, hrv⟩
  unfold aRun RunResult.reports
  rw [aInit_next] at e
  rw [show prepareLimit none = none from rfl, e]
  simp

/-! ## Example: an infinite graph -/

/-- From 0, there is an edge to the goal 1, and an infinite chain of edges with weight 0. -/
def exChain : Nat → List (Nat × Nat × Unit)
  | 0 => [(2, 0, ()), (1, 5, ())]
  | 1 => []
  | n + 2 => [(n + 3, 0, ())]

/-- The estimates are larger than 5 for the vertices of the chain. -/
def exChainCfg : AStarCfg Nat Nat Unit Nat :=
  ⟨exChain, id, false, false, 1000, fun v => if v = 0 then 5 else if v = 1 then 0 else 6⟩

/-- No walk leads from the chain to the goal. -/
theorem exChain_up {u x v : Nat} (h : WalkW exChain (· = u) x v) : (2 ≤ u → 2 ≤ v) ∧ (u = 0 → v = 1 → 5 ≤ x) := by
  induction h with
  | start h => omega
  | @step x a b y _ he ih =>
    obtain ⟨l, hl⟩ := he
    rcases a with _ | _ | a
    · simp [exChain] at hl; omega
    · simp [exChain] at hl
    · simp [exChain] at hl; omega

/-- The goal is reported, although infinitely many vertices are nearer (so that shortest paths by distance does not come
to the goal). -/
example : ∃ N, ∀ fuel, N ≤ fuel → ∃ r ∈ (aRun exInfGear exChainCfg none none [0] none fuel).reports, r.vertex = 1 := by
  have h01 : ∀ {u x : Nat}, x + exChainCfg.heur u ≤ 5 → u = 0 ∨ u = 1 := by
    intro u x h
    by_contra hno
    have : exChainCfg.heur u = 6 := by simp only [exChainCfg]; rw [if_neg (by omega), if_neg (by omega)]
    omega
  refine C71_astar_progress (c := exChainCfg) rfl (dictDist_lawful 1000) (fun _ _ _ _ => Nat.zero_le _)
    (fun u u' n x e he => ⟨n, (show u = u' from e) ▸ he, rfl⟩) (fun u v e => congrArg _ (show u = v from e)) [0] 1 5 ?_ (by decide) ?_
    ⟨[0, 1], fun x u _ hx => ?_⟩ ?_
  · intro u x v hw hv
    have hv : v = 1 := hv
    have := exChain_up hw
    show (if u = 0 then 5 else if u = 1 then 0 else 6) ≤ x
    split
    · omega
    · split <;> omega
  · exact (.step (u := 0) (.start (by simp)) ⟨(), by simp [exChain]⟩ : WalkW exChain (· ∈ [0]) (0 + 5) 1)
  · rcases h01 hx with rfl | rfl <;> simp [exChainCfg]
  · rintro x u u' y hw hx ⟨l, hl⟩
    rcases h01 hx with rfl | rfl
    · have hx : x + 5 ≤ 5 := hx
      have hl : (u', y, l) ∈ [(2, 0, ()), (1, 5, ())] := hl
      simp at hl
      show x + y < 1000 ∧ (_ → x + y + (if u' = 0 then 5 else if u' = 1 then 0 else 6) < 1000)
      refine ⟨by omega, fun _ => ?_⟩
      split
      · omega
      · split <;> omega
    · have hl : (u', y, l) ∈ ([] : List (Nat × Nat × Unit)) := hl
      simp at hl

end NoGraphs
