import Verif.Proofs.AStar
import Verif.Proofs.SpSim

/-! A*: independence of the gear, and the case of estimates of zero. -/

set_option linter.unusedSectionVars false

namespace NoGraphs

open Spec

variable {V K L W M ML D : Type} [DecidableEq V] [DecidableEq K]
variable [AddCommMonoid W] [LinearOrder W]

/-! ## Gears -/

section gear

variable {M' ML' D' : Type} {g : WGear V K L W M ML D} {g' : WGear V K L W M' ML' D'} {c : AStarCfg V K L W}
  {starts : List V}

theorem dist_setAll_same {inf : W} (hd : g.dd.Lawful inf) (hd' : g'.dd.Lawful inf) (kvs : List (K × W)) {m : D} {m' : D'}
    (h : ∀ k, g.dd.get m k = g'.dd.get m' k) (k : K) :
    g.dd.get (g.dd.setAll m kvs) k = g'.dd.get (g'.dd.setAll m' kvs) k := by
  induction kvs generalizing m m' with
  | nil => exact h k
  | cons a kvs ih =>
    simp only [DistOps.setAll, List.foldl_cons] at ih ⊢
    exact ih (fun j => by rw [hd.get_set, hd'.get_set, h])

theorem aStartEntries_gear {d : D} {d' : D'} (h : ∀ k, g.dd.get d k = g'.dd.get d' k) (vs : List V) (no : Int) :
    aStartEntries g c d vs no = aStartEntries g' c d' vs no := by
  induction vs generalizing no with
  | nil => rfl
  | cons v vs ih => simp only [aStartEntries, ih, h]

theorem a_gear_sim (hd : g.dd.Lawful c.inf) (hd' : g'.dd.Lawful c.inf) {validV validV' : V → Prop}
    {validL validL' : L → Prop} (hst : WStorable g.mo g.lo c.next c.vid starts validV validL)
    (hst' : WStorable g'.mo g'.lo c.next c.vid starts validV' validL') (fuel : Nat) (lim : Option Int) :
    let r1 := runMachine (aStep g c) fuel lim (aInit g c none none starts)
    let r2 := runMachine (aStep g' c) fuel lim (aInit g' c none none starts)
    List.Forall₂ (EvRel (fun (r : AStarReport V W M ML D) (r' : AStarReport V W M' ML' D') =>
      r.vertex = r'.vertex ∧ r.pathLength = r'.pathLength ∧ r.depth = r'.depth ∧
      WSame g g' r.dist r.preds r.labels r'.dist r'.preds r'.labels)) r1.events r2.events ∧
    r1.ending = r2.ending := by
  intro r1 r2
  have := run_sim (m := aStep g c) (m' := aStep g' c)
    (fun s s' => s.pc = s'.pc ∧ s.heap = s'.heap ∧ s.no = s'.no ∧
      (∀ k, g.dd.get s.guesses k = g'.dd.get s'.guesses k) ∧
      WSame g g' s.dist s.preds s.labels s'.dist s'.preds s'.labels ∧
      (∀ e ∈ s.heap, ∃ w, WalkW c.next (· ∈ starts) w e.item.1) ∧
      (∀ v w ec, s.pc = .expand v w ec → ∃ w, WalkW c.next (· ∈ starts) w v) ∧
      ∀ v w ec es, s.pc = .edges v w ec es → (∃ w, WalkW c.next (· ∈ starts) w v) ∧ ∀ e ∈ es, e ∈ c.next v)
    (fun _ _ => True)
    (fun (r : AStarReport V W M ML D) (r' : AStarReport V W M' ML' D') =>
      r.vertex = r'.vertex ∧ r.pathLength = r'.pathLength ∧ r.depth = r'.depth ∧
      WSame g g' r.dist r.preds r.labels r'.dist r'.preds r'.labels)
    ?_ fuel lim (aInit g c none none starts) (aInit g' c none none starts) ?_
  · exact ⟨this.1, this.2.1⟩
  · rintro ⟨pc, heap, no, d, gu, pr, la⟩ ⟨pc', heap', no', d', gu', pr', la'⟩ ⟨h1, h2, h3, hgu, h4, h5, h6, h7⟩
    simp only at h1 h2 h3 h4 h5 h6 h7 hgu
    subst h1 h2 h3
    cases pc with
    | loop =>
      cases heap with
      | nil => exact .stop trivial
      | cons e rest =>
        have hrest : ∀ f ∈ rest, ∃ w, WalkW c.next (· ∈ starts) w f.item.1 :=
          fun f hf => h5 f (List.mem_cons_of_mem _ hf)
        have hexp : ∀ v w ec, SpPc.expand (L := L) e.item.1 (g'.dd.get d' (c.vid e.item.1)) e.item.2 = .expand v w ec →
            ∃ w, WalkW c.next (· ∈ starts) w v := by
          intro v w ec hp
          simp only [SpPc.expand.injEq] at hp
          rw [← hp.1]; exact h5 e List.mem_cons_self
        simp only [aStep, h4.1, hgu]
        split
        · exact .tau ⟨rfl, rfl, rfl, hgu, h4, hrest, fun v w ec hp => by simp at hp, fun v w ec es hp => by simp at hp⟩
        · split
          · exact .emit ⟨rfl, rfl, rfl, h4⟩ ⟨rfl, rfl, rfl, hgu, h4, hrest, hexp, fun v w ec es hp => by simp at hp⟩
          · exact .tau ⟨rfl, rfl, rfl, hgu, h4, hrest, hexp, fun v w ec es hp => by simp at hp⟩
    | expand v w ec =>
      refine .expand ⟨rfl, rfl, rfl, hgu, h4, h5, fun v w ec hp => by simp at hp, fun v' w' ec' es hp => ?_⟩
      simp only [SpPc.edges.injEq] at hp
      obtain ⟨rfl, -, -, rfl⟩ := hp
      exact ⟨h6 _ _ _ rfl, fun _ h => h⟩
    | edges v w ec es =>
      cases es with
      | nil =>
        exact .tau ⟨rfl, rfl, rfl, hgu, h4, h5, fun v w ec hp => by simp at hp, fun v w ec es hp => by simp at hp⟩
      | cons e es =>
        obtain ⟨n, x, l⟩ := e
        obtain ⟨⟨wv, hw⟩, hes⟩ := h7 _ _ _ _ rfl
        have hmem := hes _ List.mem_cons_self
        have hcur : ∀ v' w' ec' es', SpPc.edges v w ec es = .edges v' w' ec' es' →
            (∃ w, WalkW c.next (· ∈ starts) w v') ∧ ∀ e ∈ es', e ∈ c.next v' := by
          intro v' w' ec' es' hp
          simp only [SpPc.edges.injEq] at hp
          obtain ⟨rfl, -, -, rfl⟩ := hp
          exact ⟨⟨wv, hw⟩, fun e he => hes e (List.mem_cons_of_mem _ he)⟩
        simp only [aStep]
        split
        · exact .fail
        · rename_i hinf
          have hlt := lt_of_not_ge hinf
          have hpush : ∀ (a : D) (a' : D'), (∀ k, g.dd.get a k = g'.dd.get a' k) →
              WSame g g' a (if c.buildPaths then g.mo.set pr (c.vid n) v else pr)
                (if c.buildPaths then g.lo.set la (c.vid n) l else la)
                a' (if c.buildPaths then g'.mo.set pr' (c.vid n) v else pr')
                (if c.buildPaths then g'.lo.set la' (c.vid n) l else la') := by
            intro a a' ha
            refine ⟨ha, fun k => ?_, fun k => ?_⟩
            · split
              · rw [hst.mo.get_set _ _ _ _ (hst.verts _ _ hw), hst'.mo.get_set _ _ _ _ (hst'.verts _ _ hw), h4.2.1]
              · exact h4.2.1 k
            · split
              · rw [hst.lo.get_set _ _ _ _ (hst.labs _ _ _ hw hmem),
                  hst'.lo.get_set _ _ _ _ (hst'.labs _ _ _ hw hmem), h4.2.2]
              · exact h4.2.2 k
          have hheap : ∀ f ∈ heapPush heap ⟨aGuess c.inf (x + w) (c.heur n), no, (n, ec + 1)⟩,
              ∃ w, WalkW c.next (· ∈ starts) w f.item.1 := by
            intro f hf
            rcases mem_heapPush.1 hf with rfl | hf
            · exact ⟨_, .step hw ⟨l, hmem⟩⟩
            · exact h5 f hf
          have hgu' : ∀ k, g.dd.get (if c.isTree then gu else
                g.dd.set gu (c.vid n) (aGuess c.inf (x + w) (c.heur n))) k =
              g'.dd.get (if c.isTree then gu' else g'.dd.set gu' (c.vid n) (aGuess c.inf (x + w) (c.heur n))) k := by
            intro k
            split
            · exact hgu k
            · rw [hd.get_set, hd'.get_set, hgu]
          have him : (aImprove g c d (c.vid n) (x + w) = none ∧ aImprove g' c d' (c.vid n) (x + w) = none) ∨
              ∃ a a', aImprove g c d (c.vid n) (x + w) = some a ∧ aImprove g' c d' (c.vid n) (x + w) = some a' ∧
                ∀ k, g.dd.get a k = g'.dd.get a' k := by
            simp only [aImprove]
            split
            · exact .inr ⟨_, _, rfl, rfl, fun k => by rw [hd.get_set, hd'.get_set, h4.1]⟩
            · have j1 := hd.improve_none d (c.vid n) (x + w) hlt
              have j2 := hd'.improve_none d' (c.vid n) (x + w) hlt
              rw [← h4.1] at j2
              cases ha : g.dd.improve d (c.vid n) (x + w) with
              | none => exact .inl ⟨rfl, j2.2 (j1.1 ha)⟩
              | some a =>
                cases ha' : g'.dd.improve d' (c.vid n) (x + w) with
                | none => rw [j1.2 (j2.1 ha')] at ha; simp at ha
                | some a' =>
                  refine .inr ⟨a, a', rfl, rfl, fun k => ?_⟩
                  rw [hd.improve_some _ _ _ _ hlt ha, hd'.improve_some _ _ _ _ hlt ha', h4.1]
          rcases him with ⟨i1, i2⟩ | ⟨a, a', i1, i2, i3⟩
          · rw [i1, i2]
            exact .tau ⟨rfl, rfl, rfl, hgu, h4, h5, fun v w ec hp => by simp at hp, hcur⟩
          · rw [i1, i2]
            dsimp only
            split
            · exact .fail
            · exact .tau ⟨rfl, rfl, rfl, hgu', hpush _ _ i3, hheap, fun v w ec hp => by simp at hp, hcur⟩
  · have hB : ∀ k, g.dd.get (aDistances g c none starts) k = g'.dd.get (aDistances g' c none starts) k :=
      fun k => dist_setAll_same hd hd' _ (fun j => by rw [hd.get_empty, hd'.get_empty]) k
    have hG : ∀ k, g.dd.get (aGuesses g c none (aDistances g c none starts) starts) k =
        g'.dd.get (aGuesses g' c none (aDistances g' c none starts) starts) k := by
      intro k
      simp only [aGuesses, hB]
      exact dist_setAll_same hd hd' _ (fun j => by rw [hd.get_empty, hd'.get_empty]) k
    refine ⟨rfl, ?_, rfl, hG, ⟨hB, fun k => ?_, fun k => ?_⟩, fun e he => ?_,
      fun v w ec hp => by simp [aInit] at hp, fun v w ec es hp => by simp [aInit] at hp⟩
    · simp only [aInit]; rw [aStartEntries_gear hG]
    · simp only [aInit]
      split
      · exact setAll_same hst.mo hst'.mo c.vid starts (fun v hv => hst.verts _ v (.start hv))
          (fun v hv => hst'.verts _ v (.start hv)) _ _
          (fun k => by rw [hst.mo.get_empty, hst'.mo.get_empty]) k
      · rw [hst.mo.get_empty, hst'.mo.get_empty]
    · simp only [aInit]; rw [hst.lo.get_empty, hst'.lo.get_empty]
    · simp only [aInit, mem_heapify] at he
      exact ⟨0, .start (aStartEntries_mem he).1⟩

end gear

/-! ## Estimates of zero -/

section zero

variable {g : WGear V K L W M ML D} {c : AStarCfg V K L W} {starts : List V}

/-- The same traversal task, for the shortest paths traversal that keeps distances. -/
def AStarCfg.toSp (c : AStarCfg V K L W) : WCfg V K L W :=
  ⟨c.next, c.vid, c.isTree, c.buildPaths, true, c.inf⟩

theorem aStartEntries_sp {gu d : D} (vs : List V) (no : Int)
    (h : ∀ k, g.dd.get gu k = g.dd.get d k) : aStartEntries g c gu vs no = spStartEntries g c.toSp d vs no := by
  induction vs generalizing no with
  | nil => rfl
  | cons v vs ih => simp only [aStartEntries, spStartEntries, ih, h]; rfl

theorem a_zero_sim (ht : c.isTree = false) (hd : g.dd.Lawful c.inf) (hz : ∀ v, c.heur v = 0) (h0 : 0 < c.inf)
    (fuel : Nat) (lim : Option Int) :
    let r1 := runMachine (aStep g c) fuel lim (aInit g c none none starts)
    let r2 := runMachine (spStep g c.toSp) fuel lim (spInit g c.toSp none starts)
    List.Forall₂ (EvRel (fun (r : AStarReport V W M ML D) (r' : SpReport V W M ML D) =>
      r.vertex = r'.vertex ∧ r.pathLength = r'.distance ∧ r.depth = r'.depth ∧ r.dist = r'.dist ∧ r.preds = r'.preds ∧
      r.labels = r'.labels)) r1.events r2.events ∧
    r1.ending = r2.ending := by
  intro r1 r2
  have hne : ∀ v, c.heur v ≠ c.inf := fun v => by rw [hz]; exact ne_of_lt h0
  have hguess : ∀ w v, aGuess c.inf w (c.heur v) = w := fun w v => by
    unfold aGuess
    rw [if_neg (hne v), hz, add_zero]
  have hsame : ∀ k, g.dd.get (aGuesses g c none (aDistances g c none starts) starts) k =
      g.dd.get (aDistances g c none starts) k := by
    intro k
    have hB : ∀ v ∈ starts, g.dd.get (aDistances g c none starts) (c.vid v) = 0 := fun v hv => by
      have := dist_setAll (g := g) (c := c) hd (fun _ => 0) starts g.dd.empty (c.vid v)
      rw [if_pos (List.mem_map_of_mem hv)] at this
      exact this
    simp only [aGuesses]
    have : starts.map (fun v => (c.vid v, g.dd.get (aDistances g c none starts) (c.vid v) + c.heur v)) =
        starts.map (fun v => (c.vid v, (0 : W))) := by
      apply List.map_congr_left
      intro v hv
      rw [hB v hv, hz, add_zero]
    rw [this]
    rfl
  have hspd : spDistances g c.toSp none starts = aDistances g c none starts := rfl
  have := run_sim (m := aStep g c) (m' := spStep g c.toSp)
    (fun s s' => s.pc = s'.pc ∧ s.heap = s'.heap ∧ s.no = s'.no ∧
      (∀ k, g.dd.get s.guesses k = g.dd.get s.dist k) ∧ s.dist = s'.dist ∧ s.preds = s'.preds ∧ s.labels = s'.labels ∧
      (∀ e ∈ s.heap, g.dd.get s.dist (c.vid e.item.1) ≤ e.key))
    (fun _ _ => True)
    (fun (r : AStarReport V W M ML D) (r' : SpReport V W M ML D) =>
      r.vertex = r'.vertex ∧ r.pathLength = r'.distance ∧ r.depth = r'.depth ∧ r.dist = r'.dist ∧ r.preds = r'.preds ∧
      r.labels = r'.labels)
    ?_ fuel lim (aInit g c none none starts) (spInit g c.toSp none starts) ?_
  · exact ⟨this.1, this.2.1⟩
  · rintro ⟨pc, heap, no, d, gu, pr, la⟩ ⟨pc', heap', no', d', pr', la'⟩ ⟨h1, h2, h3, hgu, h4, h5, h6, h7⟩
    simp only at h1 h2 h3 h4 h5 h6 h7 hgu
    subst h1 h2 h3 h4 h5 h6
    have e1 : c.toSp.vid = c.vid := rfl
    have e2 : c.toSp.isTree = false := ht
    have e3 : c.toSp.keepDistances = true := rfl
    have e4 : c.toSp.inf = c.inf := rfl
    have e5 : c.toSp.buildPaths = c.buildPaths := rfl
    have e6 : c.toSp.next = c.next := rfl
    cases pc with
    | loop =>
      cases heap with
      | nil => exact .stop trivial
      | cons e rest =>
        have hrest : ∀ f ∈ rest, g.dd.get d (c.vid f.item.1) ≤ f.key := fun f hf => h7 f (List.mem_cons_of_mem _ hf)
        have he := h7 e List.mem_cons_self
        simp only [aStep, spStep, hgu, e1, e2, e3, ht, Bool.not_false, Bool.not_true, Bool.and_false, Bool.true_and,
          Bool.false_eq_true, ↓reduceIte]
        split
        · exact .tau ⟨rfl, rfl, rfl, hgu, rfl, rfl, rfl, hrest⟩
        · rename_i hst
          have heq : g.dd.get d (c.vid e.item.1) = e.key :=
            le_antisymm he (le_of_not_gt (by simpa using hst))
          rw [heq]
          split
          · exact .emit ⟨rfl, rfl, rfl, rfl, rfl, rfl⟩ ⟨rfl, rfl, rfl, hgu, rfl, rfl, rfl, hrest⟩
          · exact .tau ⟨rfl, rfl, rfl, hgu, rfl, rfl, rfl, hrest⟩
    | expand v w ec => exact .expand ⟨rfl, rfl, rfl, hgu, rfl, rfl, rfl, h7⟩
    | edges v w ec es =>
      cases es with
      | nil => exact .tau ⟨rfl, rfl, rfl, hgu, rfl, rfl, rfl, h7⟩
      | cons e es =>
        obtain ⟨n, x, l⟩ := e
        simp only [aStep, spStep, e1, e4, e5]
        split
        · exact .fail
        · rename_i hinf
          have hlt := lt_of_not_ge hinf
          simp only [aImprove, spImprove, ht, e2, Bool.false_eq_true, ↓reduceIte, hguess]
          cases ha : g.dd.improve d (c.vid n) (x + w) with
          | none => exact .tau ⟨rfl, rfl, rfl, hgu, rfl, rfl, rfl, h7⟩
          | some a =>
            dsimp only
            rw [if_neg (fun h => hinf h.2)]
            have hget := hd.improve_some _ _ _ _ hlt ha
            refine .tau ⟨rfl, rfl, rfl, fun k => ?_, rfl, rfl, rfl, fun f hf => ?_⟩
            · simp only [hd.get_set, hget, hgu]
            · have hgt : x + w < g.dd.get d (c.vid n) := by
                refine lt_of_not_ge (fun hle => ?_)
                rw [(hd.improve_none _ _ _ hlt).2 hle] at ha
                simp at ha
              rcases mem_heapPush.1 hf with rfl | hf
              · simp only [hget, if_true]; exact le_refl _
              · simp only [hget]
                split
                · rename_i hj
                  exact hgt.le.trans (hj ▸ h7 f hf)
                · exact h7 f hf
  · refine ⟨rfl, ?_, rfl, hsame, rfl, rfl, rfl, fun e he => ?_⟩
    · simp only [aInit, spInit, hspd]
      rw [aStartEntries_sp _ _ hsame]
    · simp only [aInit, mem_heapify] at he ⊢
      obtain ⟨-, -, h3⟩ := aStartEntries_mem he
      rw [h3, hsame]

end zero

end NoGraphs
