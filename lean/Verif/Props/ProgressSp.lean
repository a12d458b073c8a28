import Verif.Props.Progress
import Verif.Props.SearchAwareSp

/-! # C71: progress in infinite graphs, for shortest paths -/

set_option linter.unusedSectionVars false

namespace NoGraphs

open Spec

variable {V K L W M ML D : Type} [DecidableEq V] [DecidableEq K]
variable [AddCommMonoid W] [LinearOrder W] [IsOrderedAddMonoid W]
variable {g : WGear V K L W M ML D} {c : WCfg V K L W}

theorem Spec.WalkW.mono_next {next next' : V → List (V × W × L)} {S : V → Prop} (h : ∀ u e, e ∈ next u → e ∈ next' u) {w : W}
    {v : V} (hw : WalkW next S w v) : WalkW next' S w v := by
  induction hw with
  | start h => exact .start h
  | step _ he ih => exact .step ih (he.imp fun _ hl => h _ _ hl)

/-- The weighted graph, cut at the vertices with ids `ids`, is compatible. -/
theorem cutNext_wcompat {next : V → List (V × W × L)} {vid : V → K} (hc : WCompat next vid) (ids : List K) :
    WCompat (cutNext next vid ids) vid := by
  rintro u u' w x e ⟨l, hl⟩
  obtain ⟨w', ⟨l', hl'⟩, e'⟩ := hc u u' w x e ⟨l, cutNext_sub hl⟩
  refine ⟨w', ⟨l', ?_⟩, e'⟩
  simp only [cutNext] at hl ⊢
  rw [← e]
  split at hl
  · rename_i hm
    rw [if_pos hm]
    exact hl'
  · simp at hl

/-- The cut graph is finite. -/
theorem cutNext_finite {next : V → List (V × W × L)} {vid : V → K} (hc : WCompat next vid) (ids : List K) (starts : List V) :
    WFinitelyReachable (cutNext next vid ids) (· ∈ starts) vid := by
  classical
  refine ⟨starts.map vid ++ ids.flatMap (fun k => if h : ∃ u, vid u = k then (next h.choose).map (fun e => vid e.1) else []),
    ?_⟩
  intro w v hw
  cases hw with
  | start h => exact List.mem_append_left _ (List.mem_map_of_mem h)
  | @step w u _ x hw he =>
    obtain ⟨l, hl⟩ := he
    have hu : vid u ∈ ids := by
      by_contra hno
      simp only [cutNext, if_neg hno] at hl
      simp at hl
    refine List.mem_append_right _ (List.mem_flatMap.2 ⟨_, hu, ?_⟩)
    have hex : ∃ u', vid u' = vid u := ⟨u, rfl⟩
    rw [dif_pos hex]
    obtain ⟨v', ⟨l', hl'⟩, e'⟩ := hc u hex.choose v x hex.choose_spec.symm ⟨l, cutNext_sub hl⟩
    exact List.mem_map.2 ⟨_, hl', e'⟩

/-- **C71 for shortest paths.** Also in an infinite graph, a vertex to which a walk of total weight `d` leads is reported
after finitely many steps, if only finitely many vertices can be reached by walks of total weight at most `d`, and if the
distances that occur there are smaller than the infinity value of the gear. -/
theorem C71_sp_progress (ht : c.isTree = false) (hd : g.dd.Lawful c.inf) (hn : NonNeg c.next) (hc : WCompat c.next c.vid)
    (starts : List V) (v : V) (d : W) (hv : c.vid v ∉ starts.map c.vid) (hw : WalkW c.next (· ∈ starts) d v)
    (hfin : ∃ ids : List K, ∀ x u, WalkW c.next (· ∈ starts) x u → x ≤ d → c.vid u ∈ ids)
    (hinf : ∀ x u u' y, WalkW c.next (· ∈ starts) x u → x ≤ d → WEdge c.next u u' y → x + y < c.inf) :
    ∃ N, ∀ fuel, N ≤ fuel → ∃ r ∈ (spRun g c none starts none fuel).reports, c.vid r.vertex = c.vid v ∧ r.distance ≤ d := by
  classical
  obtain ⟨ids0, hids0⟩ := hfin
  let near : K → Prop := fun k => ∃ x u, WalkW c.next (· ∈ starts) x u ∧ x ≤ d ∧ c.vid u = k
  let ids := ids0.filter (fun k => decide (near k))
  have hids : ∀ x u, WalkW c.next (· ∈ starts) x u → x ≤ d → c.vid u ∈ ids := fun x u h1 h2 =>
    List.mem_filter.2 ⟨hids0 x u h1 h2, by simpa using ⟨x, u, h1, h2, rfl⟩⟩
  have hnear : ∀ k ∈ ids, near k := fun k hk => by simpa using (List.mem_filter.1 hk).2
  let c' : WCfg V K L W := { c with next := cutNext c.next c.vid ids }
  have hsub : ∀ u e, e ∈ c'.next u → e ∈ c.next u := fun u e he => cutNext_sub he
  have hc' : WCompat c'.next c'.vid := cutNext_wcompat hc ids
  have hn' : NonNeg c'.next := fun u w x ⟨l, hl⟩ => hn u w x ⟨l, cutNext_sub hl⟩
  -- walks up to weight `d` are walks of the cut graph
  have hcut : ∀ x u, WalkW c.next (· ∈ starts) x u → x ≤ d → WalkW c'.next (· ∈ starts) x u := by
    intro x u hw hx
    induction hw with
    | start h => exact .start h
    | @step x u w y hw he ih =>
      have hle : x ≤ d := le_trans (le_add_of_nonneg_right (hn _ _ _ he)) hx
      obtain ⟨l, hl⟩ := he
      refine .step (ih hle) ⟨l, ?_⟩
      simp only [c', cutNext, if_pos (hids x u hw hle)]
      exact hl
  -- the cut graph is finite
  have hfin' : WFinitelyReachable c'.next (· ∈ starts) c'.vid := cutNext_finite hc ids starts
  obtain ⟨N, hN⟩ := C20_sp_terminates (g := g) (c := c') ht hd hn' hc' starts hfin'
  have hdone : (spRun g c' none starts none N).ending = .done := by
    rcases hN N (Nat.le_refl _) with h | ⟨-, u, w, x, e, h1, h2, h3⟩
    · exact h.1
    · exfalso
      obtain ⟨l, hl⟩ := h2
      have hu : c.vid u ∈ ids := by
        by_contra hno
        simp only [c', cutNext, if_neg hno] at hl
        simp at hl
      obtain ⟨x', u', k1, k2, k3⟩ := hnear _ hu
      have hle := (h1.2 x' u' (hcut _ _ k1 k2) k3).trans k2
      exact absurd h3 (not_le_of_gt (hinf e u w x (h1.1.mono_next hsub) hle ⟨l, cutNext_sub hl⟩))
  obtain ⟨r, hr, hrv⟩ := (C20_sp_complete (g := g) (c := c') ht hd hn' hc' starts none N hdone d v
    (hcut d v hw (le_refl _))).resolve_left hv
  obtain ⟨s, hs, -⟩ := run_reaches (spStep g c') N none (spInit g c' none starts)
  obtain ⟨a, b, hab⟩ := List.append_of_mem hr
  obtain ⟨h1, t, t', ha, hb, hbef⟩ := hs.emitted hab
  have hs1 : Reaches (spStep g c') (spInit g c' none starts) (h1 ++ [.rep r]) t' := .emit ha hb
  have hall : ∀ r' ∈ repsOf (h1 ++ [.rep r]), r'.distance ≤ d := by
    intro r' hr'
    obtain ⟨F, cur, inv, -⟩ := sp_plain_ok (c := c') ht hd hn' hc' hs1
    have h2 : r.distance ≤ d := by
      obtain ⟨k1, -, -, -⟩ := inv.reps r (by simp)
      obtain ⟨u0, e0, hd0⟩ := inv.isDist hn' hc' k1
      exact hd0.2 d v (hcut d v hw (le_refl _)) (hrv.symm.trans e0.symm)
    have hso := inv.ordered
    simp only [repsOf_append, repsOf_rep, repsOf_nil, List.map_append, List.map_cons, List.map_nil,
      List.pairwise_append, List.mem_map, List.mem_singleton] at hso
    simp only [repsOf_append, repsOf_rep, repsOf_nil, List.mem_append, List.mem_singleton] at hr'
    rcases hr' with hr' | rfl
    · exact (hso.2.2 r'.distance ⟨r', hr', rfl⟩ r.distance rfl).trans h2
    · exact h2
  have hQ : Reaches (spStep g c) (spInit g c' none starts) (h1 ++ [.rep r]) t' := by
    refine Reaches.transfer (fun h => ∀ r ∈ repsOf h, r.distance ≤ d) ?_ ?_ hs1 hall
    · intro a b h r hr
      exact h r (by rw [repsOf_append]; exact List.mem_append_left _ hr)
    · intro h s hs hle
      obtain ⟨F, cur, inv, -⟩ := sp_plain_ok (c := c') ht hd hn' hc' hs
      unfold spStep
      rcases hpc : s.pc with _ | ⟨u, w, ec⟩ | ⟨u, w, ec, es⟩
      · rfl
      · have hp := inv.pcok
        rw [hpc] at hp
        have hle' : w ≤ d := by
          rcases inv.doneRep _ _ hp.1 with h | ⟨r', hr', e⟩
          · obtain ⟨z, hz, e⟩ := List.mem_map.1 h
            have := (inv.donev _ _ hp.1).2.2.2.2 _ z (.start hz) e
            rw [spB_start _ hz] at this
            exact this.trans (hw.nonneg hn)
          · have h1 := (inv.reps r' hr').1
            rw [e, hp.1, Option.some.injEq] at h1
            rw [h1]
            exact hle r' hr'
        have hu : c.vid u ∈ ids := hids w u ((aw_plain hp.2.2).mono_next hsub) hle'
        simp only [c', cutNext, if_pos hu]
      · rcases es with _ | ⟨e, es⟩ <;> rfl
  obtain ⟨N', hN'⟩ := hQ.reported
  refine ⟨N', fun fuel hf => ?_⟩
  obtain ⟨h', e⟩ := hN' fuel hf
  refine ⟨r, ?_, hrv, hall r (by simp)⟩
  unfold spRun RunResult.reports
  rw [spInit_next] at e
  rw [show prepareLimit none = none from rfl, e]
  simp

/-! ## Example: an infinite graph -/

/-- Each number has edges to its successor, with weight 1, and to the fifth number after it, with weight 3. -/
def exInfiniteW (v : Nat) : List (Nat × Nat × Char) := [(v + 5, 3, 'a'), (v + 1, 1, 'b')]

theorem exInfiniteW_bound {x u : Nat} (h : WalkW exInfiniteW (· ∈ [0]) x u) : u ≤ 2 * x := by
  induction h with
  | start h => simp at h; omega
  | @step x u v y _ he ih =>
    obtain ⟨l, hl⟩ := he
    simp [exInfiniteW] at hl
    omega

/-- Each number from 1 to 900 is reported, if infinity is 1000. -/
example (v : Nat) (hv : 0 < v) (hv' : v ≤ 900) : ∃ N, ∀ fuel, N ≤ fuel →
    ∃ r ∈ (spRun exWHash ⟨exInfiniteW, id, false, true, true, 1000⟩ none [0] none fuel).reports,
      r.vertex = v ∧ r.distance ≤ v := by
  refine C71_sp_progress (c := ⟨exInfiniteW, id, false, true, true, 1000⟩) rfl (dictDist_lawful 1000)
    (fun _ _ _ _ => Nat.zero_le _) (fun u u' n x e he => ⟨n, (show u = u' from e) ▸ he, rfl⟩) [0] v v (by simp; omega) ?_
    ⟨List.range (2 * v + 1), fun x u hw hx => ?_⟩ ?_
  · clear hv hv'
    induction v with
    | zero => exact .start (by simp)
    | succ n ih => exact .step ih ⟨'b', by simp [exInfiniteW]⟩
  · have := exInfiniteW_bound hw
    simp; omega
  · rintro x u u' y hw hx ⟨l, hl⟩
    simp [exInfiniteW] at hl
    show x + y < 1000
    omega

end NoGraphs
