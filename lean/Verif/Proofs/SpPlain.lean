import Verif.Proofs.SpPaths

/-! Shortest paths traversal without known distances: relation to plain walks. -/

set_option linter.unusedSectionVars false

namespace NoGraphs

open Spec

variable {V K L W M ML D : Type} [DecidableEq V] [DecidableEq K]
variable [Add W] [Zero W] [LinearOrder W] [WeightLaws W]

attribute [local instance] wAddCommMagma wAddZeroClass wAddRightMono wAddLeftMono
variable {c : WCfg V K L W} {starts : List V} {g : WGear V K L W M ML D}

variable (c starts) in
/-- The distances at the start: zero for start vertices, otherwise infinity. -/
def spB (k : K) : W := if k ∈ starts.map c.vid then 0 else c.inf

theorem DistOps.Lawful.get_setAll_const {o : DistOps D K W} {inf : W} (ho : o.Lawful inf) (m : D) (vid : V → K)
    (vs : List V) (y : W) (k : K) :
    o.get (o.setAll m (vs.map (fun v => (vid v, y)))) k = if k ∈ vs.map vid then y else o.get m k := by
  induction vs generalizing m with
  | nil => simp [DistOps.setAll]
  | cons v vs ih =>
    have := ih (o.set m (vid v) y)
    simp only [DistOps.setAll, List.map_cons, List.foldl_cons] at this ⊢
    rw [this]
    simp only [List.mem_cons, ho.get_set]
    by_cases h1 : k ∈ vs.map vid <;> by_cases h2 : k = vid v <;> simp [h1, h2]

theorem spDistances_none (hd : g.dd.Lawful c.inf) (k : K) :
    g.dd.get (spDistances g c none starts) k = spB c starts k := by
  simp only [spDistances, spB]
  rw [hd.get_setAll_const, hd.get_empty]

theorem spB_start : ∀ v ∈ starts, spB c starts (c.vid v) = 0 := by
  intro v hv
  exact if_pos (List.mem_map.2 ⟨v, hv, rfl⟩)

theorem spB_start_nonneg : ∀ v ∈ starts, 0 ≤ spB c starts (c.vid v) := by
  intro v hv; rw [spB_start v hv]

theorem Spec.WalkW.nonneg {next : V → List (V × W × L)} {S : V → Prop} (hn : NonNeg next) {w : W} {v : V}
    (h : WalkW next S w v) : 0 ≤ w := by
  induction h with
  | start _ => exact le_refl _
  | step _ he ih => exact add_nonneg ih (hn _ _ _ he)

theorem aw_plain {w : W} {v : V} (h : AW c starts (spB c starts) w v) : WalkW c.next (· ∈ starts) w v := by
  induction h with
  | start hs => rw [spB_start _ hs]; exact .start hs
  | step _ he _ ih => exact .step ih he

theorem aw_of_plain (hn : NonNeg c.next) (hc : WCompat c.next c.vid) {w : W} {v : V}
    (h : WalkW c.next (· ∈ starts) w v) (hw : w < c.inf) :
    ∃ w' v', AW c starts (spB c starts) w' v' ∧ w' ≤ w ∧ c.vid v' = c.vid v := by
  induction h with
  | @start v hs => exact ⟨_, v, .start hs, by rw [spB_start _ hs], rfl⟩
  | @step w u v x hu he ih =>
    obtain ⟨w', u', h1, h2, h3⟩ := ih (lt_of_le_of_lt (le_add_of_nonneg_right (hn _ _ _ he)) hw)
    obtain ⟨v', h4, h5⟩ := hc u u' v x h3.symm he
    have hle : w' + x ≤ w + x := add_le_add_left h2 x
    by_cases hs : c.vid v' ∈ starts.map c.vid
    · obtain ⟨t, ht, hte⟩ := List.mem_map.1 hs
      refine ⟨_, t, .start ht, ?_, hte.trans h5⟩
      rw [spB_start _ ht]
      exact (WalkW.step hu he).nonneg hn
    · refine ⟨w' + x, v', .step h1 h4 ?_, hle, h5⟩
      rw [spB, if_neg hs]
      exact lt_of_le_of_lt hle hw

/-- A minimal distance below infinity. -/
theorem isDist_of_aw (hn : NonNeg c.next) (hc : WCompat c.next c.vid) {w : W} {v : V}
    (h : AW c starts (spB c starts) w v) (hinf : w < c.inf ∨ c.vid v ∈ starts.map c.vid)
    (hmin : ∀ w' v', AW c starts (spB c starts) w' v' → c.vid v' = c.vid v → w ≤ w') :
    IsDist c.next (· ∈ starts) c.vid v w := by
  refine ⟨aw_plain h, fun w' v' hw' e => ?_⟩
  rcases hinf with hinf | hs
  · rcases lt_or_ge w' c.inf with hlt | hge
    · obtain ⟨w2, v2, h1, h2, h3⟩ := aw_of_plain hn hc hw' hlt
      exact (hmin w2 v2 h1 (h3.trans e)).trans h2
    · exact (le_of_lt hinf).trans hge
  · obtain ⟨t, ht, hte⟩ := List.mem_map.1 hs
    have := hmin _ t (.start ht) hte
    rw [spB_start _ ht] at this
    exact this.trans (hw'.nonneg hn)

theorem sp_plain_ok (ht : c.isTree = false) (hd : g.dd.Lawful c.inf) (hn : NonNeg c.next)
    (hc : WCompat c.next c.vid) {h : List (Ev (SpReport V W M ML D))} {s : SpState V L W M ML D}
    (hr : Reaches (spStep g c) (spInit g c none starts) h s) :
    ∃ F cur, SpAll c starts (spB c starts) g h s F cur :=
  sp_ok ht hd hn hc (fun k => spDistances_none hd k) spB_start_nonneg hr

variable {h : List (Ev (SpReport V W M ML D))} {s : SpState V L W M ML D} {F : K → Option W} {cur : W}

/-- Finished ids have their distance. -/
theorem SpInv.isDist (inv : SpInv c starts (spB c starts) g h s F cur) (hn : NonNeg c.next)
    (hc : WCompat c.next c.vid) {k : K} {w : W} (hF : F k = some w) :
    ∃ u, c.vid u = k ∧ IsDist c.next (· ∈ starts) c.vid u w := by
  obtain ⟨u, h1, h2, -⟩ := inv.relaxed k w hF
  refine ⟨u, h1, isDist_of_aw hn hc h2 ?_ (fun w' v' hw e => (inv.donev k w hF).2.2.2.2 w' v' hw (e.trans h1))⟩
  rcases inv.doneRep k w hF with hs | ⟨r, hr, e⟩
  · exact .inr (h1 ▸ hs)
  · left
    have := inv.reps r hr
    rw [e, hF, Option.some.injEq] at this
    rw [this.1]; exact this.2.2.2.1

theorem Spec.IsDist.unique {next : V → List (V × W × L)} {S : V → Prop} {vid : V → K} {u v : V} {w w' : W}
    (h : IsDist next S vid u w) (h' : IsDist next S vid v w') (e : vid u = vid v) : w = w' :=
  le_antisymm (h.2 _ _ h'.1 e.symm) (h'.2 _ _ h.1 e)

/-- When the heap is empty, all walks end at finished vertices. -/
theorem SpInv.all_done (inv : SpInv c starts (spB c starts) g h s F cur) (hn : NonNeg c.next)
    (hc : WCompat c.next c.vid) (hpc : s.pc = .loop) (hh : s.heap = []) {w : W} {v : V}
    (hw : WalkW c.next (· ∈ starts) w v) : ∃ w', F (c.vid v) = some w' ∧ w' ≤ w := by
  induction hw with
  | @start v hs =>
    rcases inv.frontier hpc hn hc (.start hs) with h | ⟨e, he, -⟩
    · rw [spB_start _ hs] at h; exact h
    · rw [hh] at he; simp at he
  | @step w u v x _ he ih =>
    obtain ⟨w', hF, hle⟩ := ih
    obtain ⟨u', hu', -, hr⟩ := inv.relaxed _ _ hF
    obtain ⟨v', hv', hid⟩ := hc u u' v x hu'.symm he
    have hle' : w' + x ≤ w + x := add_le_add_left hle x
    rcases hr v' x hv' with hp | ⟨hlt, hb⟩
    · rw [hpc] at hp; exact absurd hp id
    · rw [hid] at hb
      unfold SpBest at hb
      cases hFv : F (c.vid v) with
      | some w2 => rw [hFv] at hb; exact ⟨w2, rfl, hb.trans hle'⟩
      | none =>
        exfalso
        rw [hFv] at hb
        obtain ⟨_, ⟨h2, h3⟩ | ⟨e, he, -, h2⟩⟩ := inv.undone _ hFv
        · simp only [h2, spB, if_neg h3] at hb
          exact absurd hlt (not_lt_of_ge hb)
        · rw [hh] at he; simp at he

theorem spStep_stop {s' : SpState V L W M ML D} (hs : spStep g c s = .stop s') :
    s' = s ∧ s.pc = .loop ∧ s.heap = [] := by
  unfold spStep at hs
  split at hs
  · split at hs
    · simp only [Step.stop.injEq] at hs; exact ⟨hs.symm, by assumption, by assumption⟩
    · simp only at hs; split at hs
      · simp at hs
      · split at hs <;> simp at hs
  · simp at hs
  · simp at hs
  · simp only at hs
    split at hs
    · simp at hs
    · split at hs <;> simp at hs

theorem spStep_fail {e : PyErr} (hs : spStep g c s = .fail e) :
    e = .overflowError ∧ ∃ v w ec n x l es, s.pc = .edges v w ec ((n, x, l) :: es) ∧ c.inf ≤ x + w := by
  unfold spStep at hs
  split at hs
  · split at hs
    · simp at hs
    · simp only at hs; split at hs
      · simp at hs
      · split at hs <;> simp at hs
  · simp at hs
  · simp at hs
  · rename_i v w ec n x l es hpc
    simp only at hs
    split at hs
    · simp only [Step.fail.injEq] at hs
      exact ⟨hs.symm, v, w, ec, n, x, l, es, hpc, by assumption⟩
    · split at hs <;> simp at hs

theorem spStep_emit {r : SpReport V W M ML D} {s' : SpState V L W M ML D} (hs : spStep g c s = .emit r s') :
    r.dist = s'.dist ∧ r.preds = s'.preds ∧ r.labels = s'.labels := by
  unfold spStep at hs
  split at hs
  · split at hs
    · simp at hs
    · simp only at hs; split at hs
      · simp at hs
      · split at hs
        · simp only [Step.emit.injEq] at hs
          obtain ⟨rfl, rfl⟩ := hs
          exact ⟨rfl, rfl, rfl⟩
        · simp at hs
  · simp at hs
  · simp at hs
  · simp only at hs
    split at hs
    · simp at hs
    · split at hs <;> simp at hs

/-- Stored distances. -/
theorem SpInv.get_done (inv : SpInv c starts (spB c starts) g h s F cur) (hk : c.keepDistances = true) :
    (∀ v ∈ starts, g.dd.get s.dist (c.vid v) = 0) ∧
    ∀ r ∈ repsOf h, g.dd.get s.dist (c.vid r.vertex) = r.distance := by
  constructor
  · intro v hv
    cases hF : F (c.vid v) with
    | some w =>
      obtain ⟨h1, -, h3, h4, -⟩ := inv.donev _ _ hF
      rw [spB_start v hv] at h3
      rw [h4, if_pos hk]; exact le_antisymm h3 h1
    | none =>
      obtain ⟨h1, ⟨h2, h3⟩ | ⟨e, he, -, h2⟩⟩ := inv.undone _ hF
      · rw [h2, spB_start v hv]
      · rw [spB_start v hv] at h1
        refine le_antisymm h1 ?_
        rw [← h2]; exact inv.cur0.trans (inv.lower e he)
  · intro r hr
    rw [(inv.donev _ _ (inv.reps r hr).1).2.2.2.1, if_pos hk]

end NoGraphs
