import Verif.Proofs.BiBfsResult

/-! Bidirectional breadth-first search: path and termination. -/

set_option linter.unusedSectionVars false

namespace NoGraphs

open Spec

variable {V K L S M ML : Type} [DecidableEq V] [DecidableEq K]
variable {g : TravGear V K L S M ML} {c : BiCfg V K L} {starts goals : List V}

/-- Both traversals store a path for the meeting vertex. -/
theorem bi_found_paths (hok : BiOk g c) (hop : OppositeEdges c.nextF c.nextB)
    (hinj : Function.Injective c.vid) (hb : c.buildPath = true)
    {validV : V → Prop} {validL : L → Prop}
    (hst : ∀ b, Storable g (c.side b) (biEnds starts goals b) validV validL)
    {s : BiState V L S M ML} (inv : BiInv g c starts goals s) {r : BfsReport V S M ML} {x : BfsState V L S M ML}
    (hx : bfsStep g (c.side s.back) true (s.get s.back).st = .emit r x) (hp : s.prev ≠ some r.vertex)
    (hcon : g.so.contains (s.get (!s.back)).st.visited (c.vid r.vertex) = true) :
    ∀ b, ∃ p : SPath V L,
      let y := (s.setCur { s.get s.back with st := x, started := true }).get b
      (p.steps.length : Int) = y.depth ∧
      PathOk (c.side b).next (biEnds starts goals b) c.vid (g.mo.get? y.st.preds) (g.lo.get? y.st.labels) r.vertex p := by
  obtain ⟨he, n, j, hj, hd, hrd, hpr, hla, -, hmin, -⟩ := bi_found hok hop inv hx hp hcon
  have hbb : ∀ b, b = s.back ∨ b = !s.back := by
    intro b; cases b <;> cases s.back <;> simp
  intro b
  rcases hbb b with rfl | rfl
  · rw [BiState.get_setCur_same]
    obtain ⟨h, hr⟩ := inv.reach s.back
    have pinv := bfs_path_inv hok.lawful rfl (by exact hb) (hok.compat s.back) (hst s.back) (.emit hr he)
    obtain ⟨p, h1, h2⟩ := pinv.reps r (by simp)
    refine ⟨p, ?_, ?_⟩
    · simp only [BiSide.depth, if_true]; rw [h1, hrd, hd]
    · rw [hpr, hla] at h2; exact h2
  · rw [BiState.get_setCur_other]
    obtain ⟨h, hr⟩ := inv.reach (!s.back)
    have pinv := bfs_path_inv hok.lawful rfl (by exact hb) (hok.compat (!s.back)) (hst (!s.back)) hr
    obtain ⟨n', binv⟩ := bfs_inv hok.lawful rfl (hok.compat (!s.back)) hr
    obtain ⟨j', hj', hvis⟩ := inv.level hok
    have hjj : j' = j := by rw [hj] at hj'; exact_mod_cast hj'.symm
    subst hjj
    have hle : ∀ d, IsDepth (Edge (c.side (!s.back)).next) (· ∈ biEnds starts goals (!s.back)) c.vid r.vertex d → d = j' := by
      intro d hD
      obtain ⟨m, v, hm, hw, e⟩ := (hvis _).1 hcon
      exact hmin d _ hD.1 rfl (Nat.le_trans (hD.2 m v hw e) hm)
    rcases binv.cover _ hcon with h | h | ⟨r', hr', e⟩
    · rw [hok.lawful.contains_empty] at h; simp at h
    · obtain ⟨v, hv, e⟩ := List.mem_map.1 h
      have : v = r.vertex := hinj e
      subst this
      obtain ⟨p, h1, h2⟩ := pinv.sts _ hv
      refine ⟨p, ?_, h2⟩
      have := hle 0 ⟨.start hv, fun _ _ _ _ => Nat.zero_le _⟩
      simp only [h1, hj]; rw [← this]; rfl
    · have hv : r'.vertex = r.vertex := hinj e
      obtain ⟨p, h1, h2⟩ := pinv.reps r' hr'
      obtain ⟨d, hd1, -, -, hD, -⟩ := binv.reps r' hr'
      rw [biE hok.lawful] at hD
      have := pinv.keep r' hr' p h2
      rw [hv] at this hD
      refine ⟨p, ?_, this⟩
      have := hle d hD
      simp only [h1, hj, hd1, this]

/-- The returned path. -/
theorem bi_found_path (hok : BiOk g c) (hop : Opposite c.nextF c.nextB)
    (hinj : Function.Injective c.vid) (hb : c.buildPath = true)
    {validV : V → Prop} {validL : L → Prop}
    (hst : ∀ b, Storable g (c.side b) (biEnds starts goals b) validV validL)
    {s : BiState V L S M ML} (inv : BiInv g c starts goals s) {r : BfsReport V S M ML} {x : BfsState V L S M ML}
    (hx : bfsStep g (c.side s.back) true (s.get s.back).st = .emit r x) (hp : s.prev ≠ some r.vertex)
    (hcon : g.so.contains (s.get (!s.back)).st.visited (c.vid r.vertex) = true)
    {s' : BiState V L S M ML} (hs' : s' = s.setCur { s.get s.back with st := x, started := true }) :
    ∃ p : SPath V L, (biPath g c s' r.vertex).Shows p ∧ p.first ∈ starts ∧ IsPath c.nextF p.first p.steps ∧
      (∃ t ∈ goals, p.verts.getLast? = some t) ∧ (p.steps.length : Int) = s'.fw.depth + s'.bw.depth := by
  have hopE : OppositeEdges c.nextF c.nextB := by
    intro u v
    exact ⟨fun ⟨l, h⟩ => ⟨l, (hop u v l).1 h⟩, fun ⟨l, h⟩ => ⟨l, (hop u v l).2 h⟩⟩
  have key := bi_found_paths hok hopE hinj hb hst inv hx hp hcon
  rw [← hs'] at key
  obtain ⟨f, hf1, hf2⟩ := key false
  obtain ⟨b, hb1, hb2⟩ := key true
  have e1 : s'.get false = s'.fw := rfl
  have e2 : s'.get true = s'.bw := rfl
  rw [e1] at hf1 hf2
  rw [e2] at hb1 hb2
  obtain ⟨p, h1, h2, h3, h4, h5, -⟩ := fromBidirectional_shows (hst false).mo (hst false).lo
    (nextF := c.nextF) (nextB := c.nextB) (fun u v l h => (hop u v l).2 h) hf2 hb2
    ((s'.fw.depth + s'.bw.depth).toNat + 1) (by omega) (by omega)
  refine ⟨p, ?_, h2, h3, h4, by rw [h5]; push_cast; omega⟩
  unfold biPath
  rw [if_pos hb]
  exact h1

/-! ## Termination -/

theorem depth_bounded {E : V → V → Prop} {P : V → Prop} {vid : V → K} (h : FinitelyReachable E P vid) :
    ∃ D, ∀ v d, IsDepth E P vid v d → d ≤ D := by
  obtain ⟨ids, hids⟩ := h
  have : ∀ l : List K, ∃ D, ∀ v d, vid v ∈ l → IsDepth E P vid v d → d ≤ D := by
    intro l
    induction l with
    | nil => exact ⟨0, fun v d h => by simp at h⟩
    | cons k r ih =>
      obtain ⟨D, hD⟩ := ih
      by_cases hex : ∃ v d, vid v = k ∧ IsDepth E P vid v d
      · obtain ⟨v0, d0, hv0, h0⟩ := hex
        refine ⟨max D d0, fun v d hv hd => ?_⟩
        rcases List.mem_cons.1 hv with h | h
        · have := hd.unique h0 (h.trans hv0.symm)
          omega
        · have := hD v d h hd
          omega
      · refine ⟨D, fun v d hv hd => ?_⟩
        rcases List.mem_cons.1 hv with h | h
        · exact absurd ⟨v, d, h, hd⟩ hex
        · exact hD v d h hd
  obtain ⟨D, hD⟩ := this ids
  exact ⟨D, fun v d hd => hD v d (hids v ⟨d, hd.1⟩) hd⟩

/-- The levels of a traversal are not empty, except for the last one. -/
theorem bfs_levels {g : TravGear V K L S M ML} {c : TravCfg V K L} {already : S} {starts : List V}
    (hg : g.so.Lawful) (ht : c.isTree = false) (hc : Compat (Edge c.next) c.vid)
    {h : List (Ev (BfsReport V S M ML))} {s : BfsState V L S M ML}
    (hr : Reaches (bfsStep g c false) (bfsInit g c already starts) h s) :
    ∃ n : Nat, s.depth = n + 1 ∧
      (n = 0 ∨ ∃ v, IsDepth (bfsE g c already) (· ∈ starts) c.vid v (n - 1)) ∧
      (s.pc ≠ .check → ∃ v, IsDepth (bfsE g c already) (· ∈ starts) c.vid v n) := by
  refine Reaches.invariant' (fun _ (s : BfsState V L S M ML) => ∃ n : Nat, s.depth = n + 1 ∧
      (n = 0 ∨ ∃ v, IsDepth (bfsE g c already) (· ∈ starts) c.vid v (n - 1)) ∧
      (s.pc ≠ .check → ∃ v, IsDepth (bfsE g c already) (· ∈ starts) c.vid v n)) ?_ ?_ ?_ ?_ hr
  · exact ⟨0, rfl, .inl rfl, fun h => absurd rfl h⟩
  · rintro h s s' hr ⟨n, h1, h2, h3⟩ hs
    obtain ⟨n', inv⟩ := bfs_inv hg ht hc hr
    have hn : n' = n := by have := inv.depth; omega
    subst hn
    unfold bfsStep at hs
    split at hs
    · split at hs
      · simp at hs
      · rename_i hte
        simp only [Step.tau.injEq] at hs
        subst hs
        exact ⟨n', h1, h2, fun _ => ⟨_, inv.exp _ (by rw [hte]; exact List.mem_cons_self)⟩⟩
    · rename_i hp
      split at hs
      · simp at hs
      · split at hs
        · contradiction
        · simp only [Step.tau.injEq] at hs
          subst hs
          exact ⟨n', h1, h2, fun _ => h3 (by simp [hp])⟩
    · rename_i hp
      simp only [Step.tau.injEq] at hs
      subst hs
      exact ⟨n', h1, h2, fun _ => h3 (by simp [hp])⟩
    · rename_i hp
      split at hs
      · simp only [Step.tau.injEq] at hs
        subst hs
        exact ⟨n', h1, h2, fun _ => h3 (by simp [hp])⟩
      · simp at hs
    · rename_i hp
      simp only [Step.tau.injEq] at hs
      subst hs
      refine ⟨n' + 1, by simp only [h1]; omega, .inr ?_, fun h => absurd rfl h⟩
      simpa using h3 (by simp [hp])
  · rintro h s r s' hr ⟨n, h1, h2, h3⟩ hs
    obtain ⟨n', hd, hd', -, -, -, -, -, -, hp, -⟩ := bfs_emit_frame hg ht hc hr hs
    refine ⟨n, by omega, h2, fun _ => h3 ?_⟩
    intro hp'
    unfold bfsStep at hs
    rw [hp'] at hs
    simp only at hs
    split at hs <;> simp at hs
  · rintro h s s' hr ⟨n, h1, h2, h3⟩ hs
    unfold bfsStep at hs
    split at hs
    · split at hs <;> simp at hs
    · rename_i hp
      split at hs
      · simp only [Step.expand.injEq] at hs
        subst hs
        exact ⟨n, h1, h2, fun _ => h3 (by simp [hp])⟩
      · split at hs <;> simp at hs
    · simp at hs
    · split at hs <;> simp at hs
    · simp at hs

/-- The state of a traversal that is not iterated: its depth. -/
theorem BiSide.depth_ge {s : BiState V L S M ML} (inv : BiInv g c starts goals s) (b : Bool) :
    (s.get b).st.depth ≤ (s.get b).depth + 1 := by
  unfold BiSide.depth
  cases h : (s.get b).started with
  | true => simp only [if_true]; omega
  | false => rw [inv.init b h]; simp [bfsInit]

/-- Both traversals together have a bounded depth. -/
theorem bi_bounded (hok : BiOk g c) (hop : OppositeEdges c.nextF c.nextB)
    (hfin : (∃ n, Connects (Edge c.nextF) c.vid starts goals n) ∨
      (FinitelyReachable (Edge c.nextF) (· ∈ starts) c.vid ∧
        FinitelyReachable (Edge c.nextB) (· ∈ goals) c.vid)) :
    ∃ B : Nat, ∀ s : BiState V L S M ML, BiInv g c starts goals s → s.fw.st.depth + s.bw.st.depth ≤ B := by
  rcases hfin with ⟨q, hq⟩ | ⟨hf, hb⟩
  · refine ⟨q + 2, fun s inv => ?_⟩
    obtain ⟨h, hr⟩ := inv.reach s.back
    obtain ⟨n, binv⟩ := bfs_inv hok.lawful rfl (hok.compat s.back) hr
    obtain ⟨j, hj, hvis⟩ := inv.level hok
    have hdisj := (disj_iff s s.back).1 inv.disj
    have hq' : Connects (Edge (c.side s.back).next) c.vid (biEnds starts goals s.back)
        (biEnds starts goals (!s.back)) q := by
      cases hb : s.back with
      | false => exact hq
      | true => exact hq.symm (fun u v h => (hop u v).1 h) hok.compatB
    have hlt : n + j < q := by
      by_contra hge
      obtain ⟨y, y', hy, h1, h2⟩ := hq'.meet (fun u v h => (side_opp hop s.back u v).1 h)
        (hok.compat (!s.back)) (min q n) (by omega)
      refine hdisj (c.vid y) ?_ ((hvis _).2 ⟨_, y', by omega, h2, hy.symm⟩)
      refine (binv.vis _).2 (.inr (.inl ⟨min q n, y, by omega, ?_, rfl⟩))
      rw [biE hok.lawful]; exact h1
    have h1 := binv.depth
    have h2 := BiSide.depth_ge inv (!s.back)
    have hsum : s.fw.st.depth + s.bw.st.depth = (s.get s.back).st.depth + (s.get (!s.back)).st.depth := by
      cases s.back <;> simp [BiState.get]
      omega
    omega
  · obtain ⟨D1, hD1⟩ := depth_bounded hf
    obtain ⟨D2, hD2⟩ := depth_bounded hb
    refine ⟨D1 + 2 + (D2 + 2), fun s inv => ?_⟩
    obtain ⟨h1, hr1⟩ := inv.reach false
    obtain ⟨h2, hr2⟩ := inv.reach true
    obtain ⟨n1, a1, a2, -⟩ := bfs_levels hok.lawful rfl (hok.compat false) hr1
    obtain ⟨n2, b1, b2, -⟩ := bfs_levels hok.lawful rfl (hok.compat true) hr2
    rw [biE hok.lawful] at a2 b2
    have e1 : n1 ≤ D1 + 1 := by
      rcases a2 with h | ⟨v, hv⟩
      · omega
      · have := hD1 v _ hv; omega
    have e2 : n2 ≤ D2 + 1 := by
      rcases b2 with h | ⟨v, hv⟩
      · omega
      · have := hD2 v _ hv; omega
    have c1 : (s.get false).st.depth = s.fw.st.depth := rfl
    have c2 : (s.get true).st.depth = s.bw.st.depth := rfl
    omega

/-- Rank of the program counter of a traversal. -/
def bfsRank (s : BfsState V L S M ML) : Nat :=
  match s.pc with
  | .check => 3
  | .loop => 2
  | .levelEnd => 1
  | .edges _ es => 3 + es.length

/-- Each step of a traversal increases the depth, or the rest of the level gets smaller. -/
theorem bfs_measure {g : TravGear V K L S M ML} {c : TravCfg V K L} {s t : BfsState V L S M ML}
    (h : (bfsStep g c true s).next? = some t) :
    t.depth = s.depth + 1 ∨ (t.depth = s.depth ∧ (t.toExpand.length < s.toExpand.length ∨
      (t.toExpand.length = s.toExpand.length ∧ bfsRank t < bfsRank s))) := by
  unfold bfsStep at h
  unfold bfsRank
  split at h
  · rename_i hp
    split at h
    · simp [Step.next?] at h
    · simp only [Step.next?, Option.some.injEq] at h
      subst h
      simp [hp]
  · rename_i hp
    split at h
    · rename_i hte
      simp only [Step.next?, Option.some.injEq] at h
      subst h
      simp [hte]
    · split at h
      · simp only [Step.next?, Option.some.injEq] at h
        subst h
        simp [hp]
      · simp only [Step.next?, Option.some.injEq] at h
        subst h
        simp [hp]
  · rename_i hp
    simp only [Step.next?, Option.some.injEq] at h
    subst h
    simp [hp]
  · rename_i hp
    split at h
    · simp only [Step.next?, Option.some.injEq] at h
      subst h
      simp [hp]
    · simp only [Step.next?, Option.some.injEq] at h
      subst h
      simp [hp]
  · rename_i hp
    simp only [Step.next?, Option.some.injEq] at h
    subst h
    simp

/-- Each step of the search is a step of the iterated traversal. -/
theorem biStep_next {s t : BiState V L S M ML} (h : (biStep g c s).next? = some t) :
    ∃ x, (bfsStep g (c.side s.back) true (s.get s.back).st).next? = some x ∧
      (t.get s.back).st = x ∧ (t.get (!s.back)).st = (s.get (!s.back)).st := by
  unfold biStep at h
  rw [BiState.cur_eq] at h
  split at h
  · simp [Step.next?] at h
  · simp [Step.next?] at h
  · rename_i x hx
    simp only [Step.next?, Option.some.injEq] at h
    subst h
    exact ⟨x, by rw [hx]; rfl, by rw [BiState.get_setCur_same], by rw [BiState.get_setCur_other]⟩
  · rename_i x hx
    split at h
    · simp [Step.next?] at h
    · simp only [Step.next?, Option.some.injEq] at h
      subst h
      exact ⟨x, by rw [hx]; rfl, by rw [BiState.get_setCur_same], by rw [BiState.get_setCur_other]⟩
  · rename_i r x hx
    have e1 := BiState.get_setCur_same s { s.get s.back with st := x, started := true }
    have e2 := BiState.get_setCur_other s { s.get s.back with st := x, started := true }
    split at h
    · simp only [Step.next?, Option.some.injEq] at h
      subst h
      exact ⟨x, by rw [hx]; rfl, congrArg BiSide.st e1, congrArg BiSide.st e2⟩
    · split at h
      · simp [Step.next?] at h
      · simp only [Step.next?, Option.some.injEq] at h
        subst h
        exact ⟨x, by rw [hx]; rfl, congrArg BiSide.st e1, congrArg BiSide.st e2⟩

theorem bi_terminates (hok : BiOk g c) (hop : OppositeEdges c.nextF c.nextB)
    (hno : ∀ s ∈ starts, ∀ t ∈ goals, c.vid s ≠ c.vid t)
    (hfin : (∃ n, Connects (Edge c.nextF) c.vid starts goals n) ∨
      (FinitelyReachable (Edge c.nextF) (· ∈ starts) c.vid ∧
        FinitelyReachable (Edge c.nextB) (· ∈ goals) c.vid)) (limit : Option Int) :
    ∃ N, ∀ fuel, N ≤ fuel → ∀ lim,
      (runMachine (biStep g c) fuel lim (biInit g c starts goals limit : BiState V L S M ML)).ending ≠ .outOfFuel := by
  obtain ⟨B, hB⟩ := bi_bounded (S := S) (M := M) (ML := ML) (g := g) hok hop hfin
  refine run_terminates_reach _ lex4 lex4_wf
    (fun s => (((B : Int) - (s.fw.st.depth + s.bw.st.depth)).toNat, s.fw.st.toExpand.length + s.bw.st.toExpand.length,
      bfsRank s.fw.st + bfsRank s.bw.st, 0)) _ ?_
  intro h s s' hr hs
  have inv := bi_inv hok limit hno hr
  have inv' : BiInv g c starts goals s' := by
    cases hst : biStep g c s with
    | stop _ => rw [hst] at hs; simp [Step.next?] at hs
    | fail _ => rw [hst] at hs; simp [Step.next?] at hs
    | tau t => rw [hst] at hs; simp only [Step.next?, Option.some.injEq] at hs; subst hs; exact inv.step_tau hok hst
    | emit r t => exact absurd hst (biStep_no_emit s t r)
    | expand t => rw [hst] at hs; simp only [Step.next?, Option.some.injEq] at hs; subst hs; exact inv.step_expand hok hst
  have hb := hB s inv
  have hb' := hB s' inv'
  obtain ⟨x, hx, hx1, hx2⟩ := biStep_next hs
  have hm := bfs_measure hx
  rw [← hx1] at hm
  rw [lex4_iff]
  have hswap : ∀ f : BfsState V L S M ML → Nat, ∀ u : BiState V L S M ML,
      f u.fw.st + f u.bw.st = f (u.get s.back).st + f (u.get (!s.back)).st := by
    intro f u
    cases s.back <;> simp [BiState.get]
    omega
  have hswapd : ∀ u : BiState V L S M ML,
      u.fw.st.depth + u.bw.st.depth = (u.get s.back).st.depth + (u.get (!s.back)).st.depth := by
    intro u
    cases s.back <;> simp [BiState.get]
    omega
  have d1 := hswapd s
  have d2 := hswapd s'
  have t1 := hswap (fun s => s.toExpand.length) s
  have t2 := hswap (fun s => s.toExpand.length) s'
  have k1 := hswap bfsRank s
  have k2 := hswap bfsRank s'
  simp only [hx2] at d2 t2 k2 t1
  rcases hm with hm | ⟨hm, hm' | ⟨hm', hm''⟩⟩
  · left; omega
  · right; exact ⟨by omega, .inl (by omega)⟩
  · right; exact ⟨by omega, .inr ⟨by omega, .inl (by omega)⟩⟩

end NoGraphs
