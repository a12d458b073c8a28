import Verif.Proofs.NeighborsThenDepth
import Verif.Proofs.BfsGear
import Verif.Proofs.BfsTree

/-! The traversal "neighbors, then depth": gears and tree mode. -/

set_option linter.unusedSectionVars false

namespace NoGraphs

open Spec

variable {V K L : Type} [DecidableEq V] [DecidableEq K]
variable {S M ML S' M' ML' : Type}
variable {g : TravGear V K L S M ML} {g' : TravGear V K L S' M' ML'} {c : NtdCfg V K L} {starts : List V}

theorem ntd_gear_sim (hg : g.so.Lawful) (hg' : g'.so.Lawful) {validV validV' : V → Prop}
    {validL validL' : L → Prop} (hst : Storable g c.toTravCfg starts validV validL)
    (hst' : Storable g' c.toTravCfg starts validV' validL') (already : S) (already' : S')
    (ha : ∀ k, g.so.contains already k = g'.so.contains already' k) (fuel : Nat) (lim : Option Int) :
    let r1 := runMachine (ntdStep g c) fuel lim (ntdInit g c already starts)
    let r2 := runMachine (ntdStep g' c) fuel lim (ntdInit g' c already' starts)
    List.Forall₂ (EvRel (fun r r' => r.vertex = r'.vertex ∧ r.depth = r'.depth ∧
      SameContent g g' r.visited r.preds r.labels r'.visited r'.preds r'.labels)) r1.events r2.events ∧
    r1.ending = r2.ending ∧ (r1.ending = .done →
      SameContent g g' r1.final.visited r1.final.preds r1.final.labels
        r2.final.visited r2.final.preds r2.final.labels) := by
  intro r1 r2
  refine run_sim (m := ntdStep g c) (m' := ntdStep g' c)
    (fun s s' => s.pc = s'.pc ∧ s.toExpand = s'.toExpand ∧ s.markers = s'.markers ∧
      s.depth = s'.depth ∧ s.selfDepth = s'.selfDepth ∧
      SameContent g g' s.visited s.preds s.labels s'.visited s'.preds s'.labels ∧
      (∀ v ∈ s.toExpand, Reachable (Edge c.next) (· ∈ starts) v) ∧
      ∀ u es, s.pc = .edges u es → Reachable (Edge c.next) (· ∈ starts) u ∧ ∀ e ∈ es, e ∈ c.next u)
    (fun s s' => SameContent g g' s.visited s.preds s.labels s'.visited s'.preds s'.labels)
    _ ?_ fuel lim _ _ ?_
  · rintro ⟨pc, te, mk, d, sd, vi, pr, la⟩ ⟨pc', te', mk', d', sd', vi', pr', la'⟩ ⟨h1, h2, h3, h4, h4', h5, h6, h8⟩
    simp only at h1 h2 h3 h4 h4' h5 h6 h8
    subst h1 h2 h3 h4 h4'
    cases pc with
    | loop =>
      cases te with
      | nil => exact .stop h5
      | cons v r =>
        have hcur : ∀ u' es', NtdPc.edges v (c.next v) = NtdPc.edges u' es' →
            Reachable (Edge c.next) (· ∈ starts) u' ∧ ∀ e ∈ es', e ∈ c.next u' := by
          intro u es hp
          simp only [NtdPc.edges.injEq] at hp
          obtain ⟨rfl, rfl⟩ := hp
          exact ⟨h6 v List.mem_cons_self, fun e he => he⟩
        simp only [ntdStep]
        split
        · split
          · exact .fail
          · exact .expand ⟨rfl, rfl, rfl, rfl, rfl, h5, fun w hw => h6 w (List.mem_cons_of_mem _ hw), hcur⟩
        · exact .expand ⟨rfl, rfl, rfl, rfl, rfl, h5, fun w hw => h6 w (List.mem_cons_of_mem _ hw), hcur⟩
    | edges u es =>
      cases es with
      | nil => exact .tau ⟨rfl, rfl, rfl, rfl, rfl, h5, h6, fun u es hp => by simp at hp⟩
      | cons e es =>
        obtain ⟨hu, hes⟩ := h8 u _ rfl
        have he := hes e List.mem_cons_self
        have hcur : ∀ u' es', NtdPc.edges u es = NtdPc.edges u' es' →
            Reachable (Edge c.next) (· ∈ starts) u' ∧ ∀ e ∈ es', e ∈ c.next u' := by
          intro u' es' hp
          simp only [NtdPc.edges.injEq] at hp
          obtain ⟨rfl, rfl⟩ := hp
          exact ⟨hu, fun e he => hes e (List.mem_cons_of_mem _ he)⟩
        rcases sameContent_visit hg hg' hst hst' h5 hu he with ⟨e1, e2⟩ | ⟨a, b, d1, a', b', d', e1, e2, hsc⟩
        · simp only [ntdStep, e1, e2]
          exact .tau ⟨rfl, rfl, rfl, rfl, rfl, h5, h6, hcur⟩
        · simp only [ntdStep, e1, e2]
          refine .emit ⟨rfl, rfl, hsc⟩ ⟨rfl, rfl, rfl, rfl, rfl, hsc, fun v hv => ?_, hcur⟩
          rcases List.mem_cons.1 hv with rfl | hv
          · exact hu.step ⟨e.2, he⟩
          · exact h6 v hv
  · refine ⟨rfl, rfl, rfl, rfl, rfl, ⟨fun k => ?_, fun k => ?_, fun k => ?_⟩,
      fun v hv => .start (by simpa [ntdInit] using hv), fun u es hp => by simp [ntdInit] at hp⟩
    · simp only [ntdInit]
      split
      · exact ha k
      · rw [hg.contains_addAll, hg'.contains_addAll, ha]
    · simp only [ntdInit]
      split
      · exact setAll_same hst.mo hst'.mo c.vid starts (fun v hv => hst.verts v (.start hv))
          (fun v hv => hst'.verts v (.start hv)) _ _
          (fun k => by rw [hst.mo.get_empty, hst'.mo.get_empty]) k
      · rw [hst.mo.get_empty, hst'.mo.get_empty]
    · simp only [ntdInit]; rw [hst.lo.get_empty, hst'.lo.get_empty]

/-- Invariant of the general mode on a forest. -/
structure NtdTreeInv (g : TravGear V K L S M ML) (c : NtdCfg V K L) (starts : List V)
    (h : List (Ev (NtdReport V S M ML))) (s : NtdState V L S M ML) : Prop where
  nodup : (s.toExpand.map c.vid).Nodup
  stackVis : ∀ v ∈ s.toExpand, g.so.contains s.visited (c.vid v) = true
  parents : ∀ r ∈ repsOf h, ∀ u0, Reachable (Edge c.next) (· ∈ starts) u0 → Edge c.next u0 r.vertex →
    c.vid u0 ∉ s.toExpand.map c.vid ∧ g.so.contains s.visited (c.vid u0) = true
  cur : ∀ u es, s.pc = .edges u es → c.vid u ∉ s.toExpand.map c.vid ∧ g.so.contains s.visited (c.vid u) = true ∧
    ∃ pre, c.next u = pre ++ es ∧
      ∀ r ∈ repsOf h, Edge c.next u r.vertex → c.vid r.vertex ∈ pre.map (fun e => c.vid e.1)

theorem ntd_tree_inv (hg : g.so.Lawful) (ht : c.isTree = false) (hf : IsForest c.next c.vid starts)
    {h : List (Ev (NtdReport V S M ML))} {s : NtdState V L S M ML}
    (hr : Reaches (ntdStep g c) (ntdInit g c g.so.empty starts) h s) :
    NtdTreeInv g c starts h s ∧ ∀ u e es, s.pc = .edges u (e :: es) →
      g.so.contains s.visited (c.vid e.1) = false := by
  have hE : bfsE g c.toTravCfg g.so.empty = Edge c.next := by
    funext u v; simp [bfsE, Allowed, hg.contains_empty]
  have noskip : ∀ h s, Reaches (ntdStep g c) (ntdInit g c g.so.empty starts) h s →
      NtdTreeInv g c starts h s → ∀ u e es, s.pc = .edges u (e :: es) →
      g.so.contains s.visited (c.vid e.1) = false := by
    intro h s hr inv u e es hp
    obtain ⟨G, binv⟩ := ntd_inv (bp := False) hg ht ntdPathsOk_false hr
    have hpc := binv.pcs
    unfold NtdPcInv at hpc
    rw [hp] at hpc
    obtain ⟨hsub, -, n, hat, -⟩ := hpc
    have hwk := hat.walk
    rw [hE] at hwk
    have hee : Edge c.next u e.1 := ⟨e.2, hsub e List.mem_cons_self⟩
    have hwalk : WalkN (Edge c.next) (· ∈ starts) (n + 1) e.1 := .step hwk hee
    by_contra hcon
    have hcon : g.so.contains s.visited (c.vid e.1) = true := by simpa using hcon
    rw [binv.vis] at hcon
    rcases hcon with h | h | ⟨r, hr', e'⟩
    · rw [hg.contains_empty] at h; simp at h
    · exact hf.no_edge_to_start u e.1 ⟨n, hwk⟩ hee h
    · obtain ⟨m, hw1, -⟩ := binv.reps r hr'
      have hw1 := hw1.walk
      rw [hE] at hw1
      have hwe := (hf.walk_unique hw1 hwalk e').2
      obtain ⟨-, -, pre, hpre, hin⟩ := inv.cur u _ hp
      have := hin _ hr' (by rw [hwe]; exact hee)
      rw [hwe] at this
      have hnd := hf.children_nodup u ⟨n, hwk⟩
      rw [hpre, List.map_append, List.map_cons, List.nodup_append] at hnd
      exact hnd.2.2 _ this _ List.mem_cons_self rfl
  suffices hsuf : NtdTreeInv g c starts h s from ⟨hsuf, noskip h s hr hsuf⟩
  refine Reaches.invariant' (fun h s => NtdTreeInv g c starts h s) ?_ ?_ ?_ ?_ hr
  · refine ⟨?_, fun v hv => ?_, fun r hr => by simp at hr, fun u es hp => by simp [ntdInit] at hp⟩
    · have : (starts.reverse.map c.vid) = (starts.map c.vid).reverse := by simp
      simp only [ntdInit]
      rw [this]
      exact (List.reverse_perm _).nodup_iff.2 hf.starts_nodup
    · simp only [ntdInit, ht, Bool.false_eq_true, if_false, hg.contains_addAll] at hv ⊢
      have := List.mem_map_of_mem (f := c.vid) (List.mem_reverse.1 hv)
      simp [this]
  · intro h s s' hr inv hs
    cases hp : s.pc with
    | loop =>
      simp only [ntdStep, hp] at hs
      split at hs
      · simp at hs
      · split at hs
        · split at hs <;> simp at hs
        · simp at hs
    | edges u es =>
      cases es with
      | nil =>
        simp only [ntdStep, hp, Step.tau.injEq] at hs
        subst hs
        exact ⟨inv.nodup, inv.stackVis, inv.parents, fun u es hp => by simp at hp⟩
      | cons e es =>
        simp only [ntdStep, hp] at hs
        split at hs
        · rename_i hv
          rw [ht] at hv
          have := noskip h s hr inv u e es hp
          rw [bfsVisit_none hg hv] at this
          simp at this
        · simp at hs
  · intro h s r s' hr inv hs
    obtain ⟨G, binv⟩ := ntd_inv (bp := False) hg ht ntdPathsOk_false hr
    have hpc := binv.pcs
    unfold NtdPcInv at hpc
    cases hp : s.pc with
    | loop =>
      simp only [ntdStep, hp] at hs
      split at hs
      · simp at hs
      · split at hs
        · split at hs <;> simp at hs
        · simp at hs
    | edges u es =>
      cases es with
      | nil => simp [ntdStep, hp] at hs
      | cons e es =>
        rw [hp] at hpc
        obtain ⟨hsub, -, n, hat, -⟩ := hpc
        have hwk := hat.walk
        rw [hE] at hwk
        simp only [ntdStep, hp] at hs
        split at hs
        · simp at hs
        · rename_i vis pr la hv
          rw [ht] at hv
          obtain ⟨hnew, hvis', -⟩ := bfsVisit_some hg hv
          simp only [Step.emit.injEq] at hs
          obtain ⟨rfl, rfl⟩ := hs
          have hee : Edge c.next u e.1 := ⟨e.2, hsub e List.mem_cons_self⟩
          obtain ⟨hunot, huvis, pre, hpre, hin⟩ := inv.cur u _ hp
          have hne : ∀ k, g.so.contains s.visited k = true → k ≠ c.vid e.1 := by
            rintro k hk rfl
            rw [hnew] at hk; simp at hk
          refine ⟨?_, fun v hv => ?_, fun r hr' u0 hu0 he0 => ?_, fun u' es' hp' => ?_⟩
          · simp only [List.map_cons, List.nodup_cons]
            refine ⟨fun hm => ?_, inv.nodup⟩
            obtain ⟨v, hv, e'⟩ := List.mem_map.1 hm
            exact hne _ (inv.stackVis v hv) e'
          · simp only [hvis']
            rcases List.mem_cons.1 hv with rfl | hv
            · simp
            · simp [inv.stackVis v hv]
          · have hu0' : c.vid u0 ∉ s.toExpand.map c.vid ∧ g.so.contains s.visited (c.vid u0) = true := by
              simp only [repsOf_append, repsOf_rep, repsOf_nil, List.mem_append, List.mem_singleton] at hr'
              rcases hr' with hr' | rfl
              · exact inv.parents r hr' u0 hu0 he0
              · have := hf.one_parent u0 u _ _ hu0 ⟨n, hwk⟩ he0 hee rfl
                rw [this]; exact ⟨hunot, huvis⟩
            simp only [List.map_cons, List.mem_cons, not_or, hvis']
            exact ⟨⟨hne _ hu0'.2, hu0'.1⟩, by simp [hu0'.2]⟩
          · simp only [NtdPc.edges.injEq] at hp'
            obtain ⟨rfl, rfl⟩ := hp'
            simp only [List.map_cons, List.mem_cons, not_or, hvis']
            refine ⟨⟨hne _ huvis, hunot⟩, by simp [huvis], pre ++ [e], by simp [hpre], fun w hw hew => ?_⟩
            simp only [repsOf_append, repsOf_rep, repsOf_nil, List.mem_append, List.mem_singleton] at hw
            rcases hw with hw | rfl
            · rw [List.map_append]; exact List.mem_append_left _ (hin w hw hew)
            · simp
  · intro h s s' hr inv hs
    obtain ⟨G, binv⟩ := ntd_inv (bp := False) hg ht ntdPathsOk_false hr
    cases hp : s.pc with
    | edges u es =>
      cases es with
      | nil => simp [ntdStep, hp] at hs
      | cons e es =>
        simp only [ntdStep, hp] at hs
        split at hs <;> simp at hs
    | loop =>
      cases hte : s.toExpand with
      | nil => simp [ntdStep, hp, hte] at hs
      | cons v rest =>
        have hnd := inv.nodup
        rw [hte, List.map_cons, List.nodup_cons] at hnd
        have hpar := inv.parents
        have hsv := inv.stackVis
        have hvr : Reachable (Edge c.next) (· ∈ starts) v := by
          have hm : v ∈ s.toExpand := by rw [hte]; exact List.mem_cons_self
          rw [binv.stack] at hm
          obtain ⟨p, hpm, rfl⟩ := List.mem_map.1 hm
          have := (binv.at_ p hpm).walk
          rw [hE] at this
          exact ⟨_, this⟩
        rw [hte] at hpar hsv
        simp only [List.map_cons, List.mem_cons, not_or] at hpar
        obtain ⟨e1, e2, e3⟩ : s'.toExpand = rest ∧ s'.visited = s.visited ∧ s'.pc = .edges v (c.next v) := by
          simp only [ntdStep, hp, hte] at hs
          split at hs
          · split at hs
            · simp at hs
            · simp only [Step.expand.injEq] at hs
              subst hs; exact ⟨rfl, rfl, rfl⟩
          · simp only [Step.expand.injEq] at hs
            subst hs; exact ⟨rfl, rfl, rfl⟩
        refine ⟨by rw [e1]; exact hnd.2, fun w hw => ?_, fun r hr' u0 h1 h2 => ?_, fun u es hp' => ?_⟩
        · rw [e1] at hw
          rw [e2]
          exact hsv w (List.mem_cons_of_mem _ hw)
        · rw [e1, e2]
          have := hpar r (by simpa using hr') u0 h1 h2
          exact ⟨this.1.2, this.2⟩
        · rw [e3] at hp'
          simp only [NtdPc.edges.injEq] at hp'
          obtain ⟨rfl, rfl⟩ := hp'
          rw [e1, e2]
          refine ⟨hnd.1, hsv v List.mem_cons_self, [], rfl, fun r hr' hew => ?_⟩
          exact absurd rfl (hpar r (by simpa using hr') v hvr hew).1.1

/-- The tree mode of a configuration. -/
def NtdCfg.tree (c : NtdCfg V K L) : NtdCfg V K L := { c with isTree := true }

/-- Lockstep of tree mode and general mode. -/
theorem ntd_tree_sim (hg : g.so.Lawful) (ht : c.isTree = false) (hf : IsForest c.next c.vid starts)
    (fuel : Nat) (lim : Option Int) :
    let rt := runMachine (ntdStep g c.tree) fuel lim (ntdInit g c.tree g.so.empty starts)
    let rn := runMachine (ntdStep g c) fuel lim (ntdInit g c g.so.empty starts)
    List.Forall₂ (EvRel (fun r r' => r.vertex = r'.vertex ∧ r.depth = r'.depth ∧ r.preds = r'.preds ∧
      r.labels = r'.labels)) rt.events rn.events ∧ rt.ending = rn.ending := by
  intro rt rn
  have := run_sim (m := ntdStep g c.tree) (m' := ntdStep g c)
    (fun s s' => s.pc = s'.pc ∧ s.toExpand = s'.toExpand ∧ s.markers = s'.markers ∧
      s.depth = s'.depth ∧ s.selfDepth = s'.selfDepth ∧ s.preds = s'.preds ∧ s.labels = s'.labels ∧
      ∃ h, Reaches (ntdStep g c) (ntdInit g c g.so.empty starts) h s')
    (fun _ _ => True)
    (fun r r' => r.vertex = r'.vertex ∧ r.depth = r'.depth ∧ r.preds = r'.preds ∧ r.labels = r'.labels)
    ?_ fuel lim (ntdInit g c.tree g.so.empty starts) (ntdInit g c g.so.empty starts)
    ⟨rfl, rfl, rfl, rfl, rfl, rfl, rfl, [], .refl⟩
  · exact ⟨this.1, this.2.1⟩
  · rintro ⟨pc, te, mk, d, sd, vi, pr, la⟩ ⟨pc', te', mk', d', sd', vi', pr', la'⟩ ⟨h1, h2, h3, h4, h4', h5, h6, h, hr⟩
    simp only at h1 h2 h3 h4 h4' h5 h6
    subst h1 h2 h3 h4 h4' h5 h6
    have hskip := (ntd_tree_inv hg ht hf hr).2
    cases pc with
    | loop =>
      cases te with
      | nil => exact .stop trivial
      | cons v r =>
        cases hd : c.computeDepth with
        | true =>
          cases hpop : ntdPop mk (d + 1) with
          | none =>
            have e1 : ntdStep g c ⟨.loop, v :: r, mk, d, sd, vi', pr, la⟩ = .fail .indexError := by
              simp [ntdStep, hd, hpop]
            have e2 : ntdStep g c.tree ⟨.loop, v :: r, mk, d, sd, vi, pr, la⟩ = .fail .indexError := by
              simp [ntdStep, NtdCfg.tree, hd, hpop]
            rw [e1, e2]
            exact .fail
          | some p =>
            have e1 : ntdStep g c ⟨.loop, v :: r, mk, d, sd, vi', pr, la⟩ =
                .expand ⟨.edges v (c.next v), r, true :: p.1, p.2, p.2 + 1, vi', pr, la⟩ := by
              simp [ntdStep, hd, hpop]
            have e2 : ntdStep g c.tree ⟨.loop, v :: r, mk, d, sd, vi, pr, la⟩ =
                .expand ⟨.edges v (c.next v), r, true :: p.1, p.2, p.2 + 1, vi, pr, la⟩ := by
              simp [ntdStep, NtdCfg.tree, hd, hpop]
            rw [e1, e2]
            exact .expand ⟨rfl, rfl, rfl, rfl, rfl, rfl, rfl, _, .expand hr e1⟩
        | false =>
          have e1 : ntdStep g c ⟨.loop, v :: r, mk, d, sd, vi', pr, la⟩ =
              .expand ⟨.edges v (c.next v), r, mk, d, sd, vi', pr, la⟩ := by
            simp [ntdStep, hd]
          have e2 : ntdStep g c.tree ⟨.loop, v :: r, mk, d, sd, vi, pr, la⟩ =
              .expand ⟨.edges v (c.next v), r, mk, d, sd, vi, pr, la⟩ := by
            simp [ntdStep, NtdCfg.tree, hd]
          rw [e1, e2]
          exact .expand ⟨rfl, rfl, rfl, rfl, rfl, rfl, rfl, _, .expand hr e1⟩
    | edges u es =>
      cases es with
      | nil => exact .tau ⟨rfl, rfl, rfl, rfl, rfl, rfl, rfl, h, .tau hr rfl⟩
      | cons e es =>
        have hne := hskip u e es rfl
        simp only at hne
        have hchk : (g.so.checkAdd vi' (c.vid e.1)).1 = false := by rw [hg.checkAdd_fst, hne]
        cases hb : c.buildPaths with
        | true =>
          have e1 : ntdStep g c ⟨.edges u (e :: es), te, mk, d, sd, vi', pr, la⟩ = .emit
              ⟨e.1, sd, (g.so.checkAdd vi' (c.vid e.1)).2, g.mo.set pr (c.vid e.1) u, g.lo.set la (c.vid e.1) e.2⟩
              ⟨.edges u es, e.1 :: te, if c.computeDepth then false :: mk else mk, d, sd,
                (g.so.checkAdd vi' (c.vid e.1)).2, g.mo.set pr (c.vid e.1) u, g.lo.set la (c.vid e.1) e.2⟩ := by
            simp [ntdStep, bfsVisit, ht, hb, hchk]
          have e2 : ntdStep g c.tree ⟨.edges u (e :: es), te, mk, d, sd, vi, pr, la⟩ = .emit
              ⟨e.1, sd, vi, g.mo.set pr (c.vid e.1) u, g.lo.set la (c.vid e.1) e.2⟩
              ⟨.edges u es, e.1 :: te, if c.computeDepth then false :: mk else mk, d, sd, vi,
                g.mo.set pr (c.vid e.1) u, g.lo.set la (c.vid e.1) e.2⟩ := by
            simp [ntdStep, bfsVisit, NtdCfg.tree, hb]
          rw [e1, e2]
          exact .emit ⟨rfl, rfl, rfl, rfl⟩ ⟨rfl, rfl, rfl, rfl, rfl, rfl, rfl, _, .emit hr e1⟩
        | false =>
          have e1 : ntdStep g c ⟨.edges u (e :: es), te, mk, d, sd, vi', pr, la⟩ = .emit
              ⟨e.1, sd, (g.so.checkAdd vi' (c.vid e.1)).2, pr, la⟩
              ⟨.edges u es, e.1 :: te, if c.computeDepth then false :: mk else mk, d, sd,
                (g.so.checkAdd vi' (c.vid e.1)).2, pr, la⟩ := by
            simp [ntdStep, bfsVisit, ht, hb, hchk]
          have e2 : ntdStep g c.tree ⟨.edges u (e :: es), te, mk, d, sd, vi, pr, la⟩ = .emit
              ⟨e.1, sd, vi, pr, la⟩
              ⟨.edges u es, e.1 :: te, if c.computeDepth then false :: mk else mk, d, sd, vi, pr, la⟩ := by
            simp [ntdStep, bfsVisit, NtdCfg.tree, hb]
          rw [e1, e2]
          exact .emit ⟨rfl, rfl, rfl, rfl⟩ ⟨rfl, rfl, rfl, rfl, rfl, rfl, rfl, _, .emit hr e1⟩

end NoGraphs
