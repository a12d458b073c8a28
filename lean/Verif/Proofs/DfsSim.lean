import Verif.Proofs.DepthFirst
import Verif.Proofs.BfsGear

/-! Depth-first search without trace: tree mode and independence of the gear. -/

set_option linter.unusedSectionVars false

namespace NoGraphs

open Spec

variable {V K L S M ML S' M' ML' : Type} [DecidableEq V] [DecidableEq K]

/-! ## Tree mode -/

section

variable {g : TravGear V K L S M ML} {c : DfsCfg V K L} {starts : List V}

/-- The vertices that are still to be handled. -/
def dfsTodo (c : DfsCfg V K L) (s : DfsState V L S M ML) : List V :=
  (match s.pc with
   | .entered v _ => (c.next v).map (·.1)
   | .edges _ es => es.map (·.1)
   | _ => []) ++ s.toVisit ++ s.starts

/-- Invariant of the general mode on a forest. -/
structure DfsTreeInv (g : TravGear V K L S M ML) (c : DfsCfg V K L) (starts : List V) (s : DfsState V L S M ML) :
    Prop where
  nd : ((dfsTodo c s).map c.vid).Nodup
  todo : ∀ v ∈ dfsTodo c s, Reachable (Edge c.next) (· ∈ starts) v ∧ g.so.contains s.visited (c.vid v) = false
  fresh : ∀ u, Reachable (Edge c.next) (· ∈ starts) u → g.so.contains s.visited (c.vid u) = false →
    ∀ w, Edge c.next u w → c.vid w ∉ (dfsTodo c s).map c.vid ∧ g.so.contains s.visited (c.vid w) = false
  cur : ∀ u, (∃ r, s.pc = .entered u r) ∨ (∃ es, s.pc = .edges u es) → Reachable (Edge c.next) (· ∈ starts) u

theorem DfsTreeInv.sub {s s' : DfsState V L S M ML} (h : DfsTreeInv g c starts s) (hv : s'.visited = s.visited)
    (hsub : (dfsTodo c s').Sublist (dfsTodo c s))
    (hcur : ∀ u, (∃ r, s'.pc = .entered u r) ∨ (∃ es, s'.pc = .edges u es) →
      (∃ r, s.pc = .entered u r) ∨ (∃ es, s.pc = .edges u es)) :
    DfsTreeInv g c starts s' where
  nd := h.nd.sublist (hsub.map _)
  todo := fun v hm => by rw [hv]; exact h.todo v (hsub.subset hm)
  fresh := fun u hu hn w hw => by
    rw [hv] at hn ⊢
    obtain ⟨h1, h2⟩ := h.fresh u hu hn w hw
    exact ⟨fun hm => h1 ((hsub.map _).subset hm), h2⟩
  cur := fun u hu => h.cur u (hcur u hu)

theorem DfsTreeInv.perm {s s' : DfsState V L S M ML} (h : DfsTreeInv g c starts s) (hv : s'.visited = s.visited)
    (hp : (dfsTodo c s').Perm (dfsTodo c s))
    (hcur : ∀ u, (∃ r, s'.pc = .entered u r) ∨ (∃ es, s'.pc = .edges u es) →
      (∃ r, s.pc = .entered u r) ∨ (∃ es, s.pc = .edges u es)) :
    DfsTreeInv g c starts s' where
  nd := (hp.map _).nodup_iff.2 h.nd
  todo := fun v hm => by rw [hv]; exact h.todo v (hp.subset hm)
  fresh := fun u hu hn w hw => by
    rw [hv] at hn ⊢
    obtain ⟨h1, h2⟩ := h.fresh u hu hn w hw
    exact ⟨fun hm => h1 ((hp.map _).subset hm), h2⟩
  cur := fun u hu => h.cur u (hcur u hu)

/-- Entering a vertex. -/
theorem DfsTreeInv.enter (hg : g.so.Lawful) (hf : IsForest c.next c.vid starts) {s s' : DfsState V L S M ML}
    (h : DfsTreeInv g c starts s) {v : V} {rest : List V} (hpc : s.pc = .loop) (htv : s.toVisit = v :: rest)
    (h1 : s'.visited = (g.so.checkAdd s.visited (c.vid v)).2) (h2 : s'.toVisit = rest) (h3 : s'.starts = s.starts)
    {r : Bool} (h4 : s'.pc = .entered v r) : DfsTreeInv g c starts s' := by
  have e1 : dfsTodo c s = v :: (rest ++ s.starts) := by simp [dfsTodo, hpc, htv]
  have e2 : dfsTodo c s' = (c.next v).map (·.1) ++ (rest ++ s.starts) := by simp [dfsTodo, h4, h2, h3]
  obtain ⟨hrv, hnv⟩ := h.todo v (by rw [e1]; exact List.mem_cons_self)
  have hnd := h.nd
  rw [e1, List.map_cons, List.nodup_cons] at hnd
  have hch : ∀ w, Edge c.next v w → c.vid w ∉ c.vid v :: (rest ++ s.starts).map c.vid ∧
      g.so.contains s.visited (c.vid w) = false := by
    intro w hw
    have := h.fresh v hrv hnv w hw
    rwa [e1, List.map_cons] at this
  have hcon : ∀ k, g.so.contains s'.visited k = (decide (k = c.vid v) || g.so.contains s.visited k) := by
    intro k; rw [h1, hg.contains_checkAdd]
  refine ⟨?_, ?_, ?_, ?_⟩
  · rw [e2, List.map_append, List.nodup_append]
    refine ⟨?_, hnd.2, ?_⟩
    · have := hf.children_nodup v hrv
      rwa [List.map_map]
    · intro a ha b hb e
      subst e
      simp only [List.mem_map, exists_exists_and_eq_and] at ha
      obtain ⟨e, he, rfl⟩ := ha
      exact (hch e.1 ⟨e.2, he⟩).1 (List.mem_cons_of_mem _ hb)
  · intro x hx
    rw [e2] at hx
    rw [hcon]
    rcases List.mem_append.1 hx with hx | hx
    · obtain ⟨e, he, rfl⟩ := List.mem_map.1 hx
      have hh := hch e.1 ⟨e.2, he⟩
      refine ⟨hrv.step ⟨e.2, he⟩, ?_⟩
      rw [List.mem_cons, not_or] at hh
      simp [hh.1.1, hh.2]
    · have hh := h.todo x (by rw [e1]; exact List.mem_cons_of_mem _ hx)
      refine ⟨hh.1, ?_⟩
      have : c.vid x ≠ c.vid v := fun e => hnd.1 (e ▸ List.mem_map_of_mem hx)
      simp [this, hh.2]
  · intro u hu hn w hw
    rw [hcon] at hn
    simp only [Bool.or_eq_false_iff, decide_eq_false_iff_not] at hn
    obtain ⟨q1, q2⟩ := h.fresh u hu hn.2 w hw
    rw [e1, List.map_cons, List.mem_cons, not_or] at q1
    refine ⟨?_, ?_⟩
    · rw [e2, List.map_append, List.mem_append, not_or]
      refine ⟨?_, q1.2⟩
      intro hm
      simp only [List.mem_map, exists_exists_and_eq_and] at hm
      obtain ⟨e, he, e3⟩ := hm
      have := hf.one_parent u v w e.1 hu hrv hw ⟨e.2, he⟩ e3.symm
      exact hn.1 (by rw [this])
    · rw [hcon]; simp [q1.1, q2]
  · rintro u (⟨r', hr⟩ | ⟨es, hr⟩)
    · rw [h4] at hr
      simp only [DfsPc.entered.injEq] at hr
      rw [← hr.1]; exact hrv
    · rw [h4] at hr; simp at hr

/-- On a forest, tree mode makes the same steps as the general mode. -/
theorem dfs_tree_sim (hg : g.so.Lawful) (ht : c.isTree = false) (hf : IsForest c.next c.vid starts) (fuel : Nat)
    (lim : Option Int) :
    let c' : DfsCfg V K L := { c with isTree := true }
    List.Forall₂ (EvRel (fun r r' : DfsReport V S M ML => r'.vertex = r.vertex ∧ r'.depth = r.depth ∧
        r'.event = r.event ∧ r'.preds = r.preds ∧ r'.labels = r.labels))
      (runMachine (dfsStep g c) fuel lim (dfsInit g c g.so.empty starts)).events
      (runMachine (dfsStep g c') fuel lim (dfsInit g c' g.so.empty starts)).events ∧
    (runMachine (dfsStep g c) fuel lim (dfsInit g c g.so.empty starts : DfsState V L S M ML)).ending =
      (runMachine (dfsStep g c') fuel lim (dfsInit g c' g.so.empty starts)).ending := by
  intro c'
  have := run_sim (m := dfsStep g c) (m' := dfsStep g c')
    (R := fun s s' : DfsState V L S M ML => DfsTreeInv g c starts s ∧ s' = { s with visited := g.so.empty })
    (F := fun _ _ => True)
    (Q := fun r r' : DfsReport V S M ML => r'.vertex = r.vertex ∧ r'.depth = r.depth ∧
        r'.event = r.event ∧ r'.preds = r.preds ∧ r'.labels = r.labels) ?_ fuel lim (dfsInit g c g.so.empty starts)
    (dfsInit g c' g.so.empty starts) ?_
  · exact ⟨this.1, this.2.1⟩
  · rintro s _ ⟨inv, rfl⟩
    cases hpc : s.pc with
    | start =>
      cases hs : s.starts with
      | nil => simp only [dfsStep, hpc, hs]; exact .stop trivial
      | cons v rest =>
        simp only [dfsStep, hpc, hs]
        refine .tau ⟨inv.perm rfl ?_ ?_, rfl⟩
        · simp only [dfsTodo, hpc, hs, List.nil_append]
          exact List.perm_middle.symm
        · rintro u (⟨r, hr⟩ | ⟨es, hr⟩) <;> simp at hr
    | loop =>
      obtain ⟨f1, f2, f3, f4, f5, f6, f7, f8, f9⟩ := dfsPop_frame (c := c) s
      have hpop : dfsPop c' { s with visited := g.so.empty } = { dfsPop c s with visited := g.so.empty } := by
        unfold dfsPop
        show (if c.computeDepth = true then _ else _) = _
        split <;> rfl
      have inv1 : DfsTreeInv g c starts (dfsPop c s) :=
        inv.perm f7 (by unfold dfsTodo; rw [f1, f2, f4]) (by rw [f1]; exact fun _ h => h)
      have hpc0 := hpc
      rw [← f1] at hpc
      have e1 : dfsStep g c s = (match (dfsPop c s).toVisit with
          | [] => .tau { dfsPop c s with pc := .start }
          | v :: rest =>
            if (g.so.checkAdd (dfsPop c s).visited (c.vid v)).1 then .tau { dfsPop c s with toVisit := rest }
            else dfsEnter c { dfsPop c s with toVisit := rest, visited := (g.so.checkAdd (dfsPop c s).visited (c.vid v)).2 }
              v) := by
        unfold dfsStep
        rw [f1] at hpc
        rw [hpc]
        dsimp only
        rw [ht]
        rfl
      have e2 : dfsStep g c' { s with visited := g.so.empty } = (match (dfsPop c s).toVisit with
          | [] => .tau { dfsPop c s with visited := g.so.empty, pc := .start }
          | v :: rest => dfsEnter c' { dfsPop c s with visited := g.so.empty, toVisit := rest } v) := by
        unfold dfsStep
        rw [f1] at hpc
        rw [hpop]
        dsimp only
        rw [hpc]
        rfl
      rw [← hpc0, e1, e2]
      generalize dfsPop c s = t at hpc inv1
      cases htv : t.toVisit with
      | nil =>
        refine .tau ⟨inv1.perm rfl ?_ ?_, rfl⟩
        · simp [dfsTodo, hpc, htv]
        · rintro u (⟨r, hr⟩ | ⟨es, hr⟩) <;> simp at hr
      | cons v rest =>
        dsimp only
        have hnv := (inv1.todo v (by simp [dfsTodo, hpc, htv])).2
        rw [hg.checkAdd_fst, hnv, if_neg (by simp)]
        unfold dfsEnter
        simp only [c']
        by_cases hc : some v = t.cur
        · rw [if_pos hc, if_pos hc]
          cases hrep : c.reportStart with
          | true =>
            exact .emit ⟨rfl, rfl, rfl, rfl, rfl⟩ ⟨inv1.enter hg hf hpc htv rfl rfl rfl rfl, rfl⟩
          | false => exact .tau ⟨inv1.enter hg hf hpc htv rfl rfl rfl rfl, rfl⟩
        · rw [if_neg hc, if_neg hc]
          cases hrep : c.reportSucc with
          | true =>
            exact .emit ⟨rfl, rfl, rfl, rfl, rfl⟩ ⟨inv1.enter hg hf hpc htv rfl rfl rfl rfl, rfl⟩
          | false => exact .tau ⟨inv1.enter hg hf hpc htv rfl rfl rfl rfl, rfl⟩
    | entered v rep =>
      simp only [dfsStep, hpc, c']
      split
      · refine .tau ⟨inv.sub rfl ?_ ?_, rfl⟩
        · simp only [dfsTodo, hpc, List.append_assoc, List.nil_append]
          exact List.sublist_append_right _ _
        · rintro u (⟨r, hr⟩ | ⟨es, hr⟩) <;> simp at hr
      · refine .expand ⟨inv.perm rfl ?_ ?_, rfl⟩
        · simp [dfsTodo, hpc]
        · rintro u (⟨r, hr⟩ | ⟨es, hr⟩)
          · simp at hr
          · simp only [DfsPc.edges.injEq] at hr
            exact .inl ⟨rep, by rw [hpc, hr.1]⟩
    | edges v es =>
      cases es with
      | nil =>
        simp only [dfsStep, hpc]
        refine .tau ⟨inv.perm rfl ?_ ?_, rfl⟩
        · simp [dfsTodo, hpc]
        · rintro u (⟨r, hr⟩ | ⟨es, hr⟩) <;> simp at hr
      | cons e es =>
        have hne := (inv.todo e.1 (by simp [dfsTodo, hpc])).2
        simp only [dfsStep, hpc, hne, hg.contains_empty, Bool.and_false, Bool.false_eq_true, if_false]
        refine .tau ⟨inv.perm rfl ?_ ?_, rfl⟩
        · simp only [dfsTodo, hpc, List.map_cons, List.cons_append, List.append_assoc]
          exact List.perm_middle
        · rintro u (⟨r, hr⟩ | ⟨es', hr⟩)
          · simp at hr
          · simp only [DfsPc.edges.injEq] at hr
            exact .inr ⟨e :: es, by rw [hpc, hr.1]⟩
  · refine ⟨⟨?_, ?_, ?_, ?_⟩, rfl⟩
    · simpa [dfsTodo, dfsInit] using hf.starts_nodup
    · intro v hv
      simp only [dfsTodo, dfsInit, List.nil_append] at hv
      exact ⟨.start hv, hg.contains_empty _⟩
    · intro u hu _ w hw
      simp only [dfsTodo, dfsInit, List.nil_append]
      exact ⟨hf.no_edge_to_start u w hu hw, hg.contains_empty _⟩
    · rintro u (⟨r, hr⟩ | ⟨es, hr⟩) <;> simp [dfsInit] at hr

end

/-! ## Gears -/

section

variable {g : TravGear V K L S M ML} {g' : TravGear V K L S' M' ML'} {c : DfsCfg V K L} {starts : List V}

/-- The same content of the collections; of those for paths only if these are built. -/
def DfsSame (g : TravGear V K L S M ML) (g' : TravGear V K L S' M' ML') (bp : Bool) (vi : S) (pr : M) (la : ML)
    (vi' : S') (pr' : M') (la' : ML') : Prop :=
  (∀ k, g.so.contains vi k = g'.so.contains vi' k) ∧
  (bp = true → (∀ k, g.mo.get? pr k = g'.mo.get? pr' k) ∧ ∀ k, g.lo.get? la k = g'.lo.get? la' k)

theorem setStart_same {validV validV' : V → Prop} (hm : g.mo.Lawful validV) (hm' : g'.mo.Lawful validV')
    (hf : g.mo.Faithful) (hf' : g'.mo.Faithful) {pr : M} {pr' : M'}
    (h : ∀ k, g.mo.get? pr k = g'.mo.get? pr' k) {v : V} (hv : validV v) (hv' : validV' v) (i k : K) :
    g.mo.get? (setStart g pr i v) k = g'.mo.get? (setStart g' pr' i v) k := by
  have key : ∀ {S M ML : Type} (g : TravGear V K L S M ML) {validV : V → Prop}, g.mo.Lawful validV →
      g.mo.Faithful → validV v → ∀ pr : M, g.mo.get? (setStart g pr i v) k =
      (if (g.mo.get? pr i).isSome = true then g.mo.get? pr k else if k = i then some v else g.mo.get? pr k) := by
    intro S M ML g validV hm hf hv pr
    unfold setStart
    cases hr : g.mo.raw pr i with
    | none =>
      dsimp only
      rw [hm.get_set _ _ _ _ hv]
      cases hgi : g.mo.get? pr i with
      | none => simp
      | some x => rw [hm.raw_of_get _ _ _ hgi] at hr; simp at hr
    | some y =>
      cases y with
      | some x => dsimp only; rw [hf _ _ _ hr]; simp
      | none =>
        dsimp only
        rw [hm.get_set _ _ _ _ hv]
        cases hgi : g.mo.get? pr i with
        | none => simp
        | some x => rw [hm.raw_of_get _ _ _ hgi] at hr; simp at hr
  rw [key g hm hf hv, key g' hm' hf' hv', h, h]

theorem dfs_gear_sim (hg : g.so.Lawful) (hg' : g'.so.Lawful) {validV validV' : V → Prop}
    {validL validL' : L → Prop}
    (hp : c.buildPaths = true → Storable g c.toTravCfg starts validV validL ∧
      Storable g' c.toTravCfg starts validV' validL' ∧ g.mo.Faithful ∧ g'.mo.Faithful) (already : S) (already' : S')
    (ha : ∀ k, g.so.contains already k = g'.so.contains already' k) (fuel : Nat) (lim : Option Int) :
    let r1 := runMachine (dfsStep g c) fuel lim (dfsInit g c already starts)
    let r2 := runMachine (dfsStep g' c) fuel lim (dfsInit g' c already' starts)
    List.Forall₂ (EvRel (fun r r' => r.vertex = r'.vertex ∧ r.depth = r'.depth ∧ r.event = r'.event ∧
      DfsSame g g' c.buildPaths r.visited r.preds r.labels r'.visited r'.preds r'.labels)) r1.events r2.events ∧
    r1.ending = r2.ending ∧ (r1.ending = .done →
      DfsSame g g' c.buildPaths r1.final.visited r1.final.preds r1.final.labels
        r2.final.visited r2.final.preds r2.final.labels) := by
  intro r1 r2
  refine run_sim (m := dfsStep g c) (m' := dfsStep g' c)
    (fun s s' => s.pc = s'.pc ∧ s.starts = s'.starts ∧ s.cur = s'.cur ∧ s.toVisit = s'.toVisit ∧
      s.markers = s'.markers ∧ s.depth = s'.depth ∧ s.selfDepth = s'.selfDepth ∧ s.n = s'.n ∧ s.event = s'.event ∧
      DfsSame g g' c.buildPaths s.visited s.preds s.labels s'.visited s'.preds s'.labels ∧
      (∀ v ∈ s.starts, v ∈ starts) ∧ (∀ v ∈ s.toVisit, Reachable (Edge c.next) (· ∈ starts) v) ∧
      (∀ u r, s.pc = .entered u r → Reachable (Edge c.next) (· ∈ starts) u) ∧
      ∀ u es, s.pc = .edges u es → Reachable (Edge c.next) (· ∈ starts) u ∧ ∀ e ∈ es, e ∈ c.next u)
    (fun s s' => DfsSame g g' c.buildPaths s.visited s.preds s.labels s'.visited s'.preds s'.labels)
    _ ?_ fuel lim _ _ ?_
  · rintro ⟨pc, st, cu, tv, mk, d, sd, n, ev, vi, pr, la⟩ ⟨pc', st', cu', tv', mk', d', sd', n', ev', vi', pr', la'⟩
      ⟨h1, h2, h3, h4, h5, h6, h7, h8, h9, hs, hst, htv, hen, hed⟩
    simp only at h1 h2 h3 h4 h5 h6 h7 h8 h9 hs hst htv hen hed
    subst h1 h2 h3 h4 h5 h6 h7 h8 h9
    cases pc with
    | start =>
      cases st with
      | nil => exact .stop hs
      | cons v rest =>
        have hv := hst v List.mem_cons_self
        refine .tau ⟨rfl, rfl, rfl, rfl, rfl, rfl, rfl, rfl, rfl, ⟨hs.1, fun hb => ?_⟩,
          fun w hw => hst w (List.mem_cons_of_mem _ hw), ?_, fun u r hpc => by simp at hpc,
          fun u es hpc => by simp at hpc⟩
        · obtain ⟨hS, hS', hF, hF'⟩ := hp hb
          simp only [hb, if_true]
          exact ⟨fun k => setStart_same hS.mo hS'.mo hF hF' (hs.2 hb).1 (hS.verts v (.start hv))
            (hS'.verts v (.start hv)) _ k, (hs.2 hb).2⟩
        · intro w hw
          rcases List.mem_cons.1 hw with rfl | hw
          · exact .start hv
          · exact htv w hw
    | loop =>
      simp only [dfsStep]
      have hpop : ∀ {S M ML : Type} (vi : S) (pr : M) (la : ML),
          dfsPop c (⟨.loop, st, cu, tv, mk, d, sd, n, ev, vi, pr, la⟩ : DfsState V L S M ML) =
            ⟨.loop, st, cu, tv, if c.computeDepth then (popTrue mk d).1 else mk,
              if c.computeDepth then (popTrue mk d).2 else d, sd, n, ev, vi, pr, la⟩ := by
        intro S M ML vi pr la
        unfold dfsPop
        split <;> rfl
      rw [hpop, hpop]
      dsimp only
      generalize (if c.computeDepth = true then (popTrue mk d).1 else mk) = mk2
      generalize (if c.computeDepth = true then (popTrue mk d).2 else d) = d2
      cases tv with
      | nil =>
        exact .tau ⟨rfl, rfl, rfl, rfl, rfl, rfl, rfl, rfl, rfl, hs, hst, by simp, fun u r hpc => by simp at hpc,
          fun u es hpc => by simp at hpc⟩
      | cons v rest =>
        dsimp only
        have hrest : ∀ w ∈ rest, Reachable (Edge c.next) (· ∈ starts) w :=
          fun w hw => htv w (List.mem_cons_of_mem _ hw)
        have hent : ∀ (x : S) (x' : S'), (∀ k, g.so.contains x k = g'.so.contains x' k) →
            StepRel (fun (s : DfsState V L S M ML) (s' : DfsState V L S' M' ML') => s.pc = s'.pc ∧
              s.starts = s'.starts ∧ s.cur = s'.cur ∧ s.toVisit = s'.toVisit ∧
              s.markers = s'.markers ∧ s.depth = s'.depth ∧ s.selfDepth = s'.selfDepth ∧ s.n = s'.n ∧
              s.event = s'.event ∧
              DfsSame g g' c.buildPaths s.visited s.preds s.labels s'.visited s'.preds s'.labels ∧
              (∀ v ∈ s.starts, v ∈ starts) ∧ (∀ v ∈ s.toVisit, Reachable (Edge c.next) (· ∈ starts) v) ∧
              (∀ u r, s.pc = .entered u r → Reachable (Edge c.next) (· ∈ starts) u) ∧
              ∀ u es, s.pc = .edges u es → Reachable (Edge c.next) (· ∈ starts) u ∧ ∀ e ∈ es, e ∈ c.next u)
            (fun s s' => DfsSame g g' c.buildPaths s.visited s.preds s.labels s'.visited s'.preds s'.labels)
            (fun r r' => r.vertex = r'.vertex ∧ r.depth = r'.depth ∧ r.event = r'.event ∧
              DfsSame g g' c.buildPaths r.visited r.preds r.labels r'.visited r'.preds r'.labels)
            (dfsEnter c ⟨.loop, st, cu, rest, mk2, d2, sd, n, ev, x, pr, la⟩ v)
            (dfsEnter c ⟨.loop, st, cu, rest, mk2, d2, sd, n, ev, x', pr', la'⟩ v) := by
          intro x x' hx
          have hR : ∀ b mk d sd ev, (fun (s : DfsState V L S M ML) (s' : DfsState V L S' M' ML') => s.pc = s'.pc ∧
              s.starts = s'.starts ∧ s.cur = s'.cur ∧ s.toVisit = s'.toVisit ∧
              s.markers = s'.markers ∧ s.depth = s'.depth ∧ s.selfDepth = s'.selfDepth ∧ s.n = s'.n ∧
              s.event = s'.event ∧
              DfsSame g g' c.buildPaths s.visited s.preds s.labels s'.visited s'.preds s'.labels ∧
              (∀ v ∈ s.starts, v ∈ starts) ∧ (∀ v ∈ s.toVisit, Reachable (Edge c.next) (· ∈ starts) v) ∧
              (∀ u r, s.pc = .entered u r → Reachable (Edge c.next) (· ∈ starts) u) ∧
              ∀ u es, s.pc = .edges u es → Reachable (Edge c.next) (· ∈ starts) u ∧ ∀ e ∈ es, e ∈ c.next u)
              ⟨.entered v b, st, cu, rest, mk, d, sd, n, ev, x, pr, la⟩
              ⟨.entered v b, st, cu, rest, mk, d, sd, n, ev, x', pr', la'⟩ := by
            intro b mk d sd ev
            refine ⟨rfl, rfl, rfl, rfl, rfl, rfl, rfl, rfl, rfl, ⟨hx, hs.2⟩, hst, hrest, ?_, fun u es hpc => by simp at hpc⟩
            intro u r hpc
            simp only [DfsPc.entered.injEq] at hpc
            rw [← hpc.1]
            exact htv v List.mem_cons_self
          unfold dfsEnter
          dsimp only
          split
          · split
            · exact .emit ⟨rfl, rfl, rfl, hx, hs.2⟩ (hR _ _ _ _ _)
            · exact .tau (hR _ _ _ _ _)
          · split
            · exact .emit ⟨rfl, rfl, rfl, hx, hs.2⟩ (hR _ _ _ _ _)
            · exact .tau (hR _ _ _ _ _)
        cases ht : c.isTree with
        | true =>
          simp only [if_true]
          exact hent vi vi' hs.1
        | false =>
          simp only [Bool.false_eq_true, if_false, hg.checkAdd_fst, hg'.checkAdd_fst, hs.1 (c.vid v)]
          by_cases hcon : g'.so.contains vi' (c.vid v) = true
          · rw [if_pos hcon, if_pos hcon]
            exact .tau ⟨rfl, rfl, rfl, rfl, rfl, rfl, rfl, rfl, rfl, hs, hst, hrest, fun u r hpc => by simp at hpc,
              fun u es hpc => by simp at hpc⟩
          · rw [if_neg hcon, if_neg hcon]
            exact hent _ _ (fun k => by rw [hg.contains_checkAdd, hg'.contains_checkAdd, hs.1])
    | entered v rep =>
      simp only [dfsStep]
      split
      · exact .tau ⟨rfl, rfl, rfl, rfl, rfl, rfl, rfl, rfl, rfl, hs, hst, htv, fun u r hpc => by simp at hpc,
          fun u es hpc => by simp at hpc⟩
      · refine .expand ⟨rfl, rfl, rfl, rfl, rfl, rfl, rfl, rfl, rfl, hs, hst, htv, fun u r hpc => by simp at hpc, ?_⟩
        intro u es hpc
        simp only [DfsPc.edges.injEq] at hpc
        obtain ⟨rfl, rfl⟩ := hpc
        exact ⟨hen v rep rfl, fun e he => he⟩
    | edges v es =>
      obtain ⟨hv, hes⟩ := hed v es rfl
      cases es with
      | nil =>
        exact .tau ⟨rfl, rfl, rfl, rfl, rfl, rfl, rfl, rfl, rfl, hs, hst, htv, fun u r hpc => by simp at hpc,
          fun u es hpc => by simp at hpc⟩
      | cons e es =>
        have he := hes e List.mem_cons_self
        have hed' : ∀ u es', DfsPc.edges v es = DfsPc.edges u es' → Reachable (Edge c.next) (· ∈ starts) u ∧
            ∀ e ∈ es', e ∈ c.next u := by
          intro u es' hpc
          simp only [DfsPc.edges.injEq] at hpc
          obtain ⟨rfl, rfl⟩ := hpc
          exact ⟨hv, fun e h => hes e (List.mem_cons_of_mem _ h)⟩
        simp only [dfsStep, hs.1]
        split
        · exact .tau ⟨rfl, rfl, rfl, rfl, rfl, rfl, rfl, rfl, rfl, hs, hst, htv, fun u r hpc => by simp at hpc, hed'⟩
        · refine .tau ⟨rfl, rfl, rfl, rfl, rfl, rfl, rfl, rfl, rfl, ⟨hs.1, fun hb => ?_⟩, hst, ?_,
            fun u r hpc => by simp at hpc, hed'⟩
          · obtain ⟨hS, hS', -, -⟩ := hp hb
            simp only [hb, if_true]
            refine ⟨fun k => ?_, fun k => ?_⟩
            · rw [hS.mo.get_set _ _ _ _ (hS.verts v hv), hS'.mo.get_set _ _ _ _ (hS'.verts v hv), (hs.2 hb).1]
            · rw [hS.lo.get_set _ _ _ _ (hS.labs v e hv he), hS'.lo.get_set _ _ _ _ (hS'.labs v e hv he),
                (hs.2 hb).2]
          · intro w hw
            rcases List.mem_cons.1 hw with rfl | hw
            · exact hv.step ⟨e.2, he⟩
            · exact htv w hw
  · refine ⟨rfl, rfl, rfl, rfl, rfl, rfl, rfl, rfl, rfl, ⟨ha, fun hb => ?_⟩, fun v hv => hv,
      fun v hv => by simp [dfsInit] at hv, fun u r hpc => by simp [dfsInit] at hpc,
      fun u es hpc => by simp [dfsInit] at hpc⟩
    obtain ⟨hS, hS', -, -⟩ := hp hb
    exact ⟨fun k => by simp only [dfsInit]; rw [hS.mo.get_empty, hS'.mo.get_empty],
      fun k => by simp only [dfsInit]; rw [hS.lo.get_empty, hS'.lo.get_empty]⟩

end

end NoGraphs
