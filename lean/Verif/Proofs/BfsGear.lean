import Verif.Proofs.BfsPaths

/-! Breadth-first search does not depend on the gear. -/

set_option linter.unusedSectionVars false

namespace NoGraphs

open Spec

variable {V K L : Type} [DecidableEq V] [DecidableEq K]
variable {S M ML S' M' ML' : Type}

/-- Two sets of bookkeeping collections have the same content. -/
def SameContent (g : TravGear V K L S M ML) (g' : TravGear V K L S' M' ML') (vi : S) (pr : M) (la : ML)
    (vi' : S') (pr' : M') (la' : ML') : Prop :=
  (∀ k, g.so.contains vi k = g'.so.contains vi' k) ∧ (∀ k, g.mo.get? pr k = g'.mo.get? pr' k) ∧
  ∀ k, g.lo.get? la k = g'.lo.get? la' k

variable {g : TravGear V K L S M ML} {g' : TravGear V K L S' M' ML'} {c : TravCfg V K L} {starts : List V}

theorem sameContent_visit (hg : g.so.Lawful) (hg' : g'.so.Lawful) {validV validV' : V → Prop}
    {validL validL' : L → Prop} (hst : Storable g c starts validV validL)
    (hst' : Storable g' c starts validV' validL') {vi : S} {pr : M} {la : ML} {vi' : S'} {pr' : M'} {la' : ML'}
    (h : SameContent g g' vi pr la vi' pr' la') {u : V} {e : V × L}
    (hu : Reachable (Edge c.next) (· ∈ starts) u) (he : e ∈ c.next u) :
    (bfsVisit g c.isTree c.buildPaths c.vid vi pr la u e = none ∧
      bfsVisit g' c.isTree c.buildPaths c.vid vi' pr' la' u e = none) ∨
    ∃ a b d a' b' d', bfsVisit g c.isTree c.buildPaths c.vid vi pr la u e = some (a, b, d) ∧
      bfsVisit g' c.isTree c.buildPaths c.vid vi' pr' la' u e = some (a', b', d') ∧
      SameContent g g' a b d a' b' d' := by
  have hset : SameContent g g' vi (g.mo.set pr (c.vid e.1) u) (g.lo.set la (c.vid e.1) e.2)
      vi' (g'.mo.set pr' (c.vid e.1) u) (g'.lo.set la' (c.vid e.1) e.2) := by
    refine ⟨h.1, fun k => ?_, fun k => ?_⟩
    · rw [hst.mo.get_set _ _ _ _ (hst.verts u hu), hst'.mo.get_set _ _ _ _ (hst'.verts u hu), h.2.1]
    · rw [hst.lo.get_set _ _ _ _ (hst.labs u e hu he), hst'.lo.get_set _ _ _ _ (hst'.labs u e hu he), h.2.2]
  unfold bfsVisit
  cases ht : c.isTree with
  | true =>
    right
    cases hb : c.buildPaths with
    | true => exact ⟨_, _, _, _, _, _, rfl, rfl, hset⟩
    | false => exact ⟨_, _, _, _, _, _, rfl, rfl, h⟩
  | false =>
    simp only [Bool.false_eq_true, if_false, hg.checkAdd_fst, hg'.checkAdd_fst, h.1 (c.vid e.1)]
    have hadd : ∀ k, g.so.contains (g.so.checkAdd vi (c.vid e.1)).2 k =
        g'.so.contains (g'.so.checkAdd vi' (c.vid e.1)).2 k := by
      intro k; rw [hg.contains_checkAdd, hg'.contains_checkAdd, h.1]
    by_cases hcon : g'.so.contains vi' (c.vid e.1) = true
    · left; simp [hcon]
    · right
      simp only [hcon]
      cases hb : c.buildPaths with
      | true => exact ⟨_, _, _, _, _, _, rfl, rfl, hadd, hset.2⟩
      | false => exact ⟨_, _, _, _, _, _, rfl, rfl, hadd, h.2⟩

theorem setAll_same {mo : MapOps M K V} {mo' : MapOps M' K V} {validV validV' : V → Prop}
    (hm : mo.Lawful validV) (hm' : mo'.Lawful validV') (vid : V → K) (starts : List V)
    (hv : ∀ v ∈ starts, validV v) (hv' : ∀ v ∈ starts, validV' v) (m : M) (m' : M')
    (h : ∀ k, mo.get? m k = mo'.get? m' k) (k : K) :
    mo.get? (mo.setAll m (starts.map (fun v => (vid v, v)))) k =
    mo'.get? (mo'.setAll m' (starts.map (fun v => (vid v, v)))) k := by
  induction starts generalizing m m' with
  | nil => simpa [MapOps.setAll] using h k
  | cons s r ih =>
    have := ih (fun v h => hv v (List.mem_cons_of_mem _ h)) (fun v h => hv' v (List.mem_cons_of_mem _ h))
      (mo.set m (vid s) s) (mo'.set m' (vid s) s) (fun k => by
        rw [hm.get_set _ _ _ _ (hv s List.mem_cons_self), hm'.get_set _ _ _ _ (hv' s List.mem_cons_self), h])
    simpa [MapOps.setAll] using this

variable (g g' c starts) in
/-- The same state, and only reachable vertices. -/
abbrev BfsSame (s : BfsState V L S M ML) (s' : BfsState V L S' M' ML') : Prop :=
  s.pc = s'.pc ∧ s.toExpand = s'.toExpand ∧ s.nextToExpand = s'.nextToExpand ∧
  s.depth = s'.depth ∧ SameContent g g' s.visited s.preds s.labels s'.visited s'.preds s'.labels ∧
  (∀ v ∈ s.toExpand, Reachable (Edge c.next) (· ∈ starts) v) ∧
  (∀ v ∈ s.nextToExpand, Reachable (Edge c.next) (· ∈ starts) v) ∧
  ∀ u es, s.pc = .edges u es → Reachable (Edge c.next) (· ∈ starts) u ∧ ∀ e ∈ es, e ∈ c.next u

variable (g g') in
/-- The same report. -/
abbrev BfsSameRep (r : BfsReport V S M ML) (r' : BfsReport V S' M' ML') : Prop :=
  r.vertex = r'.vertex ∧ r.depth = r'.depth ∧
  SameContent g g' r.visited r.preds r.labels r'.visited r'.preds r'.labels

theorem bfs_gear_step (hg : g.so.Lawful) (hg' : g'.so.Lawful) {validV validV' : V → Prop}
    {validL validL' : L → Prop} (hst : Storable g c starts validV validL)
    (hst' : Storable g' c starts validV' validL') (rdi : Bool) (s : BfsState V L S M ML)
    (s' : BfsState V L S' M' ML') (h : BfsSame g g' c starts s s') :
    StepRel (BfsSame g g' c starts) (BfsSame g g' c starts) (BfsSameRep g g') (bfsStep g c rdi s) (bfsStep g' c rdi s') := by
  revert s s'
  rintro ⟨pc, te, ne, d, vi, pr, la⟩ ⟨pc', te', ne', d', vi', pr', la'⟩ ⟨h1, h2, h3, h4, h5, h6, h7, h8⟩
  simp only at h1 h2 h3 h4 h5 h6 h7 h8
  subst h1 h2 h3 h4
  cases pc with
  | check =>
    cases te with
    | nil => exact .stop ⟨rfl, rfl, rfl, rfl, h5, h6, h7, fun u es hp => by simp at hp⟩
    | cons v r => exact .tau ⟨rfl, rfl, rfl, rfl, h5, h6, h7, fun u es hp => by simp at hp⟩
  | loop =>
    cases te with
    | nil =>
      simp only [bfsStep]
      cases rdi with
      | false => exact .tau ⟨rfl, rfl, rfl, rfl, h5, h6, h7, fun u es hp => by simp at hp⟩
      | true =>
        cases hl : ne.getLast? with
        | none => exact .tau ⟨rfl, rfl, rfl, rfl, h5, h6, h7, fun u es hp => by simp at hp⟩
        | some x =>
          exact .emit ⟨rfl, rfl, h5⟩ ⟨rfl, rfl, rfl, rfl, h5, h6, h7, fun u es hp => by simp at hp⟩
    | cons v r =>
      refine .expand ⟨rfl, rfl, rfl, rfl, h5, fun w hw => h6 w (List.mem_cons_of_mem _ hw), h7,
        fun u es hp => ?_⟩
      simp only [BfsPc.edges.injEq] at hp
      obtain ⟨rfl, rfl⟩ := hp
      exact ⟨h6 v List.mem_cons_self, fun e he => he⟩
  | levelEnd =>
    exact .tau ⟨rfl, rfl, rfl, rfl, h5, h7, fun v hv => by simp at hv, fun u es hp => by simp at hp⟩
  | edges u es =>
    cases es with
    | nil => exact .tau ⟨rfl, rfl, rfl, rfl, h5, h6, h7, fun u es hp => by simp at hp⟩
    | cons e es =>
      obtain ⟨hu, hes⟩ := h8 u _ rfl
      have he := hes e List.mem_cons_self
      have hcur : ∀ u' es', BfsPc.edges u es = BfsPc.edges u' es' →
          Reachable (Edge c.next) (· ∈ starts) u' ∧ ∀ e ∈ es', e ∈ c.next u' := by
        intro u' es' hp
        simp only [BfsPc.edges.injEq] at hp
        obtain ⟨rfl, rfl⟩ := hp
        exact ⟨hu, fun e he => hes e (List.mem_cons_of_mem _ he)⟩
      rcases sameContent_visit hg hg' hst hst' h5 hu he with ⟨e1, e2⟩ | ⟨a, b, d1, a', b', d', e1, e2, hsc⟩
      · simp only [bfsStep, e1, e2]
        exact .tau ⟨rfl, rfl, rfl, rfl, h5, h6, h7, hcur⟩
      · simp only [bfsStep, e1, e2]
        refine .emit ⟨rfl, rfl, hsc⟩ ⟨rfl, rfl, rfl, rfl, hsc, h6, fun v hv => ?_, hcur⟩
        rcases List.mem_append.1 hv with hv | hv
        · exact h7 v hv
        · simp only [List.mem_singleton] at hv
          subst hv
          exact hu.step ⟨e.2, he⟩

theorem bfs_gear_init (hg : g.so.Lawful) (hg' : g'.so.Lawful) {validV validV' : V → Prop}
    {validL validL' : L → Prop} (hst : Storable g c starts validV validL)
    (hst' : Storable g' c starts validV' validL') (already : S) (already' : S')
    (ha : ∀ k, g.so.contains already k = g'.so.contains already' k) :
    BfsSame g g' c starts (bfsInit g c already starts) (bfsInit g' c already' starts) := by
  refine ⟨rfl, rfl, rfl, rfl, ⟨fun k => ?_, fun k => ?_, fun k => ?_⟩, fun v hv => .start hv,
    fun v hv => by simp [bfsInit] at hv, fun u es hp => by simp [bfsInit] at hp⟩
  · simp only [bfsInit]
    split
    · exact ha k
    · rw [hg.contains_addAll, hg'.contains_addAll, ha]
  · simp only [bfsInit]
    split
    · exact setAll_same hst.mo hst'.mo c.vid starts (fun v hv => hst.verts v (.start hv))
        (fun v hv => hst'.verts v (.start hv)) _ _
        (fun k => by rw [hst.mo.get_empty, hst'.mo.get_empty]) k
    · rw [hst.mo.get_empty, hst'.mo.get_empty]
  · simp only [bfsInit]; rw [hst.lo.get_empty, hst'.lo.get_empty]

theorem bfs_gear_sim (hg : g.so.Lawful) (hg' : g'.so.Lawful) {validV validV' : V → Prop}
    {validL validL' : L → Prop} (hst : Storable g c starts validV validL)
    (hst' : Storable g' c starts validV' validL') (rdi : Bool) (already : S) (already' : S')
    (ha : ∀ k, g.so.contains already k = g'.so.contains already' k) (fuel : Nat) (lim : Option Int) :
    let r1 := runMachine (bfsStep g c rdi) fuel lim (bfsInit g c already starts)
    let r2 := runMachine (bfsStep g' c rdi) fuel lim (bfsInit g' c already' starts)
    List.Forall₂ (EvRel (BfsSameRep g g')) r1.events r2.events ∧
    r1.ending = r2.ending ∧ (r1.ending = .done →
      SameContent g g' r1.final.visited r1.final.preds r1.final.labels
        r2.final.visited r2.final.preds r2.final.labels) := by
  intro r1 r2
  obtain ⟨h1, h2, h3⟩ := run_sim (BfsSame g g' c starts) (BfsSame g g' c starts) (BfsSameRep g g')
    (bfs_gear_step hg hg' hst hst' rdi) fuel lim _ _ (bfs_gear_init hg hg' hst hst' already already' ha)
  exact ⟨h1, h2, fun h => (h3 h).2.2.2.2.1⟩

end NoGraphs
