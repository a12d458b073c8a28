import Verif.Proofs.Bfs

/-! Breadth-first search: stored paths, end of the traversal, termination. -/

set_option linter.unusedSectionVars false

namespace NoGraphs

open Spec

variable {V K L S M ML : Type} [DecidableEq V] [DecidableEq K]
variable {g : TravGear V K L S M ML} {c : TravCfg V K L} {already : S} {starts : List V}

/-- A path of given length is stored. -/
def StoredLen (g : TravGear V K L S M ML) (c : TravCfg V K L) (starts : List V) (pr : M) (la : ML)
    (v : V) (d : Int) : Prop :=
  ∃ p : SPath V L, (p.steps.length : Int) = d ∧
    PathOk c.next starts c.vid (g.mo.get? pr) (g.lo.get? la) v p

theorem StoredLen.mono {pr pr' : M} {la la' : ML} {v : V} {d : Int}
    (h : StoredLen g c starts pr la v d) {k : K} (hk : g.mo.get? pr k = none)
    (hg : ∀ j, j ≠ k → g.mo.get? pr' j = g.mo.get? pr j)
    (hl : ∀ j, j ≠ k → g.lo.get? la' j = g.lo.get? la j) : StoredLen g c starts pr' la' v d := by
  obtain ⟨p, h1, h2⟩ := h
  exact ⟨p, h1, h2.mono hk hg hl⟩

/-- The path of `v` stored in the first collections is also stored in the second ones. -/
def KeepsPath (g : TravGear V K L S M ML) (c : TravCfg V K L) (starts : List V) (pr : M) (la : ML)
    (pr' : M) (la' : ML) (v : V) : Prop :=
  ∀ p, PathOk c.next starts c.vid (g.mo.get? pr) (g.lo.get? la) v p →
    PathOk c.next starts c.vid (g.mo.get? pr') (g.lo.get? la') v p

theorem KeepsPath.mono {pr0 pr pr' : M} {la0 la la' : ML} {v : V}
    (h : KeepsPath g c starts pr0 la0 pr la v) {k : K} (hk : g.mo.get? pr k = none)
    (hg : ∀ j, j ≠ k → g.mo.get? pr' j = g.mo.get? pr j)
    (hl : ∀ j, j ≠ k → g.lo.get? la' j = g.lo.get? la j) : KeepsPath g c starts pr0 la0 pr' la' v :=
  fun p hp => (h p hp).mono hk hg hl

/-- Invariant about stored paths. -/
structure BfsPathInv (g : TravGear V K L S M ML) (c : TravCfg V K L) (starts : List V)
    (h : List (Ev (BfsReport V S M ML))) (s : BfsState V L S M ML) : Prop where
  getvis : ∀ k, (g.mo.get? s.preds k).isSome → g.so.contains s.visited k = true
  sts : ∀ v ∈ starts, StoredLen g c starts s.preds s.labels v 0
  exp : ∀ v ∈ s.toExpand, StoredLen g c starts s.preds s.labels v (s.depth - 1)
  nxt : ∀ v ∈ s.nextToExpand, StoredLen g c starts s.preds s.labels v s.depth
  cur : ∀ u es, s.pc = .edges u es → StoredLen g c starts s.preds s.labels u (s.depth - 1) 
  lev : s.pc = .levelEnd → s.toExpand = []
  reps : ∀ r ∈ repsOf h, StoredLen g c starts r.preds r.labels r.vertex r.depth
  keep : ∀ r ∈ repsOf h, KeepsPath g c starts r.preds r.labels s.preds s.labels r.vertex
  later : (repsOf h).Pairwise (fun r r' => KeepsPath g c starts r.preds r.labels r'.preds r'.labels r.vertex)

variable (g c already starts) in
/-- The assumptions for stored paths: the gear can store the vertices and labels of the reachable
graph, and start vertices with the same id are equal. -/
structure Storable (validV : V → Prop) (validL : L → Prop) : Prop where
  mo : g.mo.Lawful validV
  lo : g.lo.Lawful validL
  verts : ∀ v, Reachable (Edge c.next) (· ∈ starts) v → validV v
  labs : ∀ u e, Reachable (Edge c.next) (· ∈ starts) u → e ∈ c.next u → validL e.2
  distinct : ∀ s ∈ starts, ∀ t ∈ starts, c.vid s = c.vid t → s = t

theorem Spec.Reachable.mono {E E' : V → V → Prop} {P : V → Prop} (h : ∀ u v, E u v → E' u v) {v : V}
    (hr : Reachable E P v) : Reachable E' P v := by
  obtain ⟨n, hr⟩ := hr
  refine ⟨n, ?_⟩
  induction hr with
  | start hs => exact .start hs
  | step _ he ih => exact .step ih (h _ _ he)

theorem starts_stored {validV : V → Prop} {validL : L → Prop} (hst : Storable g c starts validV validL) {v : V}
    (hv : v ∈ starts) :
    StoredLen g c starts (g.mo.setAll g.mo.empty (starts.map (fun v => (c.vid v, v)))) g.lo.empty v 0 := by
  refine ⟨⟨v, []⟩, rfl, hv, trivial, ?_, ?_⟩
  · exact .start (get_starts_of_mem g.mo hst.mo c.vid starts (fun v hv => hst.verts v (.start hv))
      hst.distinct _ hv)
  · simp [SPath.verts, SPath.edges, rawEdges, edgesFrom]

theorem bfs_path_inv (hg : g.so.Lawful) (ht : c.isTree = false) (hb : c.buildPaths = true)
    (hc : Compat (Edge c.next) c.vid) {validV : V → Prop} {validL : L → Prop}
    (hst : Storable g c starts validV validL)
    {h : List (Ev (BfsReport V S M ML))} {s : BfsState V L S M ML}
    (hr : Reaches (bfsStep g c false) (bfsInit g c already starts) h s) :
    BfsPathInv g c starts h s := by
  refine Reaches.invariant' (BfsPathInv g c starts) ?_ ?_ ?_ ?_ hr
  · constructor
    · intro k hk
      simp only [bfsInit, hb, if_true] at hk
      rcases get_starts_isSome g.mo hst.mo c.vid starts (fun v hv => hst.verts v (.start hv)) _ k hk
        with h | h
      · simp only [bfsInit, ht, Bool.false_eq_true, if_false, hg.contains_addAll]
        simp [h]
      · rw [hst.mo.get_empty] at h; simp at h
    · intro v hv
      simp only [bfsInit, hb, if_true]
      exact starts_stored hst hv
    · intro v hv
      simp only [bfsInit, hb, if_true] at hv ⊢
      exact starts_stored hst hv
    · intro v hv; simp [bfsInit] at hv
    · intro u es hp; simp [bfsInit] at hp
    · intro hp; simp [bfsInit] at hp
    · intro r hr; simp at hr
    · intro r hr; simp at hr
    · simp
  · intro h s s' hr inv hs
    unfold bfsStep at hs
    split at hs
    · split at hs
      · simp at hs
      · simp only [Step.tau.injEq] at hs
        subst hs
        exact ⟨inv.getvis, inv.sts, inv.exp, inv.nxt, fun u es hp => by simp at hp,
          fun hp => by simp at hp, inv.reps, inv.keep, inv.later⟩
    · split at hs
      · simp at hs
      · split at hs
        · contradiction
        · rename_i hte _ _
          simp only [Step.tau.injEq] at hs
          subst hs
          exact ⟨inv.getvis, inv.sts, inv.exp, inv.nxt, fun u es hp => by simp at hp,
            fun _ => by assumption, inv.reps, inv.keep, inv.later⟩
    · simp only [Step.tau.injEq] at hs
      subst hs
      exact ⟨inv.getvis, inv.sts, inv.exp, inv.nxt, fun u es hp => by simp at hp,
        fun hp => by simp at hp, inv.reps, inv.keep, inv.later⟩
    · rename_i u e es hp
      split at hs
      · simp only [Step.tau.injEq] at hs
        subst hs
        refine ⟨inv.getvis, inv.sts, inv.exp, inv.nxt, fun u' es' hp' => ?_, fun hp => by simp at hp,
          inv.reps, inv.keep, inv.later⟩
        simp only [BfsPc.edges.injEq] at hp'
        exact inv.cur u' _ (hp'.1 ▸ hp)
      · simp at hs
    · rename_i hp
      simp only [Step.tau.injEq] at hs
      subst hs
      refine ⟨inv.getvis, inv.sts, fun v hv => ?_, fun v hv => by simp at hv, fun u es hp => by simp at hp,
          fun hp => by simp at hp, inv.reps, inv.keep, inv.later⟩
      have := inv.nxt v hv
      simpa using this
  · intro h s r s' hr inv hs
    obtain ⟨n, binv⟩ := bfs_inv hg ht hc hr
    have hpc := binv.pcInv
    unfold BfsPcInv at hpc
    unfold bfsStep at hs
    split at hs
    · split at hs <;> simp at hs
    · split at hs
      · simp at hs
      · split at hs
        · contradiction
        · simp at hs
    · simp at hs
    · rename_i u e es hp
      rw [hp] at hpc
      split at hs
      · simp at hs
      · rename_i vis pr la hv
        rw [ht] at hv
        obtain ⟨hnew, hvis', hset⟩ := bfsVisit_some hg hv
        obtain ⟨hpr, hla⟩ := hset hb
        simp only [Step.emit.injEq] at hs
        obtain ⟨rfl, rfl⟩ := hs
        have hu : Reachable (Edge c.next) (· ∈ starts) u :=
          Reachable.mono (fun _ _ h => h.1) ⟨n, hpc.1.1⟩
        have hnone : g.mo.get? s.preds (c.vid e.1) = none := by
          cases hg' : g.mo.get? s.preds (c.vid e.1) with
          | none => rfl
          | some x =>
            have := inv.getvis (c.vid e.1) (by rw [hg']; rfl)
            rw [hnew] at this; simp at this
        have hg2 : ∀ j, g.mo.get? pr j = if j = c.vid e.1 then some u else g.mo.get? s.preds j := by
          intro j; rw [hpr, hst.mo.get_set _ _ _ _ (hst.verts u hu)]
        have hl2 : ∀ j, g.lo.get? la j = if j = c.vid e.1 then some e.2 else g.lo.get? s.labels j := by
          intro j; rw [hla, hst.lo.get_set _ _ _ _ (hst.labs u e hu (hpc.2.1 e List.mem_cons_self))]
        have hg3 : ∀ j, j ≠ c.vid e.1 → g.mo.get? pr j = g.mo.get? s.preds j :=
          fun j hj => by rw [hg2, if_neg hj]
        have hl3 : ∀ j, j ≠ c.vid e.1 → g.lo.get? la j = g.lo.get? s.labels j :=
          fun j hj => by rw [hl2, if_neg hj]
        have hmem := hpc.2.1 e List.mem_cons_self
        obtain ⟨p, hp1, hp2⟩ := inv.cur u _ hp
        have hnewp : ((p.snoc e.1 e.2).steps.length : Int) = s.depth ∧
            PathOk c.next starts c.vid (g.mo.get? pr) (g.lo.get? la) e.1 (p.snoc e.1 e.2) := by
          refine ⟨?_, hp2.extend hmem hnone hg2 hl2⟩
          simp [SPath.snoc]; omega
        refine ⟨?_, ?_, ?_, ?_, ?_, ?_, ?_, ?_, ?_⟩
        · intro k hk
          simp only at hk ⊢
          rw [hg2] at hk
          rw [hvis']
          by_cases e' : k = c.vid e.1
          · simp [e']
          · rw [if_neg e'] at hk
            simp [inv.getvis k hk]
        · exact fun v hv => (inv.sts v hv).mono hnone hg3 hl3
        · exact fun v hv => (inv.exp v hv).mono hnone hg3 hl3
        · intro v hv
          rcases List.mem_append.1 hv with hv | hv
          · exact (inv.nxt v hv).mono hnone hg3 hl3
          · simp only [List.mem_singleton] at hv
            subst hv
            exact ⟨_, hnewp⟩
        · intro u' es' hp'
          simp only [BfsPc.edges.injEq] at hp'
          rw [← hp'.1]
          exact (inv.cur u _ hp).mono hnone hg3 hl3
        · intro hp'; simp at hp'
        · intro r hr
          simp only [repsOf_append, repsOf_rep, repsOf_nil, List.mem_append, List.mem_singleton] at hr
          rcases hr with hr | rfl
          · exact inv.reps r hr
          · exact ⟨_, hnewp⟩
        · intro r hr
          simp only [repsOf_append, repsOf_rep, repsOf_nil, List.mem_append, List.mem_singleton] at hr
          rcases hr with hr | rfl
          · exact (inv.keep r hr).mono hnone hg3 hl3
          · exact fun p hp => hp
        · simp only [repsOf_append, repsOf_rep, repsOf_nil]
          rw [List.pairwise_append]
          refine ⟨inv.later, by simp, fun r hr r' hr' => ?_⟩
          simp only [List.mem_singleton] at hr'
          subst hr'
          exact (inv.keep r hr).mono hnone hg3 hl3
    · simp at hs
  · intro h s s' hr inv hs
    unfold bfsStep at hs
    split at hs
    · split at hs <;> simp at hs
    · split at hs
      · rename_i v rest hte
        simp only [Step.expand.injEq] at hs
        subst hs
        refine ⟨inv.getvis, inv.sts, fun w hw => inv.exp w (by rw [hte]; exact List.mem_cons_of_mem _ hw),
          inv.nxt, fun u es hp => ?_, fun hp => by simp at hp, fun r hr => inv.reps r (by simpa using hr),
          fun r hr => inv.keep r (by simpa using hr), by simpa using inv.later⟩
        simp only [BfsPc.edges.injEq] at hp
        rw [← hp.1]
        exact inv.exp v (by rw [hte]; exact List.mem_cons_self)
      · split at hs <;> simp at hs
    · simp at hs
    · split at hs <;> simp at hs
    · simp at hs

/-- When the traversal stops, everything reachable is visited. -/
theorem bfs_stop_complete (hg : g.so.Lawful) (ht : c.isTree = false)
    (hc : Compat (Edge c.next) c.vid) {h : List (Ev (BfsReport V S M ML))}
    {s t : BfsState V L S M ML} (hr : Reaches (bfsStep g c false) (bfsInit g c already starts) h s)
    (hs : bfsStep g c false s = .stop t) :
    t.visited = s.visited ∧ ∀ v, Reachable (bfsE g c already) (· ∈ starts) v →
      c.vid v ∈ starts.map c.vid ∨ ∃ r ∈ repsOf h, c.vid r.vertex = c.vid v := by
  obtain ⟨n, inv⟩ := bfs_inv hg ht hc hr
  have hpc := inv.pcInv
  unfold BfsPcInv at hpc
  unfold bfsStep at hs
  split at hs
  · rename_i hp
    rw [hp] at hpc
    split at hs
    · rename_i hte
      simp only [Step.stop.injEq] at hs
      subst hs
      refine ⟨rfl, ?_⟩
      have hno : ∀ v, ¬ IsDepth (bfsE g c already) (· ∈ starts) c.vid v n := by
        intro v hv
        have := hpc.2 v hv
        rw [hte] at this; simp at this
      have hall : ∀ m v, WalkN (bfsE g c already) (· ∈ starts) m v →
          ∃ d v', d < n ∧ c.vid v' = c.vid v ∧ IsDepth (bfsE g c already) (· ∈ starts) c.vid v' d := by
        intro m v hw
        induction hw with
        | start h0 =>
          obtain ⟨d, v', e, hd, hD⟩ := exists_isDepth (vid := c.vid) (WalkN.start (E := bfsE g c already) h0)
          refine ⟨d, v', ?_, e, hD⟩
          have : d = 0 := by omega
          subst this
          rcases Nat.eq_zero_or_pos n with h | h
          · subst h; exact absurd hD (hno _)
          · exact h
        | @step k u w hu he ih =>
          obtain ⟨d, u', hd, e, hD⟩ := ih
          obtain ⟨w', he', hw'⟩ := Allowed.compat (excl := fun k => g.so.contains already k = true) hc
            u u' w e.symm he
          obtain ⟨d', w'', e'', hd', hD'⟩ := exists_isDepth (vid := c.vid) (.step hD.1 he')
          refine ⟨d', w'', ?_, e''.trans hw', hD'⟩
          rcases Nat.lt_or_ge d' n with h | h
          · exact h
          · have : d' = n := by omega
            subst this; exact absurd hD' (hno _)
      rintro v ⟨m, hw⟩
      obtain ⟨d, v', hd, e, hD⟩ := hall m v hw
      have hv : g.so.contains s.visited (c.vid v) = true :=
        (inv.vis _).2 (.inr (.inl ⟨d, v', by omega, hD.1, e⟩))
      rcases inv.cover _ hv with h | h | h
      · -- an already visited vertex is not reachable, unless it is a start vertex
        cases hw with
        | start hs => exact .inl (List.mem_map.2 ⟨v, hs, rfl⟩)
        | step _ he => exact absurd h he.2
      · exact .inl h
      · exact .inr h
    · simp at hs
  · split at hs
    · simp at hs
    · split at hs <;> simp at hs
  · simp at hs
  · split at hs <;> simp at hs
  · simp at hs

theorem bfs_no_fail {rdi : Bool} (s : BfsState V L S M ML) (e : PyErr) : bfsStep g c rdi s ≠ .fail e := by
  unfold bfsStep
  split
  · split <;> simp
  · split
    · simp
    · split <;> simp
  · simp
  · split <;> simp
  · simp

/-- The measure for termination. -/
def bfsMeasure (g : TravGear V K L S M ML) (ids : List K) (s : BfsState V L S M ML) :
    Nat × Nat × Nat × Nat :=
  ((ids.filter (fun k => !g.so.contains s.visited k)).length, s.toExpand.length + s.nextToExpand.length,
    s.nextToExpand.length,
    match s.pc with
    | .check => if s.toExpand = [] then 0 else 3
    | .loop => 2
    | .levelEnd => 1
    | .edges _ es => 3 + es.length)

theorem bfs_terminates (hg : g.so.Lawful) (ht : c.isTree = false)
    (hc : Compat (Edge c.next) c.vid)
    (hfin : FinitelyReachable (bfsE g c already) (· ∈ starts) c.vid) :
    ∃ N, ∀ fuel, N ≤ fuel → ∀ lim,
      (runMachine (bfsStep g c false) fuel lim (bfsInit g c already starts)).ending ≠ .outOfFuel := by
  obtain ⟨ids, hids⟩ := hfin
  refine run_terminates_reach _ lex4 lex4_wf (bfsMeasure g ids) _ ?_
  intro h s s' hr hs
  obtain ⟨n, inv⟩ := bfs_inv hg ht hc hr
  have hpc := inv.pcInv
  unfold BfsPcInv at hpc
  unfold bfsStep at hs
  unfold bfsMeasure
  rw [lex4_iff]
  split at hs
  · rename_i hp
    split at hs
    · simp [Step.next?] at hs
    · rename_i hte
      simp only [Step.next?, Option.some.injEq] at hs
      subst hs
      right; refine ⟨rfl, .inr ⟨rfl, .inr ⟨rfl, ?_⟩⟩⟩
      simp [hp, hte]
  · rename_i hp
    split at hs
    · rename_i v rest hte
      simp only [Step.next?, Option.some.injEq] at hs
      subst hs
      right; refine ⟨rfl, .inl ?_⟩
      simp [hte]
    · split at hs
      · contradiction
      · simp only [Step.next?, Option.some.injEq] at hs
        subst hs
        right; refine ⟨rfl, .inr ⟨rfl, .inr ⟨rfl, ?_⟩⟩⟩
        simp [hp]
  · rename_i hp
    simp only [Step.next?, Option.some.injEq] at hs
    subst hs
    right; refine ⟨rfl, .inr ⟨rfl, .inr ⟨rfl, ?_⟩⟩⟩
    simp [hp]
  · rename_i u e es hp
    rw [hp] at hpc
    split at hs
    · simp only [Step.next?, Option.some.injEq] at hs
      subst hs
      right; refine ⟨rfl, .inr ⟨rfl, .inr ⟨rfl, ?_⟩⟩⟩
      simp [hp]
    · rename_i vis pr la hv
      rw [ht] at hv
      obtain ⟨hnew, hvis', -⟩ := bfsVisit_some hg hv
      simp only [Step.next?, Option.some.injEq] at hs
      subst hs
      left
      refine filter_not_lt ids (g.so.contains s.visited) (g.so.contains vis) ?_ (k := c.vid e.1) ?_ hnew ?_
      · intro j hj; rw [hvis', hj]; simp
      · apply hids
        have hnot : ¬ g.so.contains already (c.vid e.1) = true := by
          intro ha
          have := (inv.vis (c.vid e.1)).2 (.inl ha)
          rw [hnew] at this; simp at this
        exact ⟨n + 1, .step hpc.1.1 ⟨⟨e.2, hpc.2.1 e List.mem_cons_self⟩, hnot⟩⟩
      · rw [hvis']; simp
  · rename_i hp
    rw [hp] at hpc
    simp only [Step.next?, Option.some.injEq] at hs
    subst hs
    right; refine ⟨rfl, .inr ⟨by simp [hpc.1], ?_⟩⟩
    cases hne : s.nextToExpand with
    | nil => right; simp [hp]
    | cons a l => left; simp

end NoGraphs
