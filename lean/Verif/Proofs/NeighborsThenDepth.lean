import Verif.Model.NeighborsThenDepth
import Verif.Proofs.BfsPaths

/-! Invariants of the traversal "neighbors, then depth". -/

set_option linter.unusedSectionVars false

namespace NoGraphs

open Spec

variable {V K L S M ML : Type} [DecidableEq V] [DecidableEq K]

/-- Markers, and the depths of the vertices that wait for their expansion (both: top of the stack first), fit to the
current depth. -/
def MarkOk : Int → List Bool → List Nat → Prop
  | _, [], [] => True
  | d, true :: ms, ds => MarkOk (d - 1) ms ds
  | d, false :: ms, k :: ds => (k : Int) = d + 1 ∧ MarkOk d ms ds
  | _, [], _ :: _ => False
  | _, false :: _, [] => False

theorem MarkOk.pop {d : Int} {ms : List Bool} {k : Nat} {ds : List Nat} (h : MarkOk d ms (k :: ds)) :
    ∃ ms', ntdPop ms (d + 1) = some (ms', (k : Int)) ∧ MarkOk ((k : Int) - 1) ms' ds := by
  induction ms generalizing d with
  | nil => exact absurd h id
  | cons b ms ih =>
    cases b with
    | true =>
      obtain ⟨ms', h1, h2⟩ := ih (d := d - 1) h
      refine ⟨ms', ?_, h2⟩
      rw [ntdPop, show d + 1 - 1 = d - 1 + 1 by omega]
      exact h1
    | false =>
      obtain ⟨h1, h2⟩ := h
      exact ⟨ms, by rw [ntdPop, h1], by rw [h1]; simpa using h2⟩

theorem markOk_init (n : Nat) : MarkOk (-1) (List.replicate n false) (List.replicate n 0) := by
  induction n with
  | zero => trivial
  | succ n ih => exact ⟨rfl, ih⟩

section

variable (g : TravGear V K L S M ML) (c : NtdCfg V K L) (bp : Prop) (already : S) (starts : List V)

/-- What is assumed if statements about paths (`bp`) are to be proved. -/
def NtdPathsOk : Prop :=
  bp → c.buildPaths = true ∧ ∃ validV validL, Storable g c.toTravCfg starts validV validL

/-- The vertex has been found at this depth. -/
structure NtdAt (pr : M) (la : ML) (v : V) (n : Nat) : Prop where
  walk : WalkN (bfsE g c.toTravCfg already) (· ∈ starts) n v
  path : bp → StoredLen g c.toTravCfg starts pr la v n

/-- The invariant that depends on the program counter. -/
def NtdPcInv (s : NtdState V L S M ML) : Prop :=
  match s.pc with
  | .loop => True
  | .edges u es => (∀ e ∈ es, e ∈ c.next u) ∧
      (∀ e ∈ c.next u, e ∈ es ∨ g.so.contains s.visited (c.vid e.1) = true) ∧
      ∃ n, NtdAt g c bp already starts s.preds s.labels u n ∧
        (c.computeDepth = true → s.depth = n ∧ s.selfDepth = n + 1)

/-- The main invariant. -/
structure NtdInv (h : List (Ev (NtdReport V S M ML))) (s : NtdState V L S M ML) (G : List (V × Nat)) : Prop where
  stack : s.toExpand = G.map Prod.fst
  marks : c.computeDepth = true → MarkOk s.depth s.markers (G.map Prod.snd)
  noDepth : c.computeDepth = false → s.selfDepth = -1
  vis : ∀ k, g.so.contains s.visited k = true ↔
    g.so.contains already k = true ∨ k ∈ starts.map c.vid ∨ ∃ r ∈ repsOf h, c.vid r.vertex = k
  nodup : ((repsOf h).map (fun r => c.vid r.vertex)).Nodup
  fresh : ∀ r ∈ repsOf h, c.vid r.vertex ∉ starts.map c.vid ∧ g.so.contains already (c.vid r.vertex) = false
  at_ : ∀ p ∈ G, NtdAt g c bp already starts s.preds s.labels p.1 p.2
  reps : ∀ r ∈ repsOf h, ∃ n, NtdAt g c bp already starts r.preds r.labels r.vertex (n + 1) ∧
    r.depth = if c.computeDepth then ((n + 1 : Nat) : Int) else -1
  done : ∀ v, (v ∈ starts ∨ ∃ r ∈ repsOf h, r.vertex = v) →
    v ∈ s.toExpand ∨ (∃ es, s.pc = .edges v es) ∨ bfsDone g c.toTravCfg s.visited v
  pcs : NtdPcInv g c bp already starts s
  getvis : bp → ∀ k, (g.mo.get? s.preds k).isSome → g.so.contains s.visited k = true
  keep : bp → ∀ r ∈ repsOf h, KeepsPath g c.toTravCfg starts r.preds r.labels s.preds s.labels r.vertex
  later : bp → (repsOf h).Pairwise
    (fun r r' => KeepsPath g c.toTravCfg starts r.preds r.labels r'.preds r'.labels r.vertex)

end

variable {g : TravGear V K L S M ML} {c : NtdCfg V K L} {bp : Prop} {already : S} {starts : List V}

theorem NtdAt.mono {pr pr' : M} {la la' : ML} {v : V} {n : Nat} (h : NtdAt g c bp already starts pr la v n)
    {k : K} (hk : bp → g.mo.get? pr k = none) (hg : bp → ∀ j, j ≠ k → g.mo.get? pr' j = g.mo.get? pr j)
    (hl : bp → ∀ j, j ≠ k → g.lo.get? la' j = g.lo.get? la j) : NtdAt g c bp already starts pr' la' v n :=
  ⟨h.walk, fun hb => (h.path hb).mono (hk hb) (hg hb) (hl hb)⟩

theorem ntd_inv_init (hg : g.so.Lawful) (ht : c.isTree = false) (hp : NtdPathsOk g c bp starts) :
    NtdInv g c bp already starts [] (ntdInit g c already starts : NtdState V L S M ML)
      (starts.reverse.map (fun v => (v, 0))) where
  stack := by simp [ntdInit, Function.comp_def]
  marks hd := by
    simp only [ntdInit, hd, if_true]
    have : (starts.reverse.map (fun v => (v, 0))).map Prod.snd = List.replicate starts.length 0 := by
      simp [Function.comp_def]
    rw [this]
    exact markOk_init _
  noDepth hd := by simp [ntdInit, hd]
  vis k := by
    simp only [ntdInit, ht, Bool.false_eq_true, if_false, hg.contains_addAll]
    simp only [Bool.or_eq_true, decide_eq_true_eq]
    simp
    exact or_comm
  nodup := by simp
  fresh r hr := by simp at hr
  at_ p hpm := by
    obtain ⟨v, hv, rfl⟩ := List.mem_map.1 hpm
    have hv := List.mem_reverse.1 hv
    refine ⟨.start hv, fun hb => ?_⟩
    obtain ⟨h1, vV, vL, hst⟩ := hp hb
    simp only [ntdInit, h1, if_true]
    exact starts_stored hst hv
  reps r hr := by simp at hr
  done v hv := by
    rcases hv with hv | ⟨r, hr, -⟩
    · exact .inl (by simpa [ntdInit] using hv)
    · simp at hr
  pcs := trivial
  getvis hb k hk := by
    obtain ⟨h1, vV, vL, hst⟩ := hp hb
    simp only [ntdInit, h1, if_true] at hk
    rcases get_starts_isSome g.mo hst.mo c.vid starts (fun v hv => hst.verts v (.start hv)) _ k hk with h | h
    · simp only [ntdInit, ht, Bool.false_eq_true, if_false, hg.contains_addAll]
      simp [h]
    · rw [hst.mo.get_empty] at h; simp at h
  keep _ r hr := by simp at hr
  later _ := by simp

theorem ntd_inv_step (hg : g.so.Lawful) (ht : c.isTree = false) (hp : NtdPathsOk g c bp starts)
    {h : List (Ev (NtdReport V S M ML))} {s : NtdState V L S M ML} {G : List (V × Nat)}
    (inv : NtdInv g c bp already starts h s G) :
    match ntdStep g c s with
    | .stop s' => s' = s ∧ s.pc = .loop ∧ s.toExpand = []
    | .fail _ => False
    | .tau s' => NtdInv g c bp already starts h s' G
    | .emit r s' => ∃ G', NtdInv g c bp already starts (h ++ [.rep r]) s' G'
    | .expand s' => ∃ G', NtdInv g c bp already starts (h ++ [.exp]) s' G' := by
  have hpc := inv.pcs
  unfold NtdPcInv at hpc
  cases hs : s.pc with
  | loop =>
    cases hte : s.toExpand with
    | nil => simp only [ntdStep, hs, hte]; exact ⟨trivial, trivial, trivial⟩
    | cons v rest =>
      obtain ⟨n, G', rfl, hG'⟩ : ∃ n G', G = (v, n) :: G' ∧ rest = G'.map Prod.fst := by
        have := inv.stack
        rw [hte] at this
        cases G with
        | nil => simp at this
        | cons a G' => exact ⟨a.2, G', by simp at this; rw [this.1], by simpa using (by simpa using this : _ ∧ _).2⟩
      have hat := inv.at_ _ List.mem_cons_self
      have hdone : ∀ w, (w ∈ starts ∨ ∃ r ∈ repsOf (h ++ [.exp]), r.vertex = w) →
          w ∈ rest ∨ (∃ es, NtdPc.edges v (c.next v) = NtdPc.edges w es) ∨ bfsDone g c.toTravCfg s.visited w := by
        intro w hw
        rcases inv.done w (by simpa using hw) with h1 | ⟨es, h1⟩ | h1
        · rw [hte] at h1
          rcases List.mem_cons.1 h1 with rfl | h1
          · exact .inr (.inl ⟨_, rfl⟩)
          · exact .inl h1
        · rw [hs] at h1; simp at h1
        · exact .inr (.inr h1)
      by_cases hd : c.computeDepth = true
      · obtain ⟨ms', h1, h2⟩ := (inv.marks hd).pop
        simp only [ntdStep, hs, hte, hd, if_true, h1]
        refine ⟨G', {
          stack := hG', marks := fun _ => h2, noDepth := (fun h => absurd hd (by simp [h])),
          vis := fun k => by simpa using inv.vis k, nodup := by simpa using inv.nodup,
          fresh := fun r hr => inv.fresh r (by simpa using hr),
          at_ := fun p hpm => inv.at_ p (List.mem_cons_of_mem _ hpm),
          reps := fun r hr => inv.reps r (by simpa using hr), done := hdone,
          pcs := ⟨fun e he => he, fun e he => .inl he, n, hat, fun _ => ⟨rfl, rfl⟩⟩,
          getvis := inv.getvis, keep := fun hb r hr => inv.keep hb r (by simpa using hr),
          later := fun hb => by simpa using inv.later hb }⟩
      · have hd : c.computeDepth = false := by simpa using hd
        simp only [ntdStep, hs, hte, hd, Bool.false_eq_true, if_false]
        refine ⟨G', {
          stack := hG', marks := fun h => absurd h (by simp [hd]), noDepth := inv.noDepth,
          vis := fun k => by simpa using inv.vis k, nodup := by simpa using inv.nodup,
          fresh := fun r hr => inv.fresh r (by simpa using hr),
          at_ := fun p hpm => inv.at_ p (List.mem_cons_of_mem _ hpm),
          reps := fun r hr => inv.reps r (by simpa using hr), done := hdone,
          pcs := ⟨fun e he => he, fun e he => .inl he, n, hat, fun h => absurd h (by simp [hd])⟩,
          getvis := inv.getvis, keep := fun hb r hr => inv.keep hb r (by simpa using hr),
          later := fun hb => by simpa using inv.later hb }⟩
  | edges u es =>
    rw [hs] at hpc
    obtain ⟨hsub, hseen, n, hat, hdep⟩ := hpc
    cases es with
    | nil =>
      simp only [ntdStep, hs]
      refine { inv with done := fun v hv => ?_, pcs := trivial }
      rcases inv.done v hv with h1 | ⟨es, h1⟩ | h1
      · exact .inl h1
      · rw [hs] at h1
        simp only [NtdPc.edges.injEq] at h1
        obtain ⟨rfl, -⟩ := h1
        refine .inr (.inr ?_)
        rintro w ⟨l, hw⟩
        rcases hseen _ hw with h2 | h2
        · simp at h2
        · exact h2
      · exact .inr (.inr h1)
    | cons e es =>
      have hmem := hsub e List.mem_cons_self
      cases hv : bfsVisit g c.isTree c.buildPaths c.vid s.visited s.preds s.labels u e with
      | none =>
        simp only [ntdStep, hs, hv]
        rw [ht] at hv
        have hcon := bfsVisit_none hg hv
        refine { inv with done := fun v hv => ?_, pcs := ?_ }
        · rcases inv.done v hv with h1 | ⟨es', h1⟩ | h1
          · exact .inl h1
          · rw [hs] at h1
            simp only [NtdPc.edges.injEq] at h1
            obtain ⟨rfl, -⟩ := h1
            exact .inr (.inl ⟨_, rfl⟩)
          · exact .inr (.inr h1)
        · refine ⟨fun e' he' => hsub e' (List.mem_cons_of_mem _ he'), fun e' he' => ?_, n, hat, hdep⟩
          rcases hseen e' he' with h1 | h1
          · rcases List.mem_cons.1 h1 with rfl | h1
            · exact .inr hcon
            · exact .inl h1
          · exact .inr h1
      | some t =>
        obtain ⟨vis, pr, la⟩ := t
        simp only [ntdStep, hs, hv]
        rw [ht] at hv
        obtain ⟨hnew, hvis', hset⟩ := bfsVisit_some hg hv
        have hnot : ¬ (g.so.contains already (c.vid e.1) = true ∨ c.vid e.1 ∈ starts.map c.vid ∨
            ∃ r ∈ repsOf h, c.vid r.vertex = c.vid e.1) := fun hh => by
          rw [← inv.vis, hnew] at hh; simp at hh
        have hu : Reachable (Edge c.next) (· ∈ starts) u := Reachable.mono (fun _ _ h => h.1) ⟨n, hat.walk⟩
        have hmono : ∀ k, g.so.contains s.visited k = true → g.so.contains vis k = true := by
          intro k hk; rw [hvis', hk]; simp
        have hnone : bp → g.mo.get? s.preds (c.vid e.1) = none := by
          intro hb
          cases hg' : g.mo.get? s.preds (c.vid e.1) with
          | none => rfl
          | some x =>
            have := inv.getvis hb (c.vid e.1) (by rw [hg']; rfl)
            rw [hnew] at this; simp at this
        have hg2 : bp → ∀ j, g.mo.get? pr j = if j = c.vid e.1 then some u else g.mo.get? s.preds j := by
          intro hb j
          obtain ⟨h1, vV, vL, hst⟩ := hp hb
          rw [(hset h1).1, hst.mo.get_set _ _ _ _ (hst.verts u hu)]
        have hl2 : bp → ∀ j, g.lo.get? la j = if j = c.vid e.1 then some e.2 else g.lo.get? s.labels j := by
          intro hb j
          obtain ⟨h1, vV, vL, hst⟩ := hp hb
          rw [(hset h1).2, hst.lo.get_set _ _ _ _ (hst.labs u e hu hmem)]
        have hg3 : bp → ∀ j, j ≠ c.vid e.1 → g.mo.get? pr j = g.mo.get? s.preds j :=
          fun hb j hj => by rw [hg2 hb, if_neg hj]
        have hl3 : bp → ∀ j, j ≠ c.vid e.1 → g.lo.get? la j = g.lo.get? s.labels j :=
          fun hb j hj => by rw [hl2 hb, if_neg hj]
        have hnewAt : NtdAt g c bp already starts pr la e.1 (n + 1) := by
          refine ⟨.step hat.walk ⟨⟨e.2, hmem⟩, fun hh => hnot (.inl hh)⟩, fun hb => ?_⟩
          obtain ⟨p, hp1, hp2⟩ := hat.path hb
          refine ⟨p.snoc e.1 e.2, ?_, hp2.extend hmem (hnone hb) (hg2 hb) (hl2 hb)⟩
          simp [SPath.snoc]; omega
        refine ⟨(e.1, n + 1) :: G, {
          stack := by simp [inv.stack], marks := fun hd => ?_, noDepth := inv.noDepth,
          vis := fun k => ?_, nodup := ?_, fresh := fun r hr => ?_, at_ := fun p hpm => ?_, reps := fun r hr => ?_,
          done := fun v hv => ?_, pcs := ?_, getvis := fun hb k hk => ?_, keep := fun hb r hr => ?_,
          later := fun hb => ?_ }⟩
        · simp only [hd, if_true, List.map_cons]
          refine ⟨?_, inv.marks hd⟩
          simp only [(hdep hd).1]
          push_cast; rfl
        · simp only [hvis', repsOf_append, repsOf_rep, repsOf_nil, List.mem_append, List.mem_singleton,
            Bool.or_eq_true, decide_eq_true_eq, inv.vis k]
          constructor
          · rintro (rfl | h1 | h1 | ⟨r, h1, h2⟩)
            · exact .inr (.inr ⟨_, .inr rfl, rfl⟩)
            · exact .inl h1
            · exact .inr (.inl h1)
            · exact .inr (.inr ⟨r, .inl h1, h2⟩)
          · rintro (h1 | h1 | ⟨r, h1 | rfl, h2⟩)
            · exact .inr (.inl h1)
            · exact .inr (.inr (.inl h1))
            · exact .inr (.inr (.inr ⟨r, h1, h2⟩))
            · exact .inl h2.symm
        · simp only [repsOf_append, repsOf_rep, repsOf_nil, List.map_append, List.map_cons, List.map_nil]
          rw [List.nodup_append]
          refine ⟨inv.nodup, by simp, ?_⟩
          rintro a ha b hb rfl
          simp only [List.mem_singleton] at hb
          obtain ⟨r, hr, h2⟩ := List.mem_map.1 ha
          exact hnot (.inr (.inr ⟨r, hr, h2.trans hb⟩))
        · simp only [repsOf_append, repsOf_rep, repsOf_nil, List.mem_append, List.mem_singleton] at hr
          rcases hr with hr | rfl
          · exact inv.fresh r hr
          · exact ⟨fun hh => hnot (.inr (.inl hh)), by
              have : ¬ g.so.contains already (c.vid e.1) = true := fun hh => hnot (.inl hh)
              simpa using this⟩
        · rcases List.mem_cons.1 hpm with rfl | hpm
          · exact hnewAt
          · exact (inv.at_ p hpm).mono hnone hg3 hl3
        · simp only [repsOf_append, repsOf_rep, repsOf_nil, List.mem_append, List.mem_singleton] at hr
          rcases hr with hr | rfl
          · exact inv.reps r hr
          · refine ⟨n, hnewAt, ?_⟩
            by_cases hd : c.computeDepth = true
            · simp only [hd, if_true, (hdep hd).2]; push_cast; rfl
            · have hd : c.computeDepth = false := by simpa using hd
              simp only [hd, Bool.false_eq_true, if_false, inv.noDepth hd]
        · simp only [repsOf_append, repsOf_rep, repsOf_nil, List.mem_append, List.mem_singleton] at hv
          have hv' : (v ∈ starts ∨ ∃ r ∈ repsOf h, r.vertex = v) ∨ v = e.1 := by
            rcases hv with hv | ⟨r, hr | rfl, hv⟩
            · exact .inl (.inl hv)
            · exact .inl (.inr ⟨r, hr, hv⟩)
            · exact .inr hv.symm
          rcases hv' with hv' | rfl
          · rcases inv.done v hv' with h1 | ⟨es', h1⟩ | h1
            · exact .inl (List.mem_cons_of_mem _ h1)
            · rw [hs] at h1
              simp only [NtdPc.edges.injEq] at h1
              obtain ⟨rfl, -⟩ := h1
              exact .inr (.inl ⟨_, rfl⟩)
            · exact .inr (.inr (h1.mono hmono))
          · exact .inl List.mem_cons_self
        · refine ⟨fun e' he' => hsub e' (List.mem_cons_of_mem _ he'), fun e' he' => ?_, n,
            hat.mono hnone hg3 hl3, hdep⟩
          rcases hseen e' he' with h1 | h1
          · rcases List.mem_cons.1 h1 with rfl | h1
            · exact .inr (by simp [hvis'])
            · exact .inl h1
          · exact .inr (hmono _ h1)
        · simp only at hk ⊢
          rw [hg2 hb] at hk
          rw [hvis']
          by_cases e' : k = c.vid e.1
          · simp [e']
          · rw [if_neg e'] at hk
            simp [inv.getvis hb k hk]
        · simp only [repsOf_append, repsOf_rep, repsOf_nil, List.mem_append, List.mem_singleton] at hr
          rcases hr with hr | rfl
          · exact (inv.keep hb r hr).mono (hnone hb) (hg3 hb) (hl3 hb)
          · exact fun p hp => hp
        · simp only [repsOf_append, repsOf_rep, repsOf_nil]
          rw [List.pairwise_append]
          refine ⟨inv.later hb, by simp, fun r hr r' hr' => ?_⟩
          simp only [List.mem_singleton] at hr'
          subst hr'
          exact (inv.keep hb r hr).mono (hnone hb) (hg3 hb) (hl3 hb)

theorem ntd_inv (hg : g.so.Lawful) (ht : c.isTree = false) (hp : NtdPathsOk g c bp starts)
    {h : List (Ev (NtdReport V S M ML))} {s : NtdState V L S M ML}
    (hr : Reaches (ntdStep g c) (ntdInit g c already starts) h s) :
    ∃ G, NtdInv g c bp already starts h s G := by
  refine Reaches.invariant (fun h s => ∃ G, NtdInv g c bp already starts h s G) ⟨_, ntd_inv_init hg ht hp⟩
    ?_ ?_ ?_ hr
  · rintro h s s' ⟨G, inv⟩ hs
    have := ntd_inv_step hg ht hp inv
    rw [hs] at this
    exact ⟨G, this⟩
  · rintro h s r s' ⟨G, inv⟩ hs
    have := ntd_inv_step hg ht hp inv
    rwa [hs] at this
  · rintro h s s' ⟨G, inv⟩ hs
    have := ntd_inv_step hg ht hp inv
    rwa [hs] at this

theorem ntdPathsOk_false : NtdPathsOk g c False starts := fun h => h.elim

/-- When the traversal stops, everything reachable has been reported. -/
theorem ntd_stop_complete (hg : g.so.Lawful) (ht : c.isTree = false) (hc : Compat (Edge c.next) c.vid)
    {h : List (Ev (NtdReport V S M ML))} {s t : NtdState V L S M ML}
    (hr : Reaches (ntdStep g c) (ntdInit g c already starts) h s) (hs : ntdStep g c s = .stop t) :
    t = s ∧ ∀ v, Reachable (bfsE g c.toTravCfg already) (· ∈ starts) v →
      c.vid v ∈ starts.map c.vid ∨ ∃ r ∈ repsOf h, c.vid r.vertex = c.vid v := by
  obtain ⟨G, inv⟩ := ntd_inv (bp := False) hg ht ntdPathsOk_false hr
  have hst := ntd_inv_step hg ht ntdPathsOk_false inv
  rw [hs] at hst
  obtain ⟨rfl, h2, h3⟩ := hst
  refine ⟨rfl, fun v hv => ?_⟩
  obtain ⟨v', e, hv'⟩ : ∃ v', c.vid v' = c.vid v ∧ (v' ∈ starts ∨ ∃ r ∈ repsOf h, r.vertex = v') := by
    refine Reachable.induct (P := fun v => ∃ v', c.vid v' = c.vid v ∧ (v' ∈ starts ∨ ∃ r ∈ repsOf h, r.vertex = v'))
      (fun v hv => ⟨v, rfl, .inl hv⟩) ?_ hv
    rintro u w - ⟨u', e, hu'⟩ huw
    obtain ⟨w', he', hw'⟩ := Allowed.compat (excl := fun k => g.so.contains already k = true) hc u u' w e.symm huw
    have hd : bfsDone g c.toTravCfg t.visited u' := by
      rcases inv.done u' hu' with h1 | ⟨es, h1⟩ | h1
      · rw [h3] at h1; simp at h1
      · rw [h2] at h1; simp at h1
      · exact h1
    rcases (inv.vis _).1 (hd w' he'.1) with h1 | h1 | ⟨r, h1, h4⟩
    · exact absurd h1 he'.2
    · obtain ⟨x, hx, hxe⟩ := List.mem_map.1 h1
      exact ⟨x, hxe.trans hw', .inl hx⟩
    · exact ⟨r.vertex, h4.trans hw', .inr ⟨r, h1, rfl⟩⟩
  rcases hv' with hv' | ⟨r, hr', rfl⟩
  · exact .inl (List.mem_map.2 ⟨v', hv', e⟩)
  · exact .inr ⟨r, hr', e⟩

theorem ntd_no_fail (hg : g.so.Lawful) (ht : c.isTree = false) {h : List (Ev (NtdReport V S M ML))}
    {s : NtdState V L S M ML} (hr : Reaches (ntdStep g c) (ntdInit g c already starts) h s) (e : PyErr) :
    ntdStep g c s ≠ .fail e := by
  intro he
  obtain ⟨G, inv⟩ := ntd_inv (bp := False) hg ht ntdPathsOk_false hr
  have hst := ntd_inv_step hg ht ntdPathsOk_false inv
  rw [he] at hst
  exact hst

/-- The measure for termination. -/
def ntdMeasure (g : TravGear V K L S M ML) (ids : List K) (s : NtdState V L S M ML) : Nat × Nat × Nat × Nat :=
  ((ids.filter (fun k => !g.so.contains s.visited k)).length, s.toExpand.length,
    (match s.pc with | .loop => 0 | .edges _ es => 1 + es.length), 0)

theorem ntd_terminates (hg : g.so.Lawful) (ht : c.isTree = false)
    (hfin : FinitelyReachable (bfsE g c.toTravCfg already) (· ∈ starts) c.vid) :
    ∃ N, ∀ fuel, N ≤ fuel → ∀ lim,
      (runMachine (ntdStep g c) fuel lim (ntdInit g c already starts : NtdState V L S M ML)).ending ≠
        .outOfFuel := by
  obtain ⟨ids, hids⟩ := hfin
  refine run_terminates_reach _ lex4 lex4_wf (ntdMeasure g ids) _ ?_
  intro h s s' hr hs
  obtain ⟨G, inv⟩ := ntd_inv (bp := False) hg ht ntdPathsOk_false hr
  have hpc := inv.pcs
  unfold NtdPcInv at hpc
  unfold ntdMeasure
  rw [lex4_iff]
  cases hp : s.pc with
  | loop =>
    cases hte : s.toExpand with
    | nil => simp [ntdStep, hp, hte, Step.next?] at hs
    | cons v rest =>
      simp only [ntdStep, hp, hte] at hs
      split at hs
      · split at hs
        · simp [Step.next?] at hs
        · simp only [Step.next?, Option.some.injEq] at hs
          subst hs
          right; refine ⟨rfl, .inl ?_⟩
          simp
      · simp only [Step.next?, Option.some.injEq] at hs
        subst hs
        right; refine ⟨rfl, .inl ?_⟩
        simp
  | edges u es =>
    rw [hp] at hpc
    cases es with
    | nil =>
      simp only [ntdStep, hp, Step.next?, Option.some.injEq] at hs
      subst hs
      right; refine ⟨rfl, .inr ⟨rfl, .inl ?_⟩⟩
      simp
    | cons e es =>
      cases hv : bfsVisit g c.isTree c.buildPaths c.vid s.visited s.preds s.labels u e with
      | none =>
        simp only [ntdStep, hp, hv, Step.next?, Option.some.injEq] at hs
        subst hs
        right; refine ⟨rfl, .inr ⟨rfl, .inl ?_⟩⟩
        simp
      | some t =>
        obtain ⟨vis, pr, la⟩ := t
        simp only [ntdStep, hp, hv, Step.next?, Option.some.injEq] at hs
        subst hs
        rw [ht] at hv
        obtain ⟨hnew, hvis', -⟩ := bfsVisit_some hg hv
        left
        obtain ⟨hsub, -, n, hat, -⟩ := hpc
        refine filter_not_lt ids (g.so.contains s.visited) (g.so.contains vis) ?_ (k := c.vid e.1) ?_ hnew ?_
        · intro j hj; rw [hvis', hj]; simp
        · apply hids
          have hnot : ¬ g.so.contains already (c.vid e.1) = true := by
            intro ha
            have := (inv.vis (c.vid e.1)).2 (.inl ha)
            rw [hnew] at this; simp at this
          exact ⟨n + 1, .step hat.walk ⟨⟨e.2, hsub e List.mem_cons_self⟩, hnot⟩⟩
        · rw [hvis']; simp

end NoGraphs
