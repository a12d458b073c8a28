import Verif.Model.Bfs
import Verif.Proofs.Machine
import Verif.Proofs.Gear
import Verif.Proofs.Walks

/-! Invariants of breadth-first search. -/

set_option linter.unusedSectionVars false

namespace NoGraphs

open Spec

variable {V K L S M ML : Type} [DecidableEq V] [DecidableEq K]

theorem Spec.Allowed.compat {next : V → List (V × L)} {vid : V → K} {excl : K → Prop}
    (h : Compat (Edge next) vid) : Compat (Allowed next vid excl) vid := by
  intro u u' v e hE
  obtain ⟨v', h1, h2⟩ := h u u' v e hE.1
  exact ⟨v', ⟨h1, h2 ▸ hE.2⟩, h2⟩

theorem bfsVisit_none {g : TravGear V K L S M ML} (hg : g.so.Lawful) {bp : Bool} {vid : V → K} {s : S}
    {m : M} {ml : ML} {v : V} {e : V × L} (h : bfsVisit g false bp vid s m ml v e = none) :
    g.so.contains s (vid e.1) = true := by
  unfold bfsVisit at h
  simp only [hg.checkAdd_fst, Bool.false_eq_true, if_false] at h
  by_cases hc : g.so.contains s (vid e.1) = true
  · exact hc
  · rw [if_neg hc] at h; split at h <;> simp at h

theorem bfsVisit_some {g : TravGear V K L S M ML} (hg : g.so.Lawful) {bp : Bool} {vid : V → K} {s vis : S}
    {m pr : M} {ml la : ML} {v : V} {e : V × L}
    (h : bfsVisit g false bp vid s m ml v e = some (vis, pr, la)) :
    g.so.contains s (vid e.1) = false ∧
    (∀ j, g.so.contains vis j = (decide (j = vid e.1) || g.so.contains s j)) ∧
    (bp = true → pr = g.mo.set m (vid e.1) v ∧ la = g.lo.set ml (vid e.1) e.2) := by
  unfold bfsVisit at h
  simp only [hg.checkAdd_fst, Bool.false_eq_true, if_false] at h
  by_cases hc : g.so.contains s (vid e.1) = true
  · rw [if_pos hc] at h; simp at h
  · rw [if_neg hc] at h
    refine ⟨by simpa using hc, ?_, ?_⟩
    · have : vis = (g.so.checkAdd s (vid e.1)).2 := by
        split at h <;> simp at h <;> exact h.1.symm
      rw [this]; exact hg.contains_checkAdd s (vid e.1)
    · intro hb
      rw [if_pos hb] at h
      simp at h
      exact ⟨h.2.1.symm, h.2.2.symm⟩

section

variable (g : TravGear V K L S M ML) (c : TravCfg V K L) (already : S) (starts : List V)

/-- The edges that a traversal with the given already visited ids follows. -/
abbrev bfsE : V → V → Prop :=
  Allowed c.next c.vid (fun k => g.so.contains already k = true)

/-- All out-edges of `v` lead to visited ids. -/
def bfsDone (vis : S) (v : V) : Prop := ∀ w, Edge c.next v w → g.so.contains vis (c.vid w) = true

/-- The invariant that depends on the program counter. -/
def BfsPcInv (s : BfsState V L S M ML) (n : Nat) : Prop :=
  let D := fun v => IsDepth (bfsE g c already) (· ∈ starts) c.vid v n
  match s.pc with
  | .check => s.nextToExpand = [] ∧ ∀ v, D v → c.vid v ∈ s.toExpand.map c.vid
  | .loop => ∀ v, D v → c.vid v ∈ s.toExpand.map c.vid ∨ bfsDone g c s.visited v
  | .edges u es => D u ∧ (∀ e ∈ es, e ∈ c.next u) ∧
      (∀ e ∈ c.next u, e ∈ es ∨ g.so.contains s.visited (c.vid e.1) = true) ∧
      ∀ v, D v → c.vid v ∈ s.toExpand.map c.vid ∨ c.vid v = c.vid u ∨ bfsDone g c s.visited v
  | .levelEnd => s.toExpand = [] ∧ ∀ v, D v → bfsDone g c s.visited v

/-- The main invariant of breadth-first search. -/
structure BfsInv (h : List (Ev (BfsReport V S M ML))) (s : BfsState V L S M ML) (n : Nat) : Prop where
  depth : s.depth = n + 1
  vis : ∀ k, g.so.contains s.visited k = true ↔
    g.so.contains already k = true ∨
    (∃ m v, m ≤ n ∧ WalkN (bfsE g c already) (· ∈ starts) m v ∧ c.vid v = k) ∨
    ∃ w ∈ s.nextToExpand, c.vid w = k
  exp : ∀ v ∈ s.toExpand, IsDepth (bfsE g c already) (· ∈ starts) c.vid v n
  nxt : ∀ w ∈ s.nextToExpand, IsDepth (bfsE g c already) (· ∈ starts) c.vid w (n + 1)
  pcInv : BfsPcInv g c already starts s n
  reps : ∀ r ∈ repsOf h, ∃ d : Nat, r.depth = d ∧ 0 < d ∧ d ≤ n + 1 ∧
    IsDepth (bfsE g c already) (· ∈ starts) c.vid r.vertex d ∧
    g.so.contains s.visited (c.vid r.vertex) = true
  cover : ∀ k, g.so.contains s.visited k = true →
    g.so.contains already k = true ∨ k ∈ starts.map c.vid ∨ ∃ r ∈ repsOf h, c.vid r.vertex = k
  nodup : ((repsOf h).map (fun r => c.vid r.vertex)).Nodup
  sorted : ((repsOf h).map (fun r => r.depth)).Pairwise (· ≤ ·)

variable {g c already starts}

theorem BfsInv.init (hg : g.so.Lawful) (ht : c.isTree = false) :
    BfsInv g c already starts [] (bfsInit g c already starts : BfsState V L S M ML) 0 := by
  constructor
  · rfl
  · intro k
    simp only [bfsInit, ht, Bool.false_eq_true, if_false, hg.contains_addAll]
    simp only [Bool.or_eq_true, decide_eq_true_eq, List.mem_map, List.not_mem_nil, false_and,
      exists_false, or_false]
    constructor
    · rintro (⟨v, hv, rfl⟩ | h)
      · exact .inr ⟨0, v, Nat.le_refl 0, .start hv, rfl⟩
      · exact .inl h
    · rintro (h | ⟨m, v, hm, hw, rfl⟩)
      · exact .inr h
      · have : m = 0 := by omega
        subst this
        cases hw with
        | start hs => exact .inl ⟨v, hs, rfl⟩
  · intro v hv
    exact ⟨.start hv, fun m _ _ _ => Nat.zero_le m⟩
  · intro w hw; simp [bfsInit] at hw
  · refine ⟨rfl, fun v hv => ?_⟩
    cases hv.1 with
    | start hs => exact List.mem_map.2 ⟨v, hs, rfl⟩
  · intro r hr; simp at hr
  · intro k hk
    simp only [bfsInit, ht, Bool.false_eq_true, if_false, hg.contains_addAll] at hk
    simp only [Bool.or_eq_true, decide_eq_true_eq] at hk
    rcases hk with h | h
    · exact .inr (.inl h)
    · exact .inl h
  · simp
  · simp

theorem bfsDone.mono {vis vis' : S} {v : V} (h : bfsDone g c vis v)
    (hm : ∀ k, g.so.contains vis k = true → g.so.contains vis' k = true) : bfsDone g c vis' v :=
  fun w hw => hm _ (h w hw)

theorem bfs_inv (hg : g.so.Lawful) (ht : c.isTree = false) (hc : Compat (Edge c.next) c.vid)
    {h : List (Ev (BfsReport V S M ML))} {s : BfsState V L S M ML}
    (hr : Reaches (bfsStep g c false) (bfsInit g c already starts) h s) :
    ∃ n, BfsInv g c already starts h s n := by
  refine Reaches.invariant (fun h s => ∃ n, BfsInv g c already starts h s n) ⟨0, .init hg ht⟩ ?_ ?_ ?_ hr
  · -- internal steps
    rintro h s s' ⟨n, inv⟩ hs
    have hpc := inv.pcInv
    unfold BfsPcInv at hpc
    unfold bfsStep at hs
    split at hs
    · -- check
      rename_i hp
      rw [hp] at hpc
      split at hs
      · simp at hs
      · simp only [Step.tau.injEq] at hs
        subst hs
        refine ⟨n, inv.depth, inv.vis, inv.exp, inv.nxt, ?_, inv.reps, inv.cover, inv.nodup, inv.sorted⟩
        intro v hv
        exact .inl (hpc.2 v hv)
    · -- loop
      rename_i hp
      rw [hp] at hpc
      split at hs
      · simp at hs
      · rename_i ht0
        split at hs
        · contradiction
        · simp only [Step.tau.injEq] at hs
          subst hs
          refine ⟨n, inv.depth, inv.vis, inv.exp, inv.nxt, ?_, inv.reps, inv.cover, inv.nodup, inv.sorted⟩
          refine ⟨ht0, fun v hv => ?_⟩
          rcases hpc v hv with h | h
          · rw [ht0] at h; simp at h
          · exact h
    · -- edges []
      rename_i u hp
      rw [hp] at hpc
      simp only [Step.tau.injEq] at hs
      subst hs
      refine ⟨n, inv.depth, inv.vis, inv.exp, inv.nxt, ?_, inv.reps, inv.cover, inv.nodup, inv.sorted⟩
      intro v hv
      rcases hpc.2.2.2 v hv with h | h | h
      · exact .inl h
      · right
        intro w hw
        obtain ⟨w', ⟨l, hw'⟩, he⟩ := hc v u w h hw
        rcases hpc.2.2.1 _ hw' with h | h
        · simp at h
        · rw [← he]; exact h
      · exact .inr h
    · -- edges (e :: es), neighbor visited
      rename_i u e es hp
      rw [hp] at hpc
      split at hs
      · rename_i hv
        rw [ht] at hv
        have hcon := bfsVisit_none hg hv
        simp only [Step.tau.injEq] at hs
        subst hs
        refine ⟨n, inv.depth, inv.vis, inv.exp, inv.nxt, ?_, inv.reps, inv.cover, inv.nodup, inv.sorted⟩
        refine ⟨hpc.1, fun e' he' => hpc.2.1 e' (List.mem_cons_of_mem _ he'), fun e' he' => ?_, hpc.2.2.2⟩
        rcases hpc.2.2.1 e' he' with h | h
        · rcases List.mem_cons.1 h with rfl | h
          · exact .inr hcon
          · exact .inl h
        · exact .inr h
      · simp at hs
    · -- levelEnd
      rename_i hp
      rw [hp] at hpc
      simp only [Step.tau.injEq] at hs
      subst hs
      have hcomp := Allowed.compat (excl := fun k => g.so.contains already k = true) hc
      have hvis : ∀ m v, m ≤ n + 1 → WalkN (bfsE g c already) (· ∈ starts) m v →
          (∃ m v', m ≤ n ∧ WalkN (bfsE g c already) (· ∈ starts) m v' ∧ c.vid v' = c.vid v) ∨
            ∃ w ∈ s.nextToExpand, c.vid w = c.vid v := by
        intro m v hm hw
        by_cases hmn : m ≤ n
        · exact .inl ⟨m, v, hmn, hw, rfl⟩
        · cases hw with
          | start hs => exact absurd (Nat.zero_le n) hmn
          | @step k u _ hu he =>
            have hk : k = n := by omega
            subst hk
            obtain ⟨d, u', hu', hd, hD⟩ := exists_isDepth (vid := c.vid) hu
            obtain ⟨v', he', hv'⟩ := hcomp u u' v hu'.symm he
            by_cases hdn : d = k
            · subst hdn
              have := hpc.2 u' hD v' he'.1
              rcases (inv.vis _).1 this with h | h | h
              · exact absurd h he'.2
              · rw [hv'] at h; exact .inl h
              · rw [hv'] at h; exact .inr h
            · exact .inl ⟨d + 1, v', by omega, .step hD.1 he', hv'⟩
      refine ⟨n + 1, ?_, ?_, ?_, ?_, ?_, ?_, inv.cover, inv.nodup, inv.sorted⟩
      · have := inv.depth; simp only [this]; omega
      · intro k
        simp only [List.not_mem_nil, false_and, exists_false, or_false]
        rw [inv.vis k]
        constructor
        · rintro (h | ⟨m, v, hm, hw, e⟩ | ⟨w, hw, e⟩)
          · exact .inl h
          · exact .inr ⟨m, v, by omega, hw, e⟩
          · exact .inr ⟨n + 1, w, by omega, (inv.nxt w hw).1, e⟩
        · rintro (h | ⟨m, v, hm, hw, rfl⟩)
          · exact .inl h
          · exact .inr (hvis m v hm hw)
      · intro v hv; exact inv.nxt v hv
      · intro w hw; simp at hw
      · refine ⟨rfl, fun v hv => ?_⟩
        rcases hvis (n + 1) v (Nat.le_refl _) hv.1 with ⟨m, v', hm, hw, e⟩ | ⟨w, hw, e⟩
        · have := hv.2 m v' hw e
          omega
        · exact List.mem_map.2 ⟨w, hw, e⟩
      · intro r hr
        obtain ⟨d, h1, h2, h3, h4⟩ := inv.reps r hr
        exact ⟨d, h1, h2, by omega, h4⟩
  · -- reports
    rintro h s r s' ⟨n, inv⟩ hs
    have hpc := inv.pcInv
    unfold BfsPcInv at hpc
    unfold bfsStep at hs
    split at hs
    · split at hs <;> simp at hs
    · split at hs
      · simp at hs
      · split at hs
        · contradiction
        · simp at hs
    · simp at hs
    · rename_i u e es hp
      rw [hp] at hpc
      split at hs
      · simp at hs
      · rename_i vis pr la hv
        rw [ht] at hv
        obtain ⟨hnew, hvis', -⟩ := bfsVisit_some hg hv
        simp only [Step.emit.injEq] at hs
        obtain ⟨rfl, rfl⟩ := hs
        have hmono : ∀ k, g.so.contains s.visited k = true → g.so.contains vis k = true := by
          intro k hk; rw [hvis', hk]; simp
        have hnot : ¬ g.so.contains already (c.vid e.1) = true := by
          intro ha
          have := (inv.vis (c.vid e.1)).2 (.inl ha)
          rw [hnew] at this; simp at this
        have hwalk : WalkN (bfsE g c already) (· ∈ starts) (n + 1) e.1 :=
          .step hpc.1.1 ⟨⟨e.2, hpc.2.1 e List.mem_cons_self⟩, hnot⟩
        have hD : IsDepth (bfsE g c already) (· ∈ starts) c.vid e.1 (n + 1) := by
          refine ⟨hwalk, fun m v' hw hv' => ?_⟩
          by_contra hlt
          have := (inv.vis (c.vid e.1)).2 (.inr (.inl ⟨m, v', by omega, hw, hv'⟩))
          rw [hnew] at this; simp at this
        have hself : g.so.contains vis (c.vid e.1) = true := by rw [hvis']; simp
        refine ⟨n, inv.depth, ?_, inv.exp, ?_, ?_, ?_, ?_, ?_, ?_⟩
        · intro k
          simp only [hvis', Bool.or_eq_true, decide_eq_true_eq, List.mem_append, List.mem_singleton]
          rw [inv.vis k]
          constructor
          · rintro (rfl | h | h | ⟨w, hw, e'⟩)
            · exact .inr (.inr ⟨e.1, .inr rfl, rfl⟩)
            · exact .inl h
            · exact .inr (.inl h)
            · exact .inr (.inr ⟨w, .inl hw, e'⟩)
          · rintro (h | h | ⟨w, hw | rfl, e'⟩)
            · exact .inr (.inl h)
            · exact .inr (.inr (.inl h))
            · exact .inr (.inr (.inr ⟨w, hw, e'⟩))
            · exact .inl e'.symm
        · intro w hw
          rcases List.mem_append.1 hw with hw | hw
          · exact inv.nxt w hw
          · simp only [List.mem_singleton] at hw; subst hw; exact hD
        · refine ⟨hpc.1, fun e' he' => hpc.2.1 e' (List.mem_cons_of_mem _ he'), fun e' he' => ?_,
            fun v hv => ?_⟩
          · rcases hpc.2.2.1 e' he' with h | h
            · rcases List.mem_cons.1 h with rfl | h
              · exact .inr hself
              · exact .inl h
            · exact .inr (hmono _ h)
          · rcases hpc.2.2.2 v hv with h | h | h
            · exact .inl h
            · exact .inr (.inl h)
            · exact .inr (.inr (h.mono hmono))
        · intro r hr
          simp only [repsOf_append, repsOf_rep, repsOf_nil, List.mem_append, List.mem_singleton] at hr
          rcases hr with hr | rfl
          · obtain ⟨d, h1, h2, h3, h4, h5⟩ := inv.reps r hr
            exact ⟨d, h1, h2, h3, h4, hmono _ h5⟩
          · exact ⟨n + 1, by simp [inv.depth], by omega, Nat.le_refl _, hD, hself⟩
        · intro k hk
          simp only [hvis', Bool.or_eq_true, decide_eq_true_eq] at hk
          simp only [repsOf_append, repsOf_rep, repsOf_nil, List.mem_append, List.mem_singleton]
          rcases hk with rfl | hk
          · exact .inr (.inr ⟨_, .inr rfl, rfl⟩)
          · rcases inv.cover k hk with h | h | ⟨r, hr, e'⟩
            · exact .inl h
            · exact .inr (.inl h)
            · exact .inr (.inr ⟨r, .inl hr, e'⟩)
        · simp only [repsOf_append, repsOf_rep, repsOf_nil, List.map_append, List.map_cons, List.map_nil]
          rw [List.nodup_append]
          refine ⟨inv.nodup, by simp, ?_⟩
          intro a ha b hb
          simp only [List.mem_singleton] at hb
          subst hb
          rintro rfl
          obtain ⟨r, hr, e'⟩ := List.mem_map.1 ha
          obtain ⟨d, _, _, _, _, h5⟩ := inv.reps r hr
          rw [e', hnew] at h5; simp at h5
        · simp only [repsOf_append, repsOf_rep, repsOf_nil, List.map_append, List.map_cons, List.map_nil]
          rw [List.pairwise_append]
          refine ⟨inv.sorted, by simp, ?_⟩
          intro a ha b hb
          simp only [List.mem_singleton] at hb
          subst hb
          obtain ⟨r, hr, rfl⟩ := List.mem_map.1 ha
          obtain ⟨d, h1, _, h3, _⟩ := inv.reps r hr
          rw [h1, inv.depth]; omega
    · simp at hs
  · -- expansions
    rintro h s s' ⟨n, inv⟩ hs
    have hpc := inv.pcInv
    unfold BfsPcInv at hpc
    unfold bfsStep at hs
    split at hs
    · split at hs <;> simp at hs
    · rename_i hp
      rw [hp] at hpc
      split at hs
      · rename_i v rest hte
        simp only [Step.expand.injEq] at hs
        subst hs
        have hreps : repsOf (h ++ [.exp]) = repsOf h := by simp
        refine ⟨n, inv.depth, inv.vis, ?_, inv.nxt, ?_, ?_, ?_, ?_, ?_⟩
        · intro w hw; exact inv.exp w (by rw [hte]; exact List.mem_cons_of_mem _ hw)
        · refine ⟨inv.exp v (by rw [hte]; exact List.mem_cons_self), fun e he => he,
            fun e he => .inl he, fun w hw => ?_⟩
          rcases hpc w hw with h | h
          · rw [hte] at h
            simp only [List.map_cons, List.mem_cons] at h
            rcases h with h | h
            · exact .inr (.inl h)
            · exact .inl h
          · exact .inr (.inr h)
        · rw [hreps]; exact inv.reps
        · rw [hreps]; exact inv.cover
        · rw [hreps]; exact inv.nodup
        · rw [hreps]; exact inv.sorted
      · split at hs <;> simp at hs
    · simp at hs
    · split at hs <;> simp at hs
    · simp at hs

end

end NoGraphs
