import Verif.Proofs.BfsPaths
import Verif.Proofs.Forest

/-! Breadth-first search on trees: `is_tree=True` gives the same reports. -/

set_option linter.unusedSectionVars false

namespace NoGraphs

open Spec

variable {V K L S M ML : Type} [DecidableEq V] [DecidableEq K]
variable {g : TravGear V K L S M ML} {c : TravCfg V K L} {starts : List V}

/-- Invariant of the general mode on a forest. -/
structure BfsTreeInv (c : TravCfg V K L) (starts : List V) (s : BfsState V L S M ML) : Prop where
  expNodup : (s.toExpand.map c.vid).Nodup
  nextNodup : (s.nextToExpand.map c.vid).Nodup
  parents : ∀ w ∈ s.nextToExpand, ∀ u0, Reachable (Edge c.next) (· ∈ starts) u0 → Edge c.next u0 w →
    c.vid u0 ∉ s.toExpand.map c.vid
  cur : ∀ u es, s.pc = .edges u es → c.vid u ∉ s.toExpand.map c.vid ∧ ∃ pre, c.next u = pre ++ es ∧
    ∀ w ∈ s.nextToExpand, Edge c.next u w → c.vid w ∈ pre.map (fun e => c.vid e.1)

theorem bfs_tree_inv (hg : g.so.Lawful) (ht : c.isTree = false) (hf : IsForest c.next c.vid starts)
    (hc : Compat (Edge c.next) c.vid)
    {h : List (Ev (BfsReport V S M ML))} {s : BfsState V L S M ML}
    (hr : Reaches (bfsStep g c false) (bfsInit g c g.so.empty starts) h s) :
    BfsTreeInv c starts s ∧ ∀ u e es, s.pc = .edges u (e :: es) →
      g.so.contains s.visited (c.vid e.1) = false := by
  have hE : bfsE g c g.so.empty = Edge c.next := by
    funext u v; simp [bfsE, Allowed, hg.contains_empty]
  have noskip : ∀ h s, Reaches (bfsStep g c false) (bfsInit g c g.so.empty starts) h s →
      BfsTreeInv c starts s → ∀ u e es, s.pc = .edges u (e :: es) →
      g.so.contains s.visited (c.vid e.1) = false := by
    intro h s hr inv u e es hp
    obtain ⟨n, binv⟩ := bfs_inv hg ht hc hr
    have hpc := binv.pcInv
    unfold BfsPcInv at hpc
    rw [hp, hE] at hpc
    have hee : Edge c.next u e.1 := ⟨e.2, hpc.2.1 e List.mem_cons_self⟩
    have hwalk : WalkN (Edge c.next) (· ∈ starts) (n + 1) e.1 := .step hpc.1.1 hee
    by_contra hcon
    have hcon : g.so.contains s.visited (c.vid e.1) = true := by simpa using hcon
    rw [binv.vis, hE] at hcon
    rcases hcon with h | ⟨m, v, hm, hw, e'⟩ | ⟨w, hw, e'⟩
    · rw [hg.contains_empty] at h; simp at h
    · have := (hf.walk_unique hw hwalk e').1; omega
    · have hw1 := binv.nxt w hw
      rw [hE] at hw1
      have hwe := (hf.walk_unique hw1.1 hwalk e').2
      subst hwe
      obtain ⟨-, pre, hpre, hin⟩ := inv.cur u _ hp
      have := hin _ hw hee
      have hnd := hf.children_nodup u ⟨n, hpc.1.1⟩
      rw [hpre, List.map_append, List.map_cons, List.nodup_append] at hnd
      exact hnd.2.2 _ this _ List.mem_cons_self rfl
  suffices hsuf : BfsTreeInv c starts s from ⟨hsuf, noskip h s hr hsuf⟩
  refine Reaches.invariant' (fun _ s => BfsTreeInv c starts s) ?_ ?_ ?_ ?_ hr
  · refine ⟨hf.starts_nodup, by simp [bfsInit], fun w hw => by simp [bfsInit] at hw, fun u es hp => ?_⟩
    simp [bfsInit] at hp
  · intro h s s' hr inv hs
    unfold bfsStep at hs
    split at hs
    · split at hs
      · simp at hs
      · simp only [Step.tau.injEq] at hs
        subst hs
        exact ⟨inv.expNodup, inv.nextNodup, inv.parents, fun u es hp => by simp at hp⟩
    · split at hs
      · simp at hs
      · split at hs
        · contradiction
        · simp only [Step.tau.injEq] at hs
          subst hs
          exact ⟨inv.expNodup, inv.nextNodup, inv.parents, fun u es hp => by simp at hp⟩
    · simp only [Step.tau.injEq] at hs
      subst hs
      exact ⟨inv.expNodup, inv.nextNodup, inv.parents, fun u es hp => by simp at hp⟩
    · rename_i u e es hp
      split at hs
      · rename_i hv
        rw [ht] at hv
        have := noskip h s hr inv u e es hp
        rw [bfsVisit_none hg hv] at this
        simp at this
      · simp at hs
    · simp only [Step.tau.injEq] at hs
      subst hs
      exact ⟨inv.nextNodup, by simp, fun w hw => by simp at hw, fun u es hp => by simp at hp⟩
  · intro h s r s' hr inv hs
    obtain ⟨n, binv⟩ := bfs_inv hg ht hc hr
    have hpc := binv.pcInv
    unfold BfsPcInv at hpc
    unfold bfsStep at hs
    split at hs
    · split at hs <;> simp at hs
    · split at hs
      · simp at hs
      · split at hs
        · contradiction
        · simp at hs
    · simp at hs
    · rename_i u e es hp
      rw [hp, hE] at hpc
      split at hs
      · simp at hs
      · rename_i vis pr la hv
        rw [ht] at hv
        obtain ⟨hnew, -, -⟩ := bfsVisit_some hg hv
        simp only [Step.emit.injEq] at hs
        obtain ⟨rfl, rfl⟩ := hs
        have hee : Edge c.next u e.1 := ⟨e.2, hpc.2.1 e List.mem_cons_self⟩
        obtain ⟨hunot, pre, hpre, hin⟩ := inv.cur u _ hp
        refine ⟨inv.expNodup, ?_, ?_, ?_⟩
        · simp only [List.map_append, List.map_cons, List.map_nil]
          rw [List.nodup_append]
          refine ⟨inv.nextNodup, by simp, ?_⟩
          rintro a ha b hb rfl
          simp only [List.mem_singleton] at hb
          subst hb
          obtain ⟨w, hw, e'⟩ := List.mem_map.1 ha
          have := (binv.vis (c.vid e.1)).2 (.inr (.inr ⟨w, hw, e'⟩))
          rw [hnew] at this; simp at this
        · intro w hw u0 hu0 he0
          rcases List.mem_append.1 hw with hw | hw
          · exact inv.parents w hw u0 hu0 he0
          · simp only [List.mem_singleton] at hw
            subst hw
            have := hf.one_parent u0 u _ _ hu0 ⟨n, hpc.1.1⟩ he0 hee rfl
            rw [this]; exact hunot
        · intro u' es' hp'
          simp only [BfsPc.edges.injEq] at hp'
          obtain ⟨rfl, rfl⟩ := hp'
          refine ⟨hunot, pre ++ [e], by simp [hpre], fun w hw hew => ?_⟩
          rcases List.mem_append.1 hw with hw | hw
          · rw [List.map_append]; exact List.mem_append_left _ (hin w hw hew)
          · simp only [List.mem_singleton] at hw
            subst hw; simp
    · simp at hs
  · intro h s s' hr inv hs
    obtain ⟨n, binv⟩ := bfs_inv hg ht hc hr
    unfold bfsStep at hs
    split at hs
    · split at hs <;> simp at hs
    · split at hs
      · rename_i v rest hte
        simp only [Step.expand.injEq] at hs
        subst hs
        have hnd := inv.expNodup
        rw [hte, List.map_cons, List.nodup_cons] at hnd
        have hpar := inv.parents
        rw [hte] at hpar
        simp only [List.map_cons, List.mem_cons, not_or] at hpar
        refine ⟨hnd.2, inv.nextNodup, fun w hw u0 h1 h2 => (hpar w hw u0 h1 h2).2, fun u es hp => ?_⟩
        simp only [BfsPc.edges.injEq] at hp
        obtain ⟨rfl, rfl⟩ := hp
        refine ⟨hnd.1, [], rfl, fun w hw hew => ?_⟩
        have hv := binv.exp v (by rw [hte]; exact List.mem_cons_self)
        rw [hE] at hv
        exact absurd rfl (hpar w hw v ⟨n, hv.1⟩ hew).1
      · split at hs <;> simp at hs
    · simp at hs
    · split at hs <;> simp at hs
    · simp at hs

/-- The tree mode of a configuration. -/
def TravCfg.tree (c : TravCfg V K L) : TravCfg V K L := { c with isTree := true }

/-- Lockstep of tree mode and general mode. -/
theorem bfs_tree_sim (hg : g.so.Lawful) (ht : c.isTree = false) (hf : IsForest c.next c.vid starts)
    (hc : Compat (Edge c.next) c.vid) (fuel : Nat) (lim : Option Int) :
    let rt := runMachine (bfsStep g c.tree false) fuel lim (bfsInit g c.tree g.so.empty starts)
    let rn := runMachine (bfsStep g c false) fuel lim (bfsInit g c g.so.empty starts)
    List.Forall₂ (EvRel (fun r r' => r.vertex = r'.vertex ∧ r.depth = r'.depth ∧ r.preds = r'.preds ∧
      r.labels = r'.labels)) rt.events rn.events ∧ rt.ending = rn.ending := by
  intro rt rn
  have := run_sim (m := bfsStep g c.tree false) (m' := bfsStep g c false)
    (fun s s' => s.pc = s'.pc ∧ s.toExpand = s'.toExpand ∧ s.nextToExpand = s'.nextToExpand ∧
      s.depth = s'.depth ∧ s.preds = s'.preds ∧ s.labels = s'.labels ∧
      ∃ h, Reaches (bfsStep g c false) (bfsInit g c g.so.empty starts) h s')
    (fun _ _ => True)
    (fun r r' => r.vertex = r'.vertex ∧ r.depth = r'.depth ∧ r.preds = r'.preds ∧ r.labels = r'.labels)
    ?_ fuel lim (bfsInit g c.tree g.so.empty starts) (bfsInit g c g.so.empty starts)
    ⟨rfl, rfl, rfl, rfl, rfl, rfl, [], .refl⟩
  · exact ⟨this.1, this.2.1⟩
  · rintro ⟨pc, te, ne, d, vi, pr, la⟩ ⟨pc', te', ne', d', vi', pr', la'⟩ ⟨h1, h2, h3, h4, h5, h6, h, hr⟩
    simp only at h1 h2 h3 h4 h5 h6
    subst h1 h2 h3 h4 h5 h6
    have hskip := (bfs_tree_inv hg ht hf hc hr).2
    cases pc with
    | check =>
      cases te with
      | nil => exact .stop trivial
      | cons v r => exact .tau ⟨rfl, rfl, rfl, rfl, rfl, rfl, h, .tau hr rfl⟩
    | loop =>
      cases te with
      | nil => exact .tau ⟨rfl, rfl, rfl, rfl, rfl, rfl, h, .tau hr rfl⟩
      | cons v r => exact .expand ⟨rfl, rfl, rfl, rfl, rfl, rfl, _, .expand hr rfl⟩
    | levelEnd => exact .tau ⟨rfl, rfl, rfl, rfl, rfl, rfl, h, .tau hr rfl⟩
    | edges u es =>
      cases es with
      | nil => exact .tau ⟨rfl, rfl, rfl, rfl, rfl, rfl, h, .tau hr rfl⟩
      | cons e es =>
        have hne := hskip u e es rfl
        simp only at hne
        have hchk : (g.so.checkAdd vi' (c.vid e.1)).1 = false := by rw [hg.checkAdd_fst, hne]
        cases hb : c.buildPaths with
        | true =>
          have e1 : bfsStep g c false ⟨.edges u (e :: es), te, ne, d, vi', pr, la⟩ = .emit
              ⟨e.1, d, (g.so.checkAdd vi' (c.vid e.1)).2, g.mo.set pr (c.vid e.1) u, g.lo.set la (c.vid e.1) e.2⟩
              ⟨.edges u es, te, ne ++ [e.1], d, (g.so.checkAdd vi' (c.vid e.1)).2, g.mo.set pr (c.vid e.1) u,
                g.lo.set la (c.vid e.1) e.2⟩ := by
            simp [bfsStep, bfsVisit, ht, hb, hchk]
          have e2 : bfsStep g c.tree false ⟨.edges u (e :: es), te, ne, d, vi, pr, la⟩ = .emit
              ⟨e.1, d, vi, g.mo.set pr (c.vid e.1) u, g.lo.set la (c.vid e.1) e.2⟩
              ⟨.edges u es, te, ne ++ [e.1], d, vi, g.mo.set pr (c.vid e.1) u,
                g.lo.set la (c.vid e.1) e.2⟩ := by
            simp [bfsStep, bfsVisit, TravCfg.tree, hb]
          rw [e1, e2]
          exact .emit ⟨rfl, rfl, rfl, rfl⟩ ⟨rfl, rfl, rfl, rfl, rfl, rfl, _, .emit hr e1⟩
        | false =>
          have e1 : bfsStep g c false ⟨.edges u (e :: es), te, ne, d, vi', pr, la⟩ = .emit
              ⟨e.1, d, (g.so.checkAdd vi' (c.vid e.1)).2, pr, la⟩
              ⟨.edges u es, te, ne ++ [e.1], d, (g.so.checkAdd vi' (c.vid e.1)).2, pr, la⟩ := by
            simp [bfsStep, bfsVisit, ht, hb, hchk]
          have e2 : bfsStep g c.tree false ⟨.edges u (e :: es), te, ne, d, vi, pr, la⟩ = .emit
              ⟨e.1, d, vi, pr, la⟩
              ⟨.edges u es, te, ne ++ [e.1], d, vi, pr, la⟩ := by
            simp [bfsStep, bfsVisit, TravCfg.tree, hb]
          rw [e1, e2]
          exact .emit ⟨rfl, rfl, rfl, rfl⟩ ⟨rfl, rfl, rfl, rfl, rfl, rfl, _, .emit hr e1⟩

end NoGraphs
