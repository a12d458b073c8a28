import Verif.Proofs.SpKeep
import Verif.Proofs.Forest
import Verif.Proofs.BfsGear

/-! Shortest paths: independence of the gear, and tree mode. -/

set_option linter.unusedSectionVars false

namespace NoGraphs

open Spec

variable {V K L W M ML D : Type} [DecidableEq V] [DecidableEq K]
variable [Add W] [Zero W] [LinearOrder W] [WeightLaws W]

attribute [local instance] wAddCommMagma wAddZeroClass wAddRightMono wAddLeftMono

/-! ## Gears -/

section gear

variable {M' ML' D' : Type} {g : WGear V K L W M ML D} {g' : WGear V K L W M' ML' D'} {c : WCfg V K L W}
  {starts : List V}

variable (g g') in
/-- The same content of distances, predecessors, and labels. -/
def WSame (d : D) (pr : M) (la : ML) (d' : D') (pr' : M') (la' : ML') : Prop :=
  (∀ k, g.dd.get d k = g'.dd.get d' k) ∧ (∀ k, g.mo.get? pr k = g'.mo.get? pr' k) ∧
  ∀ k, g.lo.get? la k = g'.lo.get? la' k

theorem spStartEntries_gear {d : D} {d' : D'} (h : ∀ k, g.dd.get d k = g'.dd.get d' k) (vs : List V) (no : Int) :
    spStartEntries g c d vs no = spStartEntries g' c d' vs no := by
  induction vs generalizing no with
  | nil => rfl
  | cons v vs ih => simp only [spStartEntries, ih, h]

theorem sp_gear_sim (hd : g.dd.Lawful c.inf) (hd' : g'.dd.Lawful c.inf) {validV validV' : V → Prop}
    {validL validL' : L → Prop} (hst : WStorable g.mo g.lo c.next c.vid starts validV validL)
    (hst' : WStorable g'.mo g'.lo c.next c.vid starts validV' validL') (fuel : Nat) (lim : Option Int) :
    let r1 := runMachine (spStep g c) fuel lim (spInit g c none starts)
    let r2 := runMachine (spStep g' c) fuel lim (spInit g' c none starts)
    List.Forall₂ (EvRel (fun (r : SpReport V W M ML D) (r' : SpReport V W M' ML' D') =>
      r.vertex = r'.vertex ∧ r.distance = r'.distance ∧ r.depth = r'.depth ∧
      WSame g g' r.dist r.preds r.labels r'.dist r'.preds r'.labels)) r1.events r2.events ∧
    r1.ending = r2.ending := by
  intro r1 r2
  have := run_sim (m := spStep g c) (m' := spStep g' c)
    (fun s s' => s.pc = s'.pc ∧ s.heap = s'.heap ∧ s.no = s'.no ∧
      WSame g g' s.dist s.preds s.labels s'.dist s'.preds s'.labels ∧
      (∀ e ∈ s.heap, ∃ w, WalkW c.next (· ∈ starts) w e.item.1) ∧
      (∀ v w ec, s.pc = .expand v w ec → ∃ w, WalkW c.next (· ∈ starts) w v) ∧
      ∀ v w ec es, s.pc = .edges v w ec es → (∃ w, WalkW c.next (· ∈ starts) w v) ∧ ∀ e ∈ es, e ∈ c.next v)
    (fun _ _ => True)
    (fun (r : SpReport V W M ML D) (r' : SpReport V W M' ML' D') =>
      r.vertex = r'.vertex ∧ r.distance = r'.distance ∧ r.depth = r'.depth ∧
      WSame g g' r.dist r.preds r.labels r'.dist r'.preds r'.labels)
    ?_ fuel lim (spInit g c none starts) (spInit g' c none starts) ?_
  · exact ⟨this.1, this.2.1⟩
  · rintro ⟨pc, heap, no, d, pr, la⟩ ⟨pc', heap', no', d', pr', la'⟩ ⟨h1, h2, h3, h4, h5, h6, h7⟩
    simp only at h1 h2 h3 h4 h5 h6 h7
    subst h1 h2 h3
    cases pc with
    | loop =>
      cases heap with
      | nil => exact .stop trivial
      | cons e rest =>
        have hrest : ∀ f ∈ rest, ∃ w, WalkW c.next (· ∈ starts) w f.item.1 :=
          fun f hf => h5 f (List.mem_cons_of_mem _ hf)
        have hexp : ∀ v w ec, SpPc.expand (L := L) e.item.1 e.key e.item.2 = .expand v w ec →
            ∃ w, WalkW c.next (· ∈ starts) w v := by
          intro v w ec hp
          simp only [SpPc.expand.injEq] at hp
          rw [← hp.1]; exact h5 e List.mem_cons_self
        simp only [spStep, h4.1]
        split
        · exact .tau ⟨rfl, rfl, rfl, h4, hrest, fun v w ec hp => by simp at hp, fun v w ec es hp => by simp at hp⟩
        · have hsame : WSame g g' (if !c.isTree && !c.keepDistances then g.dd.set d (c.vid e.item.1) 0 else d) pr la
              (if !c.isTree && !c.keepDistances then g'.dd.set d' (c.vid e.item.1) 0 else d') pr' la' := by
            refine ⟨fun k => ?_, h4.2⟩
            split
            · rw [hd.get_set, hd'.get_set, h4.1]
            · exact h4.1 k
          split
          · exact .emit ⟨rfl, rfl, rfl, hsame⟩ ⟨rfl, rfl, rfl, hsame, hrest, hexp, fun v w ec es hp => by simp at hp⟩
          · exact .tau ⟨rfl, rfl, rfl, hsame, hrest, hexp, fun v w ec es hp => by simp at hp⟩
    | expand v w ec =>
      refine .expand ⟨rfl, rfl, rfl, h4, h5, fun v w ec hp => by simp at hp, fun v' w' ec' es hp => ?_⟩
      simp only [SpPc.edges.injEq] at hp
      obtain ⟨rfl, -, -, rfl⟩ := hp
      exact ⟨h6 _ _ _ rfl, fun _ h => h⟩
    | edges v w ec es =>
      cases es with
      | nil => exact .tau ⟨rfl, rfl, rfl, h4, h5, fun v w ec hp => by simp at hp, fun v w ec es hp => by simp at hp⟩
      | cons e es =>
        obtain ⟨n, x, l⟩ := e
        obtain ⟨⟨wv, hw⟩, hes⟩ := h7 _ _ _ _ rfl
        have hmem := hes _ List.mem_cons_self
        have hcur : ∀ v' w' ec' es', SpPc.edges v w ec es = .edges v' w' ec' es' →
            (∃ w, WalkW c.next (· ∈ starts) w v') ∧ ∀ e ∈ es', e ∈ c.next v' := by
          intro v' w' ec' es' hp
          simp only [SpPc.edges.injEq] at hp
          obtain ⟨rfl, -, -, rfl⟩ := hp
          exact ⟨⟨wv, hw⟩, fun e he => hes e (List.mem_cons_of_mem _ he)⟩
        simp only [spStep]
        split
        · exact .fail
        · rename_i hinf
          have hlt := lt_of_not_ge hinf
          have hpush : ∀ (a : D) (a' : D'), (∀ k, g.dd.get a k = g'.dd.get a' k) →
              WSame g g' a (if c.buildPaths then g.mo.set pr (c.vid n) v else pr)
                (if c.buildPaths then g.lo.set la (c.vid n) l else la)
                a' (if c.buildPaths then g'.mo.set pr' (c.vid n) v else pr')
                (if c.buildPaths then g'.lo.set la' (c.vid n) l else la') := by
            intro a a' ha
            refine ⟨ha, fun k => ?_, fun k => ?_⟩
            · split
              · rw [hst.mo.get_set _ _ _ _ (hst.verts _ _ hw), hst'.mo.get_set _ _ _ _ (hst'.verts _ _ hw), h4.2.1]
              · exact h4.2.1 k
            · split
              · rw [hst.lo.get_set _ _ _ _ (hst.labs _ _ _ hw hmem),
                  hst'.lo.get_set _ _ _ _ (hst'.labs _ _ _ hw hmem), h4.2.2]
              · exact h4.2.2 k
          have hheap : ∀ f ∈ heapPush heap ⟨x + w, no, (n, ec + 1)⟩, ∃ w, WalkW c.next (· ∈ starts) w f.item.1 := by
            intro f hf
            rcases mem_heapPush.1 hf with rfl | hf
            · exact ⟨_, .step hw ⟨l, hmem⟩⟩
            · exact h5 f hf
          simp only [spImprove]
          cases ht : c.isTree with
          | true =>
            simp only [if_true]
            exact .tau ⟨rfl, rfl, rfl, hpush _ _ h4.1, hheap, fun v w ec hp => by simp at hp, hcur⟩
          | false =>
            simp only [Bool.false_eq_true, if_false]
            have j1 := hd.improve_none d (c.vid n) (x + w) hlt
            have j2 := hd'.improve_none d' (c.vid n) (x + w) hlt
            rw [← h4.1] at j2
            cases ha : g.dd.improve d (c.vid n) (x + w) with
            | none =>
              rw [j2.2 (j1.1 ha)]
              exact .tau ⟨rfl, rfl, rfl, h4, h5, fun v w ec hp => by simp at hp, hcur⟩
            | some a =>
              cases ha' : g'.dd.improve d' (c.vid n) (x + w) with
              | none => rw [j1.2 (j2.1 ha')] at ha; simp at ha
              | some a' =>
                refine .tau ⟨rfl, rfl, rfl, hpush _ _ (fun k => ?_), hheap, fun v w ec hp => by simp at hp, hcur⟩
                rw [hd.improve_some _ _ _ _ hlt ha, hd'.improve_some _ _ _ _ hlt ha', h4.1]
  · have hB : ∀ k, g.dd.get (spDistances g c none starts) k = g'.dd.get (spDistances g' c none starts) k := by
      intro k; rw [spDistances_none hd, spDistances_none hd']
    refine ⟨rfl, ?_, rfl, ⟨hB, fun k => ?_, fun k => ?_⟩, fun e he => ?_,
      fun v w ec hp => by simp [spInit] at hp, fun v w ec es hp => by simp [spInit] at hp⟩
    · simp only [spInit]; rw [spStartEntries_gear hB]
    · simp only [spInit]
      split
      · exact setAll_same hst.mo hst'.mo c.vid starts (fun v hv => hst.verts _ v (.start hv))
          (fun v hv => hst'.verts _ v (.start hv)) _ _
          (fun k => by rw [hst.mo.get_empty, hst'.mo.get_empty]) k
      · rw [hst.mo.get_empty, hst'.mo.get_empty]
    · simp only [spInit]; rw [hst.lo.get_empty, hst'.lo.get_empty]
    · simp only [spInit, mem_heapify] at he
      exact ⟨0, .start (spStartEntries_mem he).1⟩

end gear

/-! ## Tree mode -/

section tree

/-- A weighted graph without its weights. -/
def unweighted (next : V → List (V × W × L)) : V → List (V × L) := fun v => (next v).map (fun e => (e.1, e.2.2))

theorem edge_unweighted {next : V → List (V × W × L)} {u v : V} :
    Edge (unweighted next) u v ↔ ∃ x, WEdge next u v x := by
  constructor
  · rintro ⟨l, hl⟩
    obtain ⟨⟨a, x, b⟩, h1, h2⟩ := List.mem_map.1 hl
    simp only [Prod.mk.injEq] at h2
    obtain ⟨rfl, rfl⟩ := h2
    exact ⟨x, b, h1⟩
  · rintro ⟨x, l, hl⟩
    exact ⟨l, List.mem_map.2 ⟨_, hl, rfl⟩⟩

theorem Spec.KWalk.reachable {next : V → List (V × W × L)} {S : V → Prop} {vid : V → K} {B : K → W} {w : W} {v : V}
    (h : KWalk next S vid B w v) : Reachable (Edge (unweighted next)) S v := by
  induction h with
  | start hs => exact .start hs
  | step _ he _ ih => exact ih.step (edge_unweighted.2 ⟨_, he⟩)

variable {c : WCfg V K L W} {starts : List V} {g : WGear V K L W M ML D}
variable {h : List (Ev (SpReport V W M ML D))} {s : SpState V L W M ML D} {F : K → Option W} {cur : W}

variable (c) in
/-- Neither finished nor on the heap. -/
def SpFree (F : K → Option W) (s : SpState V L W M ML D) (k : K) : Prop :=
  F k = none ∧ ∀ e ∈ s.heap, c.vid e.item.1 ≠ k

variable (c starts) in
/-- Invariant on trees. -/
structure SpTreeInv (F : K → Option W) (s : SpState V L W M ML D) : Prop where
  nodup : (s.heap.map (fun e => c.vid e.item.1)).Nodup
  undone : ∀ e ∈ s.heap, F (c.vid e.item.1) = none
  free : ∀ p v, Reachable (Edge (unweighted c.next)) (· ∈ starts) p → F (c.vid p) = none →
    Edge (unweighted c.next) p v → SpFree c F s (c.vid v)
  pcE : ∀ u w ec, s.pc = .expand u w ec → ∀ v, Edge (unweighted c.next) u v → SpFree c F s (c.vid v)
  pcS : ∀ u w ec es, s.pc = .edges u w ec es → (es.map (fun e => c.vid e.1)).Nodup ∧
    ∀ e ∈ es, SpFree c F s (c.vid e.1)

theorem SpTreeInv.pop (t : SpTreeInv c starts F s) (inv : SpInv c starts (spB c starts) g h s F cur)
    {e : HEntry W (V × Nat)} {rest : List (HEntry W (V × Nat))} (hh : s.heap = e :: rest) (s' : SpState V L W M ML D)
    (h1 : s'.heap = rest) (h2 : s'.pc = .expand e.item.1 e.key e.item.2) :
    SpTreeInv c starts (spFin F (c.vid e.item.1) e.key) s' := by
  have he : e ∈ s.heap := by rw [hh]; exact List.mem_cons_self
  have hsub : ∀ f ∈ rest, f ∈ s.heap := fun f hf => by rw [hh]; exact List.mem_cons_of_mem _ hf
  have hnd := t.nodup
  rw [hh, List.map_cons, List.nodup_cons] at hnd
  have free' : ∀ k, SpFree c F s k → SpFree c (spFin F (c.vid e.item.1) e.key) s' k := by
    intro k hk
    refine ⟨?_, fun f hf => hk.2 f (hsub f (h1 ▸ hf))⟩
    unfold spFin
    rw [if_neg (fun h => hk.2 e he h.symm)]
    exact hk.1
  refine ⟨by rw [h1]; exact hnd.2, fun f hf => ?_, fun p v hp hF hev => ?_, fun u w ec hp v hv => ?_,
    fun u w ec es hp => by rw [h2] at hp; simp at hp⟩
  · rw [h1] at hf
    unfold spFin
    rw [if_neg]
    · exact t.undone f (hsub f hf)
    · intro h; exact hnd.1 (List.mem_map.2 ⟨f, hf, h⟩)
  · refine free' _ (t.free p v hp ?_ hev)
    unfold spFin at hF
    split at hF
    · simp at hF
    · exact hF
  · rw [h2] at hp
    simp only [SpPc.expand.injEq] at hp
    refine free' _ (t.free u v ?_ ?_ hv)
    · rw [← hp.1]; exact (inv.walk e he).reachable
    · rw [← hp.1]; exact t.undone e he

theorem SpTreeInv.push (hf : IsForest (unweighted c.next) c.vid starts) (t : SpTreeInv c starts F s)
    (inv : SpInv c starts (spB c starts) g h s F cur) {v n : V} {w x : W} {l : L} {ec : Nat}
    {es : List (V × W × L)} (hpc : s.pc = .edges v w ec ((n, x, l) :: es)) (s' : SpState V L W M ML D)
    (e : HEntry W (V × Nat)) (he : e.item.1 = n) (h1 : s'.heap = heapPush s.heap e) (h2 : s'.pc = .edges v w ec es) :
    SpTreeInv c starts F s' := by
  have hp := inv.pcok
  rw [hpc] at hp
  obtain ⟨p1, -, p3, p4⟩ := hp
  obtain ⟨t1, t2⟩ := t.pcS _ _ _ _ hpc
  have hfree := t2 _ List.mem_cons_self
  rw [List.map_cons, List.nodup_cons] at t1
  have hedge : Edge (unweighted c.next) v n := edge_unweighted.2 ⟨x, l, p4 _ List.mem_cons_self⟩
  have free' : ∀ k, k ≠ c.vid n → SpFree c F s k → SpFree c F s' k := by
    intro k hkn hk
    refine ⟨hk.1, fun f hf => ?_⟩
    rw [h1, mem_heapPush] at hf
    rcases hf with rfl | hf
    · rw [he]; exact hkn.symm
    · exact hk.2 f hf
  refine ⟨?_, fun f hfm => ?_, fun p u hpr hF hev => ?_, fun u w ec hp => by rw [h2] at hp; simp at hp,
    fun u w' ec' es' hp => ?_⟩
  · rw [h1]
    have := (heapPush_perm s.heap e).map (fun e => c.vid e.item.1)
    rw [this.nodup_iff, List.map_cons, List.nodup_cons]
    refine ⟨?_, t.nodup⟩
    rw [he]
    intro hm
    obtain ⟨f, hf, hfe⟩ := List.mem_map.1 hm
    exact hfree.2 f hf hfe
  · rw [h1, mem_heapPush] at hfm
    rcases hfm with rfl | hfm
    · rw [he]; exact hfree.1
    · exact t.undone f hfm
  · refine free' _ (fun heq => ?_) (t.free p u hpr hF hev)
    have := hf.one_parent p v u n hpr p3.reachable hev hedge heq
    rw [this, p1] at hF; simp at hF
  · rw [h2] at hp
    simp only [SpPc.edges.injEq] at hp
    obtain ⟨rfl, -, -, rfl⟩ := hp
    refine ⟨t1.2, fun f hfm => free' _ (fun heq => ?_) (t2 f (List.mem_cons_of_mem _ hfm))⟩
    exact t1.1 (List.mem_map.2 ⟨f, hfm, heq⟩)

/-- On a tree an entry is never stale. -/
theorem SpTreeInv.not_stale (t : SpTreeInv c starts F s) (inv : SpInv c starts (spB c starts) g h s F cur)
    {e : HEntry W (V × Nat)} (he : e ∈ s.heap) : ¬ g.dd.get s.dist (c.vid e.item.1) < e.key := by
  have hF := t.undone e he
  obtain ⟨h1, ⟨h2, h3⟩ | ⟨f, hf, h2, h3⟩⟩ := inv.undone _ hF
  · rw [h2]
    rcases Nat.eq_zero_or_pos e.item.2 with h0 | h0
    · exact absurd (List.mem_map.2 ⟨_, (inv.ent0 e he h0).1, rfl⟩) h3
    · exact not_lt_of_ge (le_of_lt (inv.entS e he h0).1)
  · have := nodup_map_inj (f := fun e : HEntry W (V × Nat) => c.vid e.item.1) t.nodup hf he h2
    subst this
    rw [← h3]; exact lt_irrefl _

theorem sp_tree_sim (ht : c.isTree = false) (hd : g.dd.Lawful c.inf) (hn : NonNeg c.next)
    (hc : WCompat c.next c.vid) (hf : IsForest (unweighted c.next) c.vid starts) (fuel : Nat) (lim : Option Int) :
    let rt := runMachine (spStep g { c with isTree := true }) fuel lim (spInit g { c with isTree := true } none starts)
    let rn := runMachine (spStep g c) fuel lim (spInit g c none starts)
    List.Forall₂ (EvRel (fun (r r' : SpReport V W M ML D) => r.vertex = r'.vertex ∧ r.distance = r'.distance ∧
      r.depth = r'.depth ∧ r.preds = r'.preds ∧ r.labels = r'.labels)) rt.events rn.events ∧
    rt.ending = rn.ending := by
  intro rt rn
  set c' : WCfg V K L W := { c with isTree := true } with hc'
  have ht' : c'.isTree = true := rfl
  have hvid : c'.vid = c.vid := rfl
  have := run_sim (m := spStep g c') (m' := spStep g c)
    (fun s s' => s.pc = s'.pc ∧ s.heap = s'.heap ∧ s.no = s'.no ∧ s.preds = s'.preds ∧ s.labels = s'.labels ∧
      ∃ F, (∃ h cur, SpAll c starts (spB c starts) g h s' F cur) ∧ SpTreeInv c starts F s')
    (fun _ _ => True)
    (fun (r r' : SpReport V W M ML D) => r.vertex = r'.vertex ∧ r.distance = r'.distance ∧
      r.depth = r'.depth ∧ r.preds = r'.preds ∧ r.labels = r'.labels)
    ?_ fuel lim (spInit g c' none starts) (spInit g c none starts) ?_
  · exact ⟨this.1, this.2.1⟩
  · rintro ⟨pc, heap, no, d, pr, la⟩ ⟨pc', heap', no', d', pr', la'⟩ ⟨h1, h2, h3, h4, h5, F, ⟨h, cur, ok⟩, t⟩
    simp only at h1 h2 h3 h4 h5
    subst h1 h2 h3 h4 h5
    have st := sp_step ht hd hn hc ok
    cases pc with
    | loop =>
      cases heap with
      | nil => exact .stop trivial
      | cons e rest =>
        have hns := t.not_stale ok.1 (e := e) List.mem_cons_self
        simp only at hns
        have hF := t.undone e List.mem_cons_self
        have hfin : spNextF c g ⟨.loop, e :: rest, no, d', pr, la⟩ F = spFin F (c.vid e.item.1) e.key := by
          simp [spNextF, hns, hF]
        by_cases hec : e.item.2 > 0
        · have e1 : spStep g c ⟨.loop, e :: rest, no, d', pr, la⟩ = .emit
              ⟨e.item.1, e.key, e.item.2, if !c.keepDistances then g.dd.set d' (c.vid e.item.1) 0 else d', pr, la⟩
              ⟨.expand e.item.1 e.key e.item.2, rest, no,
                if !c.keepDistances then g.dd.set d' (c.vid e.item.1) 0 else d', pr, la⟩ := by
            simp [spStep, ht, hns, hec]
          have e2 : spStep g c' ⟨.loop, e :: rest, no, d, pr, la⟩ = .emit
              ⟨e.item.1, e.key, e.item.2, d, pr, la⟩
              ⟨.expand e.item.1 e.key e.item.2, rest, no, d, pr, la⟩ := by
            simp [spStep, ht', hec]
          rw [e1] at st ⊢
          rw [e2]
          obtain ⟨F1, cu1, ⟨q1, -⟩, a1, -⟩ := st
          rw [q1, hfin] at a1
          exact .emit ⟨rfl, rfl, rfl, rfl, rfl⟩ ⟨rfl, rfl, rfl, rfl, rfl, _, ⟨_, _, a1⟩, t.pop ok.1 rfl _ rfl rfl⟩
        · have e1 : spStep g c ⟨.loop, e :: rest, no, d', pr, la⟩ = .tau
              ⟨.expand e.item.1 e.key e.item.2, rest, no,
                if !c.keepDistances then g.dd.set d' (c.vid e.item.1) 0 else d', pr, la⟩ := by
            simp [spStep, ht, hns, hec]
          have e2 : spStep g c' ⟨.loop, e :: rest, no, d, pr, la⟩ = .tau
              ⟨.expand e.item.1 e.key e.item.2, rest, no, d, pr, la⟩ := by
            simp [spStep, ht', hec]
          rw [e1] at st ⊢
          rw [e2]
          obtain ⟨F1, cu1, ⟨q1, -⟩, a1, -⟩ := st
          rw [q1, hfin] at a1
          exact .tau ⟨rfl, rfl, rfl, rfl, rfl, _, ⟨_, _, a1⟩, t.pop ok.1 rfl _ rfl rfl⟩
    | expand v w ec =>
      obtain ⟨F1, cu1, ⟨q1, -⟩, a1, -⟩ := st
      simp only [spNextF] at q1
      subst q1
      refine .expand ⟨rfl, rfl, rfl, rfl, rfl, _, ⟨_, _, a1⟩, t.nodup, t.undone, t.free,
        fun u w ec hp => by simp at hp, fun u w' ec' es hp => ?_⟩
      simp only [SpPc.edges.injEq] at hp
      obtain ⟨rfl, -, -, rfl⟩ := hp
      have hpk := ok.1.pcok
      refine ⟨?_, fun e he => t.pcE _ _ _ rfl _ (edge_unweighted.2 ⟨e.2.1, e.2.2, he⟩)⟩
      have := hf.children_nodup _ hpk.2.2.reachable
      simpa [unweighted, Function.comp_def] using this
    | edges v w ec es =>
      cases es with
      | nil =>
        obtain ⟨F1, cu1, ⟨q1, -⟩, a1, -⟩ := st
        simp only [spNextF] at q1
        subst q1
        exact .tau ⟨rfl, rfl, rfl, rfl, rfl, _, ⟨_, _, a1⟩, t.nodup, t.undone, t.free,
          fun u w ec hp => by simp at hp, fun u w' ec' es hp => by simp at hp⟩
      | cons e es =>
        obtain ⟨n, x, l⟩ := e
        by_cases hinf : c.inf ≤ x + w
        · have e1 : spStep g c ⟨.edges v w ec ((n, x, l) :: es), heap, no, d', pr, la⟩ = .fail .overflowError := by
            simp [spStep, hinf]
          have e2 : spStep g c' ⟨.edges v w ec ((n, x, l) :: es), heap, no, d, pr, la⟩ = .fail .overflowError := by
            have : c'.inf ≤ x + w := hinf
            simp [spStep, this]
          rw [e1, e2]; exact .fail
        · have hinf' : ¬ c'.inf ≤ x + w := hinf
          have hfree := (t.pcS _ _ _ _ rfl).2 _ List.mem_cons_self
          have hget : ¬ g.dd.get d' (c.vid n) ≤ x + w := by
            obtain ⟨_, ⟨h2, h3⟩ | ⟨f, hf, h2, _⟩⟩ := ok.1.undone _ hfree.1
            · simp only at h2
              rw [h2]
              simp only [spB, if_neg h3]; exact hinf
            · exact absurd h2 (hfree.2 f hf)
          cases himp : g.dd.improve d' (c.vid n) (x + w) with
          | none => exact absurd ((hd.improve_none _ _ _ (lt_of_not_ge hinf)).1 himp) hget
          | some a =>
            have e1 : spStep g c ⟨.edges v w ec ((n, x, l) :: es), heap, no, d', pr, la⟩ =
                .tau ⟨.edges v w ec es, heapPush heap ⟨x + w, no, (n, ec + 1)⟩, no - 1, a,
                  if c.buildPaths then g.mo.set pr (c.vid n) v else pr,
                  if c.buildPaths then g.lo.set la (c.vid n) l else la⟩ := by
              simp [spStep, hinf, spImprove, ht, himp]
            have e2 : spStep g c' ⟨.edges v w ec ((n, x, l) :: es), heap, no, d, pr, la⟩ =
                .tau ⟨.edges v w ec es, heapPush heap ⟨x + w, no, (n, ec + 1)⟩, no - 1, d,
                  if c.buildPaths then g.mo.set pr (c.vid n) v else pr,
                  if c.buildPaths then g.lo.set la (c.vid n) l else la⟩ := by
              have hbp : c'.buildPaths = c.buildPaths := rfl
              simp [spStep, hinf', spImprove, ht', hvid, hbp]
            rw [e1] at st ⊢
            rw [e2]
            obtain ⟨F1, cu1, ⟨q1, -⟩, a1, -⟩ := st
            simp only [spNextF] at q1
            subst q1
            exact .tau ⟨rfl, rfl, rfl, rfl, rfl, _, ⟨_, _, a1⟩, t.push hf ok.1 rfl _ _ rfl rfl rfl⟩
  · refine ⟨rfl, congrArg heapify (spStartEntries_congr (c := c') (c' := c) rfl _ _ _), rfl, rfl, rfl, fun _ => none,
      ⟨_, _, sp_init0 hn (fun k => spDistances_none hd k) spB_start_nonneg⟩, ?_⟩
    have hids : ∀ (vs : List V) (no : Int), (spStartEntries g c (spDistances g c none starts) vs no).map
        (fun e => c.vid e.item.1) = vs.map c.vid := by
      intro vs
      induction vs with
      | nil => intro no; rfl
      | cons v vs ih => intro no; simp only [spStartEntries, List.map_cons, ih]
    refine ⟨?_, fun _ _ => rfl, fun p v hp _ hev => ⟨rfl, fun e he heq => ?_⟩, fun u w ec hp => by simp [spInit] at hp,
      fun u w ec es hp => by simp [spInit] at hp⟩
    · simp only [spInit]
      have := (heapify_perm (spStartEntries g c (spDistances g c none starts) starts 256)).map
        (fun e => c.vid e.item.1)
      rw [this.nodup_iff, hids]
      exact hf.starts_nodup
    · simp only [spInit, mem_heapify] at he
      exact hf.no_edge_to_start p v hp hev (heq ▸ List.mem_map.2 ⟨_, (spStartEntries_mem he).1, rfl⟩)

end tree

end NoGraphs
