import Verif.Proofs.AStarSim

/-! A*: tree mode. -/

set_option linter.unusedSectionVars false

namespace NoGraphs

open Spec

variable {V K L W M ML D : Type} [DecidableEq V] [DecidableEq K]
variable [AddCommMonoid W] [LinearOrder W] [IsOrderedCancelAddMonoid W]
variable {g : WGear V K L W M ML D} {c : AStarCfg V K L W} {starts : List V}
variable {s : AStarState V L W M ML D} {F : K → Prop}

variable (g c) in
/-- Neither finished nor found. -/
def AFree (F : K → Prop) (s : AStarState V L W M ML D) (k : K) : Prop :=
  ¬ F k ∧ (∀ e ∈ s.heap, c.vid e.item.1 ≠ k) ∧ g.dd.get s.dist k = c.inf

variable (g c starts) in
/-- Invariant on trees. `F`: the ids of expanded vertices. -/
structure ATreeInv (F : K → Prop) (s : AStarState V L W M ML D) : Prop where
  nodup : (s.heap.map (fun e => c.vid e.item.1)).Nodup
  reach : ∀ e ∈ s.heap, Reachable (Edge (unweighted c.next)) (· ∈ starts) e.item.1
  undone : ∀ e ∈ s.heap, ¬ F (c.vid e.item.1)
  key : ∀ e ∈ s.heap, g.dd.get s.guesses (c.vid e.item.1) = e.key
  free : ∀ p v, Reachable (Edge (unweighted c.next)) (· ∈ starts) p → ¬ F (c.vid p) →
    Edge (unweighted c.next) p v → AFree g c F s (c.vid v)
  pcE : ∀ u w ec, s.pc = .expand u w ec → Reachable (Edge (unweighted c.next)) (· ∈ starts) u ∧ F (c.vid u) ∧
    ∀ v, Edge (unweighted c.next) u v → AFree g c F s (c.vid v)
  pcS : ∀ u w ec es, s.pc = .edges u w ec es → Reachable (Edge (unweighted c.next)) (· ∈ starts) u ∧ F (c.vid u) ∧
    (es.map (fun e => c.vid e.1)).Nodup ∧ (∀ e ∈ es, e ∈ c.next u) ∧ ∀ e ∈ es, AFree g c F s (c.vid e.1)

theorem ATreeInv.pop (t : ATreeInv g c starts F s)
    {e : HEntry W (V × Nat)} {rest : List (HEntry W (V × Nat))} (hh : s.heap = e :: rest) (w : W)
    (s' : AStarState V L W M ML D) (h1 : s'.heap = rest) (h2 : s'.pc = .expand e.item.1 w e.item.2)
    (h3 : s'.dist = s.dist) (h4 : s'.guesses = s.guesses) :
    ATreeInv g c starts (fun k => F k ∨ k = c.vid e.item.1) s' := by
  have he : e ∈ s.heap := by rw [hh]; exact List.mem_cons_self
  have hsub : ∀ f ∈ s'.heap, f ∈ s.heap := fun f hf => by rw [h1] at hf; rw [hh]; exact List.mem_cons_of_mem _ hf
  have hnd := t.nodup
  rw [hh, List.map_cons, List.nodup_cons] at hnd
  have free' : ∀ k, AFree g c F s k → AFree g c (fun k => F k ∨ k = c.vid e.item.1) s' k := by
    intro k hk
    refine ⟨?_, fun f hf => hk.2.1 f (hsub f hf), by rw [h3]; exact hk.2.2⟩
    rintro (h | h)
    · exact hk.1 h
    · exact hk.2.1 e he h.symm
  refine ⟨by rw [h1]; exact hnd.2, fun f hf => t.reach f (hsub f hf), fun f hf => ?_,
    fun f hf => by rw [h4]; exact t.key f (hsub f hf), fun p v hp hF hev => ?_, fun u w ec hp => ?_,
    fun u w ec es hp => by rw [h2] at hp; simp at hp⟩
  · rintro (h | h)
    · exact t.undone f (hsub f hf) h
    · rw [h1] at hf
      exact hnd.1 (List.mem_map.2 ⟨f, hf, h⟩)
  · exact free' _ (t.free p v hp (fun h => hF (.inl h)) hev)
  · rw [h2] at hp
    simp only [SpPc.expand.injEq] at hp
    rw [← hp.1]
    exact ⟨t.reach e he, .inr rfl, fun v hv => free' _ (t.free _ v (t.reach e he) (t.undone e he) hv)⟩

theorem ATreeInv.push (hf : IsForest (unweighted c.next) c.vid starts) (hd : g.dd.Lawful c.inf)
    (t : ATreeInv g c starts F s) {v n : V} {w x gu : W} {l : L} {ec : Nat}
    {es : List (V × W × L)} (hpc : s.pc = .edges v w ec ((n, x, l) :: es)) (s' : AStarState V L W M ML D)
    {no : Int} (h1 : s'.heap = heapPush s.heap ⟨gu, no, (n, ec + 1)⟩) (h2 : s'.pc = .edges v w ec es)
    (h3 : ∀ j, j ≠ c.vid n → g.dd.get s'.dist j = g.dd.get s.dist j)
    (h4 : s'.guesses = g.dd.set s.guesses (c.vid n) gu) :
    ATreeInv g c starts F s' := by
  obtain ⟨p1, p2, p3, p4, p5⟩ := t.pcS _ _ _ _ hpc
  have hfree := p5 _ List.mem_cons_self
  simp only at hfree
  rw [List.map_cons, List.nodup_cons] at p3
  have hedge : Edge (unweighted c.next) v n := edge_unweighted.2 ⟨x, l, p4 _ List.mem_cons_self⟩
  have free' : ∀ k, k ≠ c.vid n → AFree g c F s k → AFree g c F s' k := by
    intro k hkn hk
    refine ⟨hk.1, fun f hf => ?_, by rw [h3 k hkn]; exact hk.2.2⟩
    rw [h1, mem_heapPush] at hf
    rcases hf with rfl | hf
    · exact hkn.symm
    · exact hk.2.1 f hf
  refine ⟨?_, fun f hfm => ?_, fun f hfm => ?_, fun f hfm => ?_, fun p u hpr hF hev => ?_,
    fun u w ec hp => by rw [h2] at hp; simp at hp, fun u w' ec' es' hp => ?_⟩
  · rw [h1]
    have := (heapPush_perm s.heap ⟨gu, no, (n, ec + 1)⟩).map (fun e => c.vid e.item.1)
    rw [this.nodup_iff, List.map_cons, List.nodup_cons]
    refine ⟨fun hm => ?_, t.nodup⟩
    obtain ⟨f, hf, hfe⟩ := List.mem_map.1 hm
    exact hfree.2.1 f hf hfe
  · rw [h1, mem_heapPush] at hfm
    rcases hfm with rfl | hfm
    · exact p1.step hedge
    · exact t.reach f hfm
  · rw [h1, mem_heapPush] at hfm
    rcases hfm with rfl | hfm
    · exact hfree.1
    · exact t.undone f hfm
  · rw [h1, mem_heapPush] at hfm
    rw [h4, hd.get_set]
    rcases hfm with rfl | hfm
    · rw [if_pos rfl]
    · rw [if_neg (hfree.2.1 f hfm)]
      exact t.key f hfm
  · refine free' _ (fun heq => ?_) (t.free p u hpr hF hev)
    have := hf.one_parent p v u n hpr p1 hev hedge heq
    rw [this] at hF
    exact hF p2
  · rw [h2] at hp
    simp only [SpPc.edges.injEq] at hp
    obtain ⟨rfl, -, -, rfl⟩ := hp
    refine ⟨p1, p2, p3.2, fun f hf => p4 f (List.mem_cons_of_mem _ hf),
      fun f hfm => free' _ (fun heq => ?_) (p5 f (List.mem_cons_of_mem _ hfm))⟩
    exact p3.1 (List.mem_map.2 ⟨f, hfm, heq⟩)

theorem a_tree_sim (ht : c.isTree = false) (hd : g.dd.Lawful c.inf)
    (hf : IsForest (unweighted c.next) c.vid starts) (fuel : Nat) (lim : Option Int) :
    let rt := runMachine (aStep g { c with isTree := true }) fuel lim (aInit g { c with isTree := true } none none starts)
    let rn := runMachine (aStep g c) fuel lim (aInit g c none none starts)
    List.Forall₂ (EvRel (fun (r r' : AStarReport V W M ML D) => r.vertex = r'.vertex ∧ r.pathLength = r'.pathLength ∧
      r.depth = r'.depth ∧ (∀ k, g.dd.get r.dist k = g.dd.get r'.dist k) ∧ r.preds = r'.preds ∧ r.labels = r'.labels))
      rt.events rn.events ∧
    rt.ending = rn.ending := by
  intro rt rn
  set c' : AStarCfg V K L W := { c with isTree := true } with hc'
  have ht' : c'.isTree = true := rfl
  have hvid : c'.vid = c.vid := rfl
  have hinfc : c'.inf = c.inf := rfl
  have hheur : c'.heur = c.heur := rfl
  have hbp : c'.buildPaths = c.buildPaths := rfl
  have := run_sim (m := aStep g c') (m' := aStep g c)
    (fun s s' => s.pc = s'.pc ∧ s.heap = s'.heap ∧ s.no = s'.no ∧ s.preds = s'.preds ∧ s.labels = s'.labels ∧
      (∀ k, g.dd.get s.dist k = g.dd.get s'.dist k) ∧ ∃ F, ATreeInv g c starts F s')
    (fun _ _ => True)
    (fun (r r' : AStarReport V W M ML D) => r.vertex = r'.vertex ∧ r.pathLength = r'.pathLength ∧
      r.depth = r'.depth ∧ (∀ k, g.dd.get r.dist k = g.dd.get r'.dist k) ∧ r.preds = r'.preds ∧ r.labels = r'.labels)
    ?_ fuel lim (aInit g c' none none starts) (aInit g c none none starts) ?_
  · exact ⟨this.1, this.2.1⟩
  · rintro ⟨pc, heap, no, d, gu, pr, la⟩ ⟨pc', heap', no', d', gu', pr', la'⟩ ⟨h1, h2, h3, h4, h5, h6, F, t⟩
    simp only at h1 h2 h3 h4 h5 h6
    subst h1 h2 h3 h4 h5
    cases pc with
    | loop =>
      cases heap with
      | nil => exact .stop trivial
      | cons e rest =>
        have hns : ¬ g.dd.get gu' (c.vid e.item.1) < e.key := by
          have := t.key e List.mem_cons_self
          simp only at this
          rw [this]; exact lt_irrefl _
        by_cases hec : e.item.2 > 0
        · simp only [aStep, ht, ht', hns, hec, hvid, h6, Bool.not_true, Bool.false_and, Bool.false_eq_true, if_false,
            decide_false, Bool.and_false, if_true]
          exact .emit ⟨rfl, rfl, rfl, h6, rfl, rfl⟩ ⟨rfl, rfl, rfl, rfl, rfl, h6, _, t.pop rfl _ _ rfl rfl rfl rfl⟩
        · simp only [aStep, ht, ht', hns, hec, hvid, h6, Bool.not_true, Bool.false_and, Bool.false_eq_true, if_false,
            decide_false, Bool.and_false]
          exact .tau ⟨rfl, rfl, rfl, rfl, rfl, h6, _, t.pop rfl _ _ rfl rfl rfl rfl⟩
    | expand v w ec =>
      obtain ⟨p1, p2, p3⟩ := t.pcE _ _ _ rfl
      refine .expand ⟨rfl, rfl, rfl, rfl, rfl, h6, F, t.nodup, t.reach, t.undone, t.key, t.free,
        fun u w ec hp => by simp at hp, fun u w' ec' es hp => ?_⟩
      simp only [SpPc.edges.injEq] at hp
      obtain ⟨rfl, -, -, rfl⟩ := hp
      refine ⟨p1, p2, ?_, fun _ h => h, fun e he => p3 _ (edge_unweighted.2 ⟨e.2.1, e.2.2, he⟩)⟩
      have := hf.children_nodup _ p1
      simpa [unweighted, Function.comp_def] using this
    | edges v w ec es =>
      cases es with
      | nil =>
        exact .tau ⟨rfl, rfl, rfl, rfl, rfl, h6, F, t.nodup, t.reach, t.undone, t.key, t.free,
          fun u w ec hp => by simp at hp, fun u w' ec' es hp => by simp at hp⟩
      | cons e es =>
        obtain ⟨n, x, l⟩ := e
        obtain ⟨-, -, -, -, p5⟩ := t.pcS _ _ _ _ rfl
        have hfree := p5 _ List.mem_cons_self
        simp only [AFree] at hfree
        by_cases hinf : c.inf ≤ x + w
        · have hinf' : c'.inf ≤ x + w := hinf
          simp only [aStep, hinf, hinf', if_true]
          exact .fail
        · have hlt := lt_of_not_ge hinf
          cases himp : g.dd.improve d' (c.vid n) (x + w) with
          | none =>
            have := (hd.improve_none _ _ _ hlt).1 himp
            rw [hfree.2.2] at this
            exact absurd this hinf
          | some a =>
            have ha := hd.improve_some _ _ _ _ hlt himp
            simp only [aStep, hinf, if_false, aImprove, ht, ht', Bool.false_eq_true, if_true, himp, hvid, hinfc,
              hheur, hbp]
            split
            · exact .fail
            · refine .tau ⟨rfl, rfl, rfl, rfl, rfl, fun k => ?_, F, t.push hf hd rfl _ rfl rfl ?_ rfl⟩
              · rw [hd.get_set, ha, h6]
              · intro j hj
                simp only [ha, if_neg hj]
  · have hids : ∀ (d : D) (vs : List V) (no : Int), (aStartEntries g c d vs no).map
        (fun e => c.vid e.item.1) = vs.map c.vid := by
      intro d vs
      induction vs with
      | nil => intro no; rfl
      | cons v vs ih => intro no; simp only [aStartEntries, List.map_cons, ih]
    have hent : ∀ (d : D) (vs : List V) (no : Int), aStartEntries g c' d vs no = aStartEntries g c d vs no := by
      intro d vs
      induction vs with
      | nil => intro no; rfl
      | cons v vs ih => intro no; simp only [aStartEntries, ih, hvid]
    have hdi : ∀ k, g.dd.get (aInit g c none none starts).dist k = if k ∈ starts.map c.vid then 0 else c.inf :=
      fun k => aDistances_none hd k
    have hgu : aGuesses g c' none (aDistances g c' none starts) starts =
      aGuesses g c none (aDistances g c none starts) starts := rfl
    refine ⟨rfl, ?_, rfl, rfl, rfl, fun _ => rfl, fun _ => False, ?_⟩
    · simp only [aInit, hgu, hent]
    · refine ⟨?_, fun e he => ?_, fun _ _ h => h, fun e he => ?_, fun p v hp _ hev => ⟨id, fun e he heq => ?_, ?_⟩,
        fun u w ec hp => by simp [aInit] at hp, fun u w ec es hp => by simp [aInit] at hp⟩
      · have := (heapify_perm (aStartEntries g c (aGuesses g c none (aDistances g c none starts) starts) starts 256)).map
          (fun e => c.vid e.item.1)
        simp only [aInit]
        rw [this.nodup_iff, hids]
        exact hf.starts_nodup
      · exact .start (aStartEntries_mem (mem_heapify.1 he)).1
      · exact (aStartEntries_mem (mem_heapify.1 he)).2.2.symm
      · have := (aStartEntries_mem (mem_heapify.1 he)).1
        exact hf.no_edge_to_start p v hp hev (heq ▸ List.mem_map_of_mem this)
      · rw [hdi, if_neg (hf.no_edge_to_start p v hp hev)]

end NoGraphs
