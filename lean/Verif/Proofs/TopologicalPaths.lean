import Verif.Proofs.Topological
import Mathlib.Data.List.Nodup

/-! Topological sorting: all reachable states, stored paths, termination. -/

set_option linter.unusedSectionVars false

namespace NoGraphs

open Spec

variable {V K L S M ML : Type} [DecidableEq V] [DecidableEq K]
variable {g : TravGear V K L S M ML} {c : TravCfg V K L} {already : S} {starts : List V}

theorem traceOf_pending (l : List V) : traceOf (l.map (fun v => (v, false))) = [] := by
  induction l with
  | nil => rfl
  | cons a l ih => simpa using ih

theorem idsOf_pending (l : List V) : idsOf c (l.map (fun v => (v, false))) = l.map c.vid := by
  simp [idsOf, Function.comp_def]

theorem TopoInv.init (hg : g.so.Lawful) (ht : c.isTree = false) (hn : (starts.map c.vid).Nodup) :
    TopoInv g c already starts ([] : List (Ev (TopoReport V S M ML))) (topoInit g c already starts)
      (starts.reverse.map (fun v => (v, false))) := by
  constructor
  · simp [topoInit, Function.comp_def]
  · intro _; rw [traceOf_pending]; rfl
  · intro u es hp; simp [topoInit] at hp
  · intro k; rw [traceOf_pending]; simp [topoInit, hg.contains_empty]
  · intro k hk
    rw [traceOf_pending] at hk
    simpa [repIds, topoInit] using hk
  · intro k
    rw [traceOf_pending]
    simp only [topoInit, ht, Bool.false_eq_true, if_false, hg.contains_addAll, Bool.or_eq_true,
      decide_eq_true_eq]
    simp only [repIds, repsOf_nil, List.map_nil, List.not_mem_nil, or_false]
    exact or_comm
  · have hn' : (starts.reverse.map c.vid).Nodup := by
      rw [List.map_reverse, List.nodup_reverse]; exact hn
    have hm : ∀ v ∈ starts.reverse, v ∈ starts := by simp
    revert hn' hm
    generalize starts.reverse = l
    induction l with
    | nil => intro _ _; trivial
    | cons a l ih =>
      intro hn' hm
      rw [List.map_cons, List.nodup_cons] at hn'
      refine ⟨?_, ?_, ih hn'.2 (fun v hv => hm v (List.mem_cons_of_mem _ hv))⟩
      · unfold TopoOwn
        have : traceOf (l.map (fun v => (v, false))) = [] := traceOf_pending l
        rw [this, idsOf_pending]
        exact ⟨hm a List.mem_cons_self, hn'.1⟩
      · have : traceOf (l.map (fun v => (v, false))) = [] := traceOf_pending l
        rw [this]; simp
  · intro k _ hr; simp [repIds] at hr
  · intro k hk; right; rw [idsOf_pending, List.map_reverse]; simpa using hk
  · intro _ A t B hG
    have := traceOf_pending starts.reverse
    rw [hG] at this; simp at this
  · intro u es hp; simp [topoInit] at hp
  · intro b r a hb; simp at hb
  · simp [repIds]
  · intro k hk; rw [traceOf_pending] at hk; simp at hk
  · intro hp; simp [topoInit] at hp

/-- Induction over all reachable states, with the marked stack. -/
theorem topo_ind (hg : g.so.Lawful) (hgr : g.so.Grows) (ht : c.isTree = false)
    (hn : (starts.map c.vid).Nodup)
    (P : List (Ev (TopoReport V S M ML)) → TopoState V L S M ML → List (V × Bool) → Prop)
    (h0 : P [] (topoInit g c already starts) (starts.reverse.map (fun v => (v, false))))
    (htau : ∀ h s G s' G', TopoInv g c already starts h s G → P h s G → TopoMove g c s G (.tau s') G' → P h s' G')
    (hemit : ∀ h s G r s' G', TopoInv g c already starts h s G → P h s G → TopoMove g c s G (.emit r s') G' →
      P (h ++ [.rep r]) s' G')
    (hexp : ∀ h s G s' G', TopoInv g c already starts h s G → P h s G → TopoMove g c s G (.expand s') G' →
      P (h ++ [.exp]) s' G')
    {h : List (Ev (TopoReport V S M ML))} {s : TopoState V L S M ML}
    (hr : Reaches (topoStep g c) (topoInit g c already starts) h s) :
    ∃ G, TopoInv g c already starts h s G ∧ P h s G := by
  refine Reaches.invariant (fun h s => ∃ G, TopoInv g c already starts h s G ∧ P h s G) ?_ ?_ ?_ ?_ hr
  · exact ⟨_, .init hg ht hn, h0⟩
  · rintro h s s' ⟨G, inv, hp⟩ hs
    obtain ⟨G', hm⟩ := inv.move hg
    rw [hs] at hm
    exact ⟨G', inv.tau hg hm, htau _ _ _ _ _ inv hp hm⟩
  · rintro h s r s' ⟨G, inv, hp⟩ hs
    obtain ⟨G', hm⟩ := inv.move hg
    rw [hs] at hm
    exact ⟨G', inv.emit hg hgr hm, hemit _ _ _ _ _ _ inv hp hm⟩
  · rintro h s s' ⟨G, inv, hp⟩ hs
    obtain ⟨G', hm⟩ := inv.move hg
    rw [hs] at hm
    exact ⟨G', inv.expand hg hgr hm, hexp _ _ _ _ _ inv hp hm⟩

theorem topo_inv (hg : g.so.Lawful) (hgr : g.so.Grows) (ht : c.isTree = false)
    (hn : (starts.map c.vid).Nodup) {h : List (Ev (TopoReport V S M ML))} {s : TopoState V L S M ML}
    (hr : Reaches (topoStep g c) (topoInit g c already starts) h s) :
    ∃ G, TopoInv g c already starts h s G := by
  obtain ⟨G, h1, _⟩ := topo_ind hg hgr ht hn (fun _ _ _ => True) trivial (fun _ _ _ _ _ _ _ _ => trivial)
    (fun _ _ _ _ _ _ _ _ _ => trivial) (fun _ _ _ _ _ _ _ _ => trivial) hr
  exact ⟨G, h1⟩

theorem traceOf_split {G : List (V × Bool)} {t : V} {T : List V} (h : traceOf G = t :: T) :
    ∃ A B, G = A ++ (t, true) :: B ∧ traceOf A = [] ∧ traceOf B = T := by
  induction G with
  | nil => simp at h
  | cons x G ih =>
    obtain ⟨v, b⟩ := x
    cases b with
    | false =>
      obtain ⟨A, B, h1, h2, h3⟩ := ih h
      exact ⟨(v, false) :: A, B, by rw [h1]; rfl, h2, h3⟩
    | true =>
      simp only [traceOf_true, List.cons.injEq] at h
      obtain ⟨rfl, rfl⟩ := h
      exact ⟨[], G, rfl, rfl, rfl⟩

theorem reach_of_bottom {E : V → V → Prop} {s0 t : V} (hs0 : s0 ∈ starts)
    (h : Reachable E (· = s0) t) : Reachable E (· ∈ starts) t :=
  Reachable.induct (P := fun t => Reachable E (· ∈ starts) t) (fun v hv => .start (by rw [hv]; exact hs0))
    (fun _ _ _ ih he => ih.step he) h

/-! ## Stored paths -/

/-- A path is stored in the collections, and its vertices are visited. -/
abbrev PV (g : TravGear V K L S M ML) (c : TravCfg V K L) (starts : List V) (vis : S) (pr : M) (la : ML)
    (v : V) (p : SPath V L) : Prop :=
  PathVis c.next starts c.vid (g.so.contains vis) (g.mo.get? pr) (g.lo.get? la) v p

/-- Invariant about stored paths. -/
structure TopoPathInv (g : TravGear V K L S M ML) (c : TravCfg V K L) (starts : List V)
    (h : List (Ev (TopoReport V S M ML))) (s : TopoState V L S M ML) (G : List (V × Bool)) : Prop where
  sts : ∀ v ∈ starts, PV g c starts s.visited s.preds s.labels v ⟨v, []⟩
  tr : ∀ A t B, G = A ++ (t, true) :: B → ∃ p : SPath V L, p.steps.length = (traceOf B).length ∧
    PV g c starts s.visited s.preds s.labels t p
  pend : ∀ A p B t T, G = A ++ (p, false) :: B → traceOf B = t :: T →
    g.so.contains s.visited (c.vid p) = false → c.vid p ∉ idsOf c A →
    g.mo.get? s.preds (c.vid p) = some t ∧ ∃ l, g.lo.get? s.labels (c.vid p) = some l ∧ (p, l) ∈ c.next t
  reps : ∀ r ∈ repsOf h, ∃ p : SPath V L, (p.steps.length : Int) = r.depth ∧
    PV g c starts r.visited r.preds r.labels r.vertex p
  keep : ∀ r ∈ repsOf h, ∀ p, PV g c starts r.visited r.preds r.labels r.vertex p →
    PV g c starts s.visited s.preds s.labels r.vertex p
  later : (repsOf h).Pairwise (fun r r' => ∀ p, PV g c starts r.visited r.preds r.labels r.vertex p →
    PV g c starts r'.visited r'.preds r'.labels r.vertex p)

theorem nodup_distinct (hn : (starts.map c.vid).Nodup) :
    ∀ s ∈ starts, ∀ t ∈ starts, c.vid s = c.vid t → s = t := by
  intro s hs t ht e
  induction starts with
  | nil => simp at hs
  | cons a l ih =>
    rw [List.map_cons, List.nodup_cons] at hn
    rcases List.mem_cons.1 hs with rfl | hs' <;> rcases List.mem_cons.1 ht with rfl | ht'
    · rfl
    · exact absurd (List.mem_map.2 ⟨t, ht', e.symm⟩) hn.1
    · exact absurd (List.mem_map.2 ⟨s, hs', e⟩) hn.1
    · exact ih hn.2 hs' ht'

theorem PV.mono {vis vis' : S} {pr pr' : M} {la la' : ML} {v : V} {p : SPath V L}
    (h : PV g c starts vis pr la v p) (hv : ∀ j, g.so.contains vis j = true → g.so.contains vis' j = true)
    (hg : ∀ j, g.so.contains vis j = true → g.mo.get? pr' j = g.mo.get? pr j)
    (hl : ∀ j, g.so.contains vis j = true → g.lo.get? la' j = g.lo.get? la j) :
    PV g c starts vis' pr' la' v p := PathVis.mono h hv hg hl

theorem topo_path_inv (hg : g.so.Lawful) (hgr : g.so.Grows) (ht : c.isTree = false) (hb : c.buildPaths = true)
    (hn : (starts.map c.vid).Nodup) {validV : V → Prop} {validL : L → Prop}
    (hst : Storable g c starts validV validL)
    {h : List (Ev (TopoReport V S M ML))} {s : TopoState V L S M ML}
    (hr : Reaches (topoStep g c) (topoInit g c already starts) h s) :
    ∃ G, TopoInv g c already starts h s G ∧ TopoPathInv g c starts h s G := by
  refine topo_ind hg hgr ht hn (TopoPathInv g c starts) ?_ ?_ ?_ ?_ hr
  · refine ⟨?_, ?_, ?_, fun r hr => by simp at hr, fun r hr => by simp at hr, by simp⟩
    · intro v hv
      apply PathVis.start hv
      · simp only [topoInit, hb, if_true]
        exact get_starts_of_mem g.mo hst.mo c.vid starts (fun v hv => hst.verts v (.start hv))
          hst.distinct _ hv
      · simp only [topoInit, ht, Bool.false_eq_true, if_false, hg.contains_addAll, Bool.or_eq_true,
          decide_eq_true_eq]
        exact .inl (List.mem_map_of_mem hv)
    · intro A t B hG
      have := traceOf_pending starts.reverse
      rw [hG] at this; simp at this
    · intro A p B t T hG hT
      have := traceOf_pending starts.reverse
      rw [hG] at this; simp [hT] at this
  · intro h s G s' G' inv pin hm
    cases hm with
    | skip v _ hpc hT hv =>
      refine ⟨pin.sts, fun A t B hG => pin.tr ((v, false) :: A) t B (by rw [hG]; rfl), ?_, pin.reps, pin.keep,
        pin.later⟩
      intro A p B t T hG hT hp hA
      refine pin.pend ((v, false) :: A) p B t T (by rw [hG]; rfl) hT hp ?_
      rw [idsOf_cons, List.mem_cons]
      rintro (e | hA')
      · rw [e] at hp; rw [show g.so.contains s.visited (c.vid v) = false from hp] at hv; simp at hv
      · exact hA hA'
    | edgeCycle _ v e es hpc hv ht => exact ⟨pin.sts, pin.tr, pin.pend, pin.reps, pin.keep, pin.later⟩
    | edgeSkip _ v e es hpc hv ht => exact ⟨pin.sts, pin.tr, pin.pend, pin.reps, pin.keep, pin.later⟩
    | endEdges _ v hpc => exact ⟨pin.sts, pin.tr, pin.pend, pin.reps, pin.keep, pin.later⟩
    | push _ v e es hpc hv =>
      obtain ⟨A0, B0, hG0, hA0, he0⟩ := inv.ed v _ hpc
      have hTr : traceOf G = v :: traceOf B0 := by rw [hG0]; simp [hA0]
      obtain ⟨s0, hs0, _, hreach⟩ := inv.own.bottom hTr
      have hreach' : Reachable (Edge c.next) (· ∈ starts) v := by
        exact reach_of_bottom hs0 (Reachable.mono (fun _ _ h => h.1) hreach)
      have hgp : ∀ j, g.mo.get? (topoPush g c s v e es).preds j =
          if j = c.vid e.1 then some v else g.mo.get? s.preds j := by
        intro j
        simp only [topoPush, hb, if_true]
        exact hst.mo.get_set _ _ _ _ (hst.verts v hreach')
      have hgl : ∀ j, g.lo.get? (topoPush g c s v e es).labels j =
          if j = c.vid e.1 then some e.2 else g.lo.get? s.labels j := by
        intro j
        simp only [topoPush, hb, if_true]
        exact hst.lo.get_set _ _ _ _ (hst.labs v e hreach' (he0 e List.mem_cons_self))
      have hne : ∀ j, g.so.contains s.visited j = true → j ≠ c.vid e.1 := by
        intro j hj e; rw [e, hv] at hj; simp at hj
      have hmono : ∀ x p, PV g c starts s.visited s.preds s.labels x p →
          PV g c starts (topoPush g c s v e es).visited (topoPush g c s v e es).preds
            (topoPush g c s v e es).labels x p := by
        intro x p hp
        exact hp.mono (fun j hj => hj) (fun j hj => by rw [hgp, if_neg (hne j hj)])
          (fun j hj => by rw [hgl, if_neg (hne j hj)])
      refine ⟨fun x hx => hmono _ _ (pin.sts x hx), ?_, ?_, pin.reps, fun r hr p hp => hmono _ _ (pin.keep r hr p hp),
        pin.later⟩
      · intro A t B hG
        cases A with
        | nil => simp at hG
        | cons x A =>
          simp only [List.cons_append, List.cons.injEq] at hG
          obtain ⟨p, h1, h2⟩ := pin.tr A t B hG.2
          exact ⟨p, h1, hmono _ _ h2⟩
      · intro A p B t T hG hT hp hA
        cases A with
        | nil =>
          simp only [List.nil_append, List.cons.injEq, Prod.mk.injEq, and_true] at hG
          obtain ⟨rfl, rfl⟩ := hG
          rw [hTr] at hT
          simp only [List.cons.injEq] at hT
          obtain ⟨rfl, _⟩ := hT
          rw [hgp, hgl, if_pos rfl, if_pos rfl]
          exact ⟨rfl, e.2, rfl, he0 e List.mem_cons_self⟩
        | cons x A =>
          simp only [List.cons_append, List.cons.injEq] at hG
          obtain ⟨rfl, hG⟩ := hG
          rw [idsOf_cons, List.mem_cons, not_or] at hA
          rw [hgp, hgl, if_neg hA.1, if_neg hA.1]
          exact pin.pend A p B t T hG hT hp hA.2
  · intro h s G r s' G' inv pin hm
    cases hm with
    | leave v _ hpc =>
      obtain ⟨p, hp1, hp2⟩ := pin.tr [] v G' rfl
      refine ⟨pin.sts, fun A t B hG => pin.tr ((v, true) :: A) t B (by rw [hG]; rfl), ?_, ?_, ?_, ?_⟩
      · intro A x B t T hG hT hx hA
        refine pin.pend ((v, true) :: A) x B t T (by rw [hG]; rfl) hT hx ?_
        rw [idsOf_cons, List.mem_cons]
        rintro (e | hA')
        · have := (inv.vis (c.vid v)).2 (.inr (.inr (.inl (by simp))))
          rw [← e, show g.so.contains s.visited (c.vid x) = false from hx] at this; simp at this
        · exact hA hA'
      · intro r hr
        rw [repsOf_append, List.mem_append] at hr
        rcases hr with hr | hr
        · exact pin.reps r hr
        · simp only [repsOf_rep, repsOf_nil, List.mem_singleton] at hr
          subst hr
          refine ⟨p, ?_, hp2⟩
          have := inv.depth hpc
          rw [traceOf_true, List.length_cons] at this
          simp only; omega
      · intro r hr
        rw [repsOf_append, List.mem_append] at hr
        rcases hr with hr | hr
        · exact pin.keep r hr
        · simp only [repsOf_rep, repsOf_nil, List.mem_singleton] at hr
          subst hr
          exact fun p hp => hp
      · rw [repsOf_append, List.pairwise_append]
        refine ⟨pin.later, by simp, ?_⟩
        intro r hr r' hr'
        simp only [repsOf_rep, repsOf_nil, List.mem_singleton] at hr'
        subst hr'
        exact pin.keep r hr
  · intro h s G s' G' inv pin hm
    have hreps : repsOf (h ++ [Ev.exp]) = repsOf h := by simp
    cases hm with
    | enterStart v R hpc hT =>
      have ho := inv.own.1
      unfold TopoOwn at ho
      rw [hT] at ho
      refine ⟨pin.sts, ?_, ?_, by rw [hreps]; exact pin.reps, by rw [hreps]; exact pin.keep,
        by rw [hreps]; exact pin.later⟩
      · intro A t B hG
        cases A with
        | nil =>
          simp only [List.nil_append, List.cons.injEq, Prod.mk.injEq, and_true] at hG
          obtain ⟨rfl, rfl⟩ := hG
          exact ⟨⟨v, []⟩, by rw [hT]; rfl, pin.sts v ho.1⟩
        | cons x A =>
          simp only [List.cons_append, List.cons.injEq] at hG
          exact pin.tr ((v, false) :: A) t B (by rw [hG.2]; rfl)
      · intro A p B t T hG
        cases A with
        | nil => simp at hG
        | cons x A =>
          simp only [List.cons_append, List.cons.injEq] at hG
          obtain ⟨rfl, hG⟩ := hG
          exact pin.pend ((v, false) :: A) p B t T (by rw [hG]; rfl)
    | enter v R hpc hT hv =>
      have hvis : ∀ k, g.so.contains (g.so.checkAdd s.visited (c.vid v)).2 k = true ↔
          k = c.vid v ∨ g.so.contains s.visited k = true := by
        intro k; rw [hg.contains_checkAdd]; simp
      have hmono : ∀ x p, PV g c starts s.visited s.preds s.labels x p →
          PV g c starts (g.so.checkAdd s.visited (c.vid v)).2 s.preds s.labels x p := by
        intro x p hp
        exact hp.mono (fun j hj => (hvis j).2 (.inr hj)) (fun j _ => rfl) (fun j _ => rfl)
      refine ⟨fun x hx => hmono _ _ (pin.sts x hx), ?_, ?_, by rw [hreps]; exact pin.reps,
        by rw [hreps]; exact fun r hr p hp => hmono _ _ (pin.keep r hr p hp), by rw [hreps]; exact pin.later⟩
      · intro A t B hG
        cases A with
        | nil =>
          simp only [List.nil_append, List.cons.injEq, Prod.mk.injEq, and_true] at hG
          obtain ⟨rfl, rfl⟩ := hG
          cases hT' : traceOf R with
          | nil => exact absurd hT' hT
          | cons t T =>
            obtain ⟨A', B', hR, _, hB'⟩ := traceOf_split hT'
            obtain ⟨p, hp1, hp2⟩ := pin.tr ((v, false) :: A') t B' (by rw [hR]; rfl)
            obtain ⟨q1, l, q2, q3⟩ := pin.pend [] v R t T rfl hT' hv (by simp [idsOf])
            refine ⟨p.snoc v l, ?_, ?_⟩
            · simp [SPath.snoc, hp1, hB']
            · refine (hmono _ _ hp2).extend q3 q1 q2 ((hvis _).2 (.inl rfl)) ?_
              intro e
              have := (inv.vis (c.vid t)).2 (.inr (.inr (.inl (by rw [traceOf_false, hT']; simp))))
              rw [e, hv] at this; simp at this
        | cons x A =>
          simp only [List.cons_append, List.cons.injEq] at hG
          obtain ⟨p, h1, h2⟩ := pin.tr ((v, false) :: A) t B (by rw [hG.2]; rfl)
          exact ⟨p, h1, hmono _ _ h2⟩
      · intro A p B t T hG hT hp hA
        cases A with
        | nil => simp at hG
        | cons x A =>
          simp only [List.cons_append, List.cons.injEq] at hG
          obtain ⟨rfl, hG⟩ := hG
          refine pin.pend ((v, false) :: A) p B t T (by rw [hG]; rfl) hT ?_ hA
          by_contra h1
          have := (hvis (c.vid p)).2 (.inr (by simpa using h1))
          rw [show g.so.contains (g.so.checkAdd s.visited (c.vid v)).2 (c.vid p) = false from hp] at this
          simp at this

/-! ## Termination -/

theorem topo_terminates (hg : g.so.Lawful) (hgr : g.so.Grows) (ht : c.isTree = false)
    (hn : (starts.map c.vid).Nodup)
    (hfin : FinitelyReachable (topoE g c already starts) (· ∈ starts) c.vid) :
    ∃ N, ∀ fuel, N ≤ fuel → ∀ lim, (runMachine (topoStep g c) fuel lim
      (topoInit g c already starts : TopoState V L S M ML)).ending ≠ .outOfFuel := by
  obtain ⟨ids, hids⟩ := hfin
  let ent := fun (h : List (Ev (TopoReport V S M ML))) (G : List (V × Bool)) (k : K) =>
    decide (k ∈ (traceOf G).map c.vid ∨ k ∈ repIds c h)
  let rank := fun pc : TopoPc V L => match pc with | .edges _ es => es.length + 1 | _ => 0
  let μ := fun h (s : TopoState V L S M ML) G =>
    ((ids.filter (fun j => !ent h G j)).length, rank s.pc, G.length, 0)
  refine run_terminates_ghost (topoStep g c) lex4 lex4_wf
    (fun a s => ∃ h G, TopoInv g c already starts h s G ∧ a = μ h s G) ?_ _ _
    ⟨[], _, .init hg ht hn, rfl⟩
  rintro a s s' ⟨h, G, inv, rfl⟩ hs
  obtain ⟨G', hm⟩ := inv.move hg
  have henter : ∀ v R, G = (v, false) :: R → c.vid v ∉ (traceOf R).map c.vid → c.vid v ∉ repIds c h →
      (ids.filter (fun j => !ent (h ++ [.exp]) ((v, true) :: R) j)).length <
      (ids.filter (fun j => !ent h ((v, false) :: R) j)).length := by
    intro v R hG h1 h2
    apply filter_not_lt ids _ _ (k := c.vid v)
    · intro j hj
      have hj := of_decide_eq_true hj
      apply decide_eq_true
      simp only [traceOf_false, traceOf_true, List.map_cons, List.mem_cons, repIds_exp] at hj ⊢
      rcases hj with hj | hj
      · exact .inl (.inr hj)
      · exact .inr hj
    · apply hids
      have hown := inv.own
      rw [hG] at hown
      have ho := hown.1
      unfold TopoOwn at ho
      cases hT : traceOf R with
      | nil => rw [hT] at ho; exact .start ho.1
      | cons t T =>
        rw [hT] at ho
        obtain ⟨s0, hs0, _, hw⟩ := hown.2.2.bottom hT
        exact Reachable.step (reach_of_bottom hs0 hw) ho.1
    · apply decide_eq_false
      exact fun hc => hc.elim h1 h2
    · simp [ent]
  cases hst : topoStep g c s with
  | stop _ => rw [hst] at hs; simp [Step.next?] at hs
  | fail _ => rw [hst] at hs; simp [Step.next?] at hs
  | tau t =>
    rw [hst] at hs hm
    simp only [Step.next?, Option.some.injEq] at hs
    subst hs
    refine ⟨μ h t G', ⟨h, G', inv.tau hg hm, rfl⟩, ?_⟩
    simp only [μ, lex4_iff]
    cases hm with
    | skip v _ hpc hT hv =>
      right
      refine ⟨rfl, .inr ⟨rfl, .inl (by simp)⟩⟩
    | edgeCycle _ v e es hpc hv ht => right; refine ⟨rfl, .inl (by simp [rank, hpc])⟩
    | edgeSkip _ v e es hpc hv ht => right; refine ⟨rfl, .inl (by simp [rank, hpc])⟩
    | endEdges _ v hpc => right; refine ⟨rfl, .inl (by simp [rank, hpc])⟩
    | push _ v e es hpc hv => right; refine ⟨rfl, .inl (by simp [rank, hpc, topoPush])⟩
  | emit r t =>
    rw [hst] at hs hm
    simp only [Step.next?, Option.some.injEq] at hs
    subst hs
    refine ⟨_, ⟨h ++ [.rep r], G', inv.emit hg hgr hm, rfl⟩, ?_⟩
    simp only [μ, lex4_iff]
    cases hm with
    | leave v _ hpc =>
      right
      refine ⟨?_, .inr ⟨rfl, .inl (by simp)⟩⟩
      congr 1
      apply List.filter_congr
      intro j _
      simp only [ent, traceOf_true, List.map_cons, List.mem_cons]
      congr 1
      simp only [repIds, repsOf_append, repsOf_rep, repsOf_nil, List.map_append, List.map_cons, List.map_nil,
        List.mem_append, List.mem_singleton]
      apply decide_eq_decide.2
      constructor
      · rintro (h1 | h1 | h1)
        · exact .inl (.inr h1)
        · exact .inr h1
        · exact .inl (.inl h1)
      · rintro ((h1 | h1) | h1)
        · exact .inr (.inr h1)
        · exact .inl h1
        · exact .inr (.inl h1)
  | expand t =>
    rw [hst] at hs hm
    simp only [Step.next?, Option.some.injEq] at hs
    subst hs
    refine ⟨_, ⟨h ++ [.exp], G', inv.expand hg hgr hm, rfl⟩, ?_⟩
    simp only [μ, lex4_iff]
    left
    cases hm with
    | enterStart v R hpc hT =>
      refine henter v R rfl (by rw [hT]; simp) ?_
      have ho := inv.own.1
      unfold TopoOwn at ho
      rw [hT] at ho
      intro hr
      exact inv.srep _ (List.mem_map_of_mem ho.1) hr (by simp [idsOf])
    | enter v R hpc hT hv =>
      refine henter v R rfl inv.own.2.1 ?_
      intro hr
      have := (inv.vis (c.vid v)).2 (.inr (.inr (.inr hr)))
      rw [hv] at this; simp at this

end NoGraphs
