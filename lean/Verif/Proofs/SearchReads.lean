import Verif.Model.SearchReads
import Verif.Proofs.BiBfsResult
import Verif.Proofs.BiDijkstraResult

/-! Phases of the bidirectional breadth-first search. -/

set_option linter.unusedSectionVars false

namespace NoGraphs

open Spec

section reads

variable {σ V : Type}

/-- Each read is done in a reached state. -/
theorem readsOf_mem {m : σ → Step σ Unit} {who : σ → Option (Bool × V)} {fuel : Nat} {s : σ} {a : Bool × V}
    (h : a ∈ readsOf m who fuel s) : ∃ e t t', Reaches m s e t ∧ m t = .expand t' ∧ who t = some a := by
  suffices key : ∀ (s0 : σ) (e : List (Ev Unit)), Reaches m s0 e s → ∀ fuel, a ∈ readsOf m who fuel s →
      ∃ e t t', Reaches m s0 e t ∧ m t = .expand t' ∧ who t = some a from key s [] .refl fuel h
  clear h fuel
  intro s0 e hr fuel h
  induction fuel generalizing s e with
  | zero => simp [readsOf] at h
  | succ fuel ih =>
    unfold readsOf at h
    split at h
    · simp at h
    · simp at h
    · rename_i hx; exact ih _ (.tau hr hx) h
    · rename_i hx; exact ih _ (.emit hr hx) h
    · rename_i hx
      rcases List.mem_append.1 h with h | h
      · exact ⟨_, _, _, hr, hx, by simpa using h⟩
      · exact ih _ (.expand hr hx) h

end reads

variable {V K L S M ML : Type} [DecidableEq V] [DecidableEq K]
variable {g : TravGear V K L S M ML} {c : BiCfg V K L} {starts goals : List V}

/-- The two directions alternate, level by level, and the forward direction begins. (Unless the iterated traversal is about
to end.) -/
def BiPhase (s : BiState V L S M ML) : Prop :=
  ((s.get s.back).st.pc = .levelEnd ∧ (s.get s.back).st.nextToExpand = []) ∨
  ((s.get s.back).st.pc = .check ∧ (s.get s.back).st.toExpand = []) ∨
  (((s.get s.back).st.pc = .levelEnd →
      (s.get s.back).st.depth + 1 = (s.get (!s.back)).depth + (if s.back then 0 else 1)) ∧
   ((s.get s.back).st.pc ≠ .levelEnd →
      (s.get s.back).st.depth = (s.get (!s.back)).depth + (if s.back then 0 else 1)))

theorem BiPhase.of_cur {s s' : BiState V L S M ML} (hb : s'.back = s.back) (ho : s'.get (!s.back) = s.get (!s.back))
    (h : ((s'.get s.back).st.pc = .levelEnd ∧ (s'.get s.back).st.nextToExpand = []) ∨
      ((s'.get s.back).st.pc = .check ∧ (s'.get s.back).st.toExpand = []) ∨
      (((s'.get s.back).st.pc = .levelEnd →
        (s'.get s.back).st.depth + 1 = (s.get (!s.back)).depth + (if s.back then 0 else 1)) ∧
      ((s'.get s.back).st.pc ≠ .levelEnd →
        (s'.get s.back).st.depth = (s.get (!s.back)).depth + (if s.back then 0 else 1)))) : BiPhase s' := by
  unfold BiPhase
  rw [hb, ho]
  exact h

/-- Steps of one of the traversals. -/
theorem bfs_phase {c : TravCfg V K L} {s x : BfsState V L S M ML} {d : Int}
    (h : (s.pc = .levelEnd ∧ s.nextToExpand = []) ∨ (s.pc = .check ∧ s.toExpand = []) ∨
      ((s.pc = .levelEnd → s.depth + 1 = d) ∧ (s.pc ≠ .levelEnd → s.depth = d)))
    (hs : bfsStep g c true s = .tau x ∨ bfsStep g c true s = .expand x ∨
      ∃ r, bfsStep g c false s = .emit r x) :
    (x.pc = .levelEnd ∧ x.nextToExpand = []) ∨ (x.pc = .check ∧ x.toExpand = []) ∨
      ((x.pc = .levelEnd → x.depth + 1 = d) ∧ (x.pc ≠ .levelEnd → x.depth = d)) := by
  obtain ⟨pc, te, nte, dep, vis, pr, la⟩ := s
  cases pc with
  | check =>
    cases te with
    | nil => simp [bfsStep] at hs
    | cons v te =>
      simp only [bfsStep, Step.tau.injEq, reduceCtorEq, false_or, exists_false, or_false] at hs
      subst hs
      simpa using h
  | loop =>
    cases te with
    | cons v te =>
      simp only [bfsStep, Step.expand.injEq, reduceCtorEq, false_or, exists_false, or_false] at hs
      subst hs
      simpa using h
    | nil =>
      simp only [bfsStep] at hs
      rcases hs with hs | hs | ⟨r, hs⟩
      · split at hs
        · simp at hs
        · rename_i hne
          simp only [Step.tau.injEq] at hs
          subst hs
          refine .inl ⟨rfl, ?_⟩
          cases hl : nte.getLast? with
          | none => simpa using hl
          | some y => exact (hne y rfl hl).elim
      · split at hs <;> simp at hs
      · simp at hs
  | edges v es =>
    cases es with
    | nil =>
      simp only [bfsStep, Step.tau.injEq, reduceCtorEq, false_or, exists_false, or_false] at hs
      subst hs
      simpa using h
    | cons e es =>
      simp only [bfsStep] at hs
      split at hs
      · simp only [Step.tau.injEq, reduceCtorEq, false_or, exists_false, or_false] at hs
        subst hs
        simpa using h
      · simp only [Step.emit.injEq, reduceCtorEq, false_or] at hs
        obtain ⟨r, -, rfl⟩ := hs
        simpa using h
  | levelEnd =>
    simp only [bfsStep, Step.tau.injEq, reduceCtorEq, false_or, exists_false, or_false] at hs
    subst hs
    simpa using h

theorem BiPhase.step_tau (hok : BiOk g c) {s t : BiState V L S M ML} (inv : BiInv g c starts goals s)
    (hp : BiPhase s) (hs : biStep g c s = .tau t) : BiPhase t := by
  unfold biStep at hs
  rw [BiState.cur_eq] at hs
  split at hs
  · simp at hs
  · simp at hs
  · rename_i x hx
    simp only [Step.tau.injEq] at hs
    subst hs
    refine .of_cur (s := s) (s.setCur_back _).1 (BiState.get_setCur_other s _) ?_
    rw [BiState.get_setCur_same]
    exact bfs_phase hp (.inl hx)
  · split at hs <;> simp at hs
  · rename_i r x hx
    obtain ⟨h, hr⟩ := inv.reach s.back
    set y : BiSide V L S M ML := { s.get s.back with st := x, started := true } with hy
    have hsame := BiState.get_setCur_same s y
    have hoth := BiState.get_setCur_other s y
    rcases bfs_rdi_emit hx with he | ⟨h1, h2, h3, h4, h5⟩
    · obtain ⟨n, -, -, -, -, -, hnew, hvis, hnx, hp1, hp2, -⟩ :=
        bfs_emit_frame hok.lawful rfl (hok.compat s.back) hr he
      have hprev : s.prev ≠ some r.vertex := by
        rw [inv.prevLast hp1]
        intro hl
        have hm := List.mem_of_getLast? hl
        obtain ⟨n', binv⟩ := bfs_inv hok.lawful rfl (hok.compat s.back) hr
        have := (binv.vis ((c.side s.back).vid r.vertex)).2 (.inr (.inr ⟨r.vertex, hm, rfl⟩))
        rw [hnew] at this; simp at this
      simp only [if_neg hprev] at hs
      split at hs
      · simp at hs
      · simp only [Step.tau.injEq] at hs
        subst hs
        refine .of_cur (s := s) (s.setCur_back y).1 hoth ?_
        have hget : ({ s.setCur y with prev := some r.vertex } : BiState V L S M ML).get s.back = y := hsame
        rw [hget]
        exact bfs_phase (x := x) hp (.inr (.inr ⟨r, he⟩))
    · have hpl : (s.get s.back).st.pc ≠ .levelEnd := by rw [h1]; simp
      have hprev : s.prev = some r.vertex := by rw [inv.prevLast hpl, h3]
      simp only [if_pos hprev, Step.tau.injEq] at hs
      subst hs
      have hd : (s.get s.back).st.depth = (s.get (!s.back)).depth + (if s.back then 0 else 1) := by
        rcases hp with ⟨h, -⟩ | ⟨h, -⟩ | ⟨-, h⟩
        · exact absurd h hpl
        · rw [h1] at h; simp at h
        · exact h hpl
      have hyd : y.depth = (s.get s.back).st.depth := by
        show (if true then x.depth else 0) = _
        rw [h4]; simp
      have hget : ∀ b, ({ s.setCur y with back := !s.back, prev := none } : BiState V L S M ML).get b =
          (s.setCur y).get b := fun b => rfl
      refine .inr (.inr ?_)
      simp only [hget, Bool.not_not]
      rw [hoth, hsame, hyd, hd]
      cases hst : (s.get (!s.back)).started with
      | true =>
        have hpc := inv.paused hst
        refine ⟨fun _ => ?_, fun h => absurd hpc h⟩
        simp only [BiSide.depth, hst, if_true]
        cases s.back <;> simp
      | false =>
        have hi := inv.init _ hst
        refine ⟨fun h => ?_, fun _ => ?_⟩
        · rw [hi] at h; simp [bfsInit] at h
        · rw [hi]
          simp only [BiSide.depth, hst, bfsInit]
          cases s.back <;> simp

theorem BiPhase.step_expand {s t : BiState V L S M ML} (hp : BiPhase s)
    (hs : biStep g c s = .expand t) : BiPhase t := by
  unfold biStep at hs
  rw [BiState.cur_eq] at hs
  split at hs
  · simp at hs
  · simp at hs
  · simp at hs
  · rename_i x hx
    split at hs
    · simp at hs
    · rename_i l hl
      simp only [Step.expand.injEq] at hs
      subst hs
      refine .of_cur (s := s) (s.setCur_back _).1 (BiState.get_setCur_other s _) ?_
      rw [BiState.get_setCur_same]
      exact bfs_phase hp (.inr (.inl hx))
  · split at hs
    · simp at hs
    · split at hs <;> simp at hs

theorem bi_phase (hok : BiOk g c) (limit : Option Int) (hno : ∀ s ∈ starts, ∀ t ∈ goals, c.vid s ≠ c.vid t)
    {h : List (Ev Unit)} {s : BiState V L S M ML}
    (hr : Reaches (biStep g c) (biInit g c starts goals limit) h s) : BiInv g c starts goals s ∧ BiPhase s := by
  refine Reaches.invariant (fun _ s => BiInv g c starts goals s ∧ BiPhase s) ⟨.init0 hok limit hno, ?_⟩ ?_ ?_ ?_ hr
  · refine .inr (.inr ⟨fun h => ?_, fun _ => ?_⟩)
    · simp [biInit, BiState.get, bfsInit] at h
    · simp [biInit, BiState.get, bfsInit, BiSide.depth]
  · intro _ s t inv hs; exact ⟨inv.1.step_tau hok hs, inv.2.step_tau hok inv.1 hs⟩
  · intro _ s r t _ hs; exact absurd hs (biStep_no_emit s t r)
  · intro _ s t inv hs; exact ⟨inv.1.step_expand hok hs, inv.2.step_expand hs⟩

/-- What is known when edges are read. -/
theorem bi_read (hok : BiOk g c) (hop : OppositeEdges c.nextF c.nextB) {s t : BiState V L S M ML}
    (inv : BiInv g c starts goals s) (hp : BiPhase s) (hs : biStep g c s = .expand t) {b : Bool} {v : V}
    (hw : biWho s = some (b, v)) :
    b = s.back ∧ ∃ d : Nat, IsDepth (Edge (c.side b).next) (· ∈ biEnds starts goals b) c.vid v d ∧
      ∀ n, Connects (Edge c.nextF) c.vid starts goals n → 2 * d + (if b then 1 else 0) < n := by
  unfold biStep at hs
  rw [BiState.cur_eq] at hs
  split at hs
  · simp at hs
  · simp at hs
  · simp at hs
  · rename_i x hx
    clear hs
    obtain ⟨w, hw1, hw2⟩ := Option.map_eq_some_iff.1 hw
    simp only [Prod.mk.injEq] at hw2
    obtain ⟨rfl, rfl⟩ := hw2
    rw [BiState.cur_eq] at hw1
    refine ⟨rfl, ?_⟩
    obtain ⟨h, hr⟩ := inv.reach s.back
    obtain ⟨d, binv⟩ := bfs_inv hok.lawful rfl (hok.compat s.back) hr
    have hpc : (s.get s.back).st.pc = .loop ∧ w ∈ (s.get s.back).st.toExpand := by
      unfold bfsWho at hw1
      split at hw1
      · rename_i h1
        exact ⟨h1, List.mem_of_head? hw1⟩
      · simp at hw1
    have hdep : (s.get s.back).st.depth = (s.get (!s.back)).depth + (if s.back then 0 else 1) := by
      rcases hp with ⟨h, -⟩ | ⟨h, -⟩ | ⟨-, h⟩
      · rw [hpc.1] at h; simp at h
      · rw [hpc.1] at h; simp at h
      · exact h (by rw [hpc.1]; simp)
    have hD := binv.exp w hpc.2
    rw [biE hok.lawful] at hD
    refine ⟨d, hD, ?_⟩
    obtain ⟨j, hj, hvis⟩ := inv.level hok
    have hdisj := (disj_iff s s.back).1 inv.disj
    rw [binv.depth, hj] at hdep
    have key : ∀ n, Connects (Edge (c.side s.back).next) c.vid (biEnds starts goals s.back)
        (biEnds starts goals (!s.back)) n → d + j < n := by
      intro n hn
      by_contra hle
      obtain ⟨y, y', hy, h1, h2⟩ := hn.meet (fun u v h => (side_opp hop s.back u v).1 h)
        (hok.compat (!s.back)) (min n d) (by omega)
      refine hdisj (c.vid y) ((binv.vis _).2 (.inr (.inl ⟨min n d, y, by omega, ?_, rfl⟩)))
        ((hvis _).2 ⟨n - min n d, y', by omega, h2, hy.symm⟩)
      rw [biE hok.lawful]; exact h1
    intro n hn
    cases hb : s.back with
    | false =>
      rw [hb] at key hdep
      have := key n hn
      simp only [Bool.false_eq_true, if_false] at hdep ⊢
      omega
    | true =>
      rw [hb] at key hdep
      have := key n (hn.symm (fun u v h => (hop u v).1 h) hok.compatB)
      simp only [if_true] at hdep ⊢
      omega
  · split at hs
    · simp at hs
    · split at hs <;> simp at hs

section bd

variable {W D : Type} [AddCommMonoid W] [LinearOrder W] [IsOrderedAddMonoid W]
variable {g : WGear V K L W M ML D} {c : BdCfg V K L W} {starts goals : List V}

/-- What is known when edges are read. -/
theorem bd_read (hok : BdOk g c starts goals) (hf : ∀ u v x, WEdge c.nextF u v x → WEdge c.nextB v u x)
    {s s' : BdState V L W M ML D} {t : Bool → SpState V L W M ML D}
    {h : Bool → List (Ev (SpReport V W M ML D))} {F : Bool → K → Option W} {cur : Bool → W}
    (w : BdWit g c starts goals False s t h F cur) (hs : bdStep g c s = .expand s') {b : Bool} {v : V}
    (hw : bdWho s = some (b, v)) :
    ∃ d, IsDist (c.next b) (· ∈ biEnds starts goals b) c.vid v d ∧
      ∀ D, WConnects c.nextF c.vid starts goals D → d ≤ D := by
  obtain ⟨t', h', F', cur', w', -⟩ := bd_step hok w (fun hn => hn.elim) (s' := s') (by rw [hs]; rfl)
  unfold bdWho at hw
  split at hw
  · rename_i e rest hpc hh
    simp only [Option.some.injEq, Prod.mk.injEq] at hw
    obtain ⟨rfl, rfl⟩ := hw
    have hb : s'.back = s.back ∧ s'.pc = .edges e.item e.key (c.next s.back e.item) := by
      unfold bdStep at hs
      simp only [hpc, hh] at hs
      split at hs
      · simp at hs
      · split at hs
        · simp at hs
        · split at hs
          · simp at hs
          · simp only [Step.expand.injEq] at hs
            subst hs
            exact ⟨BdState.setCur_back _ _, rfl⟩
    refine ⟨e.key, ?_, fun D hD => ?_⟩
    · obtain ⟨ec, htpc⟩ := w'.pc_edges hb.2
      have inv := (w'.all s'.back).1
      have hp := inv.pcok
      rw [htpc] at hp
      obtain ⟨u0, e0, hd0⟩ := inv.isDist (hok.nonneg _) (hok.compat _) hp.1
      rw [← hb.1]
      exact ⟨aw_plain hp.2.2.1, fun w' v' hw' e => hd0.2 w' v' hw' (e.trans e0.symm)⟩
    · obtain ⟨e', rest', h1, rfl, -⟩ := w.heap_cons hh
      have inv := (w.all s.back).1
      have he : e' ∈ (t s.back).heap := by rw [h1]; exact List.mem_cons_self
      have hD0 : 0 ≤ D := by
        obtain ⟨v, t, -, -, hw⟩ := hD
        exact hw.nonneg (hok.nonneg false)
      by_contra hlt
      rw [not_le] at hlt
      have hDi : D < c.inf := by
        rcases Nat.eq_zero_or_pos e'.item.2 with h0 | h0
        · have h2 := inv.ent0 e' he h0
          rw [spB_start _ h2.1] at h2
          have h3 : e'.key = 0 := h2.2
          exact absurd (lt_of_lt_of_eq hlt h3) (not_lt.2 hD0)
        · exact lt_trans hlt (inv.entS e' he h0).2
      obtain ⟨x, g0, hg0, hx, hwalk⟩ := hok.connects hf s.back hD
      obtain ⟨w2, v2, q1, q2, q3⟩ := aw_of_plain (c := c.side s.back) (hok.nonneg s.back) (hok.compat s.back) hwalk hDi
      have hdone := inv.complete (w.pc_loop hpc s.back) (hok.nonneg s.back) (hok.compat s.back) h1 w2 v2 q1
        (lt_of_le_of_lt q2 hlt)
      rw [q3] at hdone
      have := w.goal s.back g0 hg0
      rw [← hx] at this
      have h5 : (F s.back (c.vid x)).isSome := hdone
      rw [this] at h5
      simp at h5
  · simp at hw

end bd

end NoGraphs
