import Verif.Model.InfBranchingReads
import Verif.Proofs.SpTimed
import Verif.Props.InfBranching

/-! # Infinite branching: the edges are asked for just in time (C106) -/

set_option linter.unusedSectionVars false

namespace NoGraphs

open Spec

variable {V W M ML D Mo Do : Type} [DecidableEq V]
variable [AddCommMonoid W] [LinearOrder W] [IsOrderedAddMonoid W]
variable {g : WGear (V × Nat) (V × Nat) Unit W M ML D} {o : IbGear V W Mo Do} {c : IbCfg V W}

/-- What an action of the search for states shows. -/
def ibView : Act ((V × Nat) × W) → List (SeqAct V W)
  | .reported p => if p.1.2 = 0 then [.reported p.1.1 p.2] else []
  | .read p => if p.1.2 = 0 then [.called p.1.1, .asked p.1.1 0] else [.asked p.1.1 p.1.2]

theorem ib_acts_eq {isCollection : Bool} {starts : List V} (ok : IbOk g o c isCollection starts) (limit : Option Int)
    (fuel : Nat) :
    ibActs g o c isCollection starts limit fuel =
      (spTimed g (ibPure c) none (ibS starts) limit fuel).flatMap ibView := by
  have h0 := ib_init_rel ok.sorted ok.set ok.starts ok.storable
  have hR : (ibInit g o c isCollection starts).sp = spInit g (ibPure c) none (ibS starts) ∧
      ∃ h E, IbRel g o c starts h (ibInit g o c isCollection starts) E ∧ ([] : List (V × Nat)) ⊆ E :=
    ⟨by simp only [ibInit, ok.starts]; exact ib_spInit, [], [], h0, by simp⟩
  unfold ibActs spTimed
  generalize ibInit g o c isCollection starts = s at hR
  generalize spInit g (ibPure c) none (ibS starts) = s' at hR
  generalize prepareLimit limit = lim
  induction fuel generalizing lim s s' with
  | zero => rfl
  | succ fuel ih =>
    have hs := ib_sim ok.sorted ok.sub ok.dist ok.storable [] s s' hR
    obtain ⟨rfl, h, E, rel, -⟩ := hR
    unfold ibActsFrom actsOf
    generalize hx : ibStep g o c s = x at hs
    generalize hy : spStep g (ibPure c) s.sp = y at hs
    cases hs with
    | stop hr => rfl
    | fail => rfl
    | tau hr => exact ih _ _ hr _
    | emit hp hq hr =>
      simp only [List.flatMap_cons]
      rw [ih _ _ hr _, hq.distance]
      simp [ibView, hq.vertex]
    | skip hp hr =>
      have hp : ¬ _ := of_decide_eq_false hp
      simp only [List.flatMap_cons]
      rw [ih _ _ hr _]
      simp [ibView, hp]
    | expand hr =>
      simp only
      cases hl : checkLimit lim with
      | none => rfl
      | some lim' =>
        simp only [List.flatMap_append]
        rw [ih _ _ hr _]
        congr 1
        have hrel := rel.pc
        unfold ibAsks spWhoW
        rcases hpc : s.sp.pc with _ | ⟨st, w, ec⟩ | ⟨st, w, ec, es⟩
        · exact rfl
        · rw [hpc] at hrel
          by_cases hz : st.2 = 0
          · simp [ibView, hz]
          · simp [ibView, hz, hrel.2.1 hz]
        · exact rfl

/-- An action that is shown comes from an action of the search for states. -/
theorem flatMap_split {α β : Type} {f : α → List β} {l : List α} {before after : List β} {x : β}
    (h : l.flatMap f = before ++ x :: after) :
    ∃ l1 a l2 p q, l = l1 ++ a :: l2 ∧ f a = p ++ x :: q ∧ before = l1.flatMap f ++ p ∧ after = q ++ l2.flatMap f := by
  induction l generalizing before with
  | nil => simp at h
  | cons a l ih =>
    rw [List.flatMap_cons] at h
    rcases List.append_eq_append_iff.1 h with ⟨a', h1, h2⟩ | ⟨c', h1, h2⟩
    · obtain ⟨l1, b, l2, p, q, rfl, h3, rfl, rfl⟩ := ih h2
      exact ⟨a :: l1, b, l2, p, q, rfl, h3, by simp [h1], rfl⟩
    · cases c' with
      | nil =>
        simp only [List.append_nil, List.nil_append] at h1 h2
        obtain ⟨l1, b, l2, p, q, rfl, h3, h4, rfl⟩ := ih (before := []) h2.symm
        exact ⟨a :: l1, b, l2, p, q, rfl, h3, by simp [h1, List.append_assoc, ← h4], rfl⟩
      | cons y c' =>
        simp only [List.cons_append, List.cons.injEq] at h2
        obtain ⟨rfl, rfl⟩ := h2
        exact ⟨[], a, l, before, c', rfl, h1, by simp, rfl⟩

theorem ibView_called {a : Act ((V × Nat) × W)} {v : V} : SeqAct.called v ∈ ibView a ↔ ∃ w, a = .read ((v, 0), w) := by
  rcases a with ⟨⟨u, k⟩, w⟩ | ⟨⟨u, k⟩, w⟩ <;> simp only [ibView]
  · split <;> simp
  · split
    · rename_i h
      simp [h, eq_comm]
    · rename_i h
      simp [h]

theorem ibView_asked {a : Act ((V × Nat) × W)} {v : V} {k : Nat} :
    SeqAct.asked v k ∈ ibView a ↔ ∃ w, a = .read ((v, k), w) := by
  rcases a with ⟨⟨u, j⟩, w⟩ | ⟨⟨u, j⟩, w⟩ <;> simp only [ibView]
  · split <;> simp
  · split
    · rename_i h
      simp [h, eq_comm]
    · simp [eq_comm]

theorem ibView_reported {a : Act ((V × Nat) × W)} {v : V} {d : W} :
    SeqAct.reported v d ∈ ibView a ↔ a = .reported ((v, 0), d) := by
  rcases a with ⟨⟨u, j⟩, w⟩ | ⟨⟨u, j⟩, w⟩ <;> simp only [ibView]
  · split
    · rename_i h
      simp [h, eq_comm]
    · rename_i h
      simp [h]
  · split <;> simp

/-- States are read after their predecessors. -/
theorem ib_ladder {starts : List V} {t : List (Act ((V × Nat) × W))} {s : SpState (V × Nat) Unit W M ML D}
    (h : TimedInv (ibPure c) (ibS starts) t s) (k : Nat) {before after : List (Act ((V × Nat) × W))} {v : V} {w : W}
    (he : t = before ++ Act.read ((v, k), w) :: after) :
    ∀ j, j < k → (∃ w', Act.read ((v, j), w') ∈ before) ∧ (c.edges v j).isSome := by
  induction k generalizing before after w with
  | zero => exact fun j hj => absurd hj (Nat.not_lt_zero j)
  | succ k ih =>
    rcases h.rd _ _ _ he with hs | hr
    · simp at hs
    · obtain ⟨b1, b2, hb⟩ := List.append_of_mem hr
      obtain ⟨u, wu, x, h1, h2, -⟩ := h.rep b1 ((v, k + 1), w) (b2 ++ Act.read ((v, k + 1), w) :: after) (by rw [he, hb]; simp)
      obtain ⟨u', y, h3, -, -, h4⟩ := ibPure_edge.1 h2
      have hu : u = (v, k) := by
        rcases h4 with h4 | h4
        · simp at h4
        · simp only [Prod.mk.injEq, add_left_inj] at h4
          exact Prod.ext h4.1.symm h4.2.symm
      subst hu
      obtain ⟨d1, d2, hd⟩ := List.append_of_mem h1
      intro j hj
      rcases Nat.lt_or_ge j k with hlt | hge
      · obtain ⟨⟨w', hw⟩, hsome⟩ := ih (before := d1) (w := wu)
          (after := d2 ++ Act.reported ((v, k + 1), w) :: (b2 ++ Act.read ((v, k + 1), w) :: after))
          (by rw [he, hb, hd]; simp) j hlt
        exact ⟨⟨w', by rw [hb, hd]; simp [hw]⟩, hsome⟩
      · have hjk : j = k := by omega
        subst hjk
        exact ⟨⟨wu, by rw [hb]; simp [h1]⟩, by simp only at h3; simp [h3]⟩

theorem ib_read_once {isCollection : Bool} {starts : List V} (ok : IbOk g o c isCollection starts) (limit : Option Int)
    (fuel : Nat) {before after : List (Act ((V × Nat) × W))} {st : V × Nat} {w : W}
    (he : spTimed g (ibPure c) none (ibS starts) limit fuel = before ++ Act.read (st, w) :: after) (w' : W) :
    Act.read (st, w') ∉ before := by
  intro hm
  have h := C98_sp (g := g) (c := ibPure c) rfl ok.dist (ibPure_nonneg ok.sorted ok.sub) none (ibS starts)
    (by
      show ((ibS starts).map id).Nodup
      rw [List.map_id]
      exact ok.set.map (fun a b hab => by simpa using hab)) (by simp) limit fuel
  unfold ReadOnce at h
  have h : (readsOf (spActs g (ibPure c) none (ibS starts) limit fuel)).Nodup := by
    have : (readsOf (spActs g (ibPure c) none (ibS starts) limit fuel)).map (ibPure c).vid =
      readsOf (spActs g (ibPure c) none (ibS starts) limit fuel) := List.map_id _
    rwa [this] at h
  rw [timed_forget, he, Spec.readsOf_append, List.map_append] at h
  obtain ⟨-, -, hdis⟩ := List.nodup_append.1 h
  refine hdis st ?_ st ?_ rfl
  · refine List.mem_map.2 ⟨(st, w'), ?_, rfl⟩
    exact List.mem_filterMap.2 ⟨_, hm, rfl⟩
  · refine List.mem_map.2 ⟨(st, w), ?_, rfl⟩
    exact List.mem_filterMap.2 ⟨_, List.mem_cons_self, rfl⟩

/-- The distance with which a state is read. -/
theorem ib_read_dist {isCollection : Bool} {starts : List V} (ok : IbOk g o c isCollection starts) (limit : Option Int)
    (fuel : Nat) {st : V × Nat} {w : W}
    (he : Act.read (st, w) ∈ spTimed g (ibPure c) none (ibS starts) limit fuel) :
    (IbAW c starts w st ∧ ∀ w', IbAW c starts w' st → w ≤ w') ∧ (st.2 = 0 → SeqDist c.edges (· ∈ starts) st.1 w) := by
  obtain ⟨h, s, ec, hr, hpc⟩ := timed_reads _ _ _ _ he
  obtain ⟨F, cur, inv, -⟩ := sp_plain_ok (c := ibPure c) rfl ok.dist (ibPure_nonneg ok.sorted ok.sub) ibPure_compat hr
  have hp := inv.pcok
  rw [hpc] at hp
  obtain ⟨p1, -, p3⟩ := hp
  have dv := inv.donev _ _ p1
  refine ⟨⟨p3, fun w' hw => dv.2.2.2.2 w' st hw rfl⟩, fun h0 => ?_⟩
  obtain ⟨u, hu, hd⟩ := inv.isDist (ibPure_nonneg ok.sorted ok.sub) ibPure_compat p1
  have hu : u = st := hu
  subst hu
  obtain ⟨v, k⟩ := u
  simp only at h0
  subst h0
  exact ib_dist ok.sorted ok.sub hd (ib_aw_lt ok.sub p3)

theorem ib_weightBefore (v : V) (k : Nat) : weightBefore c.edges v k = ibPrevW c v k := by
  cases k <;> rfl

variable (g o c)

/-- **C106.** The edges function is called once for a vertex at most, and only for start vertices and reported vertices. -/
theorem C106_ib_calls {isCollection : Bool} {starts : List V} (ok : IbOk g o c isCollection starts) (limit : Option Int)
    (fuel : Nat) : CallsOnDemand starts (ibActs g o c isCollection starts limit fuel) := by
  intro before v after he
  rw [ib_acts_eq ok] at he
  obtain ⟨l1, a, l2, p, q, h1, h2, h3, -⟩ := flatMap_split he
  obtain ⟨w, rfl⟩ := ibView_called.1 (by rw [h2]; simp : SeqAct.called v ∈ ibView a)
  obtain ⟨s, hs⟩ := timed_all (g := g) (c := ibPure c) (ibPure_nonneg ok.sorted ok.sub) none (ibS starts) limit fuel
  have hp : p = [] := by
    simp only [ibView, if_true] at h2
    cases p with
    | nil => rfl
    | cons b p =>
      simp only [List.cons_append, List.cons.injEq] at h2
      obtain ⟨-, h2⟩ := h2
      cases p with
      | nil => simp at h2
      | cons b' p => simp at h2
  subst hp
  rw [List.append_nil] at h3
  subst h3
  refine ⟨?_, fun hm => ?_⟩
  · rcases hs.rd _ _ _ h1 with hst | hr
    · left
      obtain ⟨u, hu, hue⟩ := List.mem_map.1 hst
      simp only [Prod.mk.injEq, and_true] at hue
      rw [← hue]; exact hu
    · exact .inr ⟨w, List.mem_flatMap.2 ⟨_, hr, ibView_reported.2 rfl⟩⟩
  · obtain ⟨b, hb, hv⟩ := List.mem_flatMap.1 hm
    obtain ⟨w', rfl⟩ := ibView_called.1 hv
    exact ib_read_once ok limit fuel h1 w' hb

/-- **C106.** The iterators are asked for their items in order, for each item once, and not after their end. -/
theorem C106_ib_in_order {isCollection : Bool} {starts : List V} (ok : IbOk g o c isCollection starts) (limit : Option Int)
    (fuel : Nat) : AskedInOrder c.edges (ibActs g o c isCollection starts limit fuel) := by
  intro before v k after he
  rw [ib_acts_eq ok] at he
  obtain ⟨l1, a, l2, p, q, h1, h2, h3, -⟩ := flatMap_split he
  obtain ⟨w, rfl⟩ := ibView_asked.1 (by rw [h2]; simp : SeqAct.asked v k ∈ ibView a)
  obtain ⟨s, hs⟩ := timed_all (g := g) (c := ibPure c) (ibPure_nonneg ok.sorted ok.sub) none (ibS starts) limit fuel
  have hl := ib_ladder hs k h1
  subst h3
  refine ⟨?_, fun hm => ?_, fun j hj => ⟨?_, (hl j hj).2⟩⟩
  · rcases Nat.eq_zero_or_pos k with rfl | hk
    · refine List.mem_append_right _ ?_
      simp only [ibView, if_true] at h2
      cases p with
      | nil => simp at h2
      | cons b p =>
        simp only [List.cons_append, List.cons.injEq] at h2
        rw [← h2.1]; simp
    · obtain ⟨w', hw⟩ := (hl 0 hk).1
      exact List.mem_append_left _ (List.mem_flatMap.2 ⟨_, hw, ibView_called.2 ⟨w', rfl⟩⟩)
  · rcases List.mem_append.1 hm with hm | hm
    · obtain ⟨b, hb, hv⟩ := List.mem_flatMap.1 hm
      obtain ⟨w', rfl⟩ := ibView_asked.1 hv
      exact ib_read_once ok limit fuel h1 w' hb
    · simp only [ibView] at h2
      split at h2
      · rename_i h0
        subst h0
        cases p with
        | nil => simp at hm
        | cons b p =>
          simp only [List.cons_append, List.cons.injEq] at h2
          obtain ⟨h2, h3⟩ := h2
          cases p with
          | nil => rw [← h2] at hm; simp at hm
          | cons b' p => simp at h3
      · cases p with
        | nil => simp at hm
        | cons b p => simp at h2
  · obtain ⟨w', hw⟩ := (hl j hj).1
    exact List.mem_append_left _ (List.mem_flatMap.2 ⟨_, hw, ibView_asked.2 ⟨w', rfl⟩⟩)

/-- **C106.** The iterators are asked just in time. -/
theorem C106_ib_just_in_time {isCollection : Bool} {starts : List V} (ok : IbOk g o c isCollection starts)
    (limit : Option Int) (fuel : Nat) :
    AskedJustInTime c.edges (SeqDist c.edges (· ∈ starts)) (ibActs g o c isCollection starts limit fuel) := by
  intro before v k after he
  rw [ib_acts_eq ok] at he
  obtain ⟨l1, a, l2, p, q, h1, h2, h3, h4⟩ := flatMap_split he
  obtain ⟨w, rfl⟩ := ibView_asked.1 (by rw [h2]; simp : SeqAct.asked v k ∈ ibView a)
  obtain ⟨s, hs⟩ := timed_all (g := g) (c := ibPure c) (ibPure_nonneg ok.sorted ok.sub) none (ibS starts) limit fuel
  have hd := ib_read_dist ok limit fuel (st := (v, k)) (w := w) (by rw [h1]; simp)
  obtain ⟨a, ha, hw⟩ : ∃ a, SeqDist c.edges (· ∈ starts) v a ∧ w = a + ibPrevW c v k := by
    rcases Nat.eq_zero_or_pos k with rfl | hk
    · exact ⟨w, hd.2 rfl, by simp [ibPrevW]⟩
    · obtain ⟨⟨a, hm⟩, -⟩ := ib_ladder hs k h1 0 hk
      have h0 := ib_read_dist ok limit fuel (st := (v, 0)) (w := a) (by rw [h1]; simp [hm])
      exact ⟨a, h0.2 rfl, (ib_min_base ok.sorted ok.sub h0.1.1 h0.1.2 hd.1.1 hd.1.2).1⟩
  have hord := hs.ord
  rw [h1, List.map_append, List.map_cons, List.pairwise_append, List.pairwise_cons] at hord
  obtain ⟨-, ⟨o2, -⟩, o3⟩ := hord
  have hno : ∀ u d, SeqAct.reported u d ∈ p ∨ SeqAct.reported u d ∈ q → False := by
    intro u d hm
    have : SeqAct.reported u d ∈ ibView (Act.read ((v, k), w)) := by
      rw [h2]
      rcases hm with hm | hm <;> simp [hm]
    have := ibView_reported.1 this
    cases this
  refine ⟨a, ha, fun u d hm => ?_, fun u d hm => ?_⟩
  · rw [ib_weightBefore, ← hw]
    rw [h3] at hm
    rcases List.mem_append.1 hm with hm | hm
    · obtain ⟨b, hb, hv⟩ := List.mem_flatMap.1 hm
      have hv := ibView_reported.1 hv
      subst hv
      exact o3 d (List.mem_map.2 ⟨_, hb, rfl⟩) w List.mem_cons_self
    · exact (hno u d (.inl hm)).elim
  · rw [ib_weightBefore, ← hw]
    rw [h4] at hm
    rcases List.mem_append.1 hm with hm | hm
    · exact (hno u d (.inr hm)).elim
    · obtain ⟨b, hb, hv⟩ := List.mem_flatMap.1 hm
      have hv := ibView_reported.1 hv
      subst hv
      exact o2 d (List.mem_map.2 ⟨_, hb, rfl⟩)

/-- **C106.** The reports among the actions are those of the run. -/
theorem C106_ib_actions (isCollection : Bool) (starts : List V) (limit : Option Int) (fuel : Nat) :
    seqReports (ibActs g o c isCollection starts limit fuel) =
      (ibRun g o c isCollection starts limit fuel).reports.map (fun r => (r.vertex, r.distance)) := by
  unfold ibActs ibRun
  generalize ibInit g o c isCollection starts = s
  generalize prepareLimit limit = lim
  induction fuel generalizing lim s with
  | zero => rfl
  | succ fuel ih =>
    unfold ibActsFrom runMachine
    rcases hm : ibStep g o c s with s' | e | s' | ⟨r, s'⟩ | s' <;> simp only
    · rfl
    · rfl
    · exact ih _ _
    · have := ih s' lim
      simp only [RunResult.reports, repsOf_rep, List.map_cons, seqReports, List.filterMap_cons] at this ⊢
      rw [this]
    · cases hl : checkLimit lim with
      | none => rfl
      | some lim' =>
        have := ih s' lim'
        simp only [RunResult.reports, repsOf_exp] at this ⊢
        rw [← this]
        have h0 : seqReports (ibAsks s) = [] := by
          unfold ibAsks
          split
          · split
            · rfl
            · split <;> rfl
          · rfl
        simp only [seqReports, List.filterMap_append] at h0 ⊢
        rw [h0, List.nil_append]

/-- **C106.** Only the items that have been asked for matter (for any graph, any gear, and any limit): for an edges function
that gives other items elsewhere, the reports and the ending are the same. -/
theorem C106_ib_local (edges' : V → Nat → Option (V × W)) (isCollection : Bool) (starts : List V) (limit : Option Int)
    (fuel : Nat) (h : ∀ v k, SeqAct.asked v k ∈ ibActs g o c isCollection starts limit fuel → c.edges v k = edges' v k) :
    (ibRun g o c isCollection starts limit fuel).events =
      (ibRun g o { c with edges := edges' } isCollection starts limit fuel).events ∧
    (ibRun g o c isCollection starts limit fuel).ending =
      (ibRun g o { c with edges := edges' } isCollection starts limit fuel).ending := by
  have h0 : ibInit g o { c with edges := edges' } isCollection starts = ibInit g o c isCollection starts := rfl
  unfold ibRun
  rw [h0]
  unfold ibActs at h
  revert h
  generalize ibInit g o c isCollection starts = s
  generalize prepareLimit limit = lim
  intro h
  induction fuel generalizing lim s with
  | zero => exact ⟨rfl, rfl⟩
  | succ fuel ih =>
    have hne : (∀ st w ec, s.sp.pc ≠ .expand st w ec) → ibStep g o { c with edges := edges' } s = ibStep g o c s := by
      intro hpc
      unfold ibStep
      rcases hp : s.sp.pc with _ | ⟨st, w, ec⟩ | ⟨st, w, ec, es⟩
      · rfl
      · exact absurd hp (hpc st w ec)
      · rfl
    by_cases hpc : ∃ st w ec, s.sp.pc = .expand st w ec
    · obtain ⟨st, w, ec, hpc⟩ := hpc
      unfold ibActsFrom at h
      unfold runMachine
      rcases hpos : (if st.2 = 0 then some 0 else s.iters st.1) with _ | pos
      · have e1 : ibStep g o c s = .fail .keyError := by simp only [ibStep, hpc, ibEdges, hpos]
        have e2 : ibStep g o { c with edges := edges' } s = .fail .keyError := by simp only [ibStep, hpc, ibEdges, hpos]
        rw [e1, e2]
        exact ⟨rfl, rfl⟩
      · have ex : ∀ c' : IbCfg V W, ∃ s', ibStep g o c' s = .expand s' := by
          intro c'
          unfold ibStep
          simp only [hpc, ibEdges, hpos]
          cases c'.edges st.1 pos with
          | none => exact ⟨_, rfl⟩
          | some p => exact ⟨_, rfl⟩
        obtain ⟨s1, e1⟩ := ex c
        cases hl : checkLimit lim with
        | none =>
          obtain ⟨s2, e2⟩ := ex { c with edges := edges' }
          rw [e1, e2]
          simp only
          exact ⟨trivial, trivial⟩
        | some lim' =>
          simp only [e1, hl] at h
          have hask : SeqAct.asked st.1 pos ∈ ibAsks s := by
            unfold ibAsks
            simp only [hpc]
            split at hpos
            · simp only [Option.some.injEq] at hpos
              rename_i hz
              simp [hz, ← hpos]
            · rename_i hz
              simp [hz, hpos]
          have heq := h st.1 pos (List.mem_append_left _ hask)
          have e2 : ibStep g o { c with edges := edges' } s = .expand s1 := by
            rw [← e1]
            unfold ibStep
            simp only [hpc, ibEdges, hpos, heq]
          rw [e1, e2]
          simp only
          have := ih s1 lim' (fun v k hv => h v k (List.mem_append_right _ hv))
          exact ⟨by rw [this.1], this.2⟩
    · have hn := hne (fun st w ec hp => hpc ⟨st, w, ec, hp⟩)
      unfold runMachine
      rw [hn]
      unfold ibActsFrom at h
      rcases hm : ibStep g o c s with s' | e | s' | ⟨r, s'⟩ | s' <;> simp only [hm] at h ⊢
      · exact ⟨trivial, trivial⟩
      · exact ⟨trivial, trivial⟩
      · exact ih s' lim h
      · have := ih s' lim (fun v k hv => h v k (List.mem_cons_of_mem _ hv))
        exact ⟨by rw [this.1], this.2⟩
      · exfalso
        have hx := fun s1 => spStep_no_expand (g := g) (cc := ibInner c) (s := s.sp) (s1 := s1)
          (fun st w ec hp => hpc ⟨st, w, ec, hp⟩)
        unfold ibStep at hm
        split at hm
        · rename_i st w ec hp
          exact hpc ⟨st, w, ec, hp⟩
        · split at hm
          · simp at hm
          · simp at hm
          · simp at hm
          · rename_i he
            exact hx _ he
          · split at hm
            · split at hm <;> simp at hm
            · simp at hm

section Sp
variable {K L M' ML' D' : Type} [DecidableEq K] {g' : WGear V K L W M' ML' D'} {c' : WCfg V K L W}

/-- **C106, for the ordinary shortest paths traversal.** The edges of a vertex are read when the vertices with smaller
distances have been reported, and before vertices with larger distances are reported. -/
theorem C106_sp_just_in_time (ht : c'.isTree = false) (hd : g'.dd.Lawful c'.inf) (hn : NonNeg c'.next)
    (hc : WCompat c'.next c'.vid) (starts : List V) (limit : Option Int) (fuel : Nat) (before : List (Act V)) (v : V)
    (after : List (Act V)) (he : spActs g' c' none starts limit fuel = before ++ Act.read v :: after) :
    ∃ a, IsDist c'.next (· ∈ starts) c'.vid v a ∧
      (∀ u d, Act.reported u ∈ before → IsDist c'.next (· ∈ starts) c'.vid u d → d ≤ a) ∧
      (∀ u d, Act.reported u ∈ after → IsDist c'.next (· ∈ starts) c'.vid u d → a ≤ d) := by
  rw [timed_acts] at he
  obtain ⟨b, t, hbt, rfl, ht'⟩ := List.map_eq_append_iff.1 he
  obtain ⟨p, t', rfl, hp, rfl⟩ := List.map_eq_cons_iff.1 ht'
  obtain ⟨v', a⟩ | ⟨v', a⟩ := p
  · simp [actMap] at hp
  simp only [actMap, Act.read.injEq] at hp
  subst hp
  obtain ⟨h, s, ec, hr, hpc⟩ := timed_reads (g := g') (c := c') none starts limit fuel (p := (v', a)) (by rw [hbt]; simp)
  obtain ⟨F, cur, inv, -⟩ := sp_plain_ok ht hd hn hc hr
  have hp := inv.pcok
  rw [hpc] at hp
  obtain ⟨p1, -, p3⟩ := hp
  obtain ⟨u0, hu0, hd0⟩ := inv.isDist hn hc p1
  have hdist : IsDist c'.next (· ∈ starts) c'.vid v' a :=
    ⟨aw_plain p3, fun w' x hw e => hd0.2 w' x hw (e.trans hu0.symm)⟩
  have hrep : ∀ u d, Act.reported (u, d) ∈ spTimed g' c' none starts limit fuel →
      IsDist c'.next (· ∈ starts) c'.vid u d := by
    intro u d hm
    have hm' : (u, d) ∈ reportedOf (spTimed g' c' none starts limit fuel) :=
      List.mem_filterMap.2 ⟨_, hm, rfl⟩
    unfold spTimed at hm'
    rw [acts_reported] at hm'
    obtain ⟨r, hr, hrd⟩ := List.mem_map.1 hm'
    have := C18_sp_distance g' c' ht hd hn hc starts limit fuel r hr
    simp only [Prod.mk.injEq] at hrd
    rwa [hrd.1, hrd.2] at this
  obtain ⟨s2, hs2⟩ := timed_all (g := g') (c := c') hn none starts limit fuel
  have hord := hs2.ord
  rw [hbt, List.map_append, List.map_cons, List.pairwise_append, List.pairwise_cons] at hord
  obtain ⟨-, ⟨o2, -⟩, o3⟩ := hord
  have find : ∀ (l : List (Act (V × W))) u, Act.reported u ∈ l.map (actMap Prod.fst) → ∃ d, Act.reported (u, d) ∈ l := by
    intro l u hm
    obtain ⟨x, hx, hxe⟩ := List.mem_map.1 hm
    obtain ⟨u', d⟩ | ⟨u', d⟩ := x
    · simp only [actMap, Act.reported.injEq] at hxe
      subst hxe
      exact ⟨d, hx⟩
    · simp [actMap] at hxe
  refine ⟨a, hdist, fun u d hm hud => ?_, fun u d hm hud => ?_⟩
  · obtain ⟨d', hd'⟩ := find _ _ hm
    have e := hud.unique (hrep u d' (by rw [hbt]; simp [hd'])) rfl
    subst e
    exact o3 d (List.mem_map.2 ⟨_, hd', rfl⟩) a List.mem_cons_self
  · obtain ⟨d', hd'⟩ := find _ _ hm
    have e := hud.unique (hrep u d' (by rw [hbt]; simp [hd'])) rfl
    subst e
    exact o2 d (List.mem_map.2 ⟨_, hd', rfl⟩)

end Sp

/-! ## Concrete cases -/

example : spActs exWHash (exWCfg true) none [0] none 100 =
    [.read 0, .reported 2, .read 2, .reported 4, .read 4, .reported 1, .read 1, .reported 3, .read 3] := by decide

example := C106_sp_just_in_time (g' := exWHash) (c' := exWCfg true) rfl (dictDist_lawful 1000) exW_nonneg wcompat_id [0] none
  100 [.read 0, .reported 2, .read 2, .reported 4] 4 [.reported 1, .read 1, .reported 3, .read 3] (by decide)


/-- The calls and demands for the infinite graph, until the calculation limit is reached. -/
example : ibActs exIbGear exIbOut (exIbCfg true true) true [0, 7] (some 7) 80 =
    [.called 7, .asked 7 0, .asked 7 1, .reported 8 0, .called 8, .asked 8 0, .called 0, .asked 0 0, .asked 7 2,
      .reported 10 1, .called 10, .asked 10 0, .asked 0 1, .reported 1 2] := by decide +kernel

example : CallsOnDemand [0, 7] (ibActs exIbGear exIbOut (exIbCfg true true) true [0, 7] (some 7) 80) :=
  C106_ib_calls _ _ _ (exIb_ok true true) _ _

example : AskedInOrder exIbEdges (ibActs exIbGear exIbOut (exIbCfg true true) true [0, 7] (some 7) 80) :=
  C106_ib_in_order _ _ _ (exIb_ok true true) _ _

example : AskedJustInTime exIbEdges (SeqDist exIbEdges (· ∈ [0, 7]))
    (ibActs exIbGear exIbOut (exIbCfg true true) true [0, 7] (some 7) 80) :=
  C106_ib_just_in_time _ _ _ (exIb_ok true true) _ _

/-- Another graph, whose iterators end after three items: the run does not notice the difference. -/
example : ((ibRun exIbGear exIbOut (exIbCfg true true) true [0, 7] (some 7) 80).reports.map (fun r => r.vertex)) =
    ((ibRun exIbGear exIbOut { exIbCfg true true with edges := fun v k => if k < 3 then exIbEdges v k else none } true [0, 7]
      (some 7) 80).reports.map (fun r => r.vertex)) := by
  have h := (C106_ib_local exIbGear exIbOut (exIbCfg true true) (fun v k => if k < 3 then exIbEdges v k else none) true
    [0, 7] (some 7) 80 (fun v k hv => by
      have e : ibActs exIbGear exIbOut (exIbCfg true true) true [0, 7] (some 7) 80 =
        [.called 7, .asked 7 0, .asked 7 1, .reported 8 0, .called 8, .asked 8 0, .called 0, .asked 0 0, .asked 7 2,
          .reported 10 1, .called 10, .asked 10 0, .asked 0 1, .reported 1 2] := by decide +kernel
      rw [e] at hv
      simp only [List.mem_cons, reduceCtorEq, SeqAct.asked.injEq, List.not_mem_nil, or_false, false_or] at hv
      have hk : k < 3 := by omega
      simp only [hk, if_true]
      rfl)).1
  simp only [RunResult.reports, h]

end NoGraphs
