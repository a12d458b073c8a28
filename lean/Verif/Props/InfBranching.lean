import Verif.Proofs.InfBranchingSim
import Verif.Props.ShortestPaths
import Verif.Props.Limit

/-! # Shortest paths with infinite branching (C47, C66–C68, and C05, C42 for it) -/

set_option linter.unusedSectionVars false

namespace NoGraphs

open Spec

variable {V W M ML D Mo Do : Type} [DecidableEq V]
variable [AddCommMonoid W] [LinearOrder W] [IsOrderedAddMonoid W]
variable (g : WGear (V × Nat) (V × Nat) Unit W M ML D) (o : IbGear V W Mo Do) (c : IbCfg V W)

/-- What the theorems assume: the edges of each vertex are sorted, weights can be subtracted, the start vertices are
a set, the internal gear stores distances, and if paths are built, the gears can store them. The start vertices are
not given as an iterator that can be used only once, or it is not used twice. -/
structure IbOk (isCollection : Bool) (starts : List V) : Prop where
  sorted : SortedSeqs c.edges
  sub : SubLaws c.sub c.inf
  dist : g.dd.Lawful c.inf
  set : starts.Nodup
  once : isCollection = true ∨ c.buildPaths = true ∨ c.storeDistances = false
  storable : c.buildPaths = true → ∃ validS validL validV, IbStorable g o c starts validS validL validV

variable {g o c}

theorem IbOk.starts {isCollection : Bool} {starts : List V} (ok : IbOk g o c isCollection starts) :
    ibStarts c isCollection starts = starts := by
  unfold ibStarts
  rcases ok.once with h | h | h <;> simp [h]

/-- The run is a filtered run of the shortest paths traversal on the state graph. -/
theorem ib_run {isCollection : Bool} {starts : List V} (ok : IbOk g o c isCollection starts)
    (limit : Option Int) (fuel : Nat) :
    let run := ibRun g o c isCollection starts limit fuel
    let run' := spRun g (ibPure c) none (ibS starts) limit fuel
    List.Forall₂ (IbShows o c starts) run.reports (run'.reports.filter (fun r => decide (r.vertex.2 = 0))) ∧
    expsOf run.events = expsOf run'.events ∧ run.ending = run'.ending ∧
    (run.ending = .done → ∃ h E, IbRel g o c starts h run.final E ∧
      run.final.sp = run'.final) := by
  intro run run'
  have h0 := ib_init_rel ok.sorted ok.set ok.starts ok.storable
  obtain ⟨h1, h2, h3, h4⟩ := run_sim_filter _ _ _ _ (ib_sim ok.sorted ok.sub ok.dist ok.storable []) fuel
    (prepareLimit limit) (ibInit g o c isCollection starts) (spInit g (ibPure c) none (ibS starts))
    ⟨by simp only [ibInit, ok.starts]; exact ib_spInit, [], [], h0, by simp⟩
  refine ⟨h1, h2, h3, fun hd => ?_⟩
  obtain ⟨e, h, E, hr, -⟩ := h4 hd
  exact ⟨h, E, hr, e⟩

theorem ib_forall₂_mem_left {α β : Type} {Q : α → β → Prop} {l : List α} {l' : List β} (h : List.Forall₂ Q l l')
    {a : α} (ha : a ∈ l) : ∃ b ∈ l', Q a b := by
  induction h with
  | nil => simp at ha
  | cons hab _ ih =>
    rcases List.mem_cons.1 ha with rfl | ha
    · exact ⟨_, List.mem_cons_self, hab⟩
    · obtain ⟨b, hb, hq⟩ := ih ha
      exact ⟨b, List.mem_cons_of_mem _ hb, hq⟩

theorem ib_forall₂_mem_right {α β : Type} {Q : α → β → Prop} {l : List α} {l' : List β} (h : List.Forall₂ Q l l')
    {b : β} (hb : b ∈ l') : ∃ a ∈ l, Q a b := by
  induction h with
  | nil => simp at hb
  | cons hab _ ih =>
    rcases List.mem_cons.1 hb with rfl | hb
    · exact ⟨_, List.mem_cons_self, hab⟩
    · obtain ⟨a, ha, hq⟩ := ih hb
      exact ⟨a, List.mem_cons_of_mem _ ha, hq⟩

theorem ib_forall₂_split {α β : Type} {Q : α → β → Prop} {l1 l2 : List α} {a : α} {l' : List β}
    (h : List.Forall₂ Q (l1 ++ a :: l2) l') :
    ∃ l1' b l2', l' = l1' ++ b :: l2' ∧ List.Forall₂ Q l1 l1' ∧ Q a b ∧ List.Forall₂ Q l2 l2' := by
  induction l1 generalizing l' with
  | nil =>
    cases h with
    | cons hab ht => exact ⟨[], _, _, rfl, .nil, hab, ht⟩
  | cons x l1 ih =>
    cases h with
    | cons hab ht =>
      obtain ⟨l1', b, l2', rfl, h1, h2, h3⟩ := ih ht
      exact ⟨_ :: l1', b, l2', rfl, .cons hab h1, h2, h3⟩

variable (g o c)

/-- **C47.** Vertices are reported with their distances. -/
theorem C47_ib_distance {isCollection : Bool} {starts : List V} (ok : IbOk g o c isCollection starts)
    (limit : Option Int) (fuel : Nat) :
    ∀ r ∈ (ibRun g o c isCollection starts limit fuel).reports,
      SeqDist c.edges (· ∈ starts) r.vertex r.distance ∧ r.distance < c.inf := by
  intro r hr
  obtain ⟨h1, -⟩ := ib_run ok limit fuel
  obtain ⟨r', hr', hq⟩ := ib_forall₂_mem_left h1 hr
  have hr' := (List.mem_filter.1 hr').1
  have hn := ibPure_nonneg ok.sorted ok.sub
  have hd := C18_sp_distance g (ibPure c) rfl ok.dist hn ibPure_compat (ibS starts) limit fuel r' hr'
  have hlt := ((C23_sp_overflow g (ibPure c) rfl ok.dist hn ibPure_compat (ibS starts) limit fuel).1 r' hr').1
  rw [hq.vertex] at hd
  rw [hq.distance]
  exact ⟨ib_dist ok.sorted ok.sub hd hlt, hlt⟩

/-- **C47.** Each vertex is reported at most once, start vertices are not reported, and distances do not decrease. -/
theorem C47_ib_once_ordered {isCollection : Bool} {starts : List V} (ok : IbOk g o c isCollection starts)
    (limit : Option Int) (fuel : Nat) :
    let reports := (ibRun g o c isCollection starts limit fuel).reports
    (reports.map (fun r => r.vertex)).Nodup ∧ (∀ r ∈ reports, r.vertex ∉ starts) ∧
    (reports.map (fun r => r.distance)).Pairwise (· ≤ ·) := by
  intro reports
  obtain ⟨h1, -⟩ := ib_run ok limit fuel
  have hn := ibPure_nonneg ok.sorted ok.sub
  obtain ⟨s1, s2, s3⟩ := C19_sp_once_ordered g (ibPure c) rfl ok.dist hn ibPure_compat (ibS starts) limit fuel
  refine ⟨?_, fun r hr hs => ?_, ?_⟩
  · have e : reports.map (fun r => (r.vertex, 0)) = ((spRun g (ibPure c) none (ibS starts) limit fuel).reports.filter
        (fun r => decide (r.vertex.2 = 0))).map (fun r => r.vertex) :=
      forall₂_map_eq h1 (fun a b q => q.vertex.symm)
    have hnd : (reports.map (fun r => (r.vertex, 0))).Nodup := by
      rw [e]
      exact s1.sublist (List.filter_sublist.map _)
    have : (reports.map (fun r => (r.vertex, 0))) = (reports.map (fun r => r.vertex)).map (fun v => (v, 0)) := by
      rw [List.map_map]; rfl
    rw [this] at hnd
    exact hnd.of_map _
  · obtain ⟨r', hr', hq⟩ := ib_forall₂_mem_left h1 hr
    have := s2 r' (List.mem_filter.1 hr').1
    apply this
    rw [hq.vertex]
    exact List.mem_map.2 ⟨(r.vertex, 0), List.mem_map.2 ⟨_, hs, rfl⟩, rfl⟩
  · have e : reports.map (fun r => r.distance) = ((spRun g (ibPure c) none (ibS starts) limit fuel).reports.filter
        (fun r => decide (r.vertex.2 = 0))).map (fun r => r.distance) :=
      forall₂_map_eq h1 (fun a b q => q.distance)
    rw [e]
    exact s3.sublist (List.filter_sublist.map _)

/-- **C47.** Before a vertex with distance `d` is reported, all vertices with a smaller distance have been
reported (or are start vertices). -/
theorem C47_ib_before {isCollection : Bool} {starts : List V} (ok : IbOk g o c isCollection starts)
    (limit : Option Int) (fuel : Nat) {before after : List (IbReport V W Mo Do)} {r : IbReport V W Mo Do}
    (hr : (ibRun g o c isCollection starts limit fuel).reports = before ++ r :: after) :
    ∀ w v, SeqWalk c.edges (· ∈ starts) w v → w < r.distance → v ∈ starts ∨ ∃ r' ∈ before, r'.vertex = v := by
  intro w v hw hlt
  have hinf := (C47_ib_distance g o c ok limit fuel r (by rw [hr]; simp)).2
  obtain ⟨h1, -⟩ := ib_run ok limit fuel
  rw [hr] at h1
  obtain ⟨l1, b, l2, e, q1, q2, -⟩ := ib_forall₂_split h1
  obtain ⟨m1, m2, e1, e2, e3⟩ := List.filter_eq_append_iff.1 e
  obtain ⟨n1, n2, f1, f2, f3, f4⟩ := List.filter_eq_cons_iff.1 e3
  rw [f1, ← List.append_assoc] at e1
  have hn := ibPure_nonneg ok.sorted ok.sub
  have hwalk := ib_state_of_walk ok.sorted ok.sub hw (hlt.trans hinf)
  rcases C20_sp_before g (ibPure c) rfl ok.dist hn ibPure_compat (ibS starts) limit fuel e1 w (v, 0) hwalk
    (by rw [← q2.distance]; exact hlt) with hs | ⟨r', hr', hv⟩
  · left
    obtain ⟨t, ht, hte⟩ := List.mem_map.1 hs
    obtain ⟨u, hu, rfl⟩ := List.mem_map.1 ht
    have hte : (u, 0) = (v, 0) := hte
    simp only [Prod.mk.injEq, and_true] at hte
    rw [← hte]; exact hu
  · right
    have hv : r'.vertex = (v, 0) := hv
    rcases List.mem_append.1 hr' with hr' | hr'
    · have hmem : r' ∈ l1 := by
        rw [← e2]; exact List.mem_filter.2 ⟨hr', by simp [hv]⟩
      obtain ⟨a, ha, hq⟩ := ib_forall₂_mem_right q1 hmem
      refine ⟨a, ha, ?_⟩
      have := hq.vertex
      rw [hv] at this
      simpa using this.symm
    · exact absurd (by simp [hv]) (f2 r' hr')

/-- **C47.** If the traversal comes to its end, all vertices that can be reached have been reported (or are start
vertices). -/
theorem C47_ib_complete {isCollection : Bool} {starts : List V} (ok : IbOk g o c isCollection starts)
    (limit : Option Int) (fuel : Nat) (hdone : (ibRun g o c isCollection starts limit fuel).ending = .done) :
    ∀ w v, SeqWalk c.edges (· ∈ starts) w v →
      v ∈ starts ∨ ∃ r ∈ (ibRun g o c isCollection starts limit fuel).reports, r.vertex = v := by
  obtain ⟨h1, -, h3, -⟩ := ib_run ok limit fuel
  rw [hdone] at h3
  have hn := ibPure_nonneg ok.sorted ok.sub
  have comp := C20_sp_complete g (ibPure c) rfl ok.dist hn ibPure_compat (ibS starts) limit fuel h3.symm
  have hdist := C18_sp_distance g (ibPure c) rfl ok.dist hn ibPure_compat (ibS starts) limit fuel
  obtain ⟨-, -, hov⟩ := C23_sp_overflow g (ibPure c) rfl ok.dist hn ibPure_compat (ibS starts) limit fuel
  have hov := hov h3.symm
  -- every state that can be reached has a distance
  have hd : ∀ w st, WalkW (ibPure c).next (· ∈ ibS starts) w st →
      ∃ d, IsDist (ibPure c).next (· ∈ ibS starts) (ibPure c).vid st d := by
    intro w st hw
    rcases comp w st hw with hs | ⟨r, hr, e⟩
    · obtain ⟨t, ht, hte⟩ := List.mem_map.1 hs
      have hte : t = st := hte
      subst hte
      exact ⟨0, .start ht, fun w' v' hw' _ => hw'.nonneg hn⟩
    · have e : r.vertex = st := e
      exact ⟨r.distance, e ▸ hdist r hr⟩
  have key : ∀ w v, SeqWalk c.edges (· ∈ starts) w v → ∃ w', WalkW (ibPure c).next (· ∈ ibS starts) w' (v, 0) := by
    intro w v hw
    induction hw with
    | start hs => exact ⟨0, .start (List.mem_map.2 ⟨_, hs, rfl⟩)⟩
    | @step w u v x _ he ih =>
      obtain ⟨i, hi⟩ := he
      have hstate : ∀ j, j ≤ i → ∃ w', WalkW (ibPure c).next (· ∈ ibS starts) w' (u, j) ∧ ibPrevW c u j < c.inf := by
        have hlt : ∀ j w', j ≤ i → WalkW (ibPure c).next (· ∈ ibS starts) w' (u, j) → 
            (∀ k, k < j → ibPrevW c u k < c.inf) → ibPrevW c u j < c.inf := by
          intro j w' hj hw' hk
          cases j with
          | zero => exact ok.sub.pos
          | succ j =>
            obtain ⟨p, hp⟩ := Option.isSome_iff_exists.1
              (ib_edges_before ok.sorted (v := u) (k := i) (by rw [hi]; rfl) (j := j) (by omega))
            have hp : c.edges u j = some (p.1, p.2) := hp
            -- the state before has a distance, and its edges do not lead to infinity
            have hedge := ibPure_edge (c := c) (st := (u, j)) (st' := (u, j + 1))
              (x := c.sub p.2 (ibPrevW c u j)) |>.2 ⟨p.1, p.2, hp, hk j (Nat.lt_succ_self j), rfl, .inr rfl⟩
            obtain ⟨a, ha, hb⟩ := ib_walk_of_state ok.sorted ok.sub hw'
            obtain ⟨d, hd'⟩ := hd w' (u, j + 1) hw'
            obtain ⟨w0, hw0⟩ := ih
            have hch := ib_chain ok.sorted ok.sub hw0 (k := j)
              (fun k hk' => ib_edges_before ok.sorted (v := u) (k := i) (by rw [hi]; rfl) (by omega))
              (fun k hk' => hk k (by omega))
            obtain ⟨d', hd''⟩ := hd _ _ hch
            have h4 := hov _ _ _ _ hd'' hedge
            obtain ⟨a', ha', hb'⟩ := ib_walk_of_state ok.sorted ok.sub hd''.1
            simp only at hb'
            rw [hb', ib_step_weight ok.sorted ok.sub hp (hk j (Nat.lt_succ_self j))] at h4
            rw [ibPrevW_succ hp]
            exact lt_of_le_of_lt (le_add_of_nonneg_left (SeqWalk.nonneg ok.sorted ha')) h4
        intro j
        induction j with
        | zero => intro _; obtain ⟨w0, hw0⟩ := ih; exact ⟨w0, hw0, ok.sub.pos⟩
        | succ j ihj =>
          intro hj
          have hall : ∀ k, k < j + 1 → ibPrevW c u k < c.inf := by
            intro k hk
            obtain ⟨w', -, h⟩ := ihj (by omega)
            exact lt_of_le_of_lt (ibPrevW_mono ok.sorted
              (ib_edges_before ok.sorted (v := u) (k := i) (by rw [hi]; rfl) (by omega)) (by omega)) h
          obtain ⟨w', hw', -⟩ := ihj (by omega)
          obtain ⟨p, hp⟩ := Option.isSome_iff_exists.1
            (ib_edges_before ok.sorted (v := u) (k := i) (by rw [hi]; rfl) (j := j) (by omega))
          have hp : c.edges u j = some (p.1, p.2) := hp
          have h2 := WalkW.step hw' (ibPure_edge.2 ⟨p.1, p.2, hp, hall j (Nat.lt_succ_self j), rfl, .inr rfl⟩)
          exact ⟨_, h2, hlt (j + 1) _ hj h2 hall⟩
      obtain ⟨w', hw', hlt⟩ := hstate i (le_refl i)
      exact ⟨_, .step hw' (ibPure_edge.2 ⟨v, x, hi, hlt, rfl, .inl rfl⟩)⟩
  intro w v hw
  obtain ⟨w', hw'⟩ := key w v hw
  rcases comp w' (v, 0) hw' with hs | ⟨r, hr, e⟩
  · left
    obtain ⟨t, ht, hte⟩ := List.mem_map.1 hs
    obtain ⟨u, hu, rfl⟩ := List.mem_map.1 ht
    have hte : (u, 0) = (v, 0) := hte
    simp only [Prod.mk.injEq, and_true] at hte
    rw [← hte]; exact hu
  · right
    have e : r.vertex = (v, 0) := e
    obtain ⟨a, ha, hq⟩ := ib_forall₂_mem_right h1 (List.mem_filter.2 ⟨hr, by simp [e]⟩)
    refine ⟨a, ha, ?_⟩
    have := hq.vertex
    rw [e] at this
    simpa using this.symm

theorem ib_walk_before {S : V × Nat → Prop} (h0 : ∀ st, S st → st.2 = 0) {w : W} {st : V × Nat}
    (h : WalkW (ibPure c).next S w st) :
    ∀ j, j < st.2 → (c.edges st.1 j).isSome ∧ ibPrevW c st.1 j < c.inf := by
  induction h with
  | start hs => intro j hj; rw [h0 _ hs] at hj; omega
  | @step w st st' x _ he ih =>
    obtain ⟨u, y, e1, e2, -, e4⟩ := ibPure_edge.1 he
    rcases e4 with rfl | rfl
    · intro j hj; simp only at hj; omega
    · intro j hj
      simp only at hj ⊢
      rcases Nat.lt_or_ge j st.2 with h | h
      · exact ih j h
      · have : j = st.2 := by omega
        subst this
        exact ⟨by rw [e1]; rfl, e2⟩

/-- **C47.** The only errors: a vertex can be reached, but with one of its edges, the weight of each walk is not below
infinity (`OverflowError`), or the limit is exceeded. -/
theorem C47_ib_errors {isCollection : Bool} {starts : List V} (ok : IbOk g o c isCollection starts)
    (limit : Option Int) (fuel : Nat) {e : PyErr}
    (he : (ibRun g o c isCollection starts limit fuel).ending = .raised e) :
    (e = .overflowError ∧ ∃ u v x, (∃ w, SeqWalk c.edges (· ∈ starts) w u) ∧ SeqEdge c.edges u v x ∧
      ∀ w, SeqWalk c.edges (· ∈ starts) w u → c.inf ≤ w + x) ∨
    (e = .runtimeError ∧ limit ≠ none) := by
  obtain ⟨-, -, h3, -⟩ := ib_run ok limit fuel
  rw [he] at h3
  have hn := ibPure_nonneg ok.sorted ok.sub
  obtain ⟨s, hs, hend⟩ := run_reaches (spStep g (ibPure c)) fuel (prepareLimit limit) (spInit g (ibPure c) none (ibS starts))
  unfold spRun at h3
  rw [← h3] at hend
  rcases hend with hf | ⟨h1, h2, -⟩
  · left
    obtain ⟨rfl, -⟩ := spStep_fail hf
    refine ⟨rfl, ?_⟩
    obtain ⟨-, hov, -⟩ := C23_sp_overflow g (ibPure c) rfl ok.dist hn ibPure_compat (ibS starts) limit fuel
    obtain ⟨u, v, x, d, hd, hedge, hinf⟩ := hov h3.symm
    obtain ⟨u', y, e1, e2, e3, -⟩ := ibPure_edge.1 hedge
    obtain ⟨a, ha, hb⟩ := ib_walk_of_state ok.sorted ok.sub hd.1
    rw [hb, e3, ib_step_weight ok.sorted ok.sub e1 e2] at hinf
    refine ⟨u.1, u', y, ⟨a, ha⟩, ⟨_, e1⟩, fun w' hw' => ?_⟩
    have hy : 0 ≤ y := by
      have h0 := ibPrevW_mono ok.sorted (v := u.1) (k := u.2) (by rw [e1]; rfl) (Nat.zero_le _)
      exact h0.trans (ibPrevW_le ok.sorted e1)
    rcases lt_or_ge w' c.inf with hlt | hge
    · have h5 := ib_state_of_walk ok.sorted ok.sub hw' hlt
      have hb4 := ib_walk_before c (S := (· ∈ ibS starts)) (fun st hst => by
        obtain ⟨v, -, rfl⟩ := List.mem_map.1 hst; rfl) hd.1
      have h6 := ib_chain ok.sorted ok.sub h5 (k := u.2) (fun j hj => (hb4 j hj).1) (fun j hj => (hb4 j hj).2)
      have h7 := hd.2 _ _ h6 rfl
      rw [hb] at h7
      have h8 := add_le_add_left h7 (c.sub y (ibPrevW c u.1 u.2))
      rw [ib_step_weight ok.sorted ok.sub e1 e2, ib_step_weight ok.sorted ok.sub e1 e2] at h8
      exact hinf.trans h8
    · exact hge.trans (le_add_of_nonneg_right hy)
  · right
    refine ⟨h1, ?_⟩
    rintro rfl
    exact h2 rfl


/-- **C47.** If only finitely many vertices can be reached, and each has finitely many edges, the traversal comes to its
end (or to an overflow of weights). -/
theorem C47_ib_terminates {isCollection : Bool} {starts : List V} (ok : IbOk g o c isCollection starts)
    (vs : List V) (hvs : ∀ w v, SeqWalk c.edges (· ∈ starts) w v → v ∈ vs)
    (hfin : ∀ v ∈ vs, ∃ n, c.edges v n = none) :
    ∃ N, ∀ fuel, N ≤ fuel →
      (ibRun g o c isCollection starts none fuel).ending = .done ∨
      (ibRun g o c isCollection starts none fuel).ending = .raised .overflowError := by
  have hbound : ∃ m, ∀ v ∈ vs, c.edges v m = none := by
    clear hvs
    induction vs with
    | nil => exact ⟨0, by simp⟩
    | cons a vs ih =>
      obtain ⟨m, hm⟩ := ih (fun v hv => hfin v (List.mem_cons_of_mem _ hv))
      obtain ⟨n, hn⟩ := hfin a List.mem_cons_self
      have up : ∀ v k, c.edges v k = none → ∀ j, k ≤ j → c.edges v j = none := by
        intro v k hk j hj
        induction j with
        | zero => rwa [← Nat.le_zero.1 hj]
        | succ j ih =>
          rcases Nat.lt_or_ge k (j + 1) with h | h
          · exact ok.sorted.ended v j (ih (by omega))
          · rwa [← le_antisymm hj h]
      refine ⟨max m n, fun v hv => ?_⟩
      rcases List.mem_cons.1 hv with rfl | hv
      · exact up _ n hn _ (le_max_right _ _)
      · exact up _ m (hm v hv) _ (le_max_left _ _)
  obtain ⟨m, hm⟩ := hbound
  have hreach : WFinitelyReachable (ibPure c).next (· ∈ ibS starts) (ibPure c).vid := by
    refine ⟨vs.flatMap (fun v => (List.range (m + 1)).map (fun k => (v, k))), fun w st hw => ?_⟩
    obtain ⟨a, ha, -⟩ := ib_walk_of_state ok.sorted ok.sub hw
    have hv := hvs _ _ ha
    show st ∈ _
    refine List.mem_flatMap.2 ⟨st.1, hv, List.mem_map.2 ⟨st.2, List.mem_range.2 ?_, rfl⟩⟩
    by_contra hge
    have := (ib_walk_before c (S := (· ∈ ibS starts)) (fun st hst => by
        obtain ⟨v, -, rfl⟩ := List.mem_map.1 hst; rfl) hw m (by omega)).1
    rw [hm _ hv] at this
    cases this
  obtain ⟨N, hN⟩ := C20_sp_terminates g (ibPure c) rfl ok.dist (ibPure_nonneg ok.sorted ok.sub) ibPure_compat
    (ibS starts) hreach
  refine ⟨N, fun fuel hf => ?_⟩
  obtain ⟨-, -, h3, -⟩ := ib_run ok none fuel
  rw [h3]
  rcases hN fuel hf with h | h
  · exact .inl h.1
  · exact .inr h.1

theorem ibStep_stop {s s1 : IbState V W M ML D Mo Do} (he : ibStep g o c s = .stop s1) :
    s1.preds = s.preds ∧ s1.dist = s.dist := by
  unfold ibStep at he
  split at he
  · split at he <;> simp at he
  · split at he
    · simp only [Step.stop.injEq] at he; rw [← he]; exact ⟨rfl, rfl⟩
    · simp at he
    · simp at he
    · simp at he
    · split at he
      · split at he <;> simp at he
      · simp at he

theorem ibStep_tau {s s1 : IbState V W M ML D Mo Do} (he : ibStep g o c s = .tau s1) :
    s1.preds = s.preds ∧ s1.dist = s.dist := by
  unfold ibStep at he
  split at he
  · split at he <;> simp at he
  · split at he
    · simp at he
    · simp at he
    · simp only [Step.tau.injEq] at he; rw [← he]; exact ⟨rfl, rfl⟩
    · simp at he
    · split at he
      · split at he <;> simp at he
      · simp only [Step.tau.injEq] at he; rw [← he]; exact ⟨rfl, rfl⟩

theorem ibStep_expand {s s1 : IbState V W M ML D Mo Do} (he : ibStep g o c s = .expand s1) :
    s1.preds = s.preds ∧ s1.dist = s.dist := by
  unfold ibStep at he
  split at he
  · split at he
    · simp at he
    · simp only [Step.expand.injEq] at he; rw [← he]; exact ⟨rfl, rfl⟩
  · split at he
    · simp at he
    · simp at he
    · simp at he
    · simp only [Step.expand.injEq] at he; rw [← he]; exact ⟨rfl, rfl⟩
    · split at he
      · split at he <;> simp at he
      · simp at he

/-- What `paths` shows: a path along edges from a start vertex to `v` with total weight `d`. -/
def IbShowsPath {Mo : Type} (mo : MapOps Mo V V) (c : IbCfg V W) (starts : List V) (preds : Mo) (v : V) (d : W) : Prop :=
  ∃ s ∈ starts, ∃ steps, IsSeqPath c.edges s steps d ∧ (s :: steps).getLast? = some v ∧
    ∀ {L ML : Type} (lo : MapOps ML V L) (labels : ML) (k : Nat), (s :: steps).length ≤ k →
      (pathsView mo lo id preds labels).iterVerticesFromStart k v = (s :: steps, .done)

theorem ib_shows {starts : List V} {validV : V → Prop} (hmo : o.mo.Lawful validV) {preds : Mo} {E : List (V × Nat)}
    (hP : IbPaths o c starts preds E) {v : V} {d : W} (hv : (v, 0) ∈ E ∨ v ∈ starts)
    (hd : SeqDist c.edges (· ∈ starts) v d) : IbShowsPath o.mo c starts preds v d := by
  obtain ⟨s, k1, steps, a, k2, k3, k4, -⟩ := hP v hv
  have ha : a = d := le_antisymm (k3.2 _ hd.1) (hd.2 _ k3.1)
  subst ha
  refine ⟨s, k1, steps, k2, ?_, fun lo labels k hk => ?_⟩
  · have := k4.head
    rwa [List.head?_reverse] at this
  · have hraw : ∀ k x, o.mo.get? preds k = some x →
        (pathsView o.mo lo id preds labels).rawPred k = some (some x) := fun k x h => hmo.raw_of_get _ _ _ h
    have h2 := iterVertsLoop_chain (pathsView o.mo lo id preds labels) (o.mo.get? preds) hraw k4 k
      (by rw [List.length_reverse]; exact hk)
    have h3 : (o.mo.get? preds v).isSome := k4.get_isSome
    have h4 : (pathsView o.mo lo id preds labels).contains
        ((pathsView o.mo lo id preds labels).vid v) = true := h3
    unfold PathsView.iterVerticesFromStart PathsView.iterVerticesToStart
    rw [if_pos h4, h2]
    simp

/-- **C67.** With `build_paths`: from its report on, and at the end, `paths` shows for each reported vertex a path along
edges from a start vertex to it, with its distance as total weight; for start vertices there is a path of weight 0. -/
theorem C67_ib_paths {isCollection : Bool} {starts : List V} (ok : IbOk g o c isCollection starts)
    (hb : c.buildPaths = true) (limit : Option Int) (fuel : Nat) :
    let run := ibRun g o c isCollection starts limit fuel
    (∀ before r after, run.reports = before ++ r :: after →
      (∀ r' ∈ before ++ [r], IbShowsPath o.mo c starts r.preds r'.vertex r'.distance) ∧
      ∀ v ∈ starts, IbShowsPath o.mo c starts r.preds v 0) ∧
    (run.ending = .done → ∀ r ∈ run.reports, IbShowsPath o.mo c starts run.final.preds r.vertex r.distance) := by
  intro run
  obtain ⟨validS, validL, validV, hst⟩ := ok.storable hb
  have h0 := ib_init_rel ok.sorted ok.set ok.starts ok.storable
  have hd := C47_ib_distance g o c ok limit fuel
  obtain ⟨s, hs, he⟩ := run_reaches (ibStep g o c) fuel (prepareLimit limit) (ibInit g o c isCollection starts)
  refine ⟨fun before r after hr => ?_, fun hdone r hr => ?_⟩
  · obtain ⟨h1, t, t', ha, hb', hc'⟩ := hs.emitted hr
    obtain ⟨h', E, rel, hE⟩ := ib_reach ok.sorted ok.sub ok.dist ok.storable ⟨_, _, h0⟩ (Reaches.emit ha hb')
    have hp := rel.paths hb
    rw [(ibStep_emit hb').2.1] at hp
    have hreps : repsOf (h1 ++ [.rep r]) = before ++ [r] := by simp [hc']
    refine ⟨fun r' hr' => ?_, fun v hv => ?_⟩
    · refine ib_shows o c hst.omo hp (.inl (hE r' (by rw [hreps]; exact hr'))) (hd r' ?_).1
      have : r' ∈ run.reports := by
        rw [hr]
        rcases List.mem_append.1 hr' with h | h
        · exact List.mem_append_left _ h
        · simp only [List.mem_singleton] at h; rw [h]; simp
      exact this
    · exact ib_shows o c hst.omo hp (.inr hv) ⟨.start hv, fun w' hw => SeqWalk.nonneg ok.sorted hw⟩
  · have hdone : (runMachine (ibStep g o c) fuel (prepareLimit limit) (ibInit g o c isCollection starts)).ending =
        .done := hdone
    rw [hdone] at he
    obtain ⟨h', E, rel, hE⟩ := ib_reach ok.sorted ok.sub ok.dist ok.storable ⟨_, _, h0⟩ hs
    have hp := rel.paths hb
    have hfin : run.final.preds = s.preds := (ibStep_stop g o c he).1
    rw [hfin]
    exact ib_shows o c hst.omo hp (.inl (hE r hr)) (hd r hr).1

/-- What `distances` shows for the reported vertices `reps`: 0 for start vertices, the distance for each reported vertex,
and infinity otherwise. -/
def IbShowsDistances (dd : DistOps Do V W) (inf : W) (starts : List V) (dist : Do) (reps : List (IbReport V W Mo Do)) :
    Prop :=
  (∀ r ∈ reps, dd.get dist r.vertex = r.distance) ∧ (∀ v ∈ starts, dd.get dist v = 0) ∧
    ∀ v, v ∉ starts → (∀ r ∈ reps, r.vertex ≠ v) → dd.get dist v = inf

theorem ib_distances_inv {isCollection : Bool} {starts : List V} (hs : ibStarts c isCollection starts = starts)
    (hsd : c.storeDistances = true) {inf : W} (hod : o.dd.Lawful inf) {h s}
    (hr : Reaches (ibStep g o c) (ibInit g o c isCollection starts) h s)
    (hnd : ((repsOf h).map (fun r => r.vertex)).Nodup) (hns : ∀ r ∈ repsOf h, r.vertex ∉ starts) :
    IbShowsDistances o.dd inf starts s.dist (repsOf h) := by
  induction hr with
  | refl =>
    have hg : ∀ k, o.dd.get (o.dd.setAll o.dd.empty (starts.map (fun v => (v, (0 : W))))) k =
        if k ∈ starts then 0 else inf := fun k => by
      have := hod.get_setAll_const o.dd.empty (fun v : V => v) starts (0 : W) k
      rw [List.map_id'] at this
      rw [this, hod.get_empty]
    simp only [ibInit, hsd, if_true, IbShowsDistances]
    refine ⟨by simp, fun v hv => by rw [hg, if_pos hv], fun v hv _ => by rw [hg, if_neg hv]⟩
  | tau _ e ih => rw [(ibStep_tau g o c e).2]; exact ih hnd hns
  | expand _ e ih =>
    rw [(ibStep_expand g o c e).2]
    simp only [repsOf_append, repsOf_exp, repsOf_nil, List.append_nil] at hnd hns ⊢
    exact ih hnd hns
  | @emit h s r s' _ e ih =>
    simp only [repsOf_append, repsOf_rep, repsOf_nil, List.map_append, List.map_cons, List.map_nil] at hnd hns ⊢
    obtain ⟨-, -, e1, e2⟩ := ibStep_emit e
    rw [hsd] at e2
    simp only [if_true] at e2
    rw [e1, e2]
    obtain ⟨i1, i2, i3⟩ := ih (hnd.sublist (List.sublist_append_left _ _))
      (fun r' hr' => hns r' (List.mem_append_left _ hr'))
    have hnew : ∀ r' ∈ repsOf h, r'.vertex ≠ r.vertex := by
      intro r' hr' heq
      rw [List.nodup_append] at hnd
      exact hnd.2.2 r'.vertex (List.mem_map.2 ⟨r', hr', rfl⟩) r.vertex (by simp) heq
    refine ⟨fun r' hr' => ?_, fun v hv => ?_, fun v hv hv' => ?_⟩
    · rw [hod.get_set]
      rcases List.mem_append.1 hr' with h | h
      · rw [if_neg (hnew r' h)]; exact i1 r' h
      · simp only [List.mem_singleton] at h
        rw [h, if_pos rfl]
    · rw [hod.get_set, if_neg]
      · exact i2 v hv
      · rintro rfl
        exact hns r (by simp) hv
    · rw [hod.get_set, if_neg]
      · exact i3 v hv (fun r' hr' => hv' r' (List.mem_append_left _ hr'))
      · rintro rfl
        exact hv' r (by simp) rfl

/-- **C67.** With `store_distances`: at each report, and after an exhaustive search, `distances` contains 0 for start
vertices, the distances of the vertices that have been reported so far, and infinity otherwise. -/
theorem C67_ib_distances {isCollection : Bool} {starts : List V} (ok : IbOk g o c isCollection starts)
    (hsd : c.storeDistances = true) {inf : W} (hod : o.dd.Lawful inf) (limit : Option Int) (fuel : Nat) :
    let run := ibRun g o c isCollection starts limit fuel
    (∀ before r after, run.reports = before ++ r :: after →
      IbShowsDistances o.dd inf starts r.dist (before ++ [r])) ∧
    (run.ending = .done → IbShowsDistances o.dd inf starts run.final.dist run.reports) := by
  intro run
  obtain ⟨n1, n2, -⟩ := C47_ib_once_ordered g o c ok limit fuel
  obtain ⟨s, hs, he⟩ := run_reaches (ibStep g o c) fuel (prepareLimit limit) (ibInit g o c isCollection starts)
  refine ⟨fun before r after hr => ?_, fun hdone => ?_⟩
  · obtain ⟨h1, t, t', ha, hb', hc'⟩ := hs.emitted hr
    have hreps : repsOf (h1 ++ [.rep r]) = before ++ [r] := by simp [hc']
    have hr' : (ibRun g o c isCollection starts limit fuel).reports = before ++ [r] ++ after := by
      rw [List.append_assoc]; exact hr
    rw [hr'] at n1 n2
    have := ib_distances_inv g o c ok.starts hsd hod (Reaches.emit ha hb')
      (by rw [hreps]; exact n1.sublist ((List.sublist_append_left _ _).map _))
      (by rw [hreps]; exact fun r' hr' => n2 r' (List.mem_append_left _ hr'))
    rw [hreps, (ibStep_emit hb').2.2.1] at this
    exact this
  · have hdone : (runMachine (ibStep g o c) fuel (prepareLimit limit) (ibInit g o c isCollection starts)).ending =
        .done := hdone
    rw [hdone] at he
    have := ib_distances_inv g o c ok.starts hsd hod hs n1 n2
    rw [← (ibStep_stop g o c he).2] at this
    exact this

/-! ## The calculation limit -/

/-- **C05 for this traversal**, counting the expansions of states. -/
theorem C05_ib (isCollection : Bool) (starts : List V) (fuel : Nat) (k : Nat) :
    let unlimited := ibRun g o c isCollection starts none fuel
    let limited := ibRun g o c isCollection starts (some k) fuel
    (expsOf unlimited.events ≤ k → limited = unlimited) ∧
    (k < expsOf unlimited.events →
      limited.events = beforeExp k unlimited.events ∧ limited.ending = .raised .runtimeError) ∧
    expsOf limited.events ≤ k :=
  let h := C05_limit_exact (ibStep g o c) fuel (ibInit g o c isCollection starts) k
  ⟨h.1, h.2, C05_reads_at_most (ibStep g o c) fuel (ibInit g o c isCollection starts) k⟩

/-- Specification: what the expansion in state `s` reads from the graph: one vertex, if `next_edges` is called, plus one
edge, if there is a next one. -/
def ibReads (s : IbState V W M ML D Mo Do) : Nat :=
  match s.sp.pc with
  | .expand st _ _ =>
    if st.2 = 0 then 1 + (if (c.edges st.1 0).isSome then 1 else 0)
    else match s.iters st.1 with
      | some pos => if (c.edges st.1 pos).isSome then 1 else 0
      | none => 0
  | _ => 0

/-- A step machine together with a counter of costs of its expansions. -/
def withCount {σ ρ : Type} (m : σ → Step σ ρ) (cost : σ → Nat) (p : σ × Nat) : Step (σ × Nat) ρ :=
  match m p.1 with
  | .stop s => .stop (s, p.2)
  | .fail e => .fail e
  | .tau s => .tau (s, p.2)
  | .emit r s => .emit r (s, p.2)
  | .expand s => .expand (s, p.2 + cost p.1)

/-- The counter does not change the run. -/
theorem withCount_run {σ ρ : Type} (m : σ → Step σ ρ) (cost : σ → Nat) (fuel : Nat) (lim : Option Int) (p : σ × Nat) :
    (runMachine (withCount m cost) fuel lim p).events = (runMachine m fuel lim p.1).events ∧
    (runMachine (withCount m cost) fuel lim p).ending = (runMachine m fuel lim p.1).ending ∧
    (runMachine (withCount m cost) fuel lim p).final.1 = (runMachine m fuel lim p.1).final := by
  induction fuel generalizing lim p with
  | zero => exact ⟨rfl, rfl, rfl⟩
  | succ fuel ih =>
    unfold runMachine withCount
    cases h : m p.1 with
    | stop s => exact ⟨rfl, rfl, rfl⟩
    | fail e => exact ⟨rfl, rfl, rfl⟩
    | tau s => exact ih lim (s, p.2)
    | emit r s =>
      obtain ⟨h1, h2, h3⟩ := ih lim (s, p.2)
      exact ⟨by simp only [← h1]; rfl, h2, h3⟩
    | expand s =>
      simp only
      cases checkLimit lim with
      | none => exact ⟨rfl, rfl, rfl⟩
      | some lim' =>
        obtain ⟨h1, h2, h3⟩ := ih lim' (s, p.2 + cost p.1)
        exact ⟨by simp only [← h1]; rfl, h2, h3⟩

/-- The number of vertices and edges that a run reads from the graph. -/
def ibReadCount (isCollection : Bool) (starts : List V) (limit : Option Int) (fuel : Nat) : Nat :=
  (runMachine (withCount (ibStep g o c) (ibReads c)) fuel (prepareLimit limit)
    (ibInit g o c isCollection starts, 0)).final.2

theorem ibStep_iters {s s1 : IbState V W M ML D Mo Do}
    (he : ibStep g o c s = .tau s1 ∨ ibStep g o c s = .stop s1 ∨ ∃ r, ibStep g o c s = .emit r s1) :
    s1.iters = s.iters := by
  unfold ibStep at he
  split at he
  · split at he <;> simp at he
  · split at he
    · simp at he; rw [← he]
    · simp at he
    · simp at he; rw [← he]
    · simp at he
    · split at he
      · split at he
        · simp at he
        · simp at he; rw [← he]
      · simp at he; rw [← he]

theorem spStep_no_expand {s s1 : SpState (V × Nat) Unit W M ML D} {cc : WCfg (V × Nat) (V × Nat) Unit W}
    (h : ∀ st w ec, s.pc ≠ .expand st w ec) : spStep g cc s ≠ .expand s1 := by
  unfold spStep
  split
  · split
    · simp
    · dsimp only
      repeat' split
      all_goals simp
  · rename_i heq
    exact absurd heq (h _ _ _)
  · simp
  · dsimp only
    repeat' split
    all_goals simp

/-- One expansion reads at most one vertex and one edge, and it reads nothing only if it deletes an iterator. -/
theorem ib_reads_step {s s1 : IbState V W M ML D Mo Do} (he : ibStep g o c s = .expand s1) (l : Finset V)
    (hl : ∀ v, v ∈ l ↔ s.iters v ≠ none) :
    ∃ l' : Finset V, (∀ v, v ∈ l' ↔ s1.iters v ≠ none) ∧ ibReads c s ≤ 2 ∧ 1 + l'.card ≤ ibReads c s + l.card := by
  unfold ibStep at he
  split at he
  · rename_i st w ec hpc
    simp only [ibReads, hpc]
    split at he
    · simp at he
    · rename_i es it hE
      simp only [Step.expand.injEq] at he
      subst he
      simp only
      unfold ibEdges at hE
      by_cases hz : st.2 = 0
      · simp only [hz, if_true] at hE ⊢
        cases hed : c.edges st.1 0 with
        | none =>
          simp only [hed, Except.ok.injEq, Prod.mk.injEq] at hE
          obtain ⟨-, rfl⟩ := hE
          refine ⟨l.erase st.1, fun v => ?_, by simp, ?_⟩
          · rw [Finset.mem_erase, hl]
            by_cases hv : v = st.1 <;> simp [hv]
          · have := Finset.card_erase_le (s := l) (a := st.1)
            simp only [Option.isSome_none, Bool.false_eq_true, if_false]
            omega
        | some e =>
          simp only [hed, Except.ok.injEq, Prod.mk.injEq] at hE
          obtain ⟨-, rfl⟩ := hE
          refine ⟨insert st.1 l, fun v => ?_, by simp, ?_⟩
          · rw [Finset.mem_insert, hl]
            by_cases hv : v = st.1 <;> simp [hv]
          · have := Finset.card_insert_le st.1 l
            simp only [Option.isSome_some, if_true]
            omega
      · simp only [hz, if_false] at hE ⊢
        cases hi : s.iters st.1 with
        | none => simp [hi] at hE
        | some pos =>
          simp only [hi] at hE ⊢
          have hm : st.1 ∈ l := (hl _).2 (by simp [hi])
          cases hed : c.edges st.1 pos with
          | none =>
            simp only [hed, Except.ok.injEq, Prod.mk.injEq] at hE
            obtain ⟨-, rfl⟩ := hE
            refine ⟨l.erase st.1, fun v => ?_, by simp, ?_⟩
            · rw [Finset.mem_erase, hl]
              by_cases hv : v = st.1 <;> simp [hv]
            · have := Finset.card_erase_add_one hm
              simp only [Option.isSome_none, Bool.false_eq_true, if_false]
              omega
          | some e =>
            simp only [hed, Except.ok.injEq, Prod.mk.injEq] at hE
            obtain ⟨-, rfl⟩ := hE
            refine ⟨l, fun v => ?_, by simp, ?_⟩
            · rw [hl]
              by_cases hv : v = st.1
              · rw [hv]; simp [hi]
              · simp [hv]
            · simp only [Option.isSome_some, if_true]
              omega
  · rename_i hpc
    split at he
    · simp at he
    · simp at he
    · simp at he
    · rename_i sp hsp
      exact absurd hsp (spStep_no_expand g fun st w ec h => hpc st w ec h)
    · split at he
      · split at he <;> simp at he
      · simp at he

theorem ib_reads_bounds (isCollection : Bool) (starts : List V) (limit : Option Int) (fuel : Nat) :
    let exps := expsOf (ibRun g o c isCollection starts limit fuel).events
    exps ≤ ibReadCount g o c isCollection starts limit fuel ∧
    ibReadCount g o c isCollection starts limit fuel ≤ 2 * exps := by
  have key : ∀ (fuel : Nat) (lim : Option Int) (s : IbState V W M ML D Mo Do) (n : Nat) (l : Finset V),
      (∀ v, v ∈ l ↔ s.iters v ≠ none) →
      let run := runMachine (withCount (ibStep g o c) (ibReads c)) fuel lim (s, n)
      expsOf run.events + n ≤ run.final.2 + l.card ∧ run.final.2 ≤ n + 2 * expsOf run.events := by
    intro fuel
    induction fuel with
    | zero => intro lim s n l hl; simp [runMachine]
    | succ fuel ih =>
      intro lim s n l hl
      rw [runMachine]
      cases h : ibStep g o c s with
      | stop s1 => simp [withCount, h]
      | fail e => simp [withCount, h]
      | tau s1 =>
        simp only [withCount, h]
        exact ih lim s1 n l (by rw [ibStep_iters g o c (.inl h)]; exact hl)
      | emit r s1 =>
        have := ih lim s1 n l (by rw [ibStep_iters g o c (.inr (.inr ⟨r, h⟩))]; exact hl)
        simp only [withCount, h, expsOf_rep]
        exact this
      | expand s1 =>
        simp only [withCount, h]
        cases checkLimit lim with
        | none => simp
        | some lim' =>
          obtain ⟨l', h1, h2, h3⟩ := ib_reads_step g o c h l hl
          obtain ⟨i1, i2⟩ := ih lim' s1 (n + ibReads c s) l' h1
          simp only [expsOf_exp]
          constructor
          · omega
          · omega
  have h := key fuel (prepareLimit limit) (ibInit g o c isCollection starts) 0 ∅ (by simp [ibInit])
  have e := (withCount_run (ibStep g o c) (ibReads c) fuel (prepareLimit limit)
    (ibInit g o c isCollection starts, 0)).1
  simp only at h
  rw [e] at h
  simp only [Finset.card_empty, Nat.add_zero, Nat.zero_add] at h
  exact h

/-- **C66 (partial).** With `combined_calculation_limit=k`, at most `2k` vertices and edges in sum are read (the
documentation says: `k`, see `C66_counterexample`), and `RuntimeError` is raised because of the limit only if at least
`k` have been read. -/
theorem C66_ib_limit_partial (isCollection : Bool) (starts : List V) (fuel : Nat) (k : Nat) :
    let reads := ibReadCount g o c isCollection starts (some k) fuel
    reads ≤ 2 * k ∧
    (ibRun g o c isCollection starts (some k) fuel ≠ ibRun g o c isCollection starts none fuel →
      k ≤ reads ∧ (ibRun g o c isCollection starts (some k) fuel).ending = .raised .runtimeError) := by
  obtain ⟨h1, h2, h3⟩ := C05_ib g o c isCollection starts fuel k
  obtain ⟨b1, b2⟩ := ib_reads_bounds g o c isCollection starts (some k) fuel
  refine ⟨by omega, fun hne => ?_⟩
  have hk : k < expsOf (ibRun g o c isCollection starts none fuel).events := by
    by_contra hk
    exact hne (h1 (by omega))
  obtain ⟨e1, e2⟩ := h2 hk
  have := beforeExp_exps k _ hk
  rw [← e1] at this
  exact ⟨by omega, e2⟩

/-- **C42 for this traversal.** -/
theorem C42_ib {isCollection : Bool} {starts : List V} (ok : IbOk g o c isCollection starts)
    (limit : Option Int) (fuel : Nat) (start stop : W) :
    (goRange (fun r => r.distance) start stop (ibRun g o c isCollection starts limit fuel).reports
        (ibRun g o c isCollection starts limit fuel).ending).yielded =
      (ibRun g o c isCollection starts limit fuel).reports.filter
        (fun r => decide (start ≤ r.distance ∧ r.distance < stop)) :=
  C42_range_reports _ _ _ _ _ (C47_ib_once_ordered g o c ok limit fuel).2.2

/-! ## Concrete cases -/

section Example

/-- Subtraction of integer weights with an infinite value. -/
def subTop : WithTop Int → WithTop Int → WithTop Int
  | some a, some b => some (a - b)
  | _, _ => none

/-- The laws of subtraction hold for integers (with any bound), and for integers with infinity. -/
example : SubLaws (fun a b : Int => a - b) 1000 :=
  ⟨by decide, fun _ _ _ _ => by omega, fun _ _ _ _ => by omega, fun _ _ _ _ => by omega⟩

example : SubLaws subTop ⊤ := by
  refine ⟨by decide, fun d a b h => ?_, fun a b h1 h2 => ?_, fun a b h1 h2 => ?_⟩
  · cases d with
    | top => simp at h
    | coe d => cases b with
      | top => simp at h
      | coe b => cases a with
        | top => rfl
        | coe a =>
          show ((d + a - (d + b) : Int) : WithTop Int) = ((a - b : Int) : WithTop Int)
          congr 1; omega
  · cases b with
    | top => simp at h2
    | coe b => cases a with
      | top => rfl
      | coe a =>
        show ((a - b + b : Int) : WithTop Int) = (a : WithTop Int)
        congr 1; omega
  · cases b with
    | top => simp at h2
    | coe b => cases a with
      | top => exact le_top
      | coe a =>
        have : b ≤ a := WithTop.coe_le_coe.1 h1
        show ((0 : Int) : WithTop Int) ≤ ((a - b : Int) : WithTop Int)
        exact WithTop.coe_le_coe.2 (by omega)

/-- A graph with infinitely many edges at even vertices, and two edges at odd ones. -/
def exIbEdges (v i : Nat) : Option (Nat × Int) :=
  if v % 2 = 0 then some (v + 2 * i + 1, 3 * i + 2)
  else if i = 0 then some (v + 1, 0) else if i = 1 then some (v + 3, 1) else none

def exIbGear : WGear (Nat × Nat) (Nat × Nat) Unit Int (Nat × Nat → Option (Nat × Nat)) (Nat × Nat → Option Unit)
    (Nat × Nat → Option Int) := ⟨dictMap, dictMap, dictDist 1000⟩

def exIbOut : IbGear Nat Int (Nat → Option Nat) (Nat → Option Int) := ⟨dictMap, dictDist 1000⟩

def exIbCfg (buildPaths storeDistances : Bool) : IbCfg Nat Int :=
  ⟨exIbEdges, fun a b => a - b, 1000, buildPaths, storeDistances⟩

theorem exIb_sorted : SortedSeqs exIbEdges := by
  refine ⟨fun v i h => ?_, fun v u w h => ?_, fun v i u w u' w' h1 h2 => ?_⟩
  · unfold exIbEdges at h ⊢
    split at h
    · simp at h
    · rename_i hv
      rw [if_neg hv, if_neg (by omega)]
      split at h
      · simp at h
      · rw [if_neg (by omega)]
  · unfold exIbEdges at h
    split at h
    · simp at h; omega
    · simp at h; omega
  · unfold exIbEdges at h1 h2
    split at h1
    · rename_i hv
      rw [if_pos hv] at h2
      simp at h1 h2; omega
    · rename_i hv
      rw [if_neg hv, if_neg (by omega)] at h2
      split at h1
      · rename_i hi
        simp [hi] at h1 h2; omega
      · split at h1
        · rename_i hi
          simp [hi] at h2
        · simp at h1

/-- The hypotheses of the theorems hold for the example, for a collection of start vertices with each choice of the
options. -/
theorem exIb_ok (b d : Bool) : IbOk exIbGear exIbOut (exIbCfg b d) true [0, 7] where
  sorted := exIb_sorted
  sub := ⟨by simp [exIbCfg], fun _ _ _ _ => by simp only [exIbCfg]; omega, fun _ _ _ _ => by simp only [exIbCfg]; omega,
    fun _ _ _ _ => by simp only [exIbCfg]; omega⟩
  dist := dictDist_lawful 1000
  set := by decide
  once := .inl rfl
  storable := fun _ => ⟨fun _ => True, fun _ => True, fun _ => True,
    ⟨dictMap_lawful, dictMap_lawful, fun _ _ _ _ => trivial, trivial, dictMap_lawful, fun _ _ _ => trivial⟩⟩

/-- Reports in the infinite graph (the run is cut by the calculation limit): vertices, distances and paths. -/
example : ((ibRun exIbGear exIbOut (exIbCfg true true) true [0, 7] (some 5) 60).reports.map (fun r =>
      (r.vertex, r.distance,
        ((pathsView exIbOut.mo (dictMap : MapOps (Nat → Option Unit) Nat Unit) id r.preds
          (fun _ => none)).iterVerticesFromStart 5 r.vertex).1)),
    (ibRun exIbGear exIbOut (exIbCfg true true) true [0, 7] (some 5) 60).ending) =
    ([(8, 0, [7, 8]), (10, 1, [7, 10])], .raised .runtimeError) := by decide +kernel

/-- **C68 (partial).** Start vertices given as an iterator that can be used only once lead to the same run as the
collection of these vertices, if `store_distances` is not used, or `build_paths` is used. -/
theorem C68_ib_iterator_partial {V W M ML D Mo Do : Type} [DecidableEq V] [AddCommMonoid W] [LinearOrder W]
    (g : WGear (V × Nat) (V × Nat) Unit W M ML D) (o : IbGear V W Mo Do) (c : IbCfg V W)
    (h : c.storeDistances = false ∨ c.buildPaths = true) (starts : List V) (limit : Option Int) (fuel : Nat) :
    ibRun g o c false starts limit fuel = ibRun g o c true starts limit fuel := by
  have : ibStarts c false starts = ibStarts c true starts := by
    unfold ibStarts
    rcases h with h | h <;> simp [h]
  simp only [ibRun, ibInit, this]

/-- **C68 (counterexample).** Start vertices given as an iterator that can be used only once, with `store_distances`
and without `build_paths`: nothing is reported, although vertices are reachable. -/
theorem C68_counterexample :
    let run := ibRun exIbGear exIbOut (exIbCfg false true) false [0, 7] none 100
    run.ending = .done ∧ run.reports = [] ∧
    SeqWalk exIbEdges (· ∈ [0, 7]) (2 : Int) 1 ∧ SortedSeqs exIbEdges := by
  have h : (fun s : RunResult (IbState Nat Int _ _ _ _ _) (IbReport Nat Int _ _) => (s.ending, s.reports.length))
      (ibRun exIbGear exIbOut (exIbCfg false true) false [0, 7] none 100) = (.done, 0) := by decide +kernel
  simp only [Prod.mk.injEq] at h
  refine ⟨h.1, List.length_eq_zero_iff.1 h.2, ?_, exIb_sorted⟩
  have := SeqWalk.step (w := (0 : Int)) (S := (· ∈ [0, 7])) (edges := exIbEdges) (.start (v := 0) (by simp))
    (v := 1) (x := 2) ⟨0, by decide⟩
  simpa using this

/-- **C66 (counterexample).** With `combined_calculation_limit=1`, a vertex and an edge are read: in sum two. -/
theorem C66_counterexample :
    ibReadCount exIbGear exIbOut (exIbCfg false false) true [0] (some 1) 100 = 2 ∧
    (ibRun exIbGear exIbOut (exIbCfg false false) true [0] (some 1) 100).ending = .raised .runtimeError := by
  decide +kernel

end Example

end NoGraphs
