import Verif.Proofs.InfBranching
import Verif.Proofs.BiDijkstraResult

/-! Shortest paths with infinite branching: the traversal runs like a shortest paths traversal on the state graph. -/

set_option linter.unusedSectionVars false

namespace NoGraphs

open Spec

section Machine

variable {σ ρ σ' ρ' : Type}

/-- Matching steps, where the first machine filters reports of the second one. -/
inductive StepRelF (R F : σ → σ' → Prop) (Q : ρ → ρ' → Prop) (P : ρ' → Bool) : Step σ ρ → Step σ' ρ' → Prop
  | stop {a b} : F a b → StepRelF R F Q P (.stop a) (.stop b)
  | fail {e} : StepRelF R F Q P (.fail e) (.fail e)
  | tau {a b} : R a b → StepRelF R F Q P (.tau a) (.tau b)
  | emit {r r' a b} : P r' = true → Q r r' → R a b → StepRelF R F Q P (.emit r a) (.emit r' b)
  | skip {r' a b} : P r' = false → R a b → StepRelF R F Q P (.tau a) (.emit r' b)
  | expand {a b} : R a b → StepRelF R F Q P (.expand a) (.expand b)

/-- Lockstep simulation with filtered reports. -/
theorem run_sim_filter {m : σ → Step σ ρ} {m' : σ' → Step σ' ρ'} (R F : σ → σ' → Prop) (Q : ρ → ρ' → Prop)
    (P : ρ' → Bool) (hsim : ∀ s s', R s s' → StepRelF R F Q P (m s) (m' s')) (fuel : Nat) (lim : Option Int)
    (s : σ) (s' : σ') (h : R s s') :
    List.Forall₂ Q (repsOf (runMachine m fuel lim s).events)
      ((repsOf (runMachine m' fuel lim s').events).filter P) ∧
    expsOf (runMachine m fuel lim s).events = expsOf (runMachine m' fuel lim s').events ∧
    (runMachine m fuel lim s).ending = (runMachine m' fuel lim s').ending ∧
    ((runMachine m fuel lim s).ending = .done →
      F (runMachine m fuel lim s).final (runMachine m' fuel lim s').final) := by
  induction fuel generalizing lim s s' with
  | zero => exact ⟨.nil, rfl, rfl, fun h => by simp [runMachine] at h⟩
  | succ fuel ih =>
    have hs := hsim s s' h
    unfold runMachine
    generalize m s = x at hs
    generalize m' s' = y at hs
    cases hs with
    | stop hr => exact ⟨.nil, rfl, rfl, fun _ => hr⟩
    | fail => exact ⟨.nil, rfl, rfl, fun h => by simp at h⟩
    | tau hr => exact ih lim _ _ hr
    | emit hp hq hr =>
      obtain ⟨h1, h2, h3, h4⟩ := ih lim _ _ hr
      refine ⟨?_, ?_, h3, h4⟩
      · simp only [repsOf_rep, List.filter_cons, hp, if_true]
        exact .cons hq h1
      · simpa only [expsOf_rep] using h2
    | skip hp hr =>
      obtain ⟨h1, h2, h3, h4⟩ := ih lim _ _ hr
      refine ⟨?_, ?_, h3, h4⟩
      · simp only [repsOf_rep, List.filter_cons, hp]
        exact h1
      · simpa only [expsOf_rep] using h2
    | expand hr =>
      simp only
      cases hl : checkLimit lim with
      | none => exact ⟨.nil, rfl, rfl, fun h => by simp at h⟩
      | some l =>
        obtain ⟨h1, h2, h3, h4⟩ := ih l _ _ hr
        refine ⟨?_, ?_, h3, h4⟩
        · simpa only [repsOf_exp] using h1
        · simp only [expsOf_exp, h2]

end Machine

variable {V W M ML D Mo Do : Type} [DecidableEq V]
variable [AddCommMonoid W] [LinearOrder W] [IsOrderedAddMonoid W]
variable {g : WGear (V × Nat) (V × Nat) Unit W M ML D} {o : IbGear V W Mo Do} {c : IbCfg V W} {starts : List V}

variable (c starts) in
/-- The start states. -/
abbrev ibS : List (V × Nat) := starts.map (fun v => (v, 0))

variable (c starts) in
/-- Walks of the search for states. -/
abbrev IbAW (w : W) (st : V × Nat) : Prop := AW (ibPure c) (ibS starts) (spB (ibPure c) (ibS starts)) w st

theorem ib_bound_le (hl : SubLaws c.sub c.inf) (st : V × Nat) : spB (ibPure c) (ibS starts) st ≤ c.inf := by
  unfold spB
  split
  · exact hl.pos.le
  · exact le_refl _

theorem ib_bound_succ (v : V) (k : Nat) : spB (ibPure c) (ibS starts) (v, k + 1) = c.inf := by
  unfold spB
  rw [if_neg]
  · rfl
  · simp [ibPure, ibInner]

theorem ib_aw_lt (hl : SubLaws c.sub c.inf) {w : W} {st : V × Nat} (h : IbAW c starts w st) : w < c.inf := by
  cases h with
  | start hs => rw [spB_start _ hs]; exact hl.pos
  | step _ _ hlt => exact lt_of_lt_of_le hlt (ib_bound_le hl _)

/-- A walk to a state of a vertex is a walk to its base state, and then along its states. -/
theorem ib_aw_base (hs : SortedSeqs c.edges) (hl : SubLaws c.sub c.inf) {w : W} {st : V × Nat}
    (h : IbAW c starts w st) :
    ∃ a, IbAW c starts a (st.1, 0) ∧ w = a + ibPrevW c st.1 st.2 ∧ (0 < st.2 → (c.edges st.1 (st.2 - 1)).isSome) := by
  induction h with
  | start h0 =>
    obtain ⟨v, hv, rfl⟩ := List.mem_map.1 h0
    exact ⟨_, .start h0, by simp [ibPrevW], fun h => absurd h (lt_irrefl _)⟩
  | @step w st st' x hw he hlt ih =>
    obtain ⟨a, h1, h2, -⟩ := ih
    obtain ⟨u, y, h3, h4, h5, h6⟩ := ibPure_edge.1 he
    rcases h6 with rfl | rfl
    · exact ⟨_, .step hw he hlt, by simp [ibPrevW], fun h => absurd h (lt_irrefl _)⟩
    · refine ⟨a, h1, ?_, fun _ => by simp [h3]⟩
      rw [h2, h5, ib_step_weight hs hl h3 h4, ibPrevW_succ h3]

/-- Along the states of a vertex. -/
theorem ib_aw_chain (hs : SortedSeqs c.edges) (hl : SubLaws c.sub c.inf) {a : W} {v : V}
    (h : IbAW c starts a (v, 0)) (k : Nat) (hk : ∀ j, j < k → (c.edges v j).isSome)
    (hlt : ∀ j, j ≤ k → a + ibPrevW c v j < c.inf) (h0 : 0 ≤ a) :
    IbAW c starts (a + ibPrevW c v k) (v, k) := by
  induction k with
  | zero => simpa [ibPrevW] using h
  | succ k ih =>
    obtain ⟨p, hp⟩ := Option.isSome_iff_exists.1 (hk k (Nat.lt_succ_self k))
    have h1 := ih (fun j hj => hk j (by omega)) (fun j hj => hlt j (by omega))
    have hlt' : ibPrevW c v k < c.inf := lt_of_le_of_lt (le_add_of_nonneg_left h0) (hlt k (by omega))
    have h3 := ib_step_weight hs hl (a := a) hp hlt'
    have h4 := hlt (k + 1) (le_refl _)
    rw [ibPrevW_succ hp] at h4
    have h2 := KWalk.step (vid := (ibPure c).vid) (known := spB (ibPure c) (ibS starts)) h1
      (ibPure_edge.2 ⟨p.1, p.2, hp, hlt', rfl, .inr rfl⟩) (by
        rw [h3]
        show _ < spB (ibPure c) (ibS starts) (v, k + 1)
        rw [ib_bound_succ]; exact h4)
    rw [h3] at h2
    rwa [ibPrevW_succ hp]

theorem ib_aw_nonneg (hs : SortedSeqs c.edges) (hl : SubLaws c.sub c.inf) {w : W} {st : V × Nat}
    (h : IbAW c starts w st) : 0 ≤ w := (aw_plain h).nonneg (ibPure_nonneg hs hl)

/-- The least walk to a state in terms of the least walk to the base state. -/
theorem ib_min_base (hs : SortedSeqs c.edges) (hl : SubLaws c.sub c.inf) {v : V} {k : Nat} {d0 d : W}
    (h0 : IbAW c starts d0 (v, 0)) (m0 : ∀ w, IbAW c starts w (v, 0) → d0 ≤ w)
    (h : IbAW c starts d (v, k)) (m : ∀ w, IbAW c starts w (v, k) → d ≤ w) :
    d = d0 + ibPrevW c v k ∧ ibPrevW c v k < c.inf := by
  obtain ⟨a, h1, h2, h3⟩ := ib_aw_base hs hl h
  have ha := m0 a h1
  have hd := ib_aw_lt hl h
  have hn0 := ib_aw_nonneg hs hl h0
  have hna := ib_aw_nonneg hs hl h1
  have hle : d0 + ibPrevW c v k ≤ d := by rw [h2]; exact add_le_add_left ha _
  have hmono : ∀ j, j ≤ k → ibPrevW c v j ≤ ibPrevW c v k := by
    intro j hj
    rcases Nat.eq_zero_or_pos k with rfl | hk
    · rw [Nat.le_zero.1 hj]
    · have hsome := h3 hk
      rcases Nat.lt_or_ge j k with hlt | hge
      · have hj' : j ≤ k - 1 := by omega
        refine (ibPrevW_mono hs hsome hj').trans ?_
        obtain ⟨p, hp⟩ := Option.isSome_iff_exists.1 hsome
        have hp : c.edges v (k - 1) = some (p.1, p.2) := hp
        have e : ibPrevW c v k = p.2 := by
          have := ibPrevW_succ hp
          rwa [Nat.sub_add_cancel hk] at this
        rw [e]; exact ibPrevW_le hs hp
      · rw [le_antisymm hj hge]
  refine ⟨le_antisymm (m _ (ib_aw_chain hs hl h0 k (fun j hj => ?_) (fun j hj => ?_) hn0)) hle, ?_⟩
  · exact ib_edges_before hs (h3 (by simp only; omega)) (by simp only; omega)
  · exact lt_of_le_of_lt ((add_le_add_right (hmono j hj) d0).trans hle) hd
  · exact lt_of_le_of_lt ((le_add_of_nonneg_left hn0).trans hle) hd


/-! ### Paths -/

theorem Spec.IsWPath.snoc_inv {X L : Type} {next : X → List (X × W × L)} {s : X} {steps : List (X × L)} {v : X} {l : L}
    {x : W} (h : IsWPath next s (steps ++ [(v, l)]) x) :
    ∃ u x' y, IsWPath next s steps x' ∧ (s :: steps.map Prod.fst).getLast? = some u ∧ (v, y, l) ∈ next u ∧
      x = x' + y := by
  induction steps generalizing s x with
  | nil =>
    cases h with
    | @cons _ _ y _ _ w he hr =>
      cases hr
      exact ⟨s, 0, y, .nil, rfl, he, by rw [add_comm]⟩
  | cons a steps ih =>
    obtain ⟨a, la⟩ := a
    cases h with
    | @cons _ _ y _ _ w he hr =>
      obtain ⟨u, x', y', h1, h2, h3, h4⟩ := ih hr
      refine ⟨u, y + x', y', .cons he h1, ?_, h3, by rw [h4, add_assoc]⟩
      rw [List.map_cons, List.getLast?_cons_cons]; exact h2

theorem Spec.IsSeqPath.snoc {edges : V → Nat → Option (V × W)} {s : V} {steps : List V} {x : W} {u v : V} {y : W}
    (h : IsSeqPath edges s steps x) (hlast : (s :: steps).getLast? = some u) (he : SeqEdge edges u v y) :
    IsSeqPath edges s (steps ++ [v]) (x + y) := by
  induction h with
  | nil =>
    simp only [List.getLast?_singleton, Option.some.injEq] at hlast
    subst hlast
    rw [zero_add]
    have := IsSeqPath.cons he (IsSeqPath.nil (edges := edges) (u := v))
    rwa [add_zero] at this
  | cons he' _ ih =>
    rw [List.getLast?_cons_cons] at hlast
    rw [add_assoc]
    exact .cons he' (ih hlast)

/-- The last edge of a stored path of states. -/
theorem ib_pred {F : V × Nat → Option W} {pr : M} {la : ML} {st : V × Nat} {w : W} {ec : Nat}
    {p : SPath (V × Nat) Unit}
    (h : SpStored (ibPure c) (ibS starts) (spB (ibPure c) (ibS starts)) g F pr la st w ec p) (hec : 0 < ec) :
    ∃ st' x y, WalkW (ibPure c).next (· ∈ ibS starts) x st' ∧ (st, y, ()) ∈ (ibPure c).next st' ∧ w = x + y ∧
      g.mo.get? pr st = some st' ∧ st' ≠ st ∧ (F st').isSome := by
  obtain ⟨h1, h2, h4, ⟨h5, -⟩, h6⟩ := h
  rw [spB_start _ h1] at h2
  replace h2 := h2.exact_zero
  obtain ⟨first, steps⟩ := p
  have hne : steps ≠ [] := by rintro rfl; simp only [List.length_nil] at h4; omega
  obtain ⟨pre, last, rfl⟩ : ∃ pre last, steps = pre ++ [last] :=
    ⟨steps.dropLast, steps.getLast hne, (List.dropLast_append_getLast hne).symm⟩
  obtain ⟨v, l⟩ := last
  obtain ⟨u, x', y, h7, h8, h9, h10⟩ := Spec.IsWPath.snoc_inv h2
  have hrev : (⟨first, pre ++ [(v, l)]⟩ : SPath (V × Nat) Unit).verts.reverse =
      v :: (first :: pre.map Prod.fst).reverse := by
    simp [SPath.verts]
  rw [hrev] at h5
  have hv : st = v := by
    have := h5.head
    simpa using this.symm
  subst hv
  have hlast : (first :: pre.map Prod.fst).reverse.head? = some u := by rw [List.head?_reverse]; exact h8
  generalize (first :: pre.map Prod.fst).reverse = R at h5 hlast
  cases h5 with
  | start _ => simp at hlast
  | @step _ u' l' hg hne hch =>
    have := hch.head
    rw [hlast, Option.some.injEq] at this
    subst this
    refine ⟨u, x', y, ?_, h9, h10, hg, hne, h6 u ?_⟩
    · have := Spec.IsWPath.walk (S := (· ∈ ibS starts)) h7 (.start h1) h8
      rwa [zero_add] at this
    · have hm : u ∈ (first :: pre.map Prod.fst) := List.mem_of_getLast? h8
      simp only [SPath.verts, List.map_append, List.mem_cons, List.mem_append] at hm ⊢
      tauto


/-! ### The relation -/

/-- The stored paths of the traversal. -/
def IbPaths (o : IbGear V W Mo Do) (c : IbCfg V W) (starts : List V) (preds : Mo) (E : List (V × Nat)) : Prop :=
  ∀ v, ((v, 0) ∈ E ∨ v ∈ starts) → ∃ s ∈ starts, ∃ steps a, IsSeqPath c.edges s steps a ∧
    SeqDist c.edges (· ∈ starts) v a ∧ Chain (o.mo.get? preds) id v (s :: steps).reverse ∧
    ∀ t ∈ s :: steps, (t, 0) ∈ E ∨ t ∈ starts

/-- What holds for the state that is currently expanded. -/
def IbPcOk (c : IbCfg V W) (E : List (V × Nat)) (iters : V → Option Nat) (heap : List (HEntry W ((V × Nat) × Nat)))
    (pc : SpPc (V × Nat) Unit W) : Prop :=
  match pc with
  | .loop => True
  | .expand st _ _ => st ∈ E ∧ (st.2 ≠ 0 → iters st.1 = some st.2) ∧
      ∀ e ∈ heap, e.item.1.2 ≠ 0 → e.item.1.1 ≠ st.1
  | .edges st _ _ es => st ∈ E ∧ (∃ pre, ibPureNext c st = pre ++ es) ∧
      (es ≠ [] → iters st.1 = some (st.2 + 1) ∧ ∀ e ∈ heap, e.item.1.2 ≠ 0 → e.item.1.1 ≠ st.1)

/-- The state of the traversal belongs to a state of the search on the state graph; `E` are the states that have been
taken from the heap. -/
structure IbRel (g : WGear (V × Nat) (V × Nat) Unit W M ML D) (o : IbGear V W Mo Do) (c : IbCfg V W) (starts : List V)
    (h : List (Ev (SpReport (V × Nat) W M ML D))) (s : IbState V W M ML D Mo Do) (E : List (V × Nat)) : Prop where
  reach : Reaches (spStep g (ibPure c)) (spInit g (ibPure c) none (ibS starts)) h s.sp
  repE : ∀ r ∈ repsOf h, r.vertex ∈ E
  base : ∀ st ∈ E, (st.1, 0) ∈ E
  sup : ∀ e ∈ s.sp.heap, e.item.1 ∈ E → g.dd.get s.sp.dist e.item.1 < e.key
  uniq0 : s.sp.heap.Pairwise (fun e f => e.item.2 = 0 → f.item.2 = 0 → e.item.1 ≠ f.item.1)
  fin : ∀ st ∈ E, IbAW c starts (g.dd.get s.sp.dist st) st ∧ ∀ w, IbAW c starts w st → g.dd.get s.sp.dist st ≤ w
  tok : ∀ e ∈ s.sp.heap, e.item.1.2 ≠ 0 → s.iters e.item.1.1 = some e.item.1.2 ∧ (e.item.1.1, 0) ∈ E
  tokU : s.sp.heap.Pairwise (fun e f => e.item.1.2 ≠ 0 → f.item.1.2 ≠ 0 → e.item.1.1 ≠ f.item.1.1)
  pc : IbPcOk c E s.iters s.sp.heap s.sp.pc
  paths : c.buildPaths = true → IbPaths o c starts s.preds E

variable {h : List (Ev (SpReport (V × Nat) W M ML D))} {s : IbState V W M ML D Mo Do} {E : List (V × Nat)}

theorem IbRel.all (rel : IbRel g o c starts h s E) (hs : SortedSeqs c.edges) (hl : SubLaws c.sub c.inf)
    (hd : g.dd.Lawful c.inf) :
    ∃ F cur, SpAll (ibPure c) (ibS starts) (spB (ibPure c) (ibS starts)) g h s.sp F cur :=
  sp_plain_ok (c := ibPure c) rfl hd (ibPure_nonneg hs hl) ibPure_compat rel.reach

/-- A superseded entry is dropped. -/
theorem IbRel.popStale (rel : IbRel g o c starts h s E) (hpc : s.sp.pc = .loop)
    {e : HEntry W ((V × Nat) × Nat)} {rest : List (HEntry W ((V × Nat) × Nat))} (hh : s.sp.heap = e :: rest)
    (hstep : spStep g (ibPure c) s.sp = .tau { s.sp with heap := rest }) :
    IbRel g o c starts h { s with sp := { s.sp with heap := rest } } E := by
  have hsub : ∀ f ∈ rest, f ∈ s.sp.heap := fun f hf => by rw [hh]; exact List.mem_cons_of_mem _ hf
  have h1 := rel.uniq0
  have h2 := rel.tokU
  rw [hh] at h1 h2
  exact {
    reach := .tau rel.reach hstep
    repE := rel.repE
    base := rel.base
    sup := fun f hf => rel.sup f (hsub f hf)
    uniq0 := (List.pairwise_cons.1 h1).2
    fin := rel.fin
    tok := fun f hf => rel.tok f (hsub f hf)
    tokU := (List.pairwise_cons.1 h2).2
    pc := by simp only [hpc, IbPcOk]
    paths := rel.paths }

/-- The next state is taken from the heap. -/
theorem IbRel.popFresh (rel : IbRel g o c starts h s E) (hs : SortedSeqs c.edges) (hl : SubLaws c.sub c.inf)
    (hd : g.dd.Lawful c.inf)
    {e : HEntry W ((V × Nat) × Nat)} {rest : List (HEntry W ((V × Nat) × Nat))} (hh : s.sp.heap = e :: rest)
    (hns : ¬ g.dd.get s.sp.dist e.item.1 < e.key) {h' : List (Ev (SpReport (V × Nat) W M ML D))}
    (hreach : Reaches (spStep g (ibPure c)) (spInit g (ibPure c) none (ibS starts)) h'
      { s.sp with heap := rest, pc := .expand e.item.1 e.key e.item.2 })
    (hrep : ∀ r ∈ repsOf h', r ∈ repsOf h ∨ r.vertex = e.item.1)
    {preds : Mo} (hpaths : c.buildPaths = true → IbPaths o c starts preds (e.item.1 :: E)) (dist : Do) (distance : W) :
    e.item.1 ∉ E ∧ IbRel g o c starts h'
      { s with
        sp := { s.sp with heap := rest, pc := .expand e.item.1 e.key e.item.2 }
        preds := preds, dist := dist, distance := distance } (e.item.1 :: E) := by
  have he : e ∈ s.sp.heap := by rw [hh]; exact List.mem_cons_self
  have hsub : ∀ f ∈ rest, f ∈ s.sp.heap := fun f hf => by rw [hh]; exact List.mem_cons_of_mem _ hf
  have hE : e.item.1 ∉ E := fun hm => hns (rel.sup e he hm)
  obtain ⟨F, cur, inv, -⟩ := rel.all hs hl hd
  obtain ⟨F', cur', inv', -⟩ := sp_plain_ok (c := ibPure c) rfl hd (ibPure_nonneg hs hl) ibPure_compat hreach
  obtain ⟨p1, -, p3⟩ := inv'.pcok
  have dv := inv'.donev _ _ p1
  have hkey : g.dd.get s.sp.dist e.item.1 = e.key := dv.2.2.2.1
  have hmin : ∀ w, IbAW c starts w e.item.1 → e.key ≤ w := fun w hw => dv.2.2.2.2 w e.item.1 hw rfl
  have hsort := inv.sorted
  have huniq := inv.uniq
  have h0 := rel.uniq0
  have hU := rel.tokU
  rw [hh] at hsort huniq h0 hU
  have hsort := List.pairwise_cons.1 hsort
  have huniq := List.pairwise_cons.1 huniq
  have h0 := List.pairwise_cons.1 h0
  have hU := List.pairwise_cons.1 hU
  refine ⟨hE, ?_⟩
  exact {
    reach := hreach
    repE := fun r hr => by
      rcases hrep r hr with hr | hr
      · exact List.mem_cons_of_mem _ (rel.repE r hr)
      · rw [hr]; exact List.mem_cons_self
    base := fun st hst => by
      rcases List.mem_cons.1 hst with rfl | hst
      · by_cases hz : e.item.1.2 = 0
        · have : (e.item.1.1, 0) = e.item.1 := by rw [← hz]
          rw [this]; exact List.mem_cons_self
        · exact List.mem_cons_of_mem _ (rel.tok e he hz).2
      · exact List.mem_cons_of_mem _ (rel.base st hst)
    sup := fun f hf hfE => by
      rcases List.mem_cons.1 hfE with hfE | hfE
      · show g.dd.get s.sp.dist f.item.1 < f.key
        rw [hfE, hkey]
        refine lt_of_le_of_ne (hsort.1 f hf).key_le (fun hkk => ?_)
        obtain ⟨z1, z2⟩ := huniq.1 f hf hfE.symm hkk
        exact h0.1 f hf z1 z2 hfE.symm
      · exact rel.sup f (hsub f hf) hfE
    uniq0 := h0.2
    fin := fun st hst => by
      rcases List.mem_cons.1 hst with rfl | hst
      · show IbAW c starts (g.dd.get s.sp.dist e.item.1) e.item.1 ∧ _
        rw [hkey]; exact ⟨p3, hmin⟩
      · exact rel.fin st hst
    tok := fun f hf hz => ⟨(rel.tok f (hsub f hf) hz).1, List.mem_cons_of_mem _ (rel.tok f (hsub f hf) hz).2⟩
    tokU := hU.2
    pc := by
      refine ⟨List.mem_cons_self, fun hz => (rel.tok e he hz).1, fun f hf hz hv => ?_⟩
      by_cases hze : e.item.1.2 = 0
      · have := (rel.tok f (hsub f hf) hz).2
        rw [hv, ← hze] at this
        exact hE this
      · exact hU.1 f hf hze hz hv.symm
    paths := hpaths }

/-- The edges function gives the edges of the state graph. -/
theorem IbRel.edges_eq (rel : IbRel g o c starts h s E) (hs : SortedSeqs c.edges) (hl : SubLaws c.sub c.inf)
    {st : V × Nat} {w : W} {ec : Nat} (hpc : s.sp.pc = .expand st w ec) :
    ∃ it, ibEdges g c s.sp.dist s.iters st = .ok (ibPureNext c st, it) ∧ (∀ v, v ≠ st.1 → it v = s.iters v) ∧
      (ibPureNext c st ≠ [] → it st.1 = some (st.2 + 1)) := by
  have hp := rel.pc
  simp only [hpc, IbPcOk] at hp
  obtain ⟨h1, h2, -⟩ := hp
  obtain ⟨f1, f2⟩ := rel.fin st h1
  obtain ⟨b1, b2⟩ := rel.fin _ (rel.base st h1)
  obtain ⟨m1, m2⟩ := ib_min_base hs hl (k := st.2) b1 b2 f1 f2
  have hpos : (if st.2 = 0 then some 0 else s.iters st.1) = some st.2 := by
    split
    · rename_i hz; rw [hz]
    · rename_i hz; exact h2 hz
  unfold ibEdges ibPureNext
  simp only [hpos]
  cases hedge : c.edges st.1 st.2 with
  | none => exact ⟨_, rfl, fun v hv => if_neg hv, fun h => absurd rfl h⟩
  | some p =>
    obtain ⟨u, y⟩ := p
    simp only [m2, if_true]
    have hx : c.sub (g.dd.get s.sp.dist (st.1, 0) + y) (g.dd.get s.sp.dist st) = c.sub y (ibPrevW c st.1 st.2) := by
      have hlt := ib_aw_lt hl f1
      rw [m1] at hlt ⊢
      exact hl.cancel _ _ _ hlt
    rw [hx]
    exact ⟨_, rfl, fun v hv => if_neg hv, fun _ => if_pos rfl⟩

theorem IbRel.expand (rel : IbRel g o c starts h s E) {st : V × Nat} {w : W} {ec : Nat}
    (hpc : s.sp.pc = .expand st w ec) {it : V → Option Nat} (hit : ∀ v, v ≠ st.1 → it v = s.iters v)
    (hit2 : ibPureNext c st ≠ [] → it st.1 = some (st.2 + 1)) (distance : W) :
    IbRel g o c starts (h ++ [.exp])
      { s with
        sp := { s.sp with pc := .edges st w ec (ibPureNext c st) }, iters := it, distance := distance } E := by
  have hp := rel.pc
  simp only [hpc, IbPcOk] at hp
  obtain ⟨h1, h2, h3⟩ := hp
  exact {
    reach := .expand rel.reach (by simp only [spStep, hpc]; rfl)
    repE := by simpa using rel.repE
    base := rel.base
    sup := rel.sup
    uniq0 := rel.uniq0
    fin := rel.fin
    tok := fun e he hz => by
      refine ⟨?_, (rel.tok e he hz).2⟩
      rw [← (rel.tok e he hz).1]
      exact hit _ (h3 e he hz)
    tokU := rel.tokU
    pc := ⟨h1, ⟨[], rfl⟩, fun hne => ⟨hit2 hne, h3⟩⟩
    paths := rel.paths }

theorem ib_next_split {st n : V × Nat} {x : W} {l : Unit} {pre es : List ((V × Nat) × W × Unit)}
    (h : ibPureNext c st = pre ++ (n, x, l) :: es) :
    (n.2 = 0) ∨ (n = (st.1, st.2 + 1) ∧ es = []) := by
  unfold ibPureNext at h
  split at h
  · simp at h
  · split at h
    · cases pre with
      | nil => simp only [List.nil_append, List.cons.injEq, Prod.mk.injEq] at h; left; rw [← h.1.1]
      | cons a pre =>
        cases pre with
        | nil =>
          simp only [List.cons_append, List.nil_append, List.cons.injEq, Prod.mk.injEq] at h
          right; exact ⟨h.2.1.1.symm, h.2.2.symm⟩
        | cons b pre => simp at h
    · simp at h

/-- An edge is skipped. -/
theorem IbRel.edgeSkip (rel : IbRel g o c starts h s E) {st : V × Nat} {w : W} {ec : Nat}
    {a : (V × Nat) × W × Unit} {es : List ((V × Nat) × W × Unit)} (hpc : s.sp.pc = .edges st w ec (a :: es))
    (hstep : spStep g (ibPure c) s.sp = .tau { s.sp with pc := .edges st w ec es }) :
    IbRel g o c starts h { s with sp := { s.sp with pc := .edges st w ec es } } E := by
  have hp := rel.pc
  simp only [hpc, IbPcOk] at hp
  obtain ⟨h1, ⟨pre, h2⟩, h3⟩ := hp
  exact {
    reach := .tau rel.reach hstep
    repE := rel.repE
    base := rel.base
    sup := rel.sup
    uniq0 := rel.uniq0
    fin := rel.fin
    tok := rel.tok
    tokU := rel.tokU
    pc := ⟨h1, ⟨pre ++ [a], by rw [h2]; simp⟩, fun _ => h3 (by simp)⟩
    paths := rel.paths }

/-- An edge leads to an improvement. -/
theorem IbRel.edgePush (rel : IbRel g o c starts h s E) (hs : SortedSeqs c.edges) (hl : SubLaws c.sub c.inf)
    (hd : g.dd.Lawful c.inf) {st n : V × Nat} {w x : W} {l : Unit} {ec : Nat}
    {es : List ((V × Nat) × W × Unit)} (hpc : s.sp.pc = .edges st w ec ((n, x, l) :: es))
    (hinf : ¬ c.inf ≤ x + w) {d : D} (himp : g.dd.improve s.sp.dist n (x + w) = some d) {sp' : SpState (V × Nat) Unit W M ML D}
    (hpc' : sp'.pc = .edges st w ec es)
    (hheap : sp'.heap = heapPush s.sp.heap ⟨x + w, s.sp.no, (n, ec + 1)⟩) (hdist : sp'.dist = d)
    (hstep : spStep g (ibPure c) s.sp = .tau sp') :
    IbRel g o c starts h { s with sp := sp' } E := by
  have hp := rel.pc
  simp only [hpc, IbPcOk] at hp
  obtain ⟨h1, ⟨pre, h2⟩, h3⟩ := hp
  have h4 := h3 (by simp)
  obtain ⟨F, cur, inv, -⟩ := rel.all hs hl hd
  have hpk := inv.pcok
  simp only [SpPcOk, hpc] at hpk
  obtain ⟨-, -, q1, q2⟩ := hpk
  have hlt : x + w < c.inf := lt_of_not_ge hinf
  have hget := hd.improve_some _ _ _ _ hlt himp
  have hnot : ¬ g.dd.get s.sp.dist n ≤ x + w := fun hle => by
    have := (hd.improve_none s.sp.dist n (x + w) hlt).2 hle
    rw [himp] at this; cases this
  have hB : g.dd.get s.sp.dist n ≤ spB (ibPure c) (ibS starts) n := by
    cases hF : F n with
    | some y =>
      obtain ⟨-, -, d1, d2, -⟩ := inv.donev n y hF
      exact d2.le.trans d1
    | none => exact (inv.undone n hF).1
  have hn : n ∉ E := fun hn => by
    refine hnot ((rel.fin n hn).2 _ ?_)
    rw [add_comm]
    exact .step q1 ⟨l, q2 _ List.mem_cons_self⟩ (lt_of_lt_of_le (by rw [add_comm]; exact lt_of_not_ge hnot) hB)
  have hsame : ∀ st' ∈ E, g.dd.get sp'.dist st' = g.dd.get s.sp.dist st' := by
    intro st' hst'
    rw [hdist, hget, if_neg]
    rintro rfl
    exact hn hst'
  have hperm : sp'.heap.Perm (⟨x + w, s.sp.no, (n, ec + 1)⟩ :: s.sp.heap) := by
    rw [hheap]; exact heapPush_perm _ _
  have hmem : ∀ e, e ∈ sp'.heap → e = ⟨x + w, s.sp.no, (n, ec + 1)⟩ ∨ e ∈ s.sp.heap := by
    intro e he
    rwa [hheap, mem_heapPush] at he
  have hsplit := ib_next_split h2
  have hnz : n.2 ≠ 0 → n = (st.1, st.2 + 1) ∧ es = [] := by
    intro hz
    rcases hsplit with h | h
    · exact absurd h hz
    · exact h
  exact {
    reach := .tau rel.reach hstep
    repE := rel.repE
    base := rel.base
    sup := fun e he heE => by
      show g.dd.get sp'.dist e.item.1 < e.key
      rcases hmem e he with rfl | he
      · exact absurd heE hn
      · rw [hsame _ heE]; exact rel.sup e he heE
    uniq0 := by
      show sp'.heap.Pairwise _
      rw [hperm.pairwise_iff (fun h a b e => h b a e.symm)]
      exact List.pairwise_cons.2 ⟨fun f _ h => absurd h (Nat.succ_ne_zero _), rel.uniq0⟩
    fin := fun st' hst' => by
      show IbAW c starts (g.dd.get sp'.dist st') st' ∧ ∀ w, IbAW c starts w st' → g.dd.get sp'.dist st' ≤ w
      rw [hsame _ hst']; exact rel.fin st' hst'
    tok := fun e he hz => by
      rcases hmem e he with rfl | he
      · obtain ⟨rfl, -⟩ := hnz hz
        exact ⟨h4.1, rel.base st h1⟩
      · exact rel.tok e he hz
    tokU := by
      show sp'.heap.Pairwise _
      rw [hperm.pairwise_iff (fun h a b e => h b a e.symm)]
      refine List.pairwise_cons.2 ⟨fun f hf hz hfz hv => ?_, rel.tokU⟩
      obtain ⟨rfl, -⟩ := hnz hz
      exact h4.2 f hf hfz hv.symm
    pc := by
      show IbPcOk c E s.iters sp'.heap sp'.pc
      rw [hpc']
      refine ⟨h1, ⟨pre ++ [(n, x, l)], by rw [h2]; simp⟩, fun hne => ⟨h4.1, fun e he hz => ?_⟩⟩
      rcases hmem e he with rfl | he
      · exact absurd (hnz hz).2 hne
      · exact h4.2 e he hz
    paths := rel.paths }


/-- The gears can store the vertices (and states) that can be reached. -/
structure IbStorable (g : WGear (V × Nat) (V × Nat) Unit W M ML D) (o : IbGear V W Mo Do) (c : IbCfg V W)
    (starts : List V) (validS : V × Nat → Prop) (validL : Unit → Prop) (validV : V → Prop) : Prop where
  mo : g.mo.Lawful validS
  lo : g.lo.Lawful validL
  states : ∀ w v k, SeqWalk c.edges (· ∈ starts) w v → validS (v, k)
  unit : validL ()
  omo : o.mo.Lawful validV
  verts : ∀ w v, SeqWalk c.edges (· ∈ starts) w v → validV v

theorem IbStorable.inner {validS : V × Nat → Prop} {validL : Unit → Prop} {validV : V → Prop}
    (h : IbStorable g o c starts validS validL validV) (hs : SortedSeqs c.edges) (hl : SubLaws c.sub c.inf) :
    WStorable g.mo g.lo (ibPure c).next (ibPure c).vid (ibS starts) validS validL where
  mo := h.mo
  lo := h.lo
  verts w st hw := by
    obtain ⟨a, h1, -⟩ := ib_walk_of_state hs hl hw
    exact h.states a st.1 st.2 h1
  labs _ _ _ _ _ := h.unit
  distinct _ _ _ _ e := e

/-- A base state is reported: the predecessor, and the stored paths. -/
theorem IbRel.report (rel : IbRel g o c starts h s E) (hs : SortedSeqs c.edges) (hl : SubLaws c.sub c.inf)
    (hd : g.dd.Lawful c.inf) {validS : V × Nat → Prop} {validL : Unit → Prop} {validV : V → Prop}
    (hst : IbStorable g o c starts validS validL validV) (hb : c.buildPaths = true)
    {e : HEntry W ((V × Nat) × Nat)} {rest : List (HEntry W ((V × Nat) × Nat))} (hh : s.sp.heap = e :: rest)
    (hns : ¬ g.dd.get s.sp.dist e.item.1 < e.key) (hz : e.item.1.2 = 0)
    {r : SpReport (V × Nat) W M ML D} (hr : r = ⟨e.item.1, e.key, e.item.2, s.sp.dist, s.sp.preds, s.sp.labels⟩)
    (hreach : Reaches (spStep g (ibPure c)) (spInit g (ibPure c) none (ibS starts)) (h ++ [.rep r])
      { s.sp with heap := rest, pc := .expand e.item.1 e.key e.item.2 }) :
    ∃ p, ibPrev g r = .ok p ∧ IbPaths o c starts (o.mo.set s.preds e.item.1.1 p) (e.item.1 :: E) := by
  have he : e ∈ s.sp.heap := by rw [hh]; exact List.mem_cons_self
  have hE : e.item.1 ∉ E := fun hm => hns (rel.sup e he hm)
  have hn := ibPure_nonneg hs hl
  obtain ⟨F, cur, inv, pinv, -⟩ := sp_plain_ok (c := ibPure c) rfl hd hn ibPure_compat hreach
  have pinv := pinv hb ⟨_, _, hst.inner hs hl⟩
  obtain ⟨r1, r2, r3, r4, r5⟩ := inv.reps r (by simp)
  obtain ⟨q, hq, hq2⟩ := pinv.rep (repsOf h) r [] (by simp)
  obtain ⟨st', x, y, w1, w2, w3, w4, w5, w6⟩ := ib_pred hq r5
  have hdist : SeqDist c.edges (· ∈ starts) r.vertex.1 r.distance := by
    refine ib_dist hs hl ?_ r4
    have hv : (r.vertex.1, 0) = r.vertex := by rw [hr, ← hz]
    rw [hv]
    exact isDist_of_aw hn ibPure_compat r2 (.inl r4) (inv.donev _ _ r1).2.2.2.2
  subst hr
  simp only at r1 r2 r3 r4 r5 w2 w3 w4 w5 hdist
  have hst'E : (st'.1, 0) ∈ E ∨ st'.1 ∈ starts := by
    obtain ⟨y', hy'⟩ := Option.isSome_iff_exists.1 w6
    rcases inv.doneRep _ _ hy' with hs' | ⟨r', hr', hv⟩
    · right
      obtain ⟨t, ht, hte⟩ := List.mem_map.1 hs'
      obtain ⟨v, hv, rfl⟩ := List.mem_map.1 ht
      have hte : (v, 0) = st' := hte
      rw [← hte]; exact hv
    · left
      have hv : r'.vertex = st' := hv
      simp only [repsOf_append, List.mem_append, repsOf_rep, repsOf_nil, List.mem_singleton] at hr'
      rcases hr' with hr' | rfl
      · rw [← hv]; exact rel.base _ (rel.repE r' hr')
      · exact absurd hv.symm w5
  have hu0 : (e.item.1.1, 0) = e.item.1 := by rw [← hz]
  have hu : ¬ ((e.item.1.1, 0) ∈ E ∨ e.item.1.1 ∈ starts) := by
    rintro (h' | h')
    · rw [hu0] at h'; exact hE h'
    · have h0 := spB_start (c := ibPure c) (starts := ibS starts) e.item.1
        (List.mem_map.2 ⟨_, h', hu0⟩)
      have h3 := r3
      rw [h0] at h3
      exact absurd (inv.donev _ _ r1).1 (not_le_of_gt h3)
  obtain ⟨u, z, e1, e2, e3, e4⟩ := ibPure_edge.1 ⟨(), w2⟩
  have e4 : e.item.1 = (u, 0) := by
    rcases e4 with e4 | e4
    · exact e4
    · rw [e4] at hz; simp at hz
  obtain ⟨a', b1, b2⟩ := ib_walk_of_state hs hl w1
  have hkey : e.key = a' + z := by rw [w3, b2, e3, ib_step_weight hs hl e1 e2]
  refine ⟨st'.1, ?_, ?_⟩
  · have hraw := hst.mo.raw_of_get _ _ _ w4
    unfold ibPrev
    simp only [PathsView.iterVerticesToStart, pathsView, iterVertsLoop, id_eq, w4, hraw, Option.isSome_some, if_true]
    rw [if_neg (Ne.symm w5)]
    cases g.mo.raw s.sp.preds st' with
    | none => rfl
    | some q =>
      cases q with
      | none => rfl
      | some t =>
        simp only
        split
        · rename_i heq
          split at heq <;> simp at heq <;> rw [heq.1.2.1]
        · rename_i h1 h2 heq
          exfalso
          split at heq <;> simp at heq
        · rename_i h1 h2
          exfalso
          split at h1 <;> exact h1 _ _ _ _ rfl
  · have hget : ∀ j, j ≠ u → o.mo.get? (o.mo.set s.preds u st'.1) j = o.mo.get? s.preds j := fun j hj => by
      rw [hst.omo.get_set _ _ _ _ (hst.verts _ _ b1), if_neg hj]
    rw [e4] at hu hdist ⊢
    simp only at hu hdist ⊢
    have hold : ∀ v, ((v, 0) ∈ E ∨ v ∈ starts) → ∃ s0 ∈ starts, ∃ steps a, IsSeqPath c.edges s0 steps a ∧
        SeqDist c.edges (· ∈ starts) v a ∧
        Chain (o.mo.get? (o.mo.set s.preds u st'.1)) id v (s0 :: steps).reverse ∧
        ∀ t ∈ s0 :: steps, (t, 0) ∈ E ∨ t ∈ starts := by
      intro v hv
      obtain ⟨s0, k1, steps, a, k2, k3, k4, k5⟩ := rel.paths hb v hv
      refine ⟨s0, k1, steps, a, k2, k3, k4.congr (fun t ht => ?_), k5⟩
      apply hget
      rintro rfl
      exact hu (k5 _ (List.mem_reverse.1 ht))
    intro v hv
    by_cases hvu : v = u
    · subst hvu
      obtain ⟨s0, k1, steps, a, k2, k3, k4, k5⟩ := hold _ hst'E
      have hlast : (s0 :: steps).getLast? = some st'.1 := by
        have := k4.head
        rwa [List.head?_reverse] at this
      have hw : a + z = e.key := by
        apply le_antisymm
        · rw [hkey]; exact add_le_add_left (k3.2 _ b1) z
        · exact hdist.2 _ (.step k3.1 ⟨_, e1⟩)
      refine ⟨s0, k1, steps ++ [v], a + z, k2.snoc hlast ⟨_, e1⟩, by rw [hw]; exact hdist, ?_, ?_⟩
      · rw [← List.cons_append, List.reverse_append]
        refine .step (u := st'.1) ?_ ?_ k4
        · rw [hst.omo.get_set _ _ _ _ (hst.verts _ _ b1)]; simp
        · intro heq; rw [heq] at hst'E; exact hu hst'E
      · intro t ht
        rw [← List.cons_append, List.mem_append] at ht
        rcases ht with ht | ht
        · rcases k5 t ht with h | h
          · exact .inl (List.mem_cons_of_mem _ h)
          · exact .inr h
        · simp only [List.mem_singleton] at ht
          left; rw [ht]; exact List.mem_cons_self
    · have hv' : (v, 0) ∈ E ∨ v ∈ starts := by
        rcases hv with hv | hv
        · rcases List.mem_cons.1 hv with hv | hv
          · simp only [Prod.mk.injEq, and_true] at hv; exact absurd hv hvu
          · exact .inl hv
        · exact .inr hv
      obtain ⟨s0, k1, steps, a, k2, k3, k4, k5⟩ := hold v hv'
      refine ⟨s0, k1, steps, a, k2, k3, k4, fun t ht => ?_⟩
      rcases k5 t ht with h | h
      · exact .inl (List.mem_cons_of_mem _ h)
      · exact .inr h


/-! ### Start and steps -/

theorem ib_start_items {cc : WCfg (V × Nat) (V × Nat) Unit W} (d : D) (sts : List (V × Nat)) (no : Int)
    (h : sts.Nodup) :
    (spStartEntries g cc d sts no).Pairwise (fun e f => e.item.2 = 0 → f.item.2 = 0 → e.item.1 ≠ f.item.1) := by
  induction sts generalizing no with
  | nil => exact .nil
  | cons v vs ih =>
    rw [List.nodup_cons] at h
    refine List.pairwise_cons.2 ⟨fun f hf _ _ heq => ?_, ih _ h.2⟩
    have := (spStartEntries_mem hf).1
    rw [← heq] at this
    exact h.1 this

theorem MapOps.Lawful.get_setAll_self {o : MapOps Mo V V} {valid : V → Prop} (ho : o.Lawful valid) (m : Mo)
    (vs : List V) (hv : ∀ v ∈ vs, valid v) (k : V) :
    o.get? (o.setAll m (vs.map (fun v => (v, v)))) k = if k ∈ vs then some k else o.get? m k := by
  induction vs generalizing m with
  | nil => simp [MapOps.setAll]
  | cons v vs ih =>
    have := ih (o.set m v v) (fun u hu => hv u (List.mem_cons_of_mem _ hu))
    simp only [MapOps.setAll, List.map_cons, List.foldl_cons] at this ⊢
    rw [this]
    simp only [List.mem_cons, ho.get_set _ _ _ _ (hv v List.mem_cons_self)]
    by_cases h1 : k ∈ vs <;> by_cases h2 : k = v <;> simp [h1, h2]

theorem ib_spInit : spInit g (ibInner c) none (ibS starts) = spInit g (ibPure c) none (ibS starts) := by
  have key : ∀ (d : D) (sts : List (V × Nat)) (no : Int),
      spStartEntries g (ibInner c) d sts no = spStartEntries g (ibPure c) d sts no := by
    intro d sts
    induction sts with
    | nil => intro no; rfl
    | cons v vs ih => intro no; simp only [spStartEntries, ih]; rfl
  simp only [spInit, key]
  rfl

theorem ib_init_rel (hs : SortedSeqs c.edges) (hnd : starts.Nodup) {isCollection : Bool}
    (hstarts : ibStarts c isCollection starts = starts)
    (hst : c.buildPaths = true → ∃ validS validL validV, IbStorable g o c starts validS validL validV) :
    IbRel g o c starts [] (ibInit g o c isCollection starts) [] where
  reach := by
    simp only [ibInit, hstarts]
    rw [ib_spInit]
    exact .refl
  repE := by simp
  base := by simp
  sup := by simp
  uniq0 := by
    simp only [ibInit, hstarts, spInit]
    rw [(heapify_perm _).pairwise_iff (fun h a b e => h b a e.symm)]
    refine ib_start_items _ _ _ ?_
    exact hnd.map (fun a b e => by simpa using e)
  fin := by simp
  tok e he hz := by
    simp only [ibInit, hstarts, spInit, mem_heapify] at he
    have := (spStartEntries_mem he).1
    obtain ⟨v, -, hv⟩ := List.mem_map.1 this
    rw [← hv] at hz; exact absurd rfl hz
  tokU := by
    simp only [ibInit, hstarts, spInit]
    refine List.Pairwise.imp_of_mem (R := fun _ _ => True) (fun {a b} ha _ _ hz _ => ?_) (List.pairwise_of_forall (fun _ _ => trivial))
    have := (spStartEntries_mem (mem_heapify.1 ha)).1
    obtain ⟨v, -, hv⟩ := List.mem_map.1 this
    rw [← hv] at hz; exact absurd rfl hz
  pc := trivial
  paths hb := by
    obtain ⟨validS, validL, validV, hst⟩ := hst hb
    intro v hv
    have hv : v ∈ starts := by simpa using hv
    refine ⟨v, hv, [], 0, .nil, ⟨.start hv, fun w' hw => SeqWalk.nonneg hs hw⟩, ?_, ?_⟩
    · refine .start ?_
      simp only [ibInit, hb, if_true]
      have hval : ∀ v ∈ starts, validV v := fun v hv => hst.verts 0 v (.start hv)
      have := hst.omo.get_setAll_self o.mo.empty starts hval v
      rw [if_pos hv] at this
      exact this
    · intro t ht
      simp only [List.mem_singleton] at ht
      right; rw [ht]; exact hv

theorem IbPaths.popStart {preds : Mo} {st : V × Nat} (h : IbPaths o c starts preds E)
    (hst : (st.1, 0) ∈ E ∨ st.1 ∈ starts) : IbPaths o c starts preds (st :: E) := by
  intro v hv
  have hv' : (v, 0) ∈ E ∨ v ∈ starts := by
    rcases hv with hv | hv
    · rcases List.mem_cons.1 hv with hv | hv
      · rw [← hv] at hst; exact hst
      · exact .inl hv
    · exact .inr hv
  obtain ⟨s0, k1, steps, a, k2, k3, k4, k5⟩ := h v hv'
  refine ⟨s0, k1, steps, a, k2, k3, k4, fun t ht => ?_⟩
  rcases k5 t ht with h | h
  · exact .inl (List.mem_cons_of_mem _ h)
  · exact .inr h

/-- What a report shows. -/
structure IbShows (o : IbGear V W Mo Do) (c : IbCfg V W) (starts : List V) (r : IbReport V W Mo Do)
    (r' : SpReport (V × Nat) W M ML D) : Prop where
  vertex : r'.vertex = (r.vertex, 0)
  distance : r.distance = r'.distance
  paths : c.buildPaths = true → ∃ E, r'.vertex ∈ E ∧ IbPaths o c starts r.preds E

theorem ib_sim (hs : SortedSeqs c.edges) (hl : SubLaws c.sub c.inf) (hd : g.dd.Lawful c.inf)
    (hst : c.buildPaths = true → ∃ validS validL validV, IbStorable g o c starts validS validL validV)
    (T : List (V × Nat)) (s : IbState V W M ML D Mo Do) (s' : SpState (V × Nat) Unit W M ML D)
    (hR : s.sp = s' ∧ ∃ h E, IbRel g o c starts h s E ∧ T ⊆ E) :
    StepRelF (fun s s' => s.sp = s' ∧ ∃ h E, IbRel g o c starts h s E ∧ T ⊆ E)
      (fun s s' => s.sp = s' ∧ ∃ h E, IbRel g o c starts h s E ∧ T ⊆ E) (IbShows o c starts)
      (fun r => decide (r.vertex.2 = 0)) (ibStep g o c s) (spStep g (ibPure c) s') := by
  obtain ⟨rfl, h, E, rel, hT⟩ := hR
  obtain ⟨F, cur, inv, -⟩ := rel.all hs hl hd
  cases hpc : s.sp.pc with
  | expand st w ec =>
    obtain ⟨it, h1, h2, h3⟩ := rel.edges_eq hs hl hpc
    simp only [ibStep, hpc, h1, spStep]
    exact .expand ⟨rfl, _, E, rel.expand hpc h2 h3 _, hT⟩
  | loop =>
    cases hh : s.sp.heap with
    | nil =>
      simp only [ibStep, hpc, spStep, hh]
      exact .stop ⟨rfl, h, E, rel, hT⟩
    | cons e rest =>
      by_cases hns : g.dd.get s.sp.dist e.item.1 < e.key
      · have hstep : spStep g (ibPure c) s.sp = .tau { s.sp with heap := rest } := by
          simp [spStep, hpc, hh, ibPure, ibInner, hns]
        have hrel := rel.popStale hpc hh hstep
        obtain ⟨sp', hsp⟩ : ∃ sp', sp' = { s.sp with heap := rest } := ⟨_, rfl⟩
        have hstep' : spStep g (ibInner c) s.sp = .tau sp' := by
          simp [spStep, hpc, hh, ibInner, hns, hsp]
        rw [← hsp] at hstep hrel
        rw [hstep]
        simp only [ibStep, hpc, hstep']
        exact .tau ⟨rfl, h, E, hrel, hT⟩
      · have he : e ∈ s.sp.heap := by rw [hh]; exact List.mem_cons_self
        have hT' : T ⊆ e.item.1 :: E := fun t ht => List.mem_cons_of_mem _ (hT ht)
        rcases Nat.eq_zero_or_pos e.item.2 with hec | hec
        · have hstep : spStep g (ibPure c) s.sp =
              .tau { s.sp with heap := rest, pc := .expand e.item.1 e.key e.item.2 } := by
            simp [spStep, hpc, hh, ibPure, ibInner, hns, hec]
          have hstep' : spStep g (ibInner c) s.sp =
              .tau { s.sp with heap := rest, pc := .expand e.item.1 e.key e.item.2 } := by
            simp [spStep, hpc, hh, ibInner, hns, hec]
          rw [hstep]
          simp only [ibStep, hpc, hstep']
          have hstart : e.item.1.1 ∈ starts := by
            obtain ⟨v, hv, hve⟩ := List.mem_map.1 (inv.ent0 e he hec).1
            rw [← hve]; exact hv
          exact .tau ⟨rfl, h, _, (rel.popFresh hs hl hd hh hns (.tau rel.reach hstep) (fun r hr => .inl hr)
            (fun hb => (rel.paths hb).popStart (.inr hstart)) s.dist s.distance).2, hT'⟩
        · have hstep : spStep g (ibPure c) s.sp =
              .emit ⟨e.item.1, e.key, e.item.2, s.sp.dist, s.sp.preds, s.sp.labels⟩
                { s.sp with heap := rest, pc := .expand e.item.1 e.key e.item.2 } := by
            simp [spStep, hpc, hh, ibPure, ibInner, hns, hec]
          have hstep' : spStep g (ibInner c) s.sp =
              .emit ⟨e.item.1, e.key, e.item.2, s.sp.dist, s.sp.preds, s.sp.labels⟩
                { s.sp with heap := rest, pc := .expand e.item.1 e.key e.item.2 } := by
            simp [spStep, hpc, hh, ibInner, hns, hec]
          have hreach := Reaches.emit rel.reach hstep
          have hrep : ∀ r ∈ repsOf (h ++ [.rep
              (⟨e.item.1, e.key, e.item.2, s.sp.dist, s.sp.preds, s.sp.labels⟩ : SpReport (V × Nat) W M ML D)]),
              r ∈ repsOf h ∨ r.vertex = e.item.1 := by
            intro r hr
            simp only [repsOf_append, repsOf_rep, repsOf_nil, List.mem_append, List.mem_singleton] at hr
            rcases hr with hr | rfl
            · exact .inl hr
            · exact .inr rfl
          rw [hstep]
          simp only [ibStep, hpc, hstep']
          by_cases hz : e.item.1.2 = 0
          · have hu0 : e.item.1 = (e.item.1.1, 0) := by rw [← hz]
            rw [if_pos hz]
            unfold ibReport
            by_cases hb : c.buildPaths = true
            · obtain ⟨validS, validL, validV, hst⟩ := hst hb
              obtain ⟨p, hp1, hp2⟩ := rel.report hs hl hd hst hb hh hns hz rfl hreach
              simp only [hb, if_true, hp1]
              exact .emit (decide_eq_true hz) ⟨hu0, rfl, fun _ => ⟨_, List.mem_cons_self, hp2⟩⟩
                ⟨rfl, _, _, (rel.popFresh hs hl hd hh hns hreach hrep (fun _ => hp2) _ _).2, hT'⟩
            · simp only [hb]
              exact .emit (decide_eq_true hz) ⟨hu0, rfl, fun hb' => absurd hb' hb⟩
                ⟨rfl, _, _, (rel.popFresh hs hl hd hh hns hreach hrep (fun hb' => absurd hb' hb) _ _).2, hT'⟩
          · rw [if_neg hz]
            exact .skip (decide_eq_false hz) ⟨rfl, _, _, (rel.popFresh hs hl hd hh hns hreach hrep
              (fun hb => (rel.paths hb).popStart (.inl (rel.tok e he hz).2)) s.dist s.distance).2, hT'⟩
  | edges st w ec es =>
    cases es with
    | nil =>
      simp only [ibStep, hpc, spStep]
      refine .tau ⟨rfl, h, E, ?_, hT⟩
      exact { reach := .tau rel.reach (by simp only [spStep, hpc])
              repE := rel.repE, base := rel.base, sup := rel.sup, uniq0 := rel.uniq0, fin := rel.fin
              tok := rel.tok, tokU := rel.tokU, pc := trivial, paths := rel.paths }
    | cons a es =>
      obtain ⟨n, x, l⟩ := a
      by_cases hinf : c.inf ≤ x + w
      · have hstep : spStep g (ibPure c) s.sp = .fail .overflowError := by
          simp [spStep, hpc, ibPure, ibInner, hinf]
        have hstep' : spStep g (ibInner c) s.sp = .fail .overflowError := by
          simp [spStep, hpc, ibInner, hinf]
        rw [hstep]
        simp only [ibStep, hpc, hstep']
        exact .fail
      · cases himp : g.dd.improve s.sp.dist n (x + w) with
        | none =>
          have hstep : spStep g (ibPure c) s.sp = .tau { s.sp with pc := .edges st w ec es } := by
            simp [spStep, hpc, ibPure, ibInner, hinf, spImprove, himp]
          have hstep' : spStep g (ibInner c) s.sp = .tau { s.sp with pc := .edges st w ec es } := by
            simp [spStep, hpc, ibInner, hinf, spImprove, himp]
          rw [hstep]
          simp only [ibStep, hpc, hstep']
          exact .tau ⟨rfl, h, E, rel.edgeSkip hpc hstep, hT⟩
        | some d =>
          obtain ⟨sp', hsp⟩ : ∃ sp' : SpState (V × Nat) Unit W M ML D, sp' =
            { pc := .edges st w ec es, heap := heapPush s.sp.heap ⟨x + w, s.sp.no, (n, ec + 1)⟩, no := s.sp.no - 1,
              dist := d, preds := if c.buildPaths then g.mo.set s.sp.preds n st else s.sp.preds,
              labels := if c.buildPaths then g.lo.set s.sp.labels n l else s.sp.labels } := ⟨_, rfl⟩
          have hstep : spStep g (ibPure c) s.sp = .tau sp' := by
            simp [spStep, hpc, ibPure, ibInner, hinf, spImprove, himp, hsp]
            exact ⟨rfl, rfl⟩
          have hstep' : spStep g (ibInner c) s.sp = .tau sp' := by
            simp [spStep, hpc, ibInner, hinf, spImprove, himp, hsp]
            exact ⟨rfl, rfl⟩
          rw [hstep]
          simp only [ibStep, hpc, hstep']
          exact .tau ⟨rfl, h, E, rel.edgePush hs hl hd hpc hinf himp (by rw [hsp]) (by rw [hsp]) (by rw [hsp]) hstep, hT⟩


theorem ibStep_emit {s s1 : IbState V W M ML D Mo Do} {r : IbReport V W Mo Do} (h : ibStep g o c s = .emit r s1) :
    (∃ w ec, s1.sp.pc = .expand (r.vertex, 0) w ec) ∧ s1.preds = r.preds ∧ s1.dist = r.dist ∧
    r.dist = (if c.storeDistances then o.dd.set s.dist r.vertex r.distance else s.dist) := by
  unfold ibStep at h
  split at h
  · split at h <;> simp at h
  · rename_i hpc
    split at h <;> try simp at h
    rename_i r' sp' hst
    by_cases hz : r'.vertex.2 = 0
    · simp only [hz, if_true] at h
      split at h
      · simp at h
      · rename_i r2 hr2
        simp only [Step.emit.injEq] at h
        obtain ⟨rfl, rfl⟩ := h
        have hv : r2.vertex = r'.vertex.1 ∧
            r2.dist = (if c.storeDistances then o.dd.set s.dist r2.vertex r2.distance else s.dist) := by
          unfold ibReport at hr2
          simp only at hr2
          split at hr2
          · split at hr2
            · simp at hr2
            · simp only [Except.ok.injEq] at hr2; rw [← hr2]; exact ⟨rfl, rfl⟩
          · simp only [Except.ok.injEq] at hr2; rw [← hr2]; exact ⟨rfl, rfl⟩
        refine ⟨?_, rfl, rfl, hv.2⟩
        have hpc' : ∃ w ec, sp'.pc = .expand r'.vertex w ec := by
          unfold spStep at hst
          split at hst
          · split at hst
            · simp at hst
            · simp only at hst
              split at hst
              · simp at hst
              · split at hst
                · simp only [Step.emit.injEq] at hst
                  obtain ⟨rfl, rfl⟩ := hst
                  exact ⟨_, _, rfl⟩
                · simp at hst
          · simp at hst
          · simp at hst
          · simp only at hst
            split at hst
            · simp at hst
            · split at hst <;> simp at hst
        obtain ⟨w, ec, hpc'⟩ := hpc'
        refine ⟨w, ec, ?_⟩
        simp only [hpc', hv.1, ← hz]
    · simp [hz] at h

/-- The relation holds in all reachable states, and reported vertices have been taken from the heap. -/
theorem ib_reach (hs : SortedSeqs c.edges) (hl : SubLaws c.sub c.inf) (hd : g.dd.Lawful c.inf)
    (hst : c.buildPaths = true → ∃ validS validL validV, IbStorable g o c starts validS validL validV)
    {s0 s : IbState V W M ML D Mo Do} (h0 : ∃ h E, IbRel g o c starts h s0 E)
    {h : List (Ev (IbReport V W Mo Do))} (hr : Reaches (ibStep g o c) s0 h s) :
    ∃ h' E, IbRel g o c starts h' s E ∧ ∀ r ∈ repsOf h, (r.vertex, 0) ∈ E := by
  have key : ∃ h' E, IbRel g o c starts h' s E ∧ (repsOf h).map (fun r => (r.vertex, 0)) ⊆ E := by
    induction hr with
    | refl => obtain ⟨h', E, h1⟩ := h0; exact ⟨h', E, h1, by simp⟩
    | @tau h s s' hr e ih =>
      have := ib_sim hs hl hd hst ((repsOf h).map (fun r => (r.vertex, 0))) s s.sp ⟨rfl, ih⟩
      rw [e] at this
      generalize spStep g (ibPure c) s.sp = y at this
      cases this with
      | tau h => exact h.2
      | skip _ h => exact h.2
    | @emit h s r s' hr e ih =>
      have := ib_sim hs hl hd hst ((repsOf h).map (fun r => (r.vertex, 0))) s s.sp ⟨rfl, ih⟩
      rw [e] at this
      generalize spStep g (ibPure c) s.sp = y at this
      cases this with
      | emit _ _ h =>
        obtain ⟨h', E, h1, h2⟩ := h.2
        refine ⟨h', E, h1, ?_⟩
        obtain ⟨⟨w, ec, hpc⟩, -⟩ := ibStep_emit e
        have hp := h1.pc
        rw [hpc] at hp
        intro x hx
        simp only [repsOf_append, repsOf_rep, repsOf_nil, List.map_append, List.map_cons, List.map_nil,
          List.mem_append, List.mem_singleton] at hx
        rcases hx with hx | rfl
        · exact h2 hx
        · exact hp.1
    | @expand h s s' hr e ih =>
      have := ib_sim hs hl hd hst ((repsOf h).map (fun r => (r.vertex, 0))) s s.sp ⟨rfl, ih⟩
      rw [e] at this
      generalize spStep g (ibPure c) s.sp = y at this
      cases this with
      | expand h =>
        obtain ⟨h', E, h1, h2⟩ := h.2
        exact ⟨h', E, h1, by simpa using h2⟩
  obtain ⟨h', E, h1, h2⟩ := key
  exact ⟨h', E, h1, fun r hr => h2 (List.mem_map.2 ⟨r, hr, rfl⟩)⟩

end NoGraphs
