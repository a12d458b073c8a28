import Verif.Model.FloatGear
import Verif.Proofs.AStar
import Verif.Proofs.BiDijkstraSub

/-! Distances that are rounded when they are stored: simulation for numbers that are not changed by it. -/

set_option linter.unusedSectionVars false

namespace NoGraphs

open Spec

variable {V K L W M ML D : Type} [DecidableEq V] [DecidableEq K]

/-- Two distance mappings that do the same for numbers with `P`. -/
structure DistAgree (P : W → Prop) (o o' : DistOps D K W) : Prop where
  empty : o'.empty = o.empty
  get : o'.get = o.get
  set : ∀ m k w, P w → o'.set m k w = o.set m k w
  improve : ∀ m k w, P w → o'.improve m k w = o.improve m k w

theorem viaDist_agree [LinearOrder W] (st : W → W) (p : SeqParams W) (hp : st p.default = p.default) (pre : Nat) :
    DistAgree (fun w => st w = w) (seqDist p pre) (viaDist st p pre) where
  empty := by simp only [viaDist, seqDist, hp]
  get := rfl
  set m k w hw := by simp only [viaDist, seqDist, hp, hw]
  improve m k w hw := by
    simp only [viaDist, seqDist, hp, hw]
    cases seqGet m k <;> rfl

theorem DistAgree.setAll {P : W → Prop} {o o' : DistOps D K W} (h : DistAgree P o o') (m : D) (kvs : List (K × W))
    (hk : ∀ kv ∈ kvs, P kv.2) : o'.setAll m kvs = o.setAll m kvs := by
  induction kvs generalizing m with
  | nil => rfl
  | cons kv kvs ih =>
    simp only [DistOps.setAll, List.foldl_cons] at ih ⊢
    rw [h.set _ _ _ (hk _ (List.mem_cons_self ..))]
    exact ih _ (fun x hx => hk x (List.mem_cons_of_mem _ hx))

/-! ## Shortest paths -/

section sp
variable [Add W] [Zero W] [LinearOrder W] [WeightLaws W]
variable {g : WGear V K L W M ML D} {dd' : DistOps D K W} {c : WCfg V K L W} {starts : List V}

variable (c starts) in
/-- All weights in the state are weights of walks. -/
structure SpWalks (s : SpState V L W M ML D) : Prop where
  heap : ∀ e ∈ s.heap, WalkW c.next (· ∈ starts) e.key e.item.1
  exp : ∀ v w ec, s.pc = .expand v w ec → WalkW c.next (· ∈ starts) w v
  edges : ∀ v w ec es, s.pc = .edges v w ec es → WalkW c.next (· ∈ starts) w v ∧ ∀ e ∈ es, e ∈ c.next v

theorem spWalks_next {s s' : SpState V L W M ML D} (h : SpWalks c starts s) (hs : (spStep g c s).next? = some s') :
    SpWalks c starts s' := by
  unfold spStep at hs
  rcases hpc : s.pc with _ | ⟨v, w, ec⟩ | ⟨v, w, ec, _ | ⟨⟨n, x, l⟩, es⟩⟩ <;> simp only [hpc] at hs
  · rcases hh : s.heap with _ | ⟨e, rest⟩ <;> simp only [hh] at hs
    · simp [Step.next?] at hs
    · have h1 := h.heap
      rw [hh] at h1
      have hr : ∀ f ∈ rest, WalkW c.next (· ∈ starts) f.key f.item.1 := fun f hf => h1 f (List.mem_cons_of_mem _ hf)
      split at hs
      · simp only [Step.next?, Option.some.injEq] at hs
        subst hs
        exact ⟨hr, fun v w ec hp => by simp at hp, fun v w ec es hp => by simp at hp⟩
      · have he := h1 e (List.mem_cons_self ..)
        split at hs <;> simp only [Step.next?, Option.some.injEq] at hs <;> subst hs <;>
        · refine ⟨hr, fun v w ec hp => ?_, fun v w ec es hp => by simp at hp⟩
          simp only [SpPc.expand.injEq] at hp
          obtain ⟨rfl, rfl, -⟩ := hp
          exact he
  · simp only [Step.next?, Option.some.injEq] at hs
    subst hs
    refine ⟨h.heap, fun v w ec hp => by simp at hp, fun v' w' ec' es hp => ?_⟩
    simp only [SpPc.edges.injEq] at hp
    obtain ⟨rfl, rfl, -, rfl⟩ := hp
    exact ⟨h.exp _ _ _ hpc, fun e he => he⟩
  · simp only [Step.next?, Option.some.injEq] at hs
    subst hs
    exact ⟨h.heap, fun v w ec hp => by simp at hp, fun v w ec es hp => by simp at hp⟩
  · obtain ⟨h1, h2⟩ := h.edges _ _ _ _ hpc
    have hed : ∀ v' w' ec' es', SpPc.edges v w ec es = .edges v' w' ec' es' →
        WalkW c.next (· ∈ starts) w' v' ∧ ∀ e ∈ es', e ∈ c.next v' := by
      intro v' w' ec' es' hp
      simp only [SpPc.edges.injEq] at hp
      obtain ⟨rfl, rfl, -, rfl⟩ := hp
      exact ⟨h1, fun e he => h2 e (List.mem_cons_of_mem _ he)⟩
    split at hs
    · simp [Step.next?] at hs
    · split at hs <;> simp only [Step.next?, Option.some.injEq] at hs <;> subst hs
      · exact ⟨h.heap, fun v w ec hp => by simp at hp, hed⟩
      · refine ⟨fun e he => ?_, fun v w ec hp => by simp at hp, hed⟩
        rcases mem_heapPush.1 he with rfl | he
        · rw [WeightLaws.comm]
          exact .step h1 ⟨l, h2 _ (List.mem_cons_self ..)⟩
        · exact h.heap e he

theorem spWalks_init (hz : ∀ v ∈ starts, g.dd.get (spDistances g c none starts) (c.vid v) = 0) :
    SpWalks c starts (spInit g c none starts) := by
  refine ⟨fun e he => ?_, fun v w ec hp => by simp [spInit] at hp, fun v w ec es hp => by simp [spInit] at hp⟩
  have he := mem_heapify.1 he
  have key : ∀ (vs : List V) (no : Int), (∀ v ∈ vs, v ∈ starts) →
      ∀ e ∈ spStartEntries g c (spDistances g c none starts) vs no, WalkW c.next (· ∈ starts) e.key e.item.1 := by
    intro vs
    induction vs with
    | nil => intro _ _ e he; simp [spStartEntries] at he
    | cons v vs ih =>
      intro no hv e he
      rcases List.mem_cons.1 he with rfl | he
      · simp only
        rw [hz v (hv v (List.mem_cons_self ..))]
        exact .start (hv v (List.mem_cons_self ..))
      · exact ih _ (fun u hu => hv u (List.mem_cons_of_mem _ hu)) e he
  exact key starts 256 (fun _ h => h) e he

/-- If all weights of walks below infinity have `P`, the two mappings lead to the same traversal. -/
theorem spRun_agree {P : W → Prop} (hd : g.dd.Lawful c.inf) (ha : DistAgree P g.dd dd') (h0 : P 0)
    (hP : ∀ w v, WalkW c.next (· ∈ starts) w v → w < c.inf → P w) (limit : Option Int) (fuel : Nat) :
    spRun ⟨g.mo, g.lo, dd'⟩ c none starts limit fuel = spRun g c none starts limit fuel := by
  have hdist : spDistances ⟨g.mo, g.lo, dd'⟩ c none starts = spDistances g c none starts := by
    simp only [spDistances, ha.empty]
    exact ha.setAll _ _ (fun kv hkv => by obtain ⟨v, -, rfl⟩ := List.mem_map.1 hkv; exact h0)
  have hent : ∀ d (vs : List V) no, spStartEntries ⟨g.mo, g.lo, dd'⟩ c d vs no = spStartEntries g c d vs no := by
    intro d vs
    induction vs with
    | nil => intro _; rfl
    | cons v vs ih => intro no; simp only [spStartEntries, ih, ha.get]
  have hi : spInit ⟨g.mo, g.lo, dd'⟩ c none starts = spInit g c none starts := by
    simp only [spInit, hdist, hent]
  unfold spRun
  rw [hi]
  refine (run_congr (SpWalks c starts) ?_ (fun s s' => spWalks_next) fuel _ _ (spWalks_init ?_)).symm
  · intro s hs
    unfold spStep
    rcases hpc : s.pc with _ | ⟨v, w, ec⟩ | ⟨v, w, ec, _ | ⟨⟨n, x, l⟩, es⟩⟩ <;> simp only [ha.get]
    · simp only [ha.set _ _ _ h0]
    · by_cases hx : c.inf ≤ x + w
      · simp only [if_pos hx]
      · simp only [if_neg hx, spImprove]
        obtain ⟨h1, h2⟩ := hs.edges _ _ _ _ hpc
        have : P (x + w) := by
          refine hP _ n ?_ (not_le.1 hx)
          rw [WeightLaws.comm]
          exact .step h1 ⟨l, h2 _ (List.mem_cons_self ..)⟩
        rw [ha.improve _ _ _ this]
  · intro v hv
    rw [spDistances_none hd]
    exact spB_start v hv

end sp

/-! ## What holds with each rounding -/

/-- Reads give what storing has made of a number. -/
structure StoresVia [LinearOrder W] (st : W → W) (inf : W) (o : DistOps D K W) : Prop where
  get_empty : ∀ k, o.get o.empty k = inf
  get_set : ∀ m k w j, o.get (o.set m k w) j = if j = k then st w else o.get m j
  improve : ∀ m k w m', w < inf → o.improve m k w = some m' →
    w < o.get m k ∧ ∀ j, o.get m' j = if j = k then st w else o.get m j

theorem viaDist_stores [LinearOrder W] (st : W → W) (p : SeqParams W) (hp : st p.default = p.default) (ho : p.Ok) (pre : Nat) :
    StoresVia st p.default (viaDist st p pre) where
  get_empty k := by
    simp only [viaDist, hp]
    exact seqVal_replicate p pre k
  get_set m k w j := by
    simp only [viaDist, hp]
    exact setOrExtend_val p ho m k (st w) j
  improve m k w m' hw h := by
    simp only [viaDist, hp] at h ⊢
    cases hg : seqGet m k with
    | none =>
      rw [hg] at h
      simp only [Option.some.injEq] at h
      subst h
      exact ⟨hw, fun j => extendAndSet_val p ho m k (st w) j⟩
    | some v =>
      rw [hg] at h
      simp only at h
      split at h
      · simp at h
      · rename_i hv
        have hk : k < m.length := by
          unfold seqGet at hg
          exact (List.getElem?_eq_some_iff.1 hg).1
        rw [seqSet_some _ _ _ hk, Option.some.injEq] at h
        subst h
        exact ⟨not_le.1 hv, fun j => set_val p m k (st w) hk j⟩

section via
variable [Add W] [Zero W] [LinearOrder W] [WeightLaws W]
variable {g : WGear V K L W M ML D} {c : WCfg V K L W} {starts : List V} {st : W → W}

attribute [local instance] wAddCommMagma wAddZeroClass wAddRightMono wAddLeftMono

variable (c starts g) in
/-- The invariant: start vertices have distance zero, entries of other vertices have been reached over an edge, and weights
never decrease. -/
structure SpVia (h : List (Ev (SpReport V W M ML D))) (s : SpState V L W M ML D) : Prop where
  walks : SpWalks c starts s
  zero : ∀ v ∈ starts, g.dd.get s.dist (c.vid v) = 0
  other : ∀ e ∈ s.heap, 0 < e.item.2 → c.vid e.item.1 ∉ starts.map c.vid
  heap : s.heap.Pairwise HEntry.le
  exp : ∀ v w ec, s.pc = .expand v w ec → (∀ e ∈ s.heap, w ≤ e.key) ∧ ∀ r ∈ repsOf h, r.distance ≤ w
  edges : ∀ v w ec es, s.pc = .edges v w ec es → (∀ e ∈ s.heap, w ≤ e.key) ∧ ∀ r ∈ repsOf h, r.distance ≤ w
  reps : ∀ r ∈ repsOf h, WalkW c.next (· ∈ starts) r.distance r.vertex ∧ c.vid r.vertex ∉ starts.map c.vid
  done : ∀ r ∈ repsOf h, ∀ e ∈ s.heap, r.distance ≤ e.key
  sorted : ((repsOf h).map (·.distance)).Pairwise (· ≤ ·)

theorem sp_via_init (hv : StoresVia st c.inf g.dd) (h0 : st 0 = 0) : SpVia g c starts [] (spInit g c none starts) := by
  have hz : ∀ v ∈ starts, g.dd.get (spDistances g c none starts) (c.vid v) = 0 := by
    have key : ∀ (vs : List V) (m : D) (k : K), g.dd.get (g.dd.setAll m (vs.map (fun v => (c.vid v, 0)))) k =
        if k ∈ vs.map c.vid then 0 else g.dd.get m k := by
      intro vs
      induction vs with
      | nil => intro m k; simp [DistOps.setAll]
      | cons v vs ih =>
        intro m k
        have := ih (g.dd.set m (c.vid v) 0) k
        simp only [DistOps.setAll, List.map_cons, List.foldl_cons] at this ⊢
        rw [this]
        simp only [List.mem_cons, hv.get_set, h0]
        by_cases h1 : k ∈ vs.map c.vid <;> by_cases h2 : k = c.vid v <;> simp [h1, h2]
    intro v hv'
    simp only [spDistances]
    rw [key, if_pos (List.mem_map.2 ⟨v, hv', rfl⟩)]
  refine ⟨spWalks_init hz, hz, fun e he hpos => ?_, heapify_sorted _, fun v w ec hp => by simp [spInit] at hp,
    fun v w ec es hp => by simp [spInit] at hp, fun r hr => by simp [repsOf] at hr, fun r hr => by simp [repsOf] at hr,
    by simp [repsOf]⟩
  have he := mem_heapify.1 he
  have key : ∀ (d : D) (vs : List V) (no : Int), ∀ e ∈ spStartEntries g c d vs no, e.item.2 = 0 := by
    intro d vs
    induction vs with
    | nil => intro _ e he; simp [spStartEntries] at he
    | cons v vs ih =>
      intro no e he
      rcases List.mem_cons.1 he with rfl | he
      · rfl
      · exact ih _ e he
  rw [key _ _ _ e he] at hpos
  exact absurd hpos (lt_irrefl _)

theorem sp_via_step (ht : c.isTree = false) (hv : StoresVia st c.inf g.dd) (h0 : st 0 = 0) (hn : NonNeg c.next)
    {h : List (Ev (SpReport V W M ML D))} {s : SpState V L W M ML D} (inv : SpVia g c starts h s) :
    match spStep g c s with
    | .tau s' => SpVia g c starts h s'
    | .emit r s' => SpVia g c starts (h ++ [.rep r]) s'
    | .expand s' => SpVia g c starts (h ++ [.exp]) s'
    | _ => True := by
  have hw : ∀ s', (spStep g c s).next? = some s' → SpWalks c starts s' := fun s' => spWalks_next inv.walks
  revert hw
  apply spStep_cases (P := fun st => (∀ s', st.next? = some s' → SpWalks c starts s') → match (motive := Step _ _ → Prop) st with
    | .tau s' => SpVia g c starts h s'
    | .emit r s' => SpVia g c starts (h ++ [.rep r]) s'
    | .expand s' => SpVia g c starts (h ++ [.exp]) s'
    | _ => True) ht s
  · intro _ _ _; trivial
  · intro e rest hpc hh _ hw
    have hsub : ∀ f ∈ rest, f ∈ s.heap := fun f hf => by rw [hh]; exact List.mem_cons_of_mem _ hf
    have hp := inv.heap
    rw [hh] at hp
    exact ⟨hw _ rfl, inv.zero, fun f hf => inv.other f (hsub f hf), (List.pairwise_cons.1 hp).2,
      fun v w ec hp => by simp [hpc] at hp, fun v w ec es hp => by simp [hpc] at hp, inv.reps,
      fun r hr f hf => inv.done r hr f (hsub f hf), inv.sorted⟩
  · intro e rest d hpc hh _ hd
    have hsub : ∀ f ∈ rest, f ∈ s.heap := fun f hf => by rw [hh]; exact List.mem_cons_of_mem _ hf
    have hmem : e ∈ s.heap := by rw [hh]; exact List.mem_cons_self
    have hp := inv.heap
    rw [hh] at hp
    obtain ⟨hp1, hp2⟩ := List.pairwise_cons.1 hp
    have hz : ∀ v ∈ starts, g.dd.get d (c.vid v) = 0 := by
      intro v hs
      rw [hd]
      split
      · rw [hv.get_set, h0]
        split
        · rfl
        · exact inv.zero v hs
      · exact inv.zero v hs
    refine ⟨fun hpos hw => ?_, fun hzero hw => ?_⟩
    · have hex : (∀ f ∈ rest, e.key ≤ f.key) ∧ ∀ r ∈ repsOf h ++ [⟨e.item.1, e.key, e.item.2, d, s.preds, s.labels⟩], r.distance ≤ e.key := by
        refine ⟨fun f hf => (hp1 f hf).key_le, fun r hr => ?_⟩
        rcases List.mem_append.1 hr with hr | hr
        · exact inv.done r hr e hmem
        · rw [List.mem_singleton.1 hr]
      have hreps : repsOf (h ++ [.rep (⟨e.item.1, e.key, e.item.2, d, s.preds, s.labels⟩ : SpReport V W M ML D)]) =
          repsOf h ++ [⟨e.item.1, e.key, e.item.2, d, s.preds, s.labels⟩] := by simp [repsOf]
      refine ⟨hw _ rfl, hz, fun f hf => inv.other f (hsub f hf), hp2, ?_, fun v w ec es hp => by simp at hp, ?_, ?_, ?_⟩
      · intro v w ec hp
        simp only [SpPc.expand.injEq] at hp
        obtain ⟨-, rfl, -⟩ := hp
        rw [hreps]
        exact hex
      · intro r hr
        rw [hreps] at hr
        rcases List.mem_append.1 hr with hr | hr
        · exact inv.reps r hr
        · rw [List.mem_singleton.1 hr]
          exact ⟨inv.walks.heap e hmem, inv.other e hmem hpos⟩
      · intro r hr f hf
        rw [hreps] at hr
        exact (hex.2 r hr).trans (hex.1 f hf)
      · rw [hreps, List.map_append, List.pairwise_append]
        refine ⟨inv.sorted, by simp, fun a ha b hb => ?_⟩
        obtain ⟨r, hr, rfl⟩ := List.mem_map.1 ha
        simp only [List.map_cons, List.map_nil, List.mem_singleton] at hb
        subst hb
        exact inv.done r hr e hmem
    · refine ⟨hw _ rfl, hz, fun f hf => inv.other f (hsub f hf), hp2, ?_, fun v w ec es hp => by simp at hp, inv.reps,
        fun r hr f hf => inv.done r hr f (hsub f hf), inv.sorted⟩
      intro v w ec hp
      simp only [SpPc.expand.injEq] at hp
      obtain ⟨-, rfl, -⟩ := hp
      exact ⟨fun f hf => (hp1 f hf).key_le, fun r hr => inv.done r hr e hmem⟩
  · intro v w ec hpc hw
    have hreps : repsOf (h ++ [.exp]) = repsOf h := by simp [repsOf]
    refine ⟨hw _ rfl, inv.zero, inv.other, inv.heap, fun v w ec hp => by simp at hp, ?_, ?_, ?_, ?_⟩ <;> rw [hreps]
    · intro v' w' ec' es hp
      simp only [SpPc.edges.injEq] at hp
      obtain ⟨-, rfl, -, -⟩ := hp
      exact inv.exp _ _ _ hpc
    · exact inv.reps
    · exact inv.done
    · exact inv.sorted
  · intro v w ec hpc hw
    exact ⟨hw _ rfl, inv.zero, inv.other, inv.heap, fun v w ec hp => by simp at hp, fun v w ec es hp => by simp at hp,
      inv.reps, inv.done, inv.sorted⟩
  · intro v w ec n x l es hpc _ _; trivial
  · intro v w ec n x l es hpc _ _ hw
    refine ⟨hw _ rfl, inv.zero, inv.other, inv.heap, fun v w ec hp => by simp at hp, ?_, inv.reps, inv.done, inv.sorted⟩
    intro v' w' ec' es' hp
    simp only [SpPc.edges.injEq] at hp
    obtain ⟨-, rfl, -, -⟩ := hp
    exact inv.edges _ _ _ _ hpc
  · intro v w ec n x l es d hpc hlt himp hw
    obtain ⟨h1, h2⟩ := inv.walks.edges _ _ _ _ hpc
    obtain ⟨h3, h4⟩ := inv.edges _ _ _ _ hpc
    obtain ⟨h5, h6⟩ := hv.improve _ _ _ _ (not_le.1 hlt) himp
    have hx : 0 ≤ x := hn v n x ⟨l, h2 _ List.mem_cons_self⟩
    have hxw : w ≤ x + w := le_add_of_nonneg_left hx
    have hpos : 0 ≤ x + w := (h1.nonneg hn).trans hxw
    have hnot : c.vid n ∉ starts.map c.vid := by
      intro hm
      obtain ⟨t, ht', hte⟩ := List.mem_map.1 hm
      rw [← hte, inv.zero t ht'] at h5
      exact absurd hpos (not_le.2 h5)
    have hle : ∀ e ∈ heapPush s.heap ⟨x + w, s.no, (n, ec + 1)⟩, w ≤ e.key := by
      intro e he
      rcases mem_heapPush.1 he with rfl | he
      · exact hxw
      · exact h3 e he
    refine ⟨hw _ rfl, ?_, ?_, heapPush_sorted _ inv.heap, fun v w ec hp => by simp at hp, ?_, inv.reps,
      fun r hr e he => (h4 r hr).trans (hle e he), inv.sorted⟩
    · intro t ht'
      rw [h6, if_neg]
      · exact inv.zero t ht'
      · intro he
        exact hnot (he ▸ List.mem_map.2 ⟨t, ht', rfl⟩)
    · intro e he hpos'
      rcases mem_heapPush.1 he with rfl | he
      · exact hnot
      · exact inv.other e he hpos'
    · intro v' w' ec' es' hp
      simp only [SpPc.edges.injEq] at hp
      obtain ⟨-, rfl, -, -⟩ := hp
      exact ⟨hle, h4⟩

theorem sp_via_inv (ht : c.isTree = false) (hv : StoresVia st c.inf g.dd) (h0 : st 0 = 0) (hn : NonNeg c.next)
    {h : List (Ev (SpReport V W M ML D))} {s : SpState V L W M ML D}
    (hr : Reaches (spStep g c) (spInit g c none starts) h s) : SpVia g c starts h s := by
  refine hr.invariant (SpVia g c starts) (sp_via_init hv h0) ?_ ?_ ?_
  · intro h s s' inv he
    have := sp_via_step ht hv h0 hn inv
    rw [he] at this
    exact this
  · intro h s r s' inv he
    have := sp_via_step ht hv h0 hn inv
    rw [he] at this
    exact this
  · intro h s s' inv he
    have := sp_via_step ht hv h0 hn inv
    rw [he] at this
    exact this

end via

/-! ## Bidirectional search -/

section bd
variable [AddCommMonoid W] [LinearOrder W] [IsOrderedAddMonoid W]
variable {g : WGear V K L W M ML D} {dd' : DistOps D K W} {c : BdCfg V K L W} {starts goals : List V}

variable (c starts goals) in
/-- All weights in the state are weights of walks. -/
structure BdWalks (s : BdState V L W M ML D) : Prop where
  heap : ∀ b, ∀ e ∈ (s.get b).heap, WalkW (c.next b) (· ∈ biEnds starts goals b) e.key e.item
  edges : ∀ v w es, s.pc = .edges v w es →
    WalkW (c.next s.back) (· ∈ biEnds starts goals s.back) w v ∧ ∀ e ∈ es, e ∈ c.next s.back v

theorem bdWalks_setCur {s : BdState V L W M ML D}
    (h : ∀ b, ∀ e ∈ (s.get b).heap, WalkW (c.next b) (· ∈ biEnds starts goals b) e.key e.item) {x : BdSide V W M ML D}
    (hx : ∀ e ∈ x.heap, WalkW (c.next s.back) (· ∈ biEnds starts goals s.back) e.key e.item) :
    ∀ b, ∀ e ∈ ((s.setCur x).get b).heap, WalkW (c.next b) (· ∈ biEnds starts goals b) e.key e.item := by
  refine bool_cases s.back ?_ ?_
  · rw [BdState.get_setCur_same]; exact hx
  · rw [BdState.get_setCur_other]; exact h _

theorem bdWalks_next {s s' : BdState V L W M ML D} (h : BdWalks c starts goals s) (hs : (bdStep g c s).next? = some s') :
    BdWalks c starts goals s' := by
  obtain ⟨h1, h2⟩ := h
  unfold bdStep at hs
  simp only at hs
  split at hs
  · rename_i hp
    split at hs
    · simp [Step.next?] at hs
    · rename_i e rest hh
      have hall := h1 s.back
      rw [hh] at hall
      have hrest : ∀ x : BdSide V W M ML D, x.heap = rest → ∀ e ∈ x.heap,
          WalkW (c.next s.back) (· ∈ biEnds starts goals s.back) e.key e.item := by
        intro x hx e' he'
        rw [hx] at he'
        exact hall e' (List.mem_cons_of_mem _ he')
      have hpc : ∀ x : BdSide V W M ML D, (s.setCur x).pc = s.pc := fun x => (s.setCur_fields x).2.2.2.2
      split at hs
      · simp only [Step.next?, Option.some.injEq] at hs
        subst hs
        refine ⟨bdWalks_setCur h1 (hrest _ rfl), ?_⟩
        intro v w es he
        simp only [hpc, hp] at he
        simp at he
      · split at hs
        · simp [Step.next?] at hs
        · split at hs
          · simp [Step.next?] at hs
          · simp only [Step.next?, Option.some.injEq] at hs
            subst hs
            refine ⟨bdWalks_setCur h1 (hrest _ rfl), ?_⟩
            intro v w es he
            simp only [BdPc.edges.injEq] at he
            obtain ⟨rfl, rfl, rfl⟩ := he
            simp only [BdState.setCur_back]
            exact ⟨hall e List.mem_cons_self, fun _ h => h⟩
  · simp only [Step.next?, Option.some.injEq] at hs
    subst hs
    exact ⟨h1, fun v w es he => by simp at he⟩
  · rename_i v x n y l es hpc
    obtain ⟨h3, h4⟩ := h2 _ _ _ hpc
    have hed : ∀ v' w' es', BdPc.edges v x es = .edges v' w' es' →
        WalkW (c.next s.back) (· ∈ biEnds starts goals s.back) w' v' ∧ ∀ e ∈ es', e ∈ c.next s.back v' := by
      intro v' w' es' he
      simp only [BdPc.edges.injEq] at he
      obtain ⟨rfl, rfl, rfl⟩ := he
      exact ⟨h3, fun e he => h4 e (List.mem_cons_of_mem _ he)⟩
    split at hs
    · simp [Step.next?] at hs
    · split at hs
      · simp only [Step.next?, Option.some.injEq] at hs
        subst hs
        exact ⟨h1, hed⟩
      · have hpush : ∀ z : BdSide V W M ML D, ∀ j, z.heap = heapPush (s.get s.back).heap ⟨y + x, j, n⟩ →
            ∀ e ∈ z.heap, WalkW (c.next s.back) (· ∈ biEnds starts goals s.back) e.key e.item := by
          intro z j hz e he
          rw [hz] at he
          rcases mem_heapPush.1 he with rfl | he
          · simp only
            rw [add_comm]
            exact .step h3 ⟨l, h4 _ List.mem_cons_self⟩
          · exact h1 _ e he
        split at hs
        · simp only [Step.next?, Option.some.injEq] at hs
          subst hs
          refine ⟨bdWalks_setCur h1 (hpush _ _ rfl), ?_⟩
          simp only [BdState.setCur_back]
          exact hed
        · simp only [Step.next?, Option.some.injEq] at hs
          subst hs
          refine ⟨bdWalks_setCur h1 (hpush _ _ rfl), ?_⟩
          simp only [BdState.setCur_back]
          exact hed

theorem bdDistances_start (hd : g.dd.Lawful c.inf) {vs : List V} : ∀ v ∈ vs, g.dd.get (bdDistances g c vs) (c.vid v) = 0 := by
  intro v hv
  unfold bdDistances
  rw [hd.get_setAll_const, if_pos (List.mem_map.2 ⟨v, hv, rfl⟩)]

theorem bdWalks_init (hd : g.dd.Lawful c.inf) (start : V) (limit : Option Int) :
    BdWalks c starts goals (bdInit g c start starts goals limit) := by
  have key : ∀ b (ends vs : List V) (no : Int), (∀ v ∈ vs, v ∈ ends) →
      ∀ e ∈ bdStartEntries g c (bdDistances g c ends) vs no, WalkW (c.next b) (· ∈ ends) e.key e.item := by
    intro b ends vs
    induction vs with
    | nil => intro _ _ e he; simp [bdStartEntries] at he
    | cons v vs ih =>
      intro no hv e he
      rcases List.mem_cons.1 he with rfl | he
      · simp only
        rw [bdDistances_start hd v (hv v List.mem_cons_self)]
        exact .start (hv v List.mem_cons_self)
      · exact ih _ (fun u hu => hv u (List.mem_cons_of_mem _ hu)) e he
  refine ⟨fun b e he => ?_, fun v w es hp => by simp [bdInit] at hp⟩
  cases b
  · exact key false starts starts 256 (fun _ h => h) e (mem_heapify.1 he)
  · exact key true goals goals 256 (fun _ h => h) e (mem_heapify.1 he)

/-- If all weights of walks below infinity have `P`, the two mappings lead to the same search. -/
theorem bdSearch_agree {P : W → Prop} (hd : g.dd.Lawful c.inf) (ha : DistAgree P g.dd dd') (h0 : P 0)
    (hP : ∀ b w v, WalkW (c.next b) (· ∈ biEnds starts goals b) w v → w < c.inf → P w) (limit : Option Int)
    (fuel pathFuel : Nat) :
    bdSearch ⟨g.mo, g.lo, dd'⟩ c starts goals limit fuel pathFuel = bdSearch g c starts goals limit fuel pathFuel := by
  have hdist : ∀ vs, bdDistances ⟨g.mo, g.lo, dd'⟩ c vs = bdDistances g c vs := by
    intro vs
    simp only [bdDistances, ha.empty]
    exact ha.setAll _ _ (fun kv hkv => by obtain ⟨v, -, rfl⟩ := List.mem_map.1 hkv; exact h0)
  have hent : ∀ d (vs : List V) no, bdStartEntries ⟨g.mo, g.lo, dd'⟩ c d vs no = bdStartEntries g c d vs no := by
    intro d vs
    induction vs with
    | nil => intro _; rfl
    | cons v vs ih => intro no; simp only [bdStartEntries, ih, ha.get]
  have hi : ∀ start, bdInit ⟨g.mo, g.lo, dd'⟩ c start starts goals limit = bdInit g c start starts goals limit := by
    intro start
    simp only [bdInit, bdInitSide, hdist, hent]
  have hr : ∀ start, runMachine (bdStep ⟨g.mo, g.lo, dd'⟩ c) fuel none (bdInit ⟨g.mo, g.lo, dd'⟩ c start starts goals limit) =
      runMachine (bdStep g c) fuel none (bdInit g c start starts goals limit) := by
    intro start
    rw [hi]
    refine (run_congr (BdWalks c starts goals) ?_ (fun s s' => bdWalks_next) fuel _ _ (bdWalks_init hd start limit)).symm
    intro s hs
    unfold bdStep
    rcases hpc : s.pc with _ | ⟨v, w, _ | ⟨⟨n, x, l⟩, es⟩⟩ <;> simp only [ha.get]
    · by_cases hx : c.inf ≤ x + w
      · simp only [if_pos hx]
      · simp only [if_neg hx]
        obtain ⟨h1, h2⟩ := hs.edges _ _ _ hpc
        have : P (x + w) := by
          refine hP s.back _ n ?_ (not_le.1 hx)
          rw [add_comm]
          exact .step h1 ⟨l, h2 _ List.mem_cons_self⟩
        rw [ha.improve _ _ _ this]
  unfold bdSearch
  simp only [hr]
  rfl

end bd

/-! ## A* -/

section astar
variable [AddCommMonoid W] [LinearOrder W] [IsOrderedAddMonoid W]
variable {g : WGear V K L W M ML D} {dd' : DistOps D K W} {c : AStarCfg V K L W} {starts : List V}

variable (c starts) in
/-- A walk to a vertex with the id. -/
def WalkId (k : K) (w : W) : Prop := ∃ v, c.vid v = k ∧ WalkW c.next (· ∈ starts) w v

variable (g c starts) in
/-- All weights in the state are weights of walks. -/
structure AWalks (s : AStarState V L W M ML D) : Prop where
  heap : ∀ e ∈ s.heap, WalkId c starts (c.vid e.item.1) (g.dd.get s.dist (c.vid e.item.1))
  exp : ∀ v w ec, s.pc = .expand v w ec → WalkId c starts (c.vid v) w
  edges : ∀ v w ec es, s.pc = .edges v w ec es → WalkId c starts (c.vid v) w ∧ ∀ e ∈ es, e ∈ c.next v

theorem walkId_edge (hc : WCompat c.next c.vid) {v n : V} {w x : W} {l : L} (h : WalkId c starts (c.vid v) w)
    (he : (n, x, l) ∈ c.next v) : WalkId c starts (c.vid n) (x + w) := by
  obtain ⟨v', h1, h2⟩ := h
  obtain ⟨n', h3, h4⟩ := hc v v' n x h1.symm ⟨l, he⟩
  exact ⟨n', h4, by rw [add_comm]; exact .step h2 h3⟩

theorem aImprove_get (hd : g.dd.Lawful c.inf) {d d' : D} {k : K} {w : W} (hw : w < c.inf)
    (h : aImprove g c d k w = some d') (j : K) :
    g.dd.get d' j = if j = k then w else g.dd.get d j := by
  unfold aImprove at h
  split at h
  · simp only [Option.some.injEq] at h
    subst h
    exact hd.get_set ..
  · exact hd.improve_some _ _ _ _ hw h j

theorem aWalks_next (hd : g.dd.Lawful c.inf) (hc : WCompat c.next c.vid) {s s' : AStarState V L W M ML D}
    (h : AWalks g c starts s) (hs : (aStep g c s).next? = some s') : AWalks g c starts s' := by
  unfold aStep at hs
  rcases hpc : s.pc with _ | ⟨v, w, ec⟩ | ⟨v, w, ec, _ | ⟨⟨n, x, l⟩, es⟩⟩ <;> simp only [hpc] at hs
  · rcases hh : s.heap with _ | ⟨e, rest⟩ <;> simp only [hh] at hs
    · simp [Step.next?] at hs
    · have h1 := h.heap
      rw [hh] at h1
      have hr : ∀ f ∈ rest, WalkId c starts (c.vid f.item.1) (g.dd.get s.dist (c.vid f.item.1)) :=
        fun f hf => h1 f (List.mem_cons_of_mem _ hf)
      split at hs
      · simp only [Step.next?, Option.some.injEq] at hs
        subst hs
        exact ⟨hr, fun v w ec hp => by simp at hp, fun v w ec es hp => by simp at hp⟩
      · have he := h1 e List.mem_cons_self
        split at hs <;> simp only [Step.next?, Option.some.injEq] at hs <;> subst hs <;>
        · refine ⟨hr, fun v w ec hp => ?_, fun v w ec es hp => by simp at hp⟩
          simp only [SpPc.expand.injEq] at hp
          obtain ⟨rfl, rfl, -⟩ := hp
          exact he
  · simp only [Step.next?, Option.some.injEq] at hs
    subst hs
    refine ⟨h.heap, fun v w ec hp => by simp at hp, fun v' w' ec' es hp => ?_⟩
    simp only [SpPc.edges.injEq] at hp
    obtain ⟨rfl, rfl, -, rfl⟩ := hp
    exact ⟨h.exp _ _ _ hpc, fun e he => he⟩
  · simp only [Step.next?, Option.some.injEq] at hs
    subst hs
    exact ⟨h.heap, fun v w ec hp => by simp at hp, fun v w ec es hp => by simp at hp⟩
  · obtain ⟨h1, h2⟩ := h.edges _ _ _ _ hpc
    have hed : ∀ v' w' ec' es', SpPc.edges v w ec es = .edges v' w' ec' es' →
        WalkId c starts (c.vid v') w' ∧ ∀ e ∈ es', e ∈ c.next v' := by
      intro v' w' ec' es' hp
      simp only [SpPc.edges.injEq] at hp
      obtain ⟨rfl, rfl, -, rfl⟩ := hp
      exact ⟨h1, fun e he => h2 e (List.mem_cons_of_mem _ he)⟩
    split at hs
    · simp [Step.next?] at hs
    · rename_i hlt
      split at hs
      · simp only [Step.next?, Option.some.injEq] at hs
        subst hs
        exact ⟨h.heap, fun v w ec hp => by simp at hp, hed⟩
      · rename_i d hdd
        split at hs
        · simp [Step.next?] at hs
        · simp only [Step.next?, Option.some.injEq] at hs
          subst hs
          have hnew := walkId_edge hc h1 (h2 _ List.mem_cons_self)
          refine ⟨fun e he => ?_, fun v w ec hp => by simp at hp, hed⟩
          simp only [aImprove_get hd (not_le.1 hlt) hdd]
          by_cases hk : c.vid e.item.1 = c.vid n
          · rw [if_pos hk, hk]; exact hnew
          · rw [if_neg hk]
            rcases mem_heapPush.1 he with rfl | he
            · exact absurd rfl hk
            · exact h.heap e he

theorem aDistances_start (hd : g.dd.Lawful c.inf) : ∀ v ∈ starts, g.dd.get (aDistances g c none starts) (c.vid v) = 0 := by
  intro v hv
  simp only [aDistances]
  rw [hd.get_setAll_const, if_pos (List.mem_map.2 ⟨v, hv, rfl⟩)]

theorem aWalks_init (hd : g.dd.Lawful c.inf) : AWalks g c starts (aInit g c none none starts) := by
  refine ⟨fun e he => ?_, fun v w ec hp => by simp [aInit] at hp, fun v w ec es hp => by simp [aInit] at hp⟩
  have he := mem_heapify.1 he
  have key : ∀ gu (vs : List V) (no : Int), ∀ e ∈ aStartEntries g c gu vs no, e.item.1 ∈ vs := by
    intro gu vs
    induction vs with
    | nil => intro _ e he; simp [aStartEntries] at he
    | cons v vs ih =>
      intro no e he
      rcases List.mem_cons.1 he with rfl | he
      · exact List.mem_cons_self
      · exact List.mem_cons_of_mem _ (ih _ e he)
  have hs := key _ _ _ e he
  refine ⟨e.item.1, rfl, ?_⟩
  have : (aInit g c none none starts).dist = aDistances g c none starts := rfl
  rw [this, aDistances_start hd _ hs]
  exact .start hs

/-- If all weights of walks below infinity and all estimates of path lengths below infinity have `P`, the two mappings lead to the
same traversal. -/
theorem aRun_agree {P : W → Prop} (hd : g.dd.Lawful c.inf) (hc : WCompat c.next c.vid) (hh : HeurCompat c.heur c.vid)
    (ha : DistAgree P g.dd dd') (h0 : P 0) (hi : P c.inf)
    (hP : ∀ w v, WalkW c.next (· ∈ starts) w v → w < c.inf → P w)
    (hG : ∀ w v, WalkW c.next (· ∈ starts) w v → w + c.heur v < c.inf → P (w + c.heur v))
    (hle : ∀ v ∈ starts, c.heur v ≤ c.inf) (limit : Option Int) (fuel : Nat) :
    aRun ⟨g.mo, g.lo, dd'⟩ c none none starts limit fuel = aRun g c none none starts limit fuel := by
  have hdist : aDistances ⟨g.mo, g.lo, dd'⟩ c none starts = aDistances g c none starts := by
    simp only [aDistances, ha.empty]
    exact ha.setAll _ _ (fun kv hkv => by obtain ⟨v, -, rfl⟩ := List.mem_map.1 hkv; exact h0)
  have hgu : aGuesses ⟨g.mo, g.lo, dd'⟩ c none (aDistances g c none starts) starts =
      aGuesses g c none (aDistances g c none starts) starts := by
    simp only [aGuesses, ha.empty, ha.get]
    refine ha.setAll _ _ (fun kv hkv => ?_)
    obtain ⟨v, hv, rfl⟩ := List.mem_map.1 hkv
    simp only [aDistances_start hd v hv]
    rcases lt_or_eq_of_le (hle v hv) with h | h
    · exact hG 0 v (.start hv) (by rw [zero_add]; exact h)
    · rw [zero_add, h]; exact hi
  have hent : ∀ d (vs : List V) no, aStartEntries ⟨g.mo, g.lo, dd'⟩ c d vs no = aStartEntries g c d vs no := by
    intro d vs
    induction vs with
    | nil => intro _; rfl
    | cons v vs ih => intro no; simp only [aStartEntries, ih, ha.get]
  have hi' : aInit ⟨g.mo, g.lo, dd'⟩ c none none starts = aInit g c none none starts := by
    simp only [aInit, hdist, hgu, hent]
  unfold aRun
  rw [hi']
  refine (run_congr (AWalks g c starts) ?_ (fun s s' => aWalks_next hd hc) fuel _ _ (aWalks_init hd)).symm
  intro s hs
  unfold aStep
  rcases hpc : s.pc with _ | ⟨v, w, ec⟩ | ⟨v, w, ec, _ | ⟨⟨n, x, l⟩, es⟩⟩ <;> simp only [ha.get]
  · by_cases hx : c.inf ≤ x + w
    · simp only [if_pos hx]
    · simp only [if_neg hx]
      obtain ⟨h1, h2⟩ := hs.edges _ _ _ _ hpc
      obtain ⟨n', h3, h4⟩ := walkId_edge hc h1 (h2 _ List.mem_cons_self)
      have hp : P (x + w) := hP _ n' h4 (not_le.1 hx)
      have him : aImprove ⟨g.mo, g.lo, dd'⟩ c s.dist (c.vid n) (x + w) = aImprove g c s.dist (c.vid n) (x + w) := by
        simp only [aImprove, ha.improve _ _ _ hp, ha.set _ _ _ hp]
      rw [him]
      cases aImprove g c s.dist (c.vid n) (x + w) with
      | none => rfl
      | some d =>
        simp only
        by_cases hov : c.heur n ≠ c.inf ∧ c.inf ≤ aGuess c.inf (x + w) (c.heur n)
        · simp only [if_pos hov]
        · simp only [if_neg hov]
          have hg : P (aGuess c.inf (x + w) (c.heur n)) := by
            unfold aGuess at hov ⊢
            by_cases hn : c.heur n = c.inf
            · rw [if_pos hn]; exact hi
            · rw [if_neg hn] at hov ⊢
              rw [← hh _ _ h3] at hn hov ⊢
              exact hG _ n' h4 (not_le.1 fun h => hov ⟨hn, h⟩)
          rw [ha.set _ _ _ hg]

end astar
end NoGraphs
