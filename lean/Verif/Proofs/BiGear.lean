import Verif.Proofs.BfsGear
import Verif.Proofs.SpSim
import Verif.Proofs.BiBfsEnd
import Verif.Props.BiBfs
import Verif.Props.BiDijkstra

/-! # The bidirectional searches with different gears -/

set_option linter.unusedSectionVars false

namespace NoGraphs

open Spec

section machine

variable {σ σ' ρ ρ' : Type}

/-- Lockstep simulation, where only reachable states have to be considered. -/
theorem run_sim_reach {m : σ → Step σ ρ} {m' : σ' → Step σ' ρ'} (R F : σ → σ' → Prop) (Q : ρ → ρ' → Prop) (s0 : σ)
    (hsim : ∀ h s s', Reaches m s0 h s → R s s' → StepRel R F Q (m s) (m' s')) (fuel : Nat) (lim : Option Int) (s0' : σ')
    (h0 : R s0 s0') :
    (runMachine m fuel lim s0).ending = (runMachine m' fuel lim s0').ending ∧
    ((runMachine m fuel lim s0).ending = .done →
      F (runMachine m fuel lim s0).final (runMachine m' fuel lim s0').final) := by
  refine (run_sim (fun s s' => (∃ h, Reaches m s0 h s) ∧ R s s') F Q ?_ fuel lim s0 s0' ⟨⟨_, .refl⟩, h0⟩).2
  rintro s s' ⟨⟨h, hr⟩, hR⟩
  have hs := hsim h s s' hr hR
  generalize hx : m s = x at hs
  generalize m' s' = y at hs
  cases hs with
  | stop q => exact .stop q
  | fail => exact .fail
  | tau q => exact .tau ⟨⟨_, .tau hr hx⟩, q⟩
  | emit q1 q => exact .emit q1 ⟨⟨_, .emit hr hx⟩, q⟩
  | expand q => exact .expand ⟨⟨_, .expand hr hx⟩, q⟩

end machine

variable {V K L : Type} [DecidableEq V] [DecidableEq K]

/-- Path containers with the same content give the same path, if paths are stored. -/
theorem fromBidirectional_same {M ML M' ML' : Type} {mo : MapOps M K V} {lo : MapOps ML K L} {mo' : MapOps M' K V}
    {lo' : MapOps ML' K L} {validV validV' : V → Prop} {validL validL' : L → Prop}
    (hm : mo.Lawful validV) (hl : lo.Lawful validL) (hm' : mo'.Lawful validV') (hl' : lo'.Lawful validL') {vid : V → K}
    {v : V} {f b : SPath V L} {pF pB : M} {lF lB : ML} {pF' pB' : M'} {lF' lB' : ML'}
    (e1 : ∀ k, mo.get? pF k = mo'.get? pF' k) (e2 : ∀ k, mo.get? pB k = mo'.get? pB' k)
    (e3 : ∀ k, lo.get? lF k = lo'.get? lF' k) (e4 : ∀ k, lo.get? lB k = lo'.get? lB' k)
    (hf : StoredPath (mo.get? pF) (lo.get? lF) vid v f) (hb : StoredPath (mo.get? pB) (lo.get? lB) vid v b) (fuel : Nat)
    (hff : f.steps.length < fuel) (hfb : b.steps.length < fuel) :
    PathObj.fromBidirectionalSearch (pathsView mo lo vid pF lF) (pathsView mo lo vid pB lB) fuel v =
    PathObj.fromBidirectionalSearch (pathsView mo' lo' vid pF' lF') (pathsView mo' lo' vid pB' lB') fuel v := by
  have hf' : StoredPath (mo'.get? pF') (lo'.get? lF') vid v f := by rw [← funext e1, ← funext e3]; exact hf
  have hb' : StoredPath (mo'.get? pB') (lo'.get? lB') vid v b := by rw [← funext e2, ← funext e4]; exact hb
  have a1 := (hf.shows hm hl).2 fuel hff
  have a2 := (hf'.shows hm' hl').2 fuel hff
  have b1 := (hb.shows hm hl).2 fuel hfb
  have b2 := (hb'.shows hm' hl').2 fuel hfb
  unfold PathObj.fromBidirectionalSearch
  rw [a1.1, a1.2.1, a1.2.2.2.2.1, a1.2.2.2.2.2, a2.1, a2.2.1, a2.2.2.2.2.1, a2.2.2.2.2.2,
    b1.1, b1.2.1, b1.2.2.2.2.1, b1.2.2.2.2.2, b2.1, b2.2.1, b2.2.2.2.2.1, b2.2.2.2.2.2]

/-! ## Breadth-first search -/

section bfs

variable {S M ML S' M' ML' : Type}
variable {g : TravGear V K L S M ML} {g' : TravGear V K L S' M' ML'} {c : BiCfg V K L} {starts goals : List V}

variable (g g' c starts goals) in
/-- The states of the two runs. -/
structure BiGearSame (s : BiState V L S M ML) (s' : BiState V L S' M' ML') : Prop where
  st : ∀ b, BfsSame g g' (c.side b) (biEnds starts goals b) (s.get b).st (s'.get b).st
  started : ∀ b, (s.get b).started = (s'.get b).started
  lim : ∀ b, (s.get b).lim = (s'.get b).lim
  back : s.back = s'.back
  prev : s.prev = s'.prev
  result : s.result = s'.result

theorem BiGearSame.depth {s : BiState V L S M ML} {s' : BiState V L S' M' ML'} (h : BiGearSame g g' c starts goals s s')
    (b : Bool) : (s.get b).depth = (s'.get b).depth := by
  unfold BiSide.depth
  rw [h.started b, (h.st b).2.2.2.1]

theorem BiGearSame.setCur {s : BiState V L S M ML} {s' : BiState V L S' M' ML'} (h : BiGearSame g g' c starts goals s s')
    {x : BiSide V L S M ML} {x' : BiSide V L S' M' ML'}
    (h1 : BfsSame g g' (c.side s.back) (biEnds starts goals s.back) x.st x'.st) (h2 : x.started = x'.started)
    (h3 : x.lim = x'.lim) : BiGearSame g g' c starts goals (s.setCur x) (s'.setCur x') := by
  obtain ⟨fw, bw, back, prev, result⟩ := s
  obtain ⟨fw', bw', back', prev', result'⟩ := s'
  obtain ⟨a1, a2, a3, a4, a5, a6⟩ := h
  dsimp only at a4 a5 a6 h1
  subst a4 a5 a6
  cases back with
  | false =>
    exact ⟨fun b => by cases b; exacts [h1, a1 true], fun b => by cases b; exacts [h2, a2 true],
      fun b => by cases b; exacts [h3, a3 true], rfl, rfl, rfl⟩
  | true =>
    exact ⟨fun b => by cases b; exacts [a1 false, h1], fun b => by cases b; exacts [a2 false, h2],
      fun b => by cases b; exacts [a3 false, h3], rfl, rfl, rfl⟩

theorem biPath_same (hok : BiOk g c) (hop : OppositeEdges c.nextF c.nextB)
    (hinj : c.buildPath = true → Function.Injective c.vid)
    {validV validV' : V → Prop} {validL validL' : L → Prop}
    (hst : ∀ b, Storable g (c.side b) (biEnds starts goals b) validV validL)
    (hst' : ∀ b, Storable g' (c.side b) (biEnds starts goals b) validV' validL')
    {s : BiState V L S M ML} (inv : BiInv g c starts goals s) {r : BfsReport V S M ML} {x : BfsState V L S M ML}
    (hx : bfsStep g (c.side s.back) true (s.get s.back).st = .emit r x) (hp : s.prev ≠ some r.vertex)
    (hcon : g.so.contains (s.get (!s.back)).st.visited (c.vid r.vertex) = true)
    {t' : BiState V L S' M' ML'}
    (h : BiGearSame g g' c starts goals (s.setCur { s.get s.back with st := x, started := true }) t') :
    biPath g c (s.setCur { s.get s.back with st := x, started := true }) r.vertex = biPath g' c t' r.vertex := by
  unfold biPath
  cases hb : c.buildPath with
  | false => rfl
  | true =>
    have key := bi_found_paths hok hop (hinj hb) hb hst inv hx hp hcon
    generalize s.setCur { s.get s.back with st := x, started := true } = t at h key
    obtain ⟨f, f1, f2⟩ := key false
    obtain ⟨b, b1, b2⟩ := key true
    have d1 : t.fw.depth = t'.fw.depth := h.depth false
    have d2 : t.bw.depth = t'.bw.depth := h.depth true
    have f1' : (f.steps.length : Int) = t.fw.depth := f1
    have b1' : (b.steps.length : Int) = t.bw.depth := b1
    simp only [if_true, d1, d2]
    exact fromBidirectional_same (hst false).mo (hst false).lo (hst' false).mo (hst' false).lo
      (h.st false).2.2.2.2.1.2.1 (h.st true).2.2.2.2.1.2.1 (h.st false).2.2.2.2.1.2.2 (h.st true).2.2.2.2.1.2.2
      f2.2.2 b2.2.2 _ (by omega) (by omega)

theorem bi_gear_step (hok : BiOk g c) (hg' : g'.so.Lawful) (hop : OppositeEdges c.nextF c.nextB)
    (hinj : c.buildPath = true → Function.Injective c.vid)
    {validV validV' : V → Prop} {validL validL' : L → Prop}
    (hst : ∀ b, Storable g (c.side b) (biEnds starts goals b) validV validL)
    (hst' : ∀ b, Storable g' (c.side b) (biEnds starts goals b) validV' validL')
    {s : BiState V L S M ML} (inv : BiInv g c starts goals s) {s' : BiState V L S' M' ML'}
    (h : BiGearSame g g' c starts goals s s') :
    StepRel (BiGearSame g g' c starts goals) (fun s s' => s.result = s'.result) (fun _ _ => True)
      (biStep g c s) (biStep g' c s') := by
  have hb := bfs_gear_step hok.lawful hg' (hst s.back) (hst' s.back) true _ _ (h.st s.back)
  have hcon : ∀ k, g.so.contains (s.get (!s.back)).st.visited k = g'.so.contains (s'.get (!s.back)).st.visited k :=
    (h.st (!s.back)).2.2.2.2.1.1
  have hlim := h.lim s.back
  have hpath := fun r x t' => biPath_same (r := r) (x := x) (t' := t') hok hop hinj hst hst' inv
  unfold biStep
  rw [BiState.cur_eq, BiState.cur_eq, BiState.other_eq, BiState.other_eq, ← h.back]
  generalize hx : bfsStep g (c.side s.back) true (s.get s.back).st = x at hb hpath
  generalize hy : bfsStep g' (c.side s.back) true (s'.get s.back).st = y at hb
  cases hb with
  | stop q => exact .stop h.result
  | fail => exact .fail
  | tau q => exact .tau (h.setCur q rfl hlim)
  | expand q =>
    dsimp only
    rw [← hlim]
    cases checkLimit (s.get s.back).lim with
    | none => exact .fail
    | some l => exact .expand (h.setCur q rfl rfl)
  | @emit r r' a b q1 q =>
    have hset := h.setCur (x := { s.get s.back with st := a, started := true })
      (x' := { s'.get s.back with st := b, started := true }) q rfl hlim
    dsimp only
    rw [← h.prev, ← q1.1, ← hcon]
    by_cases hp : s.prev = some r.vertex
    · rw [if_pos hp, if_pos hp]
      exact .tau ⟨hset.st, hset.started, hset.lim, rfl, rfl, hset.result⟩
    · rw [if_neg hp, if_neg hp]
      by_cases hc : g.so.contains (s.get (!s.back)).st.visited (c.vid r.vertex) = true
      · rw [if_pos hc, if_pos hc]
        refine .stop ?_
        have e := hpath r a _ rfl hp hc hset
        have d1 := hset.depth false
        have d2 := hset.depth true
        dsimp only
        rw [← e]
        simp only [BiState.get, Bool.false_eq_true, if_false, if_true] at d1 d2
        simp only [BiState.get] at *
        rw [d1, d2]
      · rw [if_neg hc, if_neg hc]
        exact .tau ⟨hset.st, hset.started, hset.lim, hset.back, rfl, hset.result⟩

theorem bi_gear_sim (hok : BiOk g c) (hg' : g'.so.Lawful) (hop : OppositeEdges c.nextF c.nextB)
    (hinj : c.buildPath = true → Function.Injective c.vid)
    {validV validV' : V → Prop} {validL validL' : L → Prop}
    (hst : ∀ b, Storable g (c.side b) (biEnds starts goals b) validV validL)
    (hst' : ∀ b, Storable g' (c.side b) (biEnds starts goals b) validV' validL')
    (hno : ∀ s ∈ starts, ∀ t ∈ goals, c.vid s ≠ c.vid t) (limit : Option Int) (fuel : Nat) :
    (runMachine (biStep g c) fuel none (biInit g c starts goals limit)).ending =
      (runMachine (biStep g' c) fuel none (biInit g' c starts goals limit)).ending ∧
    ((runMachine (biStep g c) fuel none (biInit g c starts goals limit)).ending = .done →
      (runMachine (biStep g c) fuel none (biInit g c starts goals limit)).final.result =
      (runMachine (biStep g' c) fuel none (biInit g' c starts goals limit)).final.result) := by
  refine run_sim_reach (BiGearSame g g' c starts goals) (fun s s' => s.result = s'.result) (fun _ _ => True) _
    (fun h s s' hr hR => bi_gear_step hok hg' hop hinj hst hst' (bi_inv hok limit hno hr) hR) fuel none _ ?_
  have he : ∀ k, g.so.contains g.so.empty k = g'.so.contains g'.so.empty k := fun k => by
    rw [hok.lawful.contains_empty, hg'.contains_empty]
  refine ⟨fun b => ?_, fun b => by cases b <;> rfl, fun b => by cases b <;> rfl, rfl, rfl, rfl⟩
  cases b
  · exact bfs_gear_init hok.lawful hg' (hst false) (hst' false) _ _ he
  · exact bfs_gear_init hok.lawful hg' (hst true) (hst' true) _ _ he

end bfs

/-! ## Shortest paths -/

section sp

variable {W M ML D M' ML' D' : Type} [AddCommMonoid W] [LinearOrder W] [IsOrderedAddMonoid W]
variable {g : WGear V K L W M ML D} {g' : WGear V K L W M' ML' D'} {c : BdCfg V K L W} {starts goals : List V}

variable (g g' c) in
/-- One direction in the two runs. -/
structure BdSideGearSame (b : Bool) (ends : List V) (x : BdSide V W M ML D) (x' : BdSide V W M' ML' D') : Prop where
  heap : x.heap = x'.heap
  no : x.no = x'.no
  lim : x.lim = x'.lim
  same : WSame g g' x.dist x.preds x.labels x'.dist x'.preds x'.labels
  walk : ∀ e ∈ x.heap, ∃ w, WalkW (c.next b) (· ∈ ends) w e.item

variable (g g' c starts goals) in
/-- The states of the two runs. -/
structure BdGearSame (s : BdState V L W M ML D) (s' : BdState V L W M' ML' D') : Prop where
  pc : s.pc = s'.pc
  side : ∀ b, BdSideGearSame g g' c b (biEnds starts goals b) (s.get b) (s'.get b)
  back : s.back = s'.back
  best : s.best = s'.best
  node : s.node = s'.node
  others : s.others = s'.others
  found : s.found = s'.found
  edges : ∀ v w es, s.pc = .edges v w es → (∃ w, WalkW (c.next s.back) (· ∈ biEnds starts goals s.back) w v) ∧
    ∀ e ∈ es, e ∈ c.next s.back v

theorem BdGearSame.setCur {s : BdState V L W M ML D} {s' : BdState V L W M' ML' D'} (h : BdGearSame g g' c starts goals s s')
    {x : BdSide V W M ML D} {x' : BdSide V W M' ML' D'}
    (hx : BdSideGearSame g g' c s.back (biEnds starts goals s.back) x x') :
    BdGearSame g g' c starts goals (s.setCur x) (s'.setCur x') := by
  obtain ⟨pc, fw, bw, back, best, node, others, found⟩ := s
  obtain ⟨pc', fw', bw', back', best', node', others', found'⟩ := s'
  obtain ⟨a1, a2, a3, a4, a5, a6, a7, a8⟩ := h
  dsimp only at a1 a3 a4 a5 a6 a7
  subst a1 a3 a4 a5 a6 a7
  cases back with
  | false =>
    exact ⟨rfl, fun b => by cases b; exacts [hx, a2 true], rfl, rfl, rfl, rfl, rfl, a8⟩
  | true =>
    exact ⟨rfl, fun b => by cases b; exacts [a2 false, hx], rfl, rfl, rfl, rfl, rfl, a8⟩

theorem BdState.setCur_pc (s : BdState V L W M ML D) (x : BdSide V W M ML D) :
    (s.setCur x).back = s.back ∧ (s.setCur x).best = s.best ∧ (s.setCur x).node = s.node ∧
    (s.setCur x).others = s.others ∧ (s.setCur x).found = s.found := by
  unfold BdState.setCur; split <;> exact ⟨rfl, rfl, rfl, rfl, rfl⟩

theorem bd_gear_step (hd : g.dd.Lawful c.inf) (hd' : g'.dd.Lawful c.inf)
    {validV validV' : V → Prop} {validL validL' : L → Prop}
    (hst : ∀ b, WStorable g.mo g.lo (c.next b) c.vid (biEnds starts goals b) validV validL)
    (hst' : ∀ b, WStorable g'.mo g'.lo (c.next b) c.vid (biEnds starts goals b) validV' validL')
    {s : BdState V L W M ML D} {s' : BdState V L W M' ML' D'} (h : BdGearSame g g' c starts goals s s') :
    StepRel (BdGearSame g g' c starts goals) (BdGearSame g g' c starts goals) (fun _ _ => True) (bdStep g c s) (bdStep g' c s') := by
  have me := h.side s.back
  have ot := h.side (!s.back)
  have bk := h.back
  unfold bdStep
  dsimp only
  rw [← bk, ← h.pc]
  cases hpc : s.pc with
  | loop =>
    have hpc' : s'.pc = .loop := h.pc ▸ hpc
    dsimp only
    rw [← me.heap]
    cases hh : (s.get s.back).heap with
    | nil => exact .stop h
    | cons e rest =>
      have hw := me.walk e (by rw [hh]; exact List.mem_cons_self)
      have hrest : ∀ f ∈ rest, ∃ w, WalkW (c.next s.back) (· ∈ biEnds starts goals s.back) w f.item :=
        fun f hf => me.walk f (by rw [hh]; exact List.mem_cons_of_mem _ hf)
      dsimp only
      rw [← me.same.1]
      by_cases h1 : g.dd.get (s.get s.back).dist (c.vid e.item) < e.key
      · rw [if_pos h1, if_pos h1]
        have hset := h.setCur (x := { s.get s.back with heap := rest }) (x' := { s'.get s.back with heap := rest })
          ⟨rfl, me.no, me.lim, me.same, hrest⟩
        refine .tau ⟨hset.pc, hset.side, rfl, hset.best, hset.node, hset.others, hset.found, ?_⟩
        intro v w es hp
        have : (s.setCur { s.get s.back with heap := rest }).pc = s.pc := by unfold BdState.setCur; split <;> rfl
        rw [show ({ s.setCur { s.get s.back with heap := rest } with back := !s.back } : BdState V L W M ML D).pc =
          s.pc from this, hpc] at hp
        simp at hp
      · rw [if_neg h1, if_neg h1, ← h.best, ← h.others]
        by_cases h2 : c.inf ≠ s.best ∧ s.best ≤ e.key + s.others
        · rw [if_pos h2, if_pos h2]
          exact .stop ⟨rfl, h.side, rfl, rfl, h.node, rfl, rfl, fun v w es hp => by simp at hp⟩
        · rw [if_neg h2, if_neg h2, ← me.lim]
          cases checkLimit (s.get s.back).lim with
          | none => exact .fail
          | some l =>
            have hset := h.setCur (x := { s.get s.back with heap := rest, lim := l })
              (x' := { s'.get s.back with heap := rest, lim := l }) ⟨rfl, me.no, rfl, me.same, hrest⟩
            refine .expand ⟨rfl, hset.side, hset.back, hset.best, hset.node, rfl, hset.found, ?_⟩
            intro v w es hp
            simp only [BdPc.edges.injEq] at hp
            obtain ⟨rfl, -, rfl⟩ := hp
            have hb : (s.setCur { s.get s.back with heap := rest, lim := l }).back = s.back := (BdState.setCur_pc _ _).1
            dsimp only
            rw [hb]
            exact ⟨hw, fun _ he => he⟩
  | edges v w es =>
    obtain ⟨⟨wv, hw⟩, hes⟩ := h.edges v w es hpc
    cases es with
    | nil => exact .tau ⟨rfl, h.side, rfl, h.best, h.node, h.others, h.found, fun v w es hp => by simp at hp⟩
    | cons e es =>
      obtain ⟨n, x, l⟩ := e
      have hmem := hes _ List.mem_cons_self
      have hcur : ∀ b, b = s.back → ∀ v' w' es', BdPc.edges v w es = .edges v' w' es' →
          (∃ w, WalkW (c.next b) (· ∈ biEnds starts goals b) w v') ∧ ∀ e ∈ es', e ∈ c.next b v' := by
        rintro b rfl v' w' es' hp
        simp only [BdPc.edges.injEq] at hp
        obtain ⟨rfl, -, rfl⟩ := hp
        exact ⟨⟨wv, hw⟩, fun e he => hes e (List.mem_cons_of_mem _ he)⟩
      dsimp only
      by_cases hinf : c.inf ≤ x + w
      · rw [if_pos hinf, if_pos hinf]; exact .fail
      · rw [if_neg hinf, if_neg hinf]
        have hlt := lt_of_not_ge hinf
        have j1 := hd.improve_none (s.get s.back).dist (c.vid n) (x + w) hlt
        have j2 := hd'.improve_none (s'.get s.back).dist (c.vid n) (x + w) hlt
        rw [← me.same.1] at j2
        cases ha : g.dd.improve (s.get s.back).dist (c.vid n) (x + w) with
        | none =>
          rw [j2.2 (j1.1 ha)]
          exact .tau ⟨rfl, h.side, rfl, h.best, h.node, h.others, h.found, hcur _ rfl⟩
        | some a =>
          cases ha' : g'.dd.improve (s'.get s.back).dist (c.vid n) (x + w) with
          | none => rw [j1.2 (j2.1 ha')] at ha; simp at ha
          | some a' =>
            dsimp only
            rw [← ot.same.1, ← h.best]
            have hset := h.setCur
              (x := { s.get s.back with
                heap := heapPush (s.get s.back).heap ⟨x + w, (s.get s.back).no, n⟩
                no := (s.get s.back).no - 1
                dist := a
                preds := if c.buildPath then g.mo.set (s.get s.back).preds (c.vid n) v else (s.get s.back).preds
                labels := if c.buildPath then g.lo.set (s.get s.back).labels (c.vid n) l else (s.get s.back).labels })
              (x' := { s'.get s.back with
                heap := heapPush (s'.get s.back).heap ⟨x + w, (s'.get s.back).no, n⟩
                no := (s'.get s.back).no - 1
                dist := a'
                preds := if c.buildPath then g'.mo.set (s'.get s.back).preds (c.vid n) v else (s'.get s.back).preds
                labels := if c.buildPath then g'.lo.set (s'.get s.back).labels (c.vid n) l else (s'.get s.back).labels })
              ⟨by rw [me.heap, me.no], by rw [me.no], me.lim, ⟨fun k => by
                rw [hd.improve_some _ _ _ _ hlt ha, hd'.improve_some _ _ _ _ hlt ha', me.same.1], fun k => by
                dsimp only
                split
                · rw [(hst s.back).mo.get_set _ _ _ _ ((hst s.back).verts _ _ hw),
                    (hst' s.back).mo.get_set _ _ _ _ ((hst' s.back).verts _ _ hw), me.same.2.1]
                · exact me.same.2.1 k, fun k => by
                dsimp only
                split
                · rw [(hst s.back).lo.get_set _ _ _ _ ((hst s.back).labs _ _ _ hw hmem),
                    (hst' s.back).lo.get_set _ _ _ _ ((hst' s.back).labs _ _ _ hw hmem), me.same.2.2]
                · exact me.same.2.2 k⟩, fun f hf => by
                rcases mem_heapPush.1 hf with rfl | hf
                · exact ⟨_, .step hw ⟨l, hmem⟩⟩
                · exact me.walk f hf⟩
            have hb := (BdState.setCur_pc s { s.get s.back with
                heap := heapPush (s.get s.back).heap ⟨x + w, (s.get s.back).no, n⟩
                no := (s.get s.back).no - 1
                dist := a
                preds := if c.buildPath then g.mo.set (s.get s.back).preds (c.vid n) v else (s.get s.back).preds
                labels := if c.buildPath then g.lo.set (s.get s.back).labels (c.vid n) l else (s.get s.back).labels }).1
            split
            · exact .tau ⟨rfl, hset.side, hset.back, hset.best, hset.node, hset.others, hset.found, hcur _ hb⟩
            · exact .tau ⟨rfl, hset.side, hset.back, rfl, rfl, hset.others, hset.found, hcur _ hb⟩

theorem bd_gear_initSide (hd : g.dd.Lawful c.inf) (hd' : g'.dd.Lawful c.inf) (b : Bool) (ends : List V)
    {validV validV' : V → Prop} {validL validL' : L → Prop}
    (hst : WStorable g.mo g.lo (c.next b) c.vid ends validV validL)
    (hst' : WStorable g'.mo g'.lo (c.next b) c.vid ends validV' validL') (limit : Option Int) :
    BdSideGearSame g g' c b ends (bdInitSide g c ends limit) (bdInitSide g' c ends limit) := by
  have hdist : ∀ k, g.dd.get (bdDistances g c ends) k = g'.dd.get (bdDistances g' c ends) k := by
    intro k
    unfold bdDistances
    have : ∀ (l : List V) (d : D) (d' : D'), (∀ k, g.dd.get d k = g'.dd.get d' k) → ∀ k,
        g.dd.get (g.dd.setAll d (l.map (fun v => (c.vid v, 0)))) k =
        g'.dd.get (g'.dd.setAll d' (l.map (fun v => (c.vid v, 0)))) k := by
      intro l
      induction l with
      | nil => intro d d' h k; exact h k
      | cons v l ih =>
        intro d d' h k
        exact ih _ _ (fun k => by rw [hd.get_set, hd'.get_set, h]) k
    exact this ends _ _ (fun k => by rw [hd.get_empty, hd'.get_empty]) k
  have hent : ∀ (l : List V) no, bdStartEntries g c (bdDistances g c ends) l no =
      bdStartEntries g' c (bdDistances g' c ends) l no := by
    intro l
    induction l with
    | nil => intro no; rfl
    | cons v l ih => intro no; simp only [bdStartEntries, ih, hdist]
  have hmem : ∀ (l : List V) no e, e ∈ bdStartEntries g c (bdDistances g c ends) l no → e.item ∈ l := by
    intro l
    induction l with
    | nil => intro no e he; simp [bdStartEntries] at he
    | cons v l ih =>
      intro no e he
      rcases List.mem_cons.1 he with rfl | he
      · exact List.mem_cons_self
      · exact List.mem_cons_of_mem _ (ih _ _ he)
  refine ⟨by simp only [bdInitSide]; rw [hent], rfl, rfl, ⟨hdist, fun k => ?_, fun k => ?_⟩, fun e he => ?_⟩
  · simp only [bdInitSide]
    split
    · exact setAll_same hst.mo hst'.mo c.vid ends (fun v hv => hst.verts _ v (.start hv))
        (fun v hv => hst'.verts _ v (.start hv)) _ _ (fun k => by rw [hst.mo.get_empty, hst'.mo.get_empty]) k
    · rw [hst.mo.get_empty, hst'.mo.get_empty]
  · simp only [bdInitSide]; rw [hst.lo.get_empty, hst'.lo.get_empty]
  · simp only [bdInitSide, mem_heapify] at he
    exact ⟨0, .start (hmem _ _ _ he)⟩

theorem bd_gear_sim (hd : g.dd.Lawful c.inf) (hd' : g'.dd.Lawful c.inf)
    {validV validV' : V → Prop} {validL validL' : L → Prop}
    (hst : ∀ b, WStorable g.mo g.lo (c.next b) c.vid (biEnds starts goals b) validV validL)
    (hst' : ∀ b, WStorable g'.mo g'.lo (c.next b) c.vid (biEnds starts goals b) validV' validL')
    (start : V) (limit : Option Int) (fuel : Nat) :
    (runMachine (bdStep g c) fuel none (bdInit g c start starts goals limit)).ending =
      (runMachine (bdStep g' c) fuel none (bdInit g' c start starts goals limit)).ending ∧
    ((runMachine (bdStep g c) fuel none (bdInit g c start starts goals limit)).ending = .done →
      BdGearSame g g' c starts goals (runMachine (bdStep g c) fuel none (bdInit g c start starts goals limit)).final
      (runMachine (bdStep g' c) fuel none (bdInit g' c start starts goals limit)).final) := by
  refine (run_sim (BdGearSame g g' c starts goals) (BdGearSame g g' c starts goals) (fun _ _ => True)
    (fun s s' hR => bd_gear_step hd hd' hst hst' hR) fuel none _ _ ?_).2
  refine ⟨rfl, fun b => ?_, rfl, rfl, rfl, rfl, rfl, fun v w es hp => by simp [bdInit] at hp⟩
  cases b
  · exact bd_gear_initSide hd hd' false starts (hst false) (hst' false) limit
  · exact bd_gear_initSide hd hd' true goals (hst true) (hst' true) limit

end sp

end NoGraphs
