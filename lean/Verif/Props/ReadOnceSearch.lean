import Verif.Props.ReadOnce
import Verif.Props.SearchReads

/-! # C98: the edges of a vertex are asked for only once (bidirectional searches) -/

set_option linter.unusedSectionVars false

namespace NoGraphs

open Spec

section
variable {σ V K : Type} [DecidableEq K] {m : σ → Step σ Unit} {who : σ → Option (Bool × V)}

/-- If an invariant with the list of the reads so far excludes a second read, the reads differ. -/
theorem readsOf_once (vid : V → K) (I : List (Bool × K) → σ → Prop)
    (htau : ∀ X s s', I X s → m s = .tau s' → I X s')
    (hemit : ∀ X s r s', I X s → m s = .emit r s' → I X s')
    (hexp : ∀ X s s', I X s → m s = .expand s' →
      ∃ a, who s = some a ∧ (a.1, vid a.2) ∉ X ∧ I ((a.1, vid a.2) :: X) s')
    (fuel : Nat) (X : List (Bool × K)) (s : σ) (h : I X s) :
    ((readsOf m who fuel s).map (fun a => (a.1, vid a.2))).Nodup ∧
    ∀ a ∈ readsOf m who fuel s, (a.1, vid a.2) ∉ X := by
  induction fuel generalizing X s with
  | zero => simp [readsOf]
  | succ fuel ih =>
    unfold readsOf
    rcases hm : m s with s' | e | s' | ⟨r, s'⟩ | s' <;> simp only
    · simp
    · simp
    · exact ih X s' (htau _ _ _ h hm)
    · exact ih X s' (hemit _ _ _ _ h hm)
    · obtain ⟨a, hw, h1, h2⟩ := hexp _ _ _ h hm
      obtain ⟨h3, h4⟩ := ih _ s' h2
      simp only [hw, Option.toList_some, List.cons_append, List.nil_append, List.map_cons, List.nodup_cons, List.mem_map,
        not_exists, not_and, List.forall_mem_cons]
      exact ⟨⟨fun b hb e => h4 b hb (by rw [e]; exact List.mem_cons_self), h3⟩, h1,
        fun b hb hx => h4 b hb (List.mem_cons_of_mem _ hx)⟩

/-- The ids that have been read in a direction. -/
def readIn (X : List (Bool × K)) (b : Bool) : List K := (X.filter (fun a => a.1 == b)).map (fun a => a.2)

theorem readIn_same (X : List (Bool × K)) (b : Bool) (k : K) : readIn ((b, k) :: X) b = k :: readIn X b := by
  simp [readIn]

theorem readIn_other (X : List (Bool × K)) (b : Bool) (k : K) : readIn ((b, k) :: X) (!b) = readIn X (!b) := by
  cases b <;> simp [readIn]

theorem mem_readIn {X : List (Bool × K)} {b : Bool} {k : K} : k ∈ readIn X b ↔ (b, k) ∈ X := by
  simp [readIn]

end

section bfs
variable {V K L S M ML : Type} [DecidableEq V] [DecidableEq K] {g : TravGear V K L S M ML} {c : BiCfg V K L}

/-- With and without the report of an increase of the depth, the state changes are the same. -/
theorem bfsStep_rdi (c : TravCfg V K L) (s : BfsState V L S M ML) :
    match bfsStep g c true s with
    | .stop s' => bfsStep g c false s = .stop s'
    | .fail e => bfsStep g c false s = .fail e
    | .tau s' => bfsStep g c false s = .tau s'
    | .emit r s' => bfsStep g c false s = .emit r s' ∨ bfsStep g c false s = .tau s'
    | .expand s' => bfsStep g c false s = .expand s' := by
  unfold bfsStep
  rcases hpc : s.pc with _ | _ | ⟨v, _ | ⟨e, es⟩⟩ | _ <;> simp only
  · rcases s.toExpand with _ | ⟨u, rest⟩ <;> simp
  · rcases s.toExpand with _ | ⟨u, rest⟩
    · rcases s.nextToExpand.getLast? with _ | u <;> simp
    · simp
  · rcases bfsVisit g c.isTree c.buildPaths c.vid s.visited s.preds s.labels v e with _ | ⟨a, b, d⟩ <;> simp

/-- **C98 for `BSearchBreadthFirst`.** If the start vertices have different ids, and so have the goal vertices, the edges of each
vertex are read at most once in each direction. -/
theorem C98_bibfs (hg : g.so.Lawful) (starts goals : List V) (hs : (starts.map c.vid).Nodup) (ht : (goals.map c.vid).Nodup)
    (limit : Option Int) (fuel : Nat) :
    ((biReads g c starts goals limit fuel).map (fun a => (a.1, c.vid a.2))).Nodup := by
  unfold biReads
  split
  · simp
  have hset : ∀ (X : List (Bool × K)) (s : BiState V L S M ML) (x : BiSide V L S M ML),
      BfsOnce g (c.side (!s.back)) (readIn X (!s.back)) (s.get (!s.back)).st → BfsOnce g (c.side s.back) (readIn X s.back) x.st →
      ∀ b, BfsOnce g (c.side b) (readIn X b) ((s.setCur x).get b).st := by
    intro X s x h hx b
    by_cases hb : b = s.back
    · subst hb
      rw [BiState.get_setCur_same]
      exact hx
    · have : b = !s.back := by cases b <;> cases h : s.back <;> simp_all
      subst this
      rw [BiState.get_setCur_other]
      exact h
  refine (readsOf_once c.vid (fun X s => ∀ b, BfsOnce g (c.side b) (readIn X b) (s.get b).st) ?_ ?_ ?_ fuel []
    (biInit g c starts goals limit) ?_).1
  · intro X s s' h e
    have hr := bfsStep_rdi (g := g) (c.side s.back) s.cur.st
    have hcur := h s.back
    unfold biStep at e
    rcases hm : bfsStep g (c.side s.back) true s.cur.st with x | er | x | ⟨r, x⟩ | x <;> simp only [hm] at e hr
    · cases e
    · cases e
    · cases e
      exact hset X s _ (h _) (bfsOnce_tau (c := c.side s.back) (c.side s.back).next _ _ _ hcur hr)
    · have hx : BfsOnce g (c.side s.back) (readIn X s.back) x := by
        rcases hr with hr | hr
        · exact bfsOnce_emit (c := c.side s.back) hg rfl (c.side s.back).next _ _ _ _ hcur hr
        · exact bfsOnce_tau (c := c.side s.back) (c.side s.back).next _ _ _ hcur hr
      have hall := hset X s { s.cur with st := x, started := true } (h _) hx
      split at e
      · cases e
        exact hall
      · split at e <;> cases e
        exact hall
    · split at e <;> cases e
  · intro X s r s' h e
    unfold biStep at e
    rcases hm : bfsStep g (c.side s.back) true s.cur.st with x | er | x | ⟨r, x⟩ | x <;> simp only [hm] at e
    all_goals first | (cases e; done) | (split at e <;> first | (cases e; done) | (split at e <;> cases e; done))
  · intro X s s' h e
    have hr := bfsStep_rdi (g := g) (c.side s.back) s.cur.st
    have hcur := h s.back
    have hw := biWho_isSome g c e
    unfold biStep at e
    rcases hm : bfsStep g (c.side s.back) true s.cur.st with x | er | x | ⟨r, x⟩ | x <;> simp only [hm] at e hr
    · cases e
    · cases e
    · cases e
    · split at e
      · cases e
      · split at e <;> cases e
    · split at e <;> cases e
      obtain ⟨a, ha⟩ := Option.isSome_iff_exists.1 hw
      unfold biWho at ha
      rcases hv : bfsWho s.cur.st with _ | v
      · rw [hv] at ha; simp at ha
      rw [hv] at ha
      simp only [Option.map_some, Option.some.injEq] at ha
      subst ha
      obtain ⟨k1, k2⟩ := bfsOnce_expand (c := c.side s.back) (c.side s.back).next _ _ _ _ hcur hv hr
      refine ⟨(s.back, v), by simp [biWho, hv], fun hx => k1 (mem_readIn.2 hx), ?_⟩
      refine hset _ s _ ?_ ?_
      · rw [readIn_other]
        exact h _
      · rw [readIn_same]
        exact k2
  · intro b
    cases b
    · exact bfsOnce_init (c := c.side false) hg rfl g.so.empty starts hs
    · exact bfsOnce_init (c := c.side true) hg rfl g.so.empty goals ht

end bfs

section bd
variable {V K L W M ML D : Type} [DecidableEq V] [DecidableEq K] [AddCommMonoid W] [LinearOrder W] [IsOrderedAddMonoid W]
  {g : WGear V K L W M ML D} {c : BdCfg V K L W}

/-- For each direction, there is a traversal whose variables are those of the direction, and that has not expanded an id
twice. -/
def BdOnce (g : WGear V K L W M ML D) (c : BdCfg V K L W) (X : List (Bool × K)) (s : BdState V L W M ML D) : Prop :=
  ∃ (t : Bool → SpState V L W M ML D) (cur : Bool → W), ∀ b,
    SideRel (s.get b) (t b) ∧ BdPcRel s b (t b).pc ∧ SpOnce g (c.side b) (readIn X b) (t b) (cur b)

/-- The invariant for the direction that has been changed, and for the other one. -/
theorem BdOnce.mk {X : List (Bool × K)} {s' : BdState V L W M ML D} {b : Bool} {t : SpState V L W M ML D} {cur : W}
    (h1 : SideRel (s'.get b) t) (h2 : BdPcRel s' b t.pc) (h3 : SpOnce g (c.side b) (readIn X b) t cur)
    {t' : SpState V L W M ML D} {cur' : W}
    (k1 : SideRel (s'.get (!b)) t') (k2 : BdPcRel s' (!b) t'.pc) (k3 : SpOnce g (c.side (!b)) (readIn X (!b)) t' cur') :
    BdOnce g c X s' := by
  refine ⟨fun a => if a = b then t else t', fun a => if a = b then cur else cur', bool_cases b ?_ ?_⟩
  · simp only [if_true]
    exact ⟨h1, h2, h3⟩
  · have : ¬ (!b) = b := by cases b <;> simp
    simp only [if_neg this]
    exact ⟨k1, k2, k3⟩

/-- Where the traversal of a direction is, if the search is at the begin of the loop. -/
theorem BdPcRel.loop {s : BdState V L W M ML D} {b : Bool} {pc : SpPc V L W} (h : BdPcRel s b pc) (hpc : s.pc = .loop) :
    pc = .loop := by
  unfold BdPcRel at h
  rw [hpc] at h
  split at h <;> exact h

theorem BdPcRel.other {s : BdState V L W M ML D} {pc : SpPc V L W} (h : BdPcRel s (!s.back) pc) : pc = .loop := by
  unfold BdPcRel at h
  rw [if_neg (Bool.ne_not _)] at h
  exact h

theorem BdPcRel.of_loop {s : BdState V L W M ML D} (hpc : s.pc = .loop) (b : Bool) : BdPcRel s b (.loop : SpPc V L W) := by
  unfold BdPcRel
  rw [hpc]
  split <;> rfl

theorem BdPcRel.of_other {s : BdState V L W M ML D} {b : Bool} (hb : b ≠ s.back) : BdPcRel s b (.loop : SpPc V L W) := by
  unfold BdPcRel
  rw [if_neg hb]

theorem BdPcRel.of_edges {s : BdState V L W M ML D} {v : V} {w : W} {es : List (V × W × L)} (hpc : s.pc = .edges v w es)
    {b : Bool} (hb : b = s.back) (ec : Nat) : BdPcRel s b (.edges v w ec es) := by
  unfold BdPcRel
  rw [if_pos hb, hpc]
  exact ⟨ec, rfl⟩

theorem BdPcRel.edges {s : BdState V L W M ML D} {pc : SpPc V L W} (h : BdPcRel s s.back pc) {v : V} {w : W}
    {es : List (V × W × L)} (hpc : s.pc = .edges v w es) : ∃ ec, pc = .edges v w ec es := by
  unfold BdPcRel at h
  rw [if_pos rfl, hpc] at h
  exact h

/-- A step of the search. -/
theorem bdOnce_step (hd : g.dd.Lawful c.inf) (hn : ∀ b, NonNeg (c.next b)) (X : List (Bool × K)) (s : BdState V L W M ML D)
    (h : BdOnce g c X s) :
    match bdStep g c s with
    | .tau s' => BdOnce g c X s'
    | .emit _ s' => BdOnce g c X s'
    | .expand s' => ∃ a, bdWho s = some a ∧ (a.1, c.vid a.2) ∉ X ∧ BdOnce g c ((a.1, c.vid a.2) :: X) s'
    | _ => True := by
  obtain ⟨t, cur, h⟩ := h
  obtain ⟨hr, hp, ho⟩ := h s.back
  obtain ⟨hr', hp', ho'⟩ := h (!s.back)
  have hnn : ∀ v, ∀ e ∈ (c.side s.back).next v, 0 ≤ e.2.1 := fun v e he => hn s.back v e.1 e.2.1 ⟨e.2.2, he⟩
  have sp := spOnce_step (c := c.side s.back) rfl hd (c.side s.back).next hnn _ _ _ ho
  have hpc' := hp'.other
  unfold bdStep
  rcases hpc : s.pc with _ | ⟨v, w, _ | ⟨⟨n, x, l⟩, es⟩⟩ <;> simp only
  · have htpc := hp.loop hpc
    rcases hh : (s.get s.back).heap with _ | ⟨e, rest⟩
    · trivial
    obtain ⟨e', rest', hth, rfl, rfl⟩ : ∃ e' rest', (t s.back).heap = e' :: rest' ∧ forget e' = e ∧ rest'.map forget = rest := by
      have := hr.heap
      rw [hh] at this
      exact List.map_eq_cons_iff.1 this.symm
    simp only
    by_cases hst : g.dd.get (s.get s.back).dist (c.vid (forget e').item) < (forget e').key
    · simp only [if_pos hst]
      have hst' : g.dd.get (t s.back).dist ((c.side s.back).vid e'.item.1) < e'.key := by rw [← hr.dist]; exact hst
      have hs1 : spStep g (c.side s.back) (t s.back) = .tau { t s.back with heap := rest' } := by
        unfold spStep
        rw [htpc, hth]
        simp only [BdCfg.side] at hst' ⊢
        simp [hst', htpc]
      have sp' : ∃ cur', SpOnce g (c.side s.back) (readIn X s.back) { t s.back with heap := rest' } cur' := by
        have := sp
        rw [show spStep g { c.side s.back with next := (c.side s.back).next } (t s.back) = _ from hs1] at this
        exact this
      obtain ⟨cur', sp'⟩ := sp'
      refine BdOnce.mk (b := s.back) (t := { t s.back with heap := rest' }) ?_ ?_ sp' (t' := t (!s.back)) ?_ ?_ ho'
      · have : ({ s.setCur { s.get s.back with heap := rest'.map forget } with back := !s.back } :
            BdState V L W M ML D).get s.back = { s.get s.back with heap := rest'.map forget } := BdState.get_setCur_same s { s.get s.back with heap := rest'.map forget }
        rw [this]
        exact ⟨rfl, hr.no, hr.dist, hr.preds, hr.labels⟩
      · show BdPcRel _ _ (t s.back).pc
        rw [htpc]
        exact BdPcRel.of_loop (by rw [← hpc]; exact (BdState.setCur_fields _ _).2.2.2.2) _
      · have : ({ s.setCur { s.get s.back with heap := rest'.map forget } with back := !s.back } :
            BdState V L W M ML D).get (!s.back) = s.get (!s.back) := BdState.get_setCur_other s { s.get s.back with heap := rest'.map forget }
        rw [this]
        exact hr'
      · rw [hpc']
        exact BdPcRel.of_loop (by rw [← hpc]; exact (BdState.setCur_fields _ _).2.2.2.2) _
    · simp only [if_neg hst]
      by_cases hgo : c.inf ≠ s.best ∧ s.best ≤ (forget e').key + s.others
      · simp only [if_pos hgo]
      simp only [if_neg hgo]
      rcases hl : checkLimit (s.get s.back).lim with _ | lim
      · trivial
      simp only
      -- two steps of the traversal: it takes the vertex, and reads its edges
      have hst' : ¬ g.dd.get (t s.back).dist ((c.side s.back).vid e'.item.1) < e'.key := by rw [← hr.dist]; exact hst
      let t1 : SpState V L W M ML D := { t s.back with heap := rest', pc := .expand e'.item.1 e'.key e'.item.2 }
      have hs1 : (∃ r, spStep g (c.side s.back) (t s.back) = .emit r t1) ∨ spStep g (c.side s.back) (t s.back) = .tau t1 := by
        unfold spStep
        rw [htpc, hth]
        simp only [BdCfg.side] at hst' ⊢
        by_cases h0 : e'.item.2 > 0
        · left; simp [hst', h0, t1]
        · right; simp [hst', h0, t1]
      have sp1 : ∃ cur', SpOnce g (c.side s.back) (readIn X s.back) t1 cur' := by
        have := sp
        rcases hs1 with ⟨r, hs1⟩ | hs1
        · rw [show spStep g { c.side s.back with next := (c.side s.back).next } (t s.back) = _ from hs1] at this
          exact this
        · rw [show spStep g { c.side s.back with next := (c.side s.back).next } (t s.back) = _ from hs1] at this
          exact this
      obtain ⟨cur1, sp1⟩ := sp1
      have hnew : c.vid e'.item.1 ∉ readIn X s.back := sp1.new _ (by simp [spCur, spWho, t1, BdCfg.side])
      have sp2 := spOnce_step (c := c.side s.back) rfl hd (c.side s.back).next hnn _ _ _ sp1
      have sp2' : ∃ cur', SpOnce g (c.side s.back) (c.vid e'.item.1 :: readIn X s.back)
          { t1 with pc := .edges e'.item.1 e'.key e'.item.2 (c.next s.back e'.item.1) } cur' := sp2 e'.item.1 rfl
      obtain ⟨cur2, sp2'⟩ := sp2'
      refine ⟨(s.back, e'.item.1), by simp [bdWho, hpc, hh, forget], fun hx => hnew (mem_readIn.2 hx), ?_⟩
      refine BdOnce.mk (b := s.back) (cur := cur2)
        (t := { t1 with pc := .edges e'.item.1 e'.key e'.item.2 (c.next s.back e'.item.1) }) ?_ ?_ ?_ (t' := t (!s.back))
        (cur' := cur (!s.back)) ?_ ?_ ?_
      · have : ({ s.setCur { s.get s.back with heap := rest'.map forget, lim := lim } with
              others := (forget e').key, pc := .edges (forget e').item (forget e').key (c.next s.back (forget e').item) } :
            BdState V L W M ML D).get s.back = { s.get s.back with heap := rest'.map forget, lim := lim } := BdState.get_setCur_same s { s.get s.back with heap := rest'.map forget, lim := lim }
        rw [this]
        exact ⟨rfl, hr.no, hr.dist, hr.preds, hr.labels⟩
      · refine BdPcRel.of_edges rfl ?_ _
        show s.back = (s.setCur _).back
        rw [BdState.setCur_back]
      · rw [readIn_same]
        exact sp2'
      · have : ({ s.setCur { s.get s.back with heap := rest'.map forget, lim := lim } with
              others := (forget e').key, pc := .edges (forget e').item (forget e').key (c.next s.back (forget e').item) } :
            BdState V L W M ML D).get (!s.back) = s.get (!s.back) := BdState.get_setCur_other s { s.get s.back with heap := rest'.map forget, lim := lim }
        rw [this]
        exact hr'
      · rw [hpc']
        refine BdPcRel.of_other ?_
        show (!s.back) ≠ (s.setCur _).back
        rw [BdState.setCur_back]
        exact Bool.ne_not _
      · rw [readIn_other]
        exact ho'
  · obtain ⟨ec, htpc⟩ := hp.edges hpc
    have hs1 : spStep g (c.side s.back) (t s.back) = .tau { t s.back with pc := .loop } := by
      unfold spStep
      rw [htpc]
    have sp' : ∃ cur', SpOnce g (c.side s.back) (readIn X s.back) { t s.back with pc := .loop } cur' := by
      have := sp
      rw [show spStep g { c.side s.back with next := (c.side s.back).next } (t s.back) = _ from hs1] at this
      exact this
    obtain ⟨cur', sp'⟩ := sp'
    refine BdOnce.mk (b := s.back) (t := { t s.back with pc := .loop }) ?_ (BdPcRel.of_loop rfl _) sp' (t' := t (!s.back))
      ?_ ?_ ho'
    · exact ⟨hr.heap, hr.no, hr.dist, hr.preds, hr.labels⟩
    · exact hr'
    · rw [hpc']
      exact BdPcRel.of_loop rfl _
  · obtain ⟨ec, htpc⟩ := hp.edges hpc
    by_cases hi : c.inf ≤ x + w
    · simp only [if_pos hi]
    simp only [if_neg hi]
    rcases him : g.dd.improve (s.get s.back).dist (c.vid n) (x + w) with _ | d
    · simp only
      have hs1 : spStep g (c.side s.back) (t s.back) = .tau { t s.back with pc := .edges v w ec es } := by
        unfold spStep
        rw [htpc]
        rw [hr.dist] at him
        simp only [BdCfg.side, if_neg hi, spImprove, him, Bool.false_eq_true, if_false]
      have sp' : ∃ cur', SpOnce g (c.side s.back) (readIn X s.back) { t s.back with pc := .edges v w ec es } cur' := by
        have := sp
        rw [show spStep g { c.side s.back with next := (c.side s.back).next } (t s.back) = _ from hs1] at this
        exact this
      obtain ⟨cur', sp'⟩ := sp'
      refine BdOnce.mk (b := s.back) (t := { t s.back with pc := .edges v w ec es }) ?_ (BdPcRel.of_edges rfl rfl _) sp'
        (t' := t (!s.back)) ?_ ?_ ho'
      · exact ⟨hr.heap, hr.no, hr.dist, hr.preds, hr.labels⟩
      · exact hr'
      · rw [hpc']
        exact BdPcRel.of_other (Bool.ne_not _)
    · simp only
      let me : BdSide V W M ML D := { s.get s.back with
        heap := heapPush (s.get s.back).heap ⟨x + w, (s.get s.back).no, n⟩
        no := (s.get s.back).no - 1
        dist := d
        preds := if c.buildPath then g.mo.set (s.get s.back).preds (c.vid n) v else (s.get s.back).preds
        labels := if c.buildPath then g.lo.set (s.get s.back).labels (c.vid n) l else (s.get s.back).labels }
      let t1 : SpState V L W M ML D :=
        { pc := .edges v w ec es
          heap := heapPush (t s.back).heap ⟨x + w, (t s.back).no, (n, ec + 1)⟩
          no := (t s.back).no - 1
          dist := d
          preds := if c.buildPath then g.mo.set (t s.back).preds (c.vid n) v else (t s.back).preds
          labels := if c.buildPath then g.lo.set (t s.back).labels (c.vid n) l else (t s.back).labels }
      have hs1 : spStep g (c.side s.back) (t s.back) = .tau t1 := by
        unfold spStep
        rw [htpc]
        rw [hr.dist] at him
        simp only [BdCfg.side, if_neg hi, spImprove, him, Bool.false_eq_true, if_false]
        rfl
      have sp' : ∃ cur', SpOnce g (c.side s.back) (readIn X s.back) t1 cur' := by
        have := sp
        rw [show spStep g { c.side s.back with next := (c.side s.back).next } (t s.back) = _ from hs1] at this
        exact this
      obtain ⟨cur', sp'⟩ := sp'
      have hrel : SideRel me t1 := by
        refine ⟨?_, by simp only [me, t1, hr.no], rfl, by simp only [me, t1, hr.preds], by simp only [me, t1, hr.labels]⟩
        simp only [me, t1, heapPush_forget, ← hr.heap, hr.no]
        rfl
      have key : ∀ s' : BdState V L W M ML D, s'.get s.back = me → s'.get (!s.back) = s.get (!s.back) → s'.back = s.back →
          s'.pc = .edges v w es → BdOnce g c X s' := by
        intro s' k1 k2 k3 k4
        refine BdOnce.mk (b := s.back) (t := t1) (by rw [k1]; exact hrel) (BdPcRel.of_edges k4 k3.symm _) sp'
          (t' := t (!s.back)) (by rw [k2]; exact hr') ?_ ho'
        rw [hpc']
        exact BdPcRel.of_other (by rw [k3]; exact Bool.ne_not _)
      split
      · rename_i s'' he
        split at he
        · cases he
          exact key _ (BdState.get_setCur_same s me) (BdState.get_setCur_other s me) (BdState.setCur_back s me) rfl
        · cases he
          exact key _ (BdState.get_setCur_same s me) (BdState.get_setCur_other s me) (BdState.setCur_back s me) rfl
      · rename_i he
        split at he <;> cases he
      · rename_i he
        split at he <;> cases he
      · trivial

/-- **C98 for `BSearchShortestPath`.** If the start vertices have different ids, and so have the goal vertices, and the weights
are not negative, the edges of each vertex are read at most once in each direction. -/
theorem C98_bd (hd : g.dd.Lawful c.inf) (hnF : NonNeg c.nextF) (hnB : NonNeg c.nextB) (starts goals : List V)
    (hs : (starts.map c.vid).Nodup) (ht : (goals.map c.vid).Nodup) (limit : Option Int) (fuel : Nat) :
    ((bdReads g c starts goals limit fuel).map (fun a => (a.1, c.vid a.2))).Nodup := by
  have hn : ∀ b, NonNeg (c.next b) := by intro b; cases b; exacts [hnF, hnB]
  unfold bdReads
  split
  · simp
  · simp
  rename_i start rs goal rg
  split
  · simp
  refine (readsOf_once c.vid (BdOnce g c) ?_ ?_ ?_ fuel [] (bdInit g c start (start :: rs) (goal :: rg) limit) ?_).1
  · intro X s s' h e
    have := bdOnce_step hd hn X s h
    rw [e] at this
    exact this
  · intro X s r s' h e
    have := bdOnce_step hd hn X s h
    rw [e] at this
    exact this
  · intro X s s' h e
    have := bdOnce_step hd hn X s h
    rw [e] at this
    exact this
  · refine ⟨fun b => spInit g (c.side b) none (biEnds (start :: rs) (goal :: rg) b), fun _ => 0, fun b => ⟨?_, ?_, ?_⟩⟩
    · cases b <;> exact bdInit_rel _ _ _
    · exact BdPcRel.of_loop rfl b
    · cases b
      · exact spOnce_init (c := c.side false) hd _ hs
      · exact spOnce_init (c := c.side true) hd _ ht

end bd

/-! ## Where the claim is violated -/

/-- **C98 is violated for a start vertex that is given twice**: breadth-first, shortest paths, minimum spanning tree and
the bidirectional searches ask for its edges twice. -/
theorem C98_starts_counterexample :
    ¬ ReadOnce id (bfsActs exHash (exCfg false) [] [0, 0] none 200) ∧
    ¬ ReadOnce id (spActs exWArr (exWCfg true) none [0, 0] none 200) ∧
    ¬ ReadOnce id (mstActs exBits ⟨exW, id, true⟩ [0, 0] none 200) ∧
    ¬ (biReads exHash exBi [0, 0] [4] none 100).Nodup ∧
    ¬ (bdReads exBdHash exBd [0, 0] [4] none 100).Nodup := by
  unfold ReadOnce
  refine ⟨?_, ?_, ?_, ?_, ?_⟩ <;> decide +kernel

/-- **C98 is violated for A\***: also for a consistent heuristic function if it has infinite estimates, and also without
infinite estimates if it is not consistent. -/
theorem C98_astar_counterexample :
    (Consistent exInfCfg.next exInfCfg.heur ∧ ¬ ReadOnce id (aActs exInfGear exInfCfg none none [0] none 100)) ∧
    ((∀ v, exTwice.heur v ≠ exTwice.inf) ∧ ¬ ReadOnce id (aActs exInfGear exTwice none none [0] none 200)) := by
  refine ⟨⟨C25_counterexample.2.2.2.2.1, ?_⟩, fun v => ?_, ?_⟩
  · unfold ReadOnce; decide +kernel
  · simp only [exTwice]
    split <;> omega
  · unfold ReadOnce; decide +kernel

/-- **C98 is violated for depth-first search in mode `ALL_PATHS`**: the edges of a vertex are asked for once per path. -/
theorem C98_dfs_trace_counterexample :
    (exTraceCfg ⟨exNext, id, false, true⟩ (exOptions .allPaths exInOut)).Accepted false ∧
    ¬ ReadOnce id (trActs exHash (exTraceCfg ⟨exNext, id, false, true⟩ (exOptions .allPaths exInOut)) exHash.so.empty [0] none
      200) := by
  refine ⟨exTraceCfg_accepted _ _ (by decide) (by decide), ?_⟩
  unfold ReadOnce
  decide +kernel

/-! ## Non-vacuity -/

example : exHash.so.Lawful ∧ exBits.so.Lawful ∧ exWArr.dd.Lawful (exWCfg true).inf ∧ NonNeg (exWCfg true).next ∧
    Spec.readsOf (bfsActs exBits (exCfg false) [] [0, 1] none 200) = [0, 1, 2, 3, 4] ∧
    Spec.readsOf (spActs exWArr (exWCfg true) none [0, 2] none 200) = [2, 4, 0, 1, 3] :=
  ⟨hashSet_lawful, bitSeqSet_lawful _ rfl (fun _ => by decide) 0, seqDist_lawful _ (fun _ => by decide) 0, exW_nonneg,
    by decide +kernel, by decide +kernel⟩

end NoGraphs
