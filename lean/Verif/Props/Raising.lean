import Verif.Proofs.Raising
import Verif.Props.Reads
import Verif.Props.ReadsDepth
import Verif.Props.ReadsWeighted

/-! # Property C91: exceptions of the edges function -/

set_option linter.unusedSectionVars false

namespace NoGraphs

open Spec

variable {V K L S M ML : Type} [DecidableEq V] [DecidableEq K]

/-- `next` consists of the edges that are given before an exception: for a vertex without exception, these are all edges, for
others, the first ones of the edges that would be given without the exception, `full`. -/
def Spec.EdgesUntilException {E : Type} (raises : V → Bool) (next full : V → List E) : Prop :=
  ∀ v, next v <+: full v ∧ (raises v = false → next v = full v)

/-- The missing edges. -/
theorem Spec.EdgesUntilException.more {E : Type} {raises : V → Bool} {next full : V → List E}
    (h : EdgesUntilException raises next full) : ∃ x : V → List E, full = (fun v => next v ++ x v) ∧
      ∀ v, raises v = false → x v = [] := by
  choose x hx using fun v => (h v).1
  refine ⟨x, funext fun v => (hx v).symm, fun v hv => ?_⟩
  have h1 := hx v
  rw [(h v).2 hv] at h1
  simpa using h1

/-! ## Breadth-first search -/

section
variable {g : TravGear V K L S M ML} {c : TravCfg V K L}

/-- More edges in the loop. -/
def bfsMore (x : V → List (V × L)) (s : BfsState V L S M ML) : BfsState V L S M ML :=
  match s.pc with
  | .edges v es => { s with pc := .edges v (es ++ x v) }
  | _ => s

theorem bfs_interruptible :
    Interruptible (fun next => bfsStep g { c with next := next } false) bfsWho bfsOpen (fun _ => false) bfsMore := by
  constructor
  · intro f x s h _
    obtain ⟨pc, te, nte, d, vis, pr, la⟩ := s
    rcases pc with _ | _ | ⟨v, _ | ⟨e, es⟩⟩ | _
    · rcases te with _ | ⟨u, te⟩ <;> rfl
    · rcases te with _ | ⟨u, te⟩ <;> rfl
    · simp [bfsMore, bfsStep, Step.mapState, h v rfl]
    · simp only [bfsMore, bfsStep, List.cons_append]
      rcases bfsVisit g c.isTree c.buildPaths c.vid vis pr la v e with _ | ⟨a, b, l⟩ <;> rfl
    · rfl
  · intro x s
    obtain ⟨pc, te, nte, d, vis, pr, la⟩ := s
    rcases pc with _ | _ | ⟨v, es⟩ | _ <;> rfl
  · exact (bfs_readsOne (g := g) (c := c) false).expands
  · intro f s
    obtain ⟨pc, te, nte, d, vis, pr, la⟩ := s
    rcases pc with _ | _ | ⟨v, _ | ⟨e, es⟩⟩ | _
    · rcases te with _ | ⟨u, te⟩ <;> rfl
    · rcases te with _ | ⟨u, te⟩
      · rfl
      · exact ⟨rfl, u, rfl, rfl⟩
    · rfl
    · simp only [bfsStep]
      rcases bfsVisit g c.isTree c.buildPaths c.vid vis pr la v e with _ | ⟨a, b, l⟩ <;> exact .inl rfl
    · rfl

/-- **C91 for breadth-first search.** For some vertices, the edges function raises an exception, at once or after some edges.
The exception of the first such vertex whose edges are read ends the traversal, and it is not lost. Until then, the traversal has
read the same edges and made the same reports (with the same depths, paths and visited vertices), in the same order, as it
would without the exception. -/
theorem C91_bfs (raises : V → Bool) (full : V → List (V × L)) (hf : EdgesUntilException raises c.next full) (already : S)
    (starts : List V) (limit : Option Int) (fuel : Nat) :
    let run := bfsRaisingRun g c raises already starts limit fuel
    let whole := bfsRun g { c with next := full } already starts limit fuel
    let acts := bfsActs g { c with next := full } already starts limit fuel
    RaisesAtFirst raises run.reads run.exception? (run.ending = .usual .done) ∧
    run.acts (fun r => r.vertex) <+: acts ∧ run.reports <+: whole.reports ∧
    (∀ e, run.ending = .usual e → run.reports = whole.reports ∧ whole.ending = e) := by
  obtain ⟨x, rfl, hx⟩ := hf.more
  obtain ⟨h1, h2, h3⟩ := raising_begins (bfs_interruptible (g := g) (c := c)) (fun r : BfsReport V S M ML => r.vertex) raises c.next x hx
    fuel (prepareLimit limit) (bfsInit g c already starts)
  exact ⟨raises_at_first (bfs_interruptible (g := g) (c := c)) raises c.next fuel (prepareLimit limit)
    (bfsInit g c already starts) none (.inl rfl), h1, h2, fun e he => (h3 e he).2⟩

/-- Outside of the loops over edges, the next action is to read edges. -/
theorem bfs_next_read (fuel : Nat) (lim : Option Int) (s : BfsState V L S M ML)
    (h : ∀ v e es, s.pc ≠ .edges v (e :: es)) :
    ∀ a ∈ (actsOf (bfsStep g c false) bfsWho (fun r : BfsReport V S M ML => r.vertex) fuel lim s).head?, ∃ u, a = Act.read u := by
  induction fuel generalizing s with
  | zero => simp [actsOf]
  | succ fuel ih =>
    obtain ⟨pc, te, nte, d, vis, pr, la⟩ := s
    rcases pc with _ | _ | ⟨v, _ | ⟨e, es⟩⟩ | _
    · rcases te with _ | ⟨u, te⟩
      · simp [actsOf, bfsStep]
      · exact ih _ (by simp)
    · rcases te with _ | ⟨u, te⟩
      · exact ih _ (by simp)
      · simp only [actsOf, bfsStep]
        rcases checkLimit lim with _ | lim' <;> simp [bfsWho]
    · exact ih _ (by simp)
    · exact absurd rfl (h v e es)
    · exact ih _ (by simp)

/-- **C91 for breadth-first search, edges before the exception.** All edges that have been given before the exception have been
processed: in the graph of these edges, the same happens, and then, edges of a further vertex are read, or the traversal ends. -/
theorem C91_bfs_before (raises : V → Bool) (already : S) (starts : List V) (limit : Option Int) (fuel : Nat) (v : V)
    (h : (bfsRaisingRun g c raises already starts limit fuel).exception? = some v) :
    ∃ rest, bfsActs g c already starts limit fuel =
        (bfsRaisingRun g c raises already starts limit fuel).acts (fun r => r.vertex) ++ rest ∧
      ∀ a ∈ rest.head?, ∃ u, a = Act.read u := by
  obtain ⟨f', l', s', h1, h2⟩ := raising_cut (fun r : BfsReport V S M ML => r.vertex) raises fuel (prepareLimit limit)
    (bfsInit g c already starts) v h
  refine ⟨_, h2, bfs_next_read f' l' s' (fun u e es hpc => ?_)⟩
  simp [bfsOpen, hpc] at h1

end

/-! ## Neighbors-then-depth search -/

section
variable {g : TravGear V K L S M ML} {c : NtdCfg V K L}

/-- More edges in the loop. -/
def ntdMore (x : V → List (V × L)) (s : NtdState V L S M ML) : NtdState V L S M ML :=
  match s.pc with
  | .edges v es => { s with pc := .edges v (es ++ x v) }
  | _ => s

theorem ntd_interruptible :
    Interruptible (fun next => ntdStep g { c with next := next }) (ntdWho c) ntdOpen (fun _ => false) ntdMore := by
  constructor
  · intro f x s h _
    rcases hpc : s.pc with _ | ⟨v, _ | ⟨e, es⟩⟩
    · have e : ntdMore x s = s := by simp [ntdMore, hpc]
      rw [e]
      simp only [ntdStep, hpc]
      rcases s.toExpand with _ | ⟨u, te⟩
      · simp [Step.mapState, e]
      · simp only
        split
        · rcases ntdPop s.markers (s.depth + 1) with _ | ⟨ms, d⟩ <;> rfl
        · rfl
    · simp [ntdMore, ntdStep, hpc, Step.mapState, h v (by simp [ntdOpen, hpc])]
    · simp only [ntdMore, ntdStep, hpc, List.cons_append]
      rcases bfsVisit g c.isTree c.buildPaths c.vid s.visited s.preds s.labels v e with _ | ⟨a, b, l⟩ <;> rfl
  · intro x s
    rcases hpc : s.pc with _ | ⟨v, es⟩ <;> simp [ntdMore, ntdWho, hpc]
  · exact (ntd_readsOne (g := g) (c := c)).expands
  · intro f s
    rcases hpc : s.pc with _ | ⟨v, _ | ⟨e, es⟩⟩
    · simp only [ntdStep, hpc]
      rcases hx : s.toExpand with _ | ⟨u, te⟩
      · simp [OpenShape, ntdOpen, hpc]
      · simp only
        split
        · rename_i hd
          rcases hp : ntdPop s.markers (s.depth + 1) with _ | ⟨ms, d⟩
          · trivial
          · exact ⟨by simp [ntdOpen, hpc], u, by simp [ntdWho, hpc, hx, hp], rfl⟩
        · rename_i hd
          exact ⟨by simp [ntdOpen, hpc], u, by simp [ntdWho, hpc, hx, hd], rfl⟩
    · simp [ntdStep, OpenShape, ntdOpen, hpc]
    · simp only [ntdStep, hpc]
      rcases bfsVisit g c.isTree c.buildPaths c.vid s.visited s.preds s.labels v e with _ | ⟨a, b, l⟩ <;>
        simp [OpenShape, ntdOpen, hpc]

/-- **C91 for neighbors-then-depth search.** -/
theorem C91_ntd (raises : V → Bool) (full : V → List (V × L)) (hf : EdgesUntilException raises c.next full) (already : S)
    (starts : List V) (limit : Option Int) (fuel : Nat) :
    let run := ntdRaisingRun g c raises already starts limit fuel
    let whole := ntdRun g { c with next := full } already starts limit fuel
    let acts := ntdActs g { c with next := full } already starts limit fuel
    RaisesAtFirst raises run.reads run.exception? (run.ending = .usual .done) ∧
    run.acts (fun r => r.vertex) <+: acts ∧ run.reports <+: whole.reports ∧
    (∀ e, run.ending = .usual e → run.reports = whole.reports ∧ whole.ending = e) := by
  obtain ⟨x, rfl, hx⟩ := hf.more
  obtain ⟨h1, h2, h3⟩ := raising_begins (ntd_interruptible (g := g) (c := c)) (fun r : NtdReport V S M ML => r.vertex) raises c.next x hx
    fuel (prepareLimit limit) (ntdInit g c already starts)
  exact ⟨raises_at_first (ntd_interruptible (g := g) (c := c)) raises c.next fuel (prepareLimit limit)
    (ntdInit g c already starts) none (.inl rfl), h1, h2, fun e he => (h3 e he).2⟩

/-- Outside of the loops over edges, the next action is to read edges. -/
theorem ntd_next_read (fuel : Nat) (lim : Option Int) (s : NtdState V L S M ML)
    (h : ∀ v e es, s.pc ≠ .edges v (e :: es)) :
    ∀ a ∈ (actsOf (ntdStep g c) (ntdWho c) (fun r : NtdReport V S M ML => r.vertex) fuel lim s).head?, ∃ u, a = Act.read u := by
  induction fuel generalizing s with
  | zero => simp [actsOf]
  | succ fuel ih =>
    rcases hpc : s.pc with _ | ⟨v, _ | ⟨e, es⟩⟩
    · rcases hs : ntdStep g c s with s' | e | s' | ⟨r, s'⟩ | s' <;> simp only [actsOf, hs]
      · simp
      · simp
      · simp only [ntdStep, hpc] at hs
        repeat' split at hs
        all_goals cases hs
      · simp only [ntdStep, hpc] at hs
        repeat' split at hs
        all_goals cases hs
      · obtain ⟨u, -, -, -, hw, -⟩ := ntd_expand hs
        rcases checkLimit lim with _ | lim' <;> simp [hw]
    · simp only [actsOf, ntdStep, hpc]
      exact ih _ (by simp)
    · exact absurd hpc (h v e es)

/-- **C91 for neighbors-then-depth search, edges before the exception.** -/
theorem C91_ntd_before (raises : V → Bool) (already : S) (starts : List V) (limit : Option Int) (fuel : Nat) (v : V)
    (h : (ntdRaisingRun g c raises already starts limit fuel).exception? = some v) :
    ∃ rest, ntdActs g c already starts limit fuel =
        (ntdRaisingRun g c raises already starts limit fuel).acts (fun r => r.vertex) ++ rest ∧
      ∀ a ∈ rest.head?, ∃ u, a = Act.read u := by
  obtain ⟨f', l', s', h1, h2⟩ := raising_cut (fun r : NtdReport V S M ML => r.vertex) raises fuel (prepareLimit limit)
    (ntdInit g c already starts) v h
  refine ⟨_, h2, ntd_next_read f' l' s' (fun u e es hpc => ?_)⟩
  simp [ntdOpen, hpc] at h1

end

/-! ## Depth-first search -/

section
variable {g : TravGear V K L S M ML} {c : DfsCfg V K L}

/-- More edges in the loop. -/
def dfsMore (x : V → List (V × L)) (s : DfsState V L S M ML) : DfsState V L S M ML :=
  match s.pc with
  | .edges v es => { s with pc := .edges v (es ++ x v) }
  | _ => s

theorem dfsMore_eq (x : V → List (V × L)) (s : DfsState V L S M ML) (h : dfsOpen s = none) : dfsMore x s = s := by
  unfold dfsOpen at h
  unfold dfsMore
  split <;> simp_all

theorem dfsPop_open (s : DfsState V L S M ML) : (dfsPop c s).pc = s.pc := by
  unfold dfsPop
  split <;> rfl

/-- Entering a vertex does not start a loop over edges. -/
theorem dfsEnter_closed (s : DfsState V L S M ML) (v : V) :
    (dfsEnter c s v : Step _ (DfsReport V S M ML)).Closed dfsOpen := by
  by_cases h1 : some v = s.cur <;> by_cases h2 : c.reportStart = true <;> by_cases h3 : c.reportSucc = true <;>
    simp [dfsEnter, dfsOpen, h1, h2, h3, Step.Closed]

/-- In the loop over the stack, no loop over edges is started. -/
theorem dfsLoop_closed (s : DfsState V L S M ML) (hpc : s.pc = .loop) : (dfsStep g c s).Closed dfsOpen := by
  simp only [dfsStep, hpc]
  rcases (dfsPop c s).toVisit with _ | ⟨u, rest⟩
  · simp [Step.Closed, dfsOpen]
  · by_cases ht : c.isTree = true
    · simp only [ht, if_true]
      exact dfsEnter_closed _ _
    · by_cases hq : (g.so.checkAdd (dfsPop c s).visited (c.vid u)).1 = true
      · simp [ht, hq, Step.Closed, dfsOpen, dfsPop_open, hpc]
      · simp only [ht, hq, Bool.false_eq_true, if_false]
        exact dfsEnter_closed _ _

theorem dfs_interruptible :
    Interruptible (fun next => dfsStep g { c with next := next }) (dfsWho c) dfsOpen (fun _ => false) dfsMore := by
  constructor
  · intro f x s h _
    rcases hpc : s.pc with _ | _ | ⟨v, rep⟩ | ⟨v, _ | ⟨e, es⟩⟩
    · rw [dfsMore_eq x s (by simp [dfsOpen, hpc])]
      simp only [dfsStep, hpc]
      rcases s.starts with _ | ⟨u, rest⟩ <;> simp [Step.mapState, dfsMore, hpc]
    · rw [dfsMore_eq x s (by simp [dfsOpen, hpc]),
        (dfsLoop_closed (g := g) (c := { c with next := f }) s hpc).mapState (fun s' => dfsMore_eq x s')]
      simp only [dfsStep, hpc]
      rfl
    · rw [dfsMore_eq x s (by simp [dfsOpen, hpc])]
      simp only [dfsStep, hpc]
      split <;> rfl
    · simp [dfsMore, dfsStep, hpc, Step.mapState, h v (by simp [dfsOpen, hpc])]
    · simp only [dfsMore, dfsStep, hpc, List.cons_append]
      split <;> rfl
  · intro x s
    rcases hpc : s.pc with _ | _ | ⟨v, rep⟩ | ⟨v, es⟩ <;> simp [dfsMore, dfsWho, hpc]
  · exact (dfs_readsOne (g := g) (c := c)).expands
  · intro f s
    rcases hpc : s.pc with _ | _ | ⟨v, rep⟩ | ⟨v, _ | ⟨e, es⟩⟩
    · simp only [dfsStep, hpc]
      rcases s.starts with _ | ⟨u, rest⟩ <;> simp [OpenShape, dfsOpen, hpc]
    · exact (dfsLoop_closed (g := g) (c := { c with next := f }) s hpc).shape (by simp [dfsOpen, hpc])
    · simp only [dfsStep, hpc]
      split
      · simp [OpenShape, dfsOpen, hpc]
      · rename_i hr
        exact ⟨by simp [dfsOpen, hpc], v, by simp [dfsWho, hpc, hr], rfl⟩
    · simp [dfsStep, OpenShape, dfsOpen, hpc]
    · simp only [dfsStep, hpc]
      split <;> simp [OpenShape, dfsOpen, hpc]

/-- **C91 for depth-first search without trace.** -/
theorem C91_dfs (raises : V → Bool) (full : V → List (V × L)) (hf : EdgesUntilException raises c.next full) (already : S)
    (starts : List V) (limit : Option Int) (fuel : Nat) :
    let run := dfsRaisingRun g c raises already starts limit fuel
    let whole := dfsRun g { c with next := full } already starts limit fuel
    let acts := dfsActs g { c with next := full } already starts limit fuel
    RaisesAtFirst raises run.reads run.exception? (run.ending = .usual .done) ∧
    run.acts (fun r => r.vertex) <+: acts ∧ run.reports <+: whole.reports ∧
    (∀ e, run.ending = .usual e → run.reports = whole.reports ∧ whole.ending = e) := by
  obtain ⟨x, rfl, hx⟩ := hf.more
  obtain ⟨h1, h2, h3⟩ := raising_begins (dfs_interruptible (g := g) (c := c)) (fun r : DfsReport V S M ML => r.vertex) raises c.next x hx
    fuel (prepareLimit limit) (dfsInit g c already starts)
  exact ⟨raises_at_first (dfs_interruptible (g := g) (c := c)) raises c.next fuel (prepareLimit limit)
    (dfsInit g c already starts) none (.inl rfl), h1, h2, fun e he => (h3 e he).2⟩

end

/-! ## Depth-first search with trace -/

section
variable {g : TravGear V K L S M ML} {c : TraceCfg V K L}

/-- More edges in the loop. -/
def trMore (x : V → List (V × L)) (s : TraceState V K L S M ML) : TraceState V K L S M ML :=
  match s.pc with
  | .edges v es => { s with pc := .edges v (es ++ x v) }
  | _ => s

theorem trMore_eq (x : V → List (V × L)) (s : TraceState V K L S M ML) (h : trOpen s = none) : trMore x s = s := by
  unfold trOpen at h
  unfold trMore
  split <;> simp_all

theorem trEnter_closed (s : TraceState V K L S M ML) (v : V) : (trEnter g c s v).Closed trOpen := by
  unfold trEnter
  split
  · trivial
  · dsimp only
    generalize (if some v = s.cur then DfsEvent.enteringStart else .enteringSuccessor) = ev
    by_cases hr : c.report ev = true <;> simp [hr, TraceState.yield, Step.Closed, trOpen]

theorem trShowEdge_closed (s : TraceState V K L S M ML) (v : V) (ev : DfsEvent) : (trShowEdge c s v ev).Closed trOpen := by
  unfold trShowEdge
  split
  · split
    · trivial
    · simp [TraceState.yield, Step.Closed, trOpen]
  · simp [Step.Closed, trOpen]

theorem trRevisit_closed (s : TraceState V K L S M ML) (v : V) (ev : DfsEvent) : (trRevisit g c s v ev).Closed trOpen := by
  unfold trRevisit
  split
  · exact trShowEdge_closed _ _ _
  · split
    · dsimp only
      split
      · trivial
      · split
        · split
          · trivial
          · exact trShowEdge_closed _ _ _
        · exact trShowEdge_closed _ _ _
    · simp [Step.Closed, trOpen]

theorem trTry_closed (s : TraceState V K L S M ML) (v : V) : (trTry g c s v).Closed trOpen := by
  unfold trTry
  split
  · exact trEnter_closed _ _
  · split
    · exact trEnter_closed _ _
    · dsimp only
      split
      · split
        · split <;> simp [TraceState.yield, Step.Closed, trOpen]
        · exact trRevisit_closed _ _ _
      · exact trEnter_closed _ _
    · dsimp only
      split
      · exact trRevisit_closed _ _ _
      · exact trEnter_closed _ _

theorem trPop_closed (s : TraceState V K L S M ML) : (trPop g c s).Closed trOpen := by
  unfold trPop
  split
  · trivial
  · split
    · split
      · trivial
      · exact trTry_closed _ _
    · exact trTry_closed _ _

theorem trLoop_closed (s : TraceState V K L S M ML) (nl : Bool) (hpc : s.pc = .loop nl) : (trStep g c s).Closed trOpen := by
  simp only [trStep, hpc]
  split
  · simp [Step.Closed, trOpen]
  · exact trPop_closed _
  · split
    · trivial
    · split
      · split <;> simp [TraceState.yield, Step.Closed, trOpen]
      · split <;> simp [TraceState.yield, Step.Closed, trOpen]

theorem trLeave_closed (s : TraceState V K L S M ML) (v : V) (last nl : Bool) (hpc : s.pc = .leave v last nl) :
    (trStep g c s).Closed trOpen := by
  simp only [trStep, hpc]
  split
  · trivial
  · split
    · trivial
    · simp [Step.Closed, trOpen]

theorem tr_interruptible :
    Interruptible (fun next => trStep g { c with next := next }) (trWho c) trOpen (fun _ => false) trMore := by
  constructor
  · intro f x s h _
    rcases hpc : s.pc with _ | nl | ⟨v, last, nl⟩ | _ | _ | ⟨v, rep⟩ | ⟨v, _ | ⟨e, es⟩⟩
    · rw [trMore_eq x s (by simp [trOpen, hpc])]
      simp only [trStep, hpc]
      rcases s.starts with _ | ⟨u, rest⟩ <;> simp [Step.mapState, trMore, hpc]
    · rw [trMore_eq x s (by simp [trOpen, hpc]),
        (trLoop_closed (g := g) (c := { c with next := f }) s nl hpc).mapState (fun s' => trMore_eq x s')]
      simp only [trStep, hpc]
      rfl
    · rw [trMore_eq x s (by simp [trOpen, hpc]),
        (trLeave_closed (g := g) (c := { c with next := f }) s v last nl hpc).mapState (fun s' => trMore_eq x s')]
      simp only [trStep, hpc]
    · rw [trMore_eq x s (by simp [trOpen, hpc])]
      simp only [trStep, hpc]
      rfl
    · rw [trMore_eq x s (by simp [trOpen, hpc])]
      simp only [trStep, hpc]
      rfl
    · rw [trMore_eq x s (by simp [trOpen, hpc])]
      simp only [trStep, hpc]
      split <;> rfl
    · simp [trMore, trStep, hpc, Step.mapState, h v (by simp [trOpen, hpc])]
    · simp only [trMore, trStep, hpc, List.cons_append]
      rfl
  · intro x s
    rcases hpc : s.pc with _ | nl | ⟨v, last, nl⟩ | _ | _ | ⟨v, rep⟩ | ⟨v, es⟩ <;> simp [trMore, trWho, hpc]
  · exact (tr_readsOne (g := g) (c := c)).expands
  · intro f s
    rcases hpc : s.pc with _ | nl | ⟨v, last, nl⟩ | _ | _ | ⟨v, rep⟩ | ⟨v, _ | ⟨e, es⟩⟩
    · simp only [trStep, hpc]
      rcases s.starts with _ | ⟨u, rest⟩ <;> simp [OpenShape, trOpen, hpc]
    · exact (trLoop_closed (g := g) (c := { c with next := f }) s nl hpc).shape (by simp [trOpen, hpc])
    · exact (trLeave_closed (g := g) (c := { c with next := f }) s v last nl hpc).shape (by simp [trOpen, hpc])
    · simp [trStep, OpenShape, trOpen, hpc]
    · simp [trStep, OpenShape, trOpen, hpc]
    · simp only [trStep, hpc]
      split
      · simp [OpenShape, trOpen, hpc]
      · rename_i hr
        exact ⟨by simp [trOpen, hpc], v, by simp [trWho, hpc, hr], rfl⟩
    · simp [trStep, OpenShape, trOpen, hpc]
    · simp [trStep, OpenShape, trOpen, hpc]

/-- **C91 for depth-first search with trace (all modes and events).** -/
theorem C91_dfs_trace (raises : V → Bool) (full : V → List (V × L)) (hf : EdgesUntilException raises c.next full) (already : S)
    (starts : List V) (limit : Option Int) (fuel : Nat) :
    let run := trRaisingRun g c raises already starts limit fuel
    let whole := trRun g { c with next := full } already starts limit fuel
    let acts := trActs g { c with next := full } already starts limit fuel
    RaisesAtFirst raises run.reads run.exception? (run.ending = .usual .done) ∧
    run.acts (fun r => r.vertex) <+: acts ∧ run.reports <+: whole.reports ∧
    (∀ e, run.ending = .usual e → run.reports = whole.reports ∧ whole.ending = e) := by
  obtain ⟨x, rfl, hx⟩ := hf.more
  obtain ⟨h1, h2, h3⟩ := raising_begins (tr_interruptible (g := g) (c := c)) (fun r : TraceReport V K L S M ML => r.vertex) raises c.next x hx
    fuel (prepareLimit limit) (trInit g already starts)
  exact ⟨raises_at_first (tr_interruptible (g := g) (c := c)) raises c.next fuel (prepareLimit limit)
    (trInit g already starts) none (.inl rfl), h1, h2, fun e he => (h3 e he).2⟩

end

/-! ## Topological sorting -/

section
variable {g : TravGear V K L S M ML} {c : TravCfg V K L}

/-- More edges in the loop. -/
def topoMore (x : V → List (V × L)) (s : TopoState V L S M ML) : TopoState V L S M ML :=
  match s.pc with
  | .edges v es => { s with pc := .edges v (es ++ x v) }
  | _ => s

theorem topoMore_eq (x : V → List (V × L)) (s : TopoState V L S M ML) (h : topoOpen s = none) : topoMore x s = s := by
  unfold topoOpen at h
  unfold topoMore
  split <;> simp_all

theorem topo_interruptible :
    Interruptible (fun next => topoStep g { c with next := next }) (topoWho g c) topoOpen (fun _ => false) topoMore := by
  constructor
  · intro f x s h _
    rcases hpc : s.pc with _ | ⟨v, _ | ⟨e, es⟩⟩ | _
    · rw [topoMore_eq x s (by simp [topoOpen, hpc])]
      simp only [topoStep, hpc]
      rcases s.stack with _ | ⟨u, rest⟩
      · simp [Step.mapState, topoMore, hpc]
      · by_cases h1 : g.so.contains s.trace (c.vid u) = true
        · simp [h1, Step.mapState, topoMore]
        · by_cases h2 : 0 < s.depth
          · by_cases h3 : (g.so.checkAdd s.visited (c.vid u)).1 = true <;> simp [h1, h2, h3, Step.mapState, topoMore]
          · simp [h1, h2, Step.mapState, topoMore]
    · simp [topoMore, topoStep, hpc, Step.mapState, h v (by simp [topoOpen, hpc])]
    · simp only [topoMore, topoStep, hpc, List.cons_append]
      split
      · split <;> rfl
      · rfl
    · rw [topoMore_eq x s (by simp [topoOpen, hpc])]
      simp [topoStep, hpc, Step.mapState]
  · intro x s
    rcases hpc : s.pc with _ | ⟨v, es⟩ | _ <;> simp [topoMore, topoWho, hpc]
  · exact (topo_readsOne (g := g) (c := c)).expands
  · intro f s
    rcases hpc : s.pc with _ | ⟨v, _ | ⟨e, es⟩⟩ | _
    · simp only [topoStep, hpc]
      rcases hs : s.stack with _ | ⟨u, rest⟩
      · simp [OpenShape, topoOpen, hpc]
      · by_cases h1 : g.so.contains s.trace (c.vid u) = true
        · simp [h1, OpenShape, topoOpen, hpc]
        · by_cases h2 : 0 < s.depth
          · by_cases h3 : (g.so.checkAdd s.visited (c.vid u)).1 = true <;>
              simp [h1, h2, h3, OpenShape, topoOpen, hpc, topoWho, hs]
          · simp [h1, h2, OpenShape, topoOpen, hpc, topoWho, hs]
    · simp [topoStep, OpenShape, topoOpen, hpc]
    · simp only [topoStep, hpc]
      split
      · split
        · trivial
        · simp [OpenShape, topoOpen, hpc, topoStep]
        · simp [OpenShape, topoOpen, hpc]
      · simp [OpenShape, topoOpen, hpc, topoPush]
    · simp [topoStep, OpenShape, hpc]

theorem topoTree_interruptible :
    Interruptible (fun next => topoTreeStep g { c with next := next }) topoTreeWho topoOpen (fun _ => false) topoMore := by
  constructor
  · intro f x s h _
    rcases hpc : s.pc with _ | ⟨v, _ | ⟨e, es⟩⟩ | _
    · rw [topoMore_eq x s (by simp [topoOpen, hpc])]
      simp only [topoTreeStep, hpc]
      rcases s.stack with _ | ⟨u, rest⟩ <;> rcases s.leave with _ | ⟨_ | _, ls⟩ <;> simp [Step.mapState, topoMore, hpc]
    · simp [topoMore, topoTreeStep, hpc, Step.mapState, h v (by simp [topoOpen, hpc])]
    · simp [topoMore, topoTreeStep, hpc, Step.mapState, topoPush]
    · rw [topoMore_eq x s (by simp [topoOpen, hpc])]
      simp [topoTreeStep, hpc, Step.mapState]
  · intro x s
    rcases hpc : s.pc with _ | ⟨v, es⟩ | _ <;> simp [topoMore, topoTreeWho, hpc]
  · exact (topoTree_readsOne (g := g) (c := c)).expands
  · intro f s
    rcases hpc : s.pc with _ | ⟨v, _ | ⟨e, es⟩⟩ | _
    · simp only [topoTreeStep, hpc]
      rcases hs : s.stack with _ | ⟨u, rest⟩ <;> rcases hl : s.leave with _ | ⟨_ | _, ls⟩ <;>
        simp [OpenShape, topoOpen, hpc, topoTreeWho, hs, hl]
    · simp [topoTreeStep, OpenShape, topoOpen, hpc]
    · simp [topoTreeStep, OpenShape, topoOpen, hpc, topoPush]
    · simp [topoTreeStep, OpenShape, hpc]

/-- **C91 for topological sorting.** -/
theorem C91_topo (raises : V → Bool) (full : V → List (V × L)) (hf : EdgesUntilException raises c.next full) (already : S)
    (starts : List V) (limit : Option Int) (fuel : Nat) :
    let run := topoRaisingRun g c raises already starts limit fuel
    let whole := topoRun g { c with next := full } already starts limit fuel
    let acts := topoActs g { c with next := full } already starts limit fuel
    RaisesAtFirst raises run.reads run.exception? (run.ending = .usual .done) ∧
    run.acts (fun r => r.vertex) <+: acts ∧ run.reports <+: whole.reports ∧
    (∀ e, run.ending = .usual e → run.reports = whole.reports ∧ whole.ending = e) := by
  obtain ⟨x, rfl, hx⟩ := hf.more
  obtain ⟨next, vid, _ | _, bp⟩ := c
  · obtain ⟨h1, h2, h3⟩ := raising_begins (topo_interruptible (g := g) (c := ⟨next, vid, false, bp⟩))
      (fun r : TopoReport V S M ML => r.vertex) raises next x hx fuel (prepareLimit limit) (topoInit g ⟨next, vid, false, bp⟩ already starts)
    exact ⟨raises_at_first (topo_interruptible (g := g) (c := ⟨next, vid, false, bp⟩)) raises next fuel (prepareLimit limit)
      (topoInit g ⟨next, vid, false, bp⟩ already starts) none (.inl rfl), h1, h2, fun e he => (h3 e he).2⟩
  · obtain ⟨h1, h2, h3⟩ := raising_begins (topoTree_interruptible (g := g) (c := ⟨next, vid, true, bp⟩))
      (fun r : TopoReport V S M ML => r.vertex) raises next x hx fuel (prepareLimit limit) (topoInit g ⟨next, vid, true, bp⟩ already starts)
    exact ⟨raises_at_first (topoTree_interruptible (g := g) (c := ⟨next, vid, true, bp⟩)) raises next fuel (prepareLimit limit)
      (topoInit g ⟨next, vid, true, bp⟩ already starts) none (.inl rfl), h1, h2, fun e he => (h3 e he).2⟩

end

/-! ## Minimum spanning tree -/

section
variable {W : Type} [LinearOrder W] {g : TravGear V K L S M ML} {c : MstCfg V K L W}

/-- More edges in the loop. -/
def mstMore (x : V → List (V × W × L)) (s : MstState V L W S M ML) : MstState V L W S M ML :=
  match s.pc with
  | .edges v es => { s with pc := .edges v (es ++ x v) }
  | _ => s

theorem mst_interruptible :
    Interruptible (fun next : V → List (V × W × L) => mstStep g { c with next := next }) mstWho mstOpen mstEager mstMore := by
  constructor
  · intro f x s h h'
    obtain ⟨pc, heap, no, vis, pr, la⟩ := s
    rcases pc with (_ | ⟨v, vs⟩) | _ | v | ⟨v, _ | ⟨e, es⟩⟩
    · rfl
    · simp [mstMore, mstStep, Step.mapState, h' v rfl rfl]
    · rcases heap with _ | ⟨e, rest⟩
      · rfl
      · by_cases hq : (g.so.checkAdd vis (c.vid e.item.2.1)).1 = true <;> simp [mstMore, mstStep, Step.mapState, hq]
    · rfl
    · simp [mstMore, mstStep, Step.mapState, h v rfl]
    · by_cases hq : g.so.contains vis (c.vid e.1) = true <;> simp [mstMore, mstStep, Step.mapState, hq]
  · intro x s
    obtain ⟨pc, heap, no, vis, pr, la⟩ := s
    rcases pc with (_ | ⟨v, vs⟩) | _ | v | ⟨v, es⟩ <;> rfl
  · exact (mst_readsOne (g := g) (c := c)).expands
  · intro f s
    obtain ⟨pc, heap, no, vis, pr, la⟩ := s
    rcases pc with (_ | ⟨v, vs⟩) | _ | v | ⟨v, _ | ⟨e, es⟩⟩
    · rfl
    · exact ⟨rfl, v, rfl, rfl⟩
    · rcases heap with _ | ⟨e, rest⟩
      · rfl
      · by_cases hq : (g.so.checkAdd vis (c.vid e.item.2.1)).1 = true <;> simp [mstStep, OpenShape, mstOpen, hq]
    · exact ⟨rfl, v, rfl, rfl⟩
    · rfl
    · by_cases hq : g.so.contains vis (c.vid e.1) = true <;> simp [mstStep, OpenShape, mstOpen, hq]

/-- **C91 for the minimum spanning tree traversal.** -/
theorem C91_mst (raises : V → Bool) (full : V → List (V × W × L)) (hf : EdgesUntilException raises c.next full)
    (starts : List V) (limit : Option Int) (fuel : Nat) :
    let run := mstRaisingRun g c raises starts limit fuel
    let whole := mstRun g { c with next := full } starts limit fuel
    let acts := mstActs g { c with next := full } starts limit fuel
    RaisesAtFirst raises run.reads run.exception? (run.ending = .usual .done) ∧
    run.acts (fun r => r.vertex) <+: acts ∧ run.reports <+: whole.reports ∧
    (∀ e, run.ending = .usual e → run.reports = whole.reports ∧ whole.ending = e) := by
  obtain ⟨x, rfl, hx⟩ := hf.more
  simp only [mstRaisingRun, mstRun, mstActs]
  split
  · exact ⟨.nil, by simp [RaisingResult.acts], by simp [RaisingResult.reports], fun e he => ⟨rfl, by simpa using he⟩⟩
  · obtain ⟨h1, h2, h3⟩ := raising_begins (mst_interruptible (g := g) (c := c)) (fun r : MstReport V L W M ML => r.vertex) raises
      c.next x hx fuel (prepareLimit limit) (mstInit g c starts)
    exact ⟨raises_at_first (mst_interruptible (g := g) (c := c)) raises c.next fuel (prepareLimit limit)
      (mstInit g c starts) none (.inl rfl), h1, h2, fun e he => (h3 e he).2⟩

end

/-! ## Shortest paths and A* -/

section
variable {W D : Type} [AddCommMonoid W] [LinearOrder W] {g : WGear V K L W M ML D} {c : WCfg V K L W}

/-- More edges in the loop. -/
def spMore (x : V → List (V × W × L)) (s : SpState V L W M ML D) : SpState V L W M ML D :=
  match s.pc with
  | .edges v w ec es => { s with pc := .edges v w ec (es ++ x v) }
  | _ => s

theorem sp_interruptible :
    Interruptible (fun next : V → List (V × W × L) => spStep g { c with next := next }) spWho spOpen (fun _ => false) spMore := by
  constructor
  · intro f x s h _
    obtain ⟨pc, heap, no, d, pr, la⟩ := s
    rcases pc with _ | ⟨v, w, ec⟩ | ⟨v, w, ec, _ | ⟨⟨n, y, l⟩, es⟩⟩
    · rcases heap with _ | ⟨e, rest⟩
      · rfl
      · by_cases ht : c.isTree = true <;> by_cases h1 : g.dd.get d (c.vid e.item.1) < e.key <;> by_cases h2 : e.item.2 > 0 <;>
          simp [spMore, spStep, ht, h1, h2, Step.mapState]
    · rfl
    · simp [spMore, spStep, Step.mapState, h v rfl]
    · simp only [spMore, spStep, List.cons_append]
      split
      · rfl
      · rw [show spImprove g { c with next := fun v => f v ++ x v } d (c.vid n) (y + w) = spImprove g { c with next := f } d (c.vid n) (y + w)
          from rfl]
        rcases spImprove g { c with next := f } d (c.vid n) (y + w) with _ | d' <;> rfl
  · intro x s
    obtain ⟨pc, heap, no, d, pr, la⟩ := s
    rcases pc with _ | ⟨v, w, ec⟩ | ⟨v, w, ec, es⟩ <;> rfl
  · intro f s v hv
    obtain ⟨pc, heap, no, d, pr, la⟩ := s
    rcases pc with _ | ⟨u, w, ec⟩ | ⟨u, w, ec, es⟩
    · simp [spWho] at hv
    · exact ⟨_, rfl⟩
    · simp [spWho] at hv
  · intro f s
    obtain ⟨pc, heap, no, d, pr, la⟩ := s
    rcases pc with _ | ⟨v, w, ec⟩ | ⟨v, w, ec, _ | ⟨⟨n, y, l⟩, es⟩⟩
    · rcases heap with _ | ⟨e, rest⟩
      · rfl
      · by_cases ht : c.isTree = true <;> by_cases h1 : g.dd.get d (c.vid e.item.1) < e.key <;> by_cases h2 : e.item.2 > 0 <;>
          simp [spStep, ht, h1, h2, OpenShape, spOpen]
    · exact ⟨rfl, v, rfl, rfl⟩
    · rfl
    · simp only [spStep]
      split
      · trivial
      · split <;> exact .inl rfl

theorem spInit_edges (f : V → List (V × W × L)) (known : Option D) (starts : List V) :
    (spInit g { c with next := f } known starts : SpState V L W M ML D) = spInit g c known starts := by
  have h : ∀ (d : D) (vs : List V) (no : Int), spStartEntries g { c with next := f } d vs no = spStartEntries g c d vs no := by
    intro d vs
    induction vs with
    | nil => intro no; rfl
    | cons v vs ih => intro no; simp only [spStartEntries, ih]
  unfold spInit
  rw [h]
  rfl

/-- **C91 for the shortest paths traversal.** -/
theorem C91_shortest_paths (raises : V → Bool) (full : V → List (V × W × L)) (hf : EdgesUntilException raises c.next full) (known : Option D)
    (starts : List V) (limit : Option Int) (fuel : Nat) :
    let run := spRaisingRun g c raises known starts limit fuel
    let whole := spRun g { c with next := full } known starts limit fuel
    let acts := spActs g { c with next := full } known starts limit fuel
    RaisesAtFirst raises run.reads run.exception? (run.ending = .usual .done) ∧
    run.acts (fun r => r.vertex) <+: acts ∧ run.reports <+: whole.reports ∧
    (∀ e, run.ending = .usual e → run.reports = whole.reports ∧ whole.ending = e) := by
  obtain ⟨x, rfl, hx⟩ := hf.more
  simp only [spRaisingRun, spRun, spActs, spInit_edges]
  obtain ⟨h1, h2, h3⟩ := raising_begins (sp_interruptible (g := g) (c := c)) (fun r : SpReport V W M ML D => r.vertex) raises c.next x hx
    fuel (prepareLimit limit) (spInit g c known starts)
  exact ⟨raises_at_first (sp_interruptible (g := g) (c := c)) raises c.next fuel (prepareLimit limit)
    (spInit g c known starts) none (.inl rfl), h1, h2, fun e he => (h3 e he).2⟩

end

section
variable {W D : Type} [AddCommMonoid W] [LinearOrder W] {g : WGear V K L W M ML D} {c : AStarCfg V K L W}

/-- More edges in the loop. -/
def aMore (x : V → List (V × W × L)) (s : AStarState V L W M ML D) : AStarState V L W M ML D :=
  match s.pc with
  | .edges v w ec es => { s with pc := .edges v w ec (es ++ x v) }
  | _ => s

theorem a_interruptible :
    Interruptible (fun next : V → List (V × W × L) => aStep g { c with next := next }) aWho aOpen (fun _ => false) aMore := by
  constructor
  · intro f x s h _
    obtain ⟨pc, heap, no, d, gu, pr, la⟩ := s
    rcases pc with _ | ⟨v, w, ec⟩ | ⟨v, w, ec, _ | ⟨⟨n, y, l⟩, es⟩⟩
    · rcases heap with _ | ⟨e, rest⟩
      · rfl
      · by_cases ht : c.isTree = true <;> by_cases h1 : g.dd.get gu (c.vid e.item.1) < e.key <;> by_cases h2 : e.item.2 > 0 <;>
          simp [aMore, aStep, ht, h1, h2, Step.mapState]
    · rfl
    · simp [aMore, aStep, Step.mapState, h v rfl]
    · simp only [aMore, aStep, List.cons_append]
      split
      · rfl
      · rw [show aImprove g { c with next := fun v => f v ++ x v } d (c.vid n) (y + w) = aImprove g { c with next := f } d (c.vid n) (y + w)
          from rfl]
        rcases aImprove g { c with next := f } d (c.vid n) (y + w) with _ | d'
        · rfl
        · dsimp only
          split <;> rfl
  · intro x s
    obtain ⟨pc, heap, no, d, gu, pr, la⟩ := s
    rcases pc with _ | ⟨v, w, ec⟩ | ⟨v, w, ec, es⟩ <;> rfl
  · intro f s v hv
    obtain ⟨pc, heap, no, d, gu, pr, la⟩ := s
    rcases pc with _ | ⟨u, w, ec⟩ | ⟨u, w, ec, es⟩
    · simp [aWho] at hv
    · exact ⟨_, rfl⟩
    · simp [aWho] at hv
  · intro f s
    obtain ⟨pc, heap, no, d, gu, pr, la⟩ := s
    rcases pc with _ | ⟨v, w, ec⟩ | ⟨v, w, ec, _ | ⟨⟨n, y, l⟩, es⟩⟩
    · rcases heap with _ | ⟨e, rest⟩
      · rfl
      · by_cases ht : c.isTree = true <;> by_cases h1 : g.dd.get gu (c.vid e.item.1) < e.key <;> by_cases h2 : e.item.2 > 0 <;>
          simp [aStep, ht, h1, h2, OpenShape, aOpen]
    · exact ⟨rfl, v, rfl, rfl⟩
    · rfl
    · simp only [aStep]
      split
      · trivial
      · split
        · exact .inl rfl
        · split
          · trivial
          · exact .inl rfl

theorem aInit_edges (f : V → List (V × W × L)) (known knownGuesses : Option D) (starts : List V) :
    (aInit g { c with next := f } known knownGuesses starts : AStarState V L W M ML D) =
      aInit g c known knownGuesses starts := by
  have h : ∀ (d : D) (vs : List V) (no : Int), aStartEntries g { c with next := f } d vs no = aStartEntries g c d vs no := by
    intro d vs
    induction vs with
    | nil => intro no; rfl
    | cons v vs ih => intro no; simp only [aStartEntries, ih]
  unfold aInit
  simp only [h]
  rfl

/-- **C91 for A*.** -/
theorem C91_astar (raises : V → Bool) (full : V → List (V × W × L)) (hf : EdgesUntilException raises c.next full) (known knownGuesses : Option D)
    (starts : List V) (limit : Option Int) (fuel : Nat) :
    let run := aRaisingRun g c raises known knownGuesses starts limit fuel
    let whole := aRun g { c with next := full } known knownGuesses starts limit fuel
    let acts := aActs g { c with next := full } known knownGuesses starts limit fuel
    RaisesAtFirst raises run.reads run.exception? (run.ending = .usual .done) ∧
    run.acts (fun r => r.vertex) <+: acts ∧ run.reports <+: whole.reports ∧
    (∀ e, run.ending = .usual e → run.reports = whole.reports ∧ whole.ending = e) := by
  obtain ⟨x, rfl, hx⟩ := hf.more
  simp only [aRaisingRun, aRun, aActs, aInit_edges]
  obtain ⟨h1, h2, h3⟩ := raising_begins (a_interruptible (g := g) (c := c)) (fun r : AStarReport V W M ML D => r.vertex) raises c.next x hx
    fuel (prepareLimit limit) (aInit g c known knownGuesses starts)
  exact ⟨raises_at_first (a_interruptible (g := g) (c := c)) raises c.next fuel (prepareLimit limit)
    (aInit g c known knownGuesses starts) none (.inl rfl), h1, h2, fun e he => (h3 e he).2⟩

end

/-! ## Examples -/

/-- For vertex 2, there is an exception after the first of three edges. -/
def exRaisingNext : Nat → List (Nat × Char) := fun v => if v = 2 then [(4, 'a')] else [(2 * v, 'a'), (v + 1, 'b'), (v + 2, 'c')]

example : EdgesUntilException (fun v => v == 2) exRaisingNext (fun v : Nat => [(2 * v, 'a'), (v + 1, 'b'), (v + 2, 'c')]) := by
  intro v
  by_cases h : v = 2
  · subst h; exact ⟨⟨[(3, 'b'), (4, 'c')], rfl⟩, by simp⟩
  · simp [exRaisingNext, h]

example : (let r := bfsRaisingRun exHash ⟨exRaisingNext, id, false, true⟩ (fun v => v == 2) [] [1] none 40
    (r.acts (fun r => r.vertex), r.exception?)) = ([.read 1, .reported 2, .reported 3, .read 2, .reported 4], some 2) := by
  decide +kernel

example : (let r := topoRaisingRun exBits ⟨fun v => if v < 4 then [(v + 1, 'a')] else [], id, false, true⟩ (fun v => v == 9) [] [1] none 40
    (r.acts (fun r => r.vertex), r.exception?)) =
      ([.read 1, .read 2, .read 3, .read 4, .reported 4, .reported 3, .reported 2, .reported 1], none) := by
  decide +kernel

/-- In the minimum spanning tree traversal, an exception for a start vertex comes before any report. -/
example : (let r := mstRaisingRun exBits ⟨exReadsW, id, true⟩ (fun v => v == 5) [1, 5] none 40
    (r.acts (fun r => r.vertex), r.exception?)) = ([.read 1, .read 5], some 5) := by
  decide +kernel

example : (let r := spRaisingRun exWArr ⟨exReadsW, id, false, true, true, 1000⟩ (fun v => v == 3) none [1] none 40
    (r.acts (fun r => r.vertex), r.exception?)) = ([.read 1, .reported 2, .read 2, .reported 3, .read 3], some 3) := by
  decide +kernel

end NoGraphs
