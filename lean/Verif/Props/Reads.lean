import Verif.Proofs.Reads
import Verif.Props.SearchAwareDepth

/-! # Reading edges on demand: C79 for breadth-first search and neighbors-before-depth -/

set_option linter.unusedSectionVars false

namespace NoGraphs

open Spec

variable {V K L S M ML : Type} [DecidableEq V] [DecidableEq K]

/-- From a start vertex, or reported so far. -/
def Known (starts : List V) (t : List (Act V)) (v : V) : Prop := v ∈ starts ∨ Act.reported v ∈ t

theorem Known.mono {starts : List V} {t : List (Act V)} {v : V} (h : Known starts t v) (t' : List (Act V)) :
    Known starts (t ++ t') v := h.imp id (List.mem_append_left _)

theorem Known.last {starts : List V} {t : List (Act V)} {v : V} : Known starts (t ++ [.reported v]) v := .inr (by simp)

/-! ## The textbook versions -/

section
variable {vid : V → K} {ns : V → List V}

theorem fresh_tree (seen : K → Bool) (vs : List V) : fresh true vid seen vs = vs := by
  induction vs generalizing seen with
  | nil => rfl
  | cons v vs ih => simp [fresh, ih]

theorem queueActs_tree (seen seen' : K → Bool) (n : Nat) (q : List V) :
    queueActs true vid ns n q seen = queueActs true vid ns n q seen' := by
  induction n generalizing q with
  | zero => rfl
  | succ n ih =>
    cases q with
    | nil => rfl
    | cons v q => simp only [queueActs, fresh_tree, if_true, ih]

theorem stackActs_tree (seen seen' : K → Bool) (n : Nat) (q : List V) :
    stackActs true vid ns n q seen = stackActs true vid ns n q seen' := by
  induction n generalizing q with
  | zero => rfl
  | succ n ih =>
    cases q with
    | nil => rfl
    | cons v q => simp only [stackActs, fresh_tree, if_true, ih]

theorem seenWith_cons (seen : K → Bool) (v : V) (vs : List V) :
    seenWith vid seen (v :: vs) = seenWith vid (fun k => decide (k = vid v) || seen k) vs := by
  funext k
  simp only [seenWith, List.map_cons, List.mem_cons]
  by_cases h1 : k = vid v <;> by_cases h2 : k ∈ vs.map vid <;> simp [h1, h2]

theorem seenWith_nil (seen : K → Bool) : seenWith vid seen ([] : List V) = seen := by
  funext k; simp [seenWith]

end

/-- What a neighbor that is not skipped changes, for graphs and trees. -/
theorem bfsVisit_seen {g : TravGear V K L S M ML} (hg : g.so.Lawful) (tree bp : Bool) (vid : V → K) (s : S) (m : M) (ml : ML)
    (v : V) (e : V × L) :
    match bfsVisit g tree bp vid s m ml v e with
    | none => tree = false ∧ g.so.contains s (vid e.1) = true
    | some (vis, _, _) => (tree = true ∧ vis = s) ∨ (tree = false ∧ g.so.contains s (vid e.1) = false ∧
        g.so.contains vis = fun k => decide (k = vid e.1) || g.so.contains s k) := by
  unfold bfsVisit
  cases tree
  · have h2 : g.so.contains (g.so.checkAdd s (vid e.1)).2 = fun k => decide (k = vid e.1) || g.so.contains s k :=
      funext (hg.contains_checkAdd s _)
    cases h : g.so.contains s (vid e.1) <;> cases bp <;> simp [hg.checkAdd_fst, h, h2]
  · cases bp <;> simp

/-- What one step does to the actions that are still to come, `rest`, and to an invariant. -/
def RestStep {σ ρ : Type} (who : σ → Option V) (vert : ρ → V) (rest : Nat → σ → List (Act V)) (Inv : σ → Prop) (n : Nat)
    (s : σ) : Step σ ρ → Prop
  | .stop _ => rest n s = []
  | .fail _ => True
  | .tau s' => Inv s' ∧ rest n s = rest n s'
  | .emit r s' => Inv s' ∧ rest n s = .reported (vert r) :: rest n s'
  | .expand s' => Inv s' ∧ ∃ v, who s = some v ∧ rest (n + 1) s = .read v :: rest n s'

/-! ## Breadth-first search -/

section
variable {g : TravGear V K L S M ML} {c : TravCfg V K L}

/-- **C79 for breadth-first search, on demand.** The traversal reads the edges of a vertex only if this is a start vertex or
has been reported before. For any gear, any limit and any options. -/
theorem C79_bfs_on_demand (already : S) (starts : List V) (limit : Option Int) (fuel : Nat) :
    OnDemand starts (bfsActs g c already starts limit fuel) := by
  obtain ⟨s, h⟩ := acts_inv (m := bfsStep g c false) (who := bfsWho) (vert := fun r : BfsReport V S M ML => r.vertex)
    (fun t s => OnDemand starts t ∧ ∀ v ∈ s.toExpand ++ s.nextToExpand, Known starts t v)
    (by
      rintro t s s' ⟨h1, h2⟩ hm
      unfold bfsStep at hm
      rcases hpc : s.pc with _ | _ | ⟨v, es⟩ | _ <;> simp only [hpc] at hm
      · rcases hx : s.toExpand with _ | ⟨u, rest⟩ <;> simp only [hx, reduceCtorEq, Step.tau.injEq] at hm
        subst hm; exact ⟨h1, by simpa [hx] using h2⟩
      · rcases hx : s.toExpand with _ | ⟨u, rest⟩ <;> simp only [hx, reduceCtorEq, Step.tau.injEq] at hm
        subst hm; exact ⟨h1, by simpa [hx] using h2⟩
      · rcases es with _ | ⟨e, es⟩ <;> simp only at hm
        · cases hm; exact ⟨h1, h2⟩
        · split at hm <;> cases hm
          exact ⟨h1, h2⟩
      · cases hm
        exact ⟨h1, fun v hv => h2 v (by simp only [List.append_nil] at hv; exact List.mem_append_right _ hv)⟩)
    (by
      rintro t s r s' ⟨h1, h2⟩ hm
      unfold bfsStep at hm
      rcases hpc : s.pc with _ | _ | ⟨v, es⟩ | _ <;> simp only [hpc] at hm
      · rcases hx : s.toExpand with _ | ⟨u, rest⟩ <;> simp [hx] at hm
      · rcases hx : s.toExpand with _ | ⟨u, rest⟩ <;> simp [hx] at hm
      · rcases es with _ | ⟨e, es⟩ <;> simp only [reduceCtorEq] at hm
        split at hm <;> cases hm
        refine ⟨h1.report _, fun v hv => ?_⟩
        rw [← List.append_assoc] at hv
        rcases List.mem_append.1 hv with hv | hv
        · exact (h2 v hv).mono _
        · rw [List.mem_singleton.1 hv]; exact .last
      · simp at hm)
    (by
      rintro t s s' ⟨h1, h2⟩ hm
      unfold bfsStep at hm
      rcases hpc : s.pc with _ | _ | ⟨v, es⟩ | _ <;> simp only [hpc] at hm
      · rcases hx : s.toExpand with _ | ⟨u, rest⟩ <;> simp [hx] at hm
      · rcases hx : s.toExpand with _ | ⟨u, rest⟩ <;> simp only [hx, reduceCtorEq, Step.expand.injEq] at hm
        subst hm
        refine ⟨u, by simp [bfsWho, hpc, hx], h1.read (h2 u (by simp [hx])), fun v hv => (h2 v ?_).mono _⟩
        rw [hx]; exact List.mem_cons_of_mem _ hv
      · rcases es with _ | ⟨e, es⟩ <;> simp only [reduceCtorEq] at hm
        split at hm <;> cases hm
      · simp at hm)
    fuel (prepareLimit limit) [] (bfsInit g c already starts)
    ⟨.nil, fun v hv => .inl (by simpa [bfsInit] using hv)⟩
  simpa [bfsActs] using h.1

/-- **C79 for breadth-first search, locality.** If two graphs agree on the edges of all vertices whose edges are read during
the run in the one, then the run in the other is the same: same reports and expansions, same end. -/
theorem C79_bfs_local (next' : V → List (V × L)) (already : S) (starts : List V) (limit : Option Int) (fuel : Nat)
    (h : ∀ v, Act.read v ∈ bfsActs g c already starts limit fuel → c.next v = next' v) :
    (bfsRun g c already starts limit fuel).events = (bfsRun g { c with next := next' } already starts limit fuel).events ∧
    (bfsRun g c already starts limit fuel).ending = (bfsRun g { c with next := next' } already starts limit fuel).ending :=
  run_local (vert := fun r : BfsReport V S M ML => r.vertex) (bfs_readsOne (g := g) (c := c) false) c.next next' fuel (prepareLimit limit)
    (bfsInit g c already starts) h

/-- The actions of the textbook version that are still to come. -/
def bfsRest (g : TravGear V K L S M ML) (c : TravCfg V K L) (n : Nat) (s : BfsState V L S M ML) : List (Act V) :=
  match s.pc with
  | .edges _ es =>
    let new := fresh c.isTree c.vid (g.so.contains s.visited) (es.map (·.1))
    new.map Act.reported ++ queueActs c.isTree c.vid (fun v => (c.next v).map (·.1)) n
      (s.toExpand ++ s.nextToExpand ++ new)
      (if c.isTree then g.so.contains s.visited else seenWith c.vid (g.so.contains s.visited) new)
  | _ => queueActs c.isTree c.vid (fun v => (c.next v).map (·.1)) n (s.toExpand ++ s.nextToExpand)
      (g.so.contains s.visited)

/-- One of the two lists is empty between levels. -/
def BfsShape (s : BfsState V L S M ML) : Prop :=
  match s.pc with
  | .check => s.nextToExpand = []
  | .levelEnd => s.toExpand = []
  | _ => True

theorem queueActs_nil (tree : Bool) (vid : V → K) (ns : V → List V) (n : Nat) (seen : K → Bool) :
    queueActs tree vid ns n [] seen = [] := by cases n <;> rfl

theorem stackActs_nil (tree : Bool) (vid : V → K) (ns : V → List V) (n : Nat) (seen : K → Bool) :
    stackActs tree vid ns n [] seen = [] := by cases n <;> rfl

theorem bfs_rest (hg : g.so.Lawful) (n : Nat) (s : BfsState V L S M ML) (hs : BfsShape s) :
    RestStep bfsWho (fun r : BfsReport V S M ML => r.vertex) (bfsRest g c) BfsShape n s (bfsStep g c false s) := by
  unfold bfsStep
  unfold BfsShape at hs
  rcases hpc : s.pc with _ | _ | ⟨v, es⟩ | _ <;> simp only [hpc] at hs ⊢
  · rcases hx : s.toExpand with _ | ⟨u, rest⟩
    · show bfsRest g c n s = []
      simp [bfsRest, hpc, hx, hs, queueActs_nil]
    · exact ⟨trivial, by simp [bfsRest, hpc, hx]⟩
  · rcases hx : s.toExpand with _ | ⟨u, rest⟩
    · exact ⟨rfl, by simp [bfsRest, hpc, hx]⟩
    · refine ⟨trivial, u, by simp [bfsWho, hpc, hx], ?_⟩
      simp only [bfsRest, hpc, hx, List.cons_append, queueActs]
  · rcases es with _ | ⟨e, es⟩
    · refine ⟨trivial, ?_⟩
      simp only [bfsRest, hpc, List.map_nil, fresh, List.nil_append, List.append_nil, seenWith_nil, ite_self]
    · have hv := bfsVisit_seen hg c.isTree c.buildPaths c.vid s.visited s.preds s.labels v e
      rcases hb : bfsVisit g c.isTree c.buildPaths c.vid s.visited s.preds s.labels v e with _ | ⟨vis, pr, la⟩ <;>
        simp only [hb] at hv ⊢
      · refine ⟨trivial, ?_⟩
        simp only [bfsRest, hpc, List.map_cons, fresh, hv.1, hv.2, Bool.not_false, Bool.and_self, if_true]
      · refine ⟨trivial, ?_⟩
        rcases hv with ⟨ht, rfl⟩ | ⟨ht, h1, h2⟩
        · simp only [bfsRest, hpc, ht, fresh_tree, if_true, List.map_cons, List.cons_append, List.append_assoc,
            List.nil_append]
        · simp only [bfsRest, hpc, ht, List.map_cons, fresh, h1, Bool.not_false, Bool.and_false, Bool.false_eq_true, if_false,
            List.cons_append, List.append_assoc, List.nil_append, h2, seenWith_cons]
  · exact ⟨rfl, by simp [bfsRest, hpc, hs]⟩

end

/-- A run does what the textbook version does, up to the end of the run. -/
theorem acts_prefix {σ ρ : Type} {m : σ → Step σ ρ} {who : σ → Option V} {vert : ρ → V} (rest : Nat → σ → List (Act V))
    (Inv : σ → Prop)
    (hstep : ∀ n s, Inv s → RestStep who vert rest Inv n s (m s))
    (fuel n : Nat) (hn : fuel ≤ n) (lim : Option Int) (s : σ) (hs : Inv s) :
    actsOf m who vert fuel lim s <+: rest n s ∧
    ((runMachine m fuel lim s).ending = .done → actsOf m who vert fuel lim s = rest n s) := by
  induction fuel generalizing n lim s with
  | zero => exact ⟨List.nil_prefix, by simp [runMachine]⟩
  | succ fuel ih =>
    have h := hstep n s hs
    unfold actsOf runMachine
    rcases hm : m s with s' | e | s' | ⟨r, s'⟩ | s' <;> simp only [hm, RestStep] at h ⊢
    · rw [h]; exact ⟨List.nil_prefix, fun _ => rfl⟩
    · exact ⟨List.nil_prefix, by simp⟩
    · rw [h.2]; exact ih n (by omega) lim s' h.1
    · have := ih n (by omega) lim s' h.1
      rw [h.2]
      exact ⟨(List.prefix_cons_inj _).2 this.1, fun hd => by rw [this.2 hd]⟩
    · rcases hl : checkLimit lim with _ | lim'
      · exact ⟨List.nil_prefix, by simp⟩
      · obtain ⟨k, rfl⟩ : ∃ k, n = k + 1 := ⟨n - 1, by omega⟩
        have h := hstep k s hs
        simp only [hm, RestStep] at h
        obtain ⟨h1, v, hv, h2⟩ := h
        have := ih k (by omega) lim' s' h1
        simp only [hv, Option.toList_some, List.map_cons, List.map_nil, List.cons_append, List.nil_append]
        rw [h2]
        exact ⟨(List.prefix_cons_inj _).2 this.1, fun hd => by rw [this.2 hd]⟩

section
variable {g : TravGear V K L S M ML} {c : TravCfg V K L}

/-- **C79 for breadth-first search, exact order.** What the traversal does - reports and reads of edges, in their order - is what
the textbook version with a queue does: as long as it runs, a prefix of that; if it ends regularly, exactly that. (The number of
rounds `n` of the textbook version is any sufficiently large number.) -/
theorem C79_bfs_queue (hg : g.so.Lawful) (already : S) (starts : List V) (limit : Option Int) (fuel n : Nat) (hn : fuel ≤ n) :
    let textbook := queueActs c.isTree c.vid (fun v => (c.next v).map (·.1)) n starts
      (seenWith c.vid (g.so.contains already) starts)
    bfsActs g c already starts limit fuel <+: textbook ∧
    ((bfsRun g c already starts limit fuel).ending = .done → bfsActs g c already starts limit fuel = textbook) := by
  intro textbook
  have h := acts_prefix (m := bfsStep g c false) (who := bfsWho) (vert := fun r : BfsReport V S M ML => r.vertex) (bfsRest g c) BfsShape
    (fun n s hs => bfs_rest (c := c) hg n s hs) fuel n hn (prepareLimit limit) (bfsInit g c already starts) rfl
  have e : bfsRest g c n (bfsInit g c already starts) = textbook := by
    simp only [bfsRest, bfsInit, List.append_nil, textbook]
    cases ht : c.isTree
    · congr 1
      funext k
      simp [hg.contains_addAll, seenWith]
    · exact queueActs_tree _ _ _ _
  rw [e] at h
  exact h

/-- The reported vertices in the actions are those of the run, and each counted expansion is a read. -/
theorem C79_bfs_actions (already : S) (starts : List V) (limit : Option Int) (fuel : Nat) :
    reportedOf (bfsActs g c already starts limit fuel) =
      (bfsRun g c already starts limit fuel).reports.map (fun r => r.vertex) ∧
    (readsOf (bfsActs g c already starts limit fuel)).length = expsOf (bfsRun g c already starts limit fuel).events := by
  refine ⟨acts_reported _ _ _, acts_reads_length (fun s s' hm => ?_) _ _ _⟩
  unfold bfsStep at hm
  rcases hpc : s.pc with _ | _ | ⟨v, es⟩ | _ <;> simp only [hpc] at hm
  · rcases hx : s.toExpand with _ | ⟨u, rest⟩ <;> simp [hx] at hm
  · rcases hx : s.toExpand with _ | ⟨u, rest⟩
    · simp [hx] at hm
    · exact ⟨u, by simp [bfsWho, hpc, hx]⟩
  · rcases es with _ | ⟨e, es⟩ <;> simp only [reduceCtorEq] at hm
    split at hm <;> cases hm
  · simp at hm

end

/-! ## Neighbors before depth -/

section
variable {g : TravGear V K L S M ML} {c : NtdCfg V K L}

/-- The step that reads edges. -/
theorem ntd_expand {s s' : NtdState V L S M ML} (hm : ntdStep g c s = .expand s') :
    ∃ v rest, s.pc = .loop ∧ s.toExpand = v :: rest ∧ ntdWho c s = some v ∧ s'.pc = .edges v (c.next v) ∧ s'.toExpand = rest ∧
      s'.visited = s.visited := by
  unfold ntdStep at hm
  rcases hpc : s.pc with _ | ⟨v, es⟩ <;> simp only [hpc] at hm
  · rcases hx : s.toExpand with _ | ⟨u, rest⟩ <;> simp only [hx, reduceCtorEq] at hm
    refine ⟨u, rest, rfl, rfl, ?_⟩
    split at hm
    · rename_i hcd
      rcases hp : ntdPop s.markers (s.depth + 1) with _ | ⟨ms, d⟩ <;> simp only [hp, reduceCtorEq, Step.expand.injEq] at hm
      subst hm
      exact ⟨by simp [ntdWho, hpc, hx, hcd, hp], rfl, rfl, rfl⟩
    · rename_i hcd
      cases hm
      exact ⟨by simp [ntdWho, hpc, hx, hcd], rfl, rfl, rfl⟩
  · rcases es with _ | ⟨e, es⟩ <;> simp only [reduceCtorEq] at hm
    split at hm <;> cases hm

/-- **C79 for neighbors-before-depth, on demand.** -/
theorem C79_ntd_on_demand (already : S) (starts : List V) (limit : Option Int) (fuel : Nat) :
    OnDemand starts (ntdActs g c already starts limit fuel) := by
  obtain ⟨s, h⟩ := acts_inv (m := ntdStep g c) (who := ntdWho c) (vert := fun r : NtdReport V S M ML => r.vertex)
    (fun t s => OnDemand starts t ∧ ∀ v ∈ s.toExpand, Known starts t v)
    (by
      rintro t s s' ⟨h1, h2⟩ hm
      unfold ntdStep at hm
      rcases hpc : s.pc with _ | ⟨v, es⟩ <;> simp only [hpc] at hm
      · rcases hx : s.toExpand with _ | ⟨u, rest⟩ <;> simp only [hx, reduceCtorEq] at hm
        split at hm
        · split at hm <;> cases hm
        · cases hm
      · rcases es with _ | ⟨e, es⟩ <;> simp only at hm
        · cases hm; exact ⟨h1, h2⟩
        · split at hm <;> cases hm
          exact ⟨h1, h2⟩)
    (by
      rintro t s r s' ⟨h1, h2⟩ hm
      unfold ntdStep at hm
      rcases hpc : s.pc with _ | ⟨v, es⟩ <;> simp only [hpc] at hm
      · rcases hx : s.toExpand with _ | ⟨u, rest⟩ <;> simp only [hx, reduceCtorEq] at hm
        split at hm
        · split at hm <;> cases hm
        · cases hm
      · rcases es with _ | ⟨e, es⟩ <;> simp only [reduceCtorEq] at hm
        split at hm <;> cases hm
        refine ⟨h1.report _, fun v hv => ?_⟩
        rcases List.mem_cons.1 hv with rfl | hv
        · exact .last
        · exact (h2 v hv).mono _)
    (by
      rintro t s s' ⟨h1, h2⟩ hm
      obtain ⟨v, rest, -, hx, hw, -, hx', -⟩ := ntd_expand hm
      rw [hx] at h2
      refine ⟨v, hw, h1.read (h2 v List.mem_cons_self), fun u hu => (h2 u ?_).mono _⟩
      rw [hx'] at hu; exact List.mem_cons_of_mem _ hu)
    fuel (prepareLimit limit) [] (ntdInit g c already starts)
    ⟨.nil, fun v hv => .inl (by simpa [ntdInit] using hv)⟩
  simpa [ntdActs] using h.1

/-- **C79 for neighbors-before-depth, locality.** -/
theorem C79_ntd_local (next' : V → List (V × L)) (already : S) (starts : List V) (limit : Option Int) (fuel : Nat)
    (h : ∀ v, Act.read v ∈ ntdActs g c already starts limit fuel → c.next v = next' v) :
    (ntdRun g c already starts limit fuel).events = (ntdRun g { c with next := next' } already starts limit fuel).events ∧
    (ntdRun g c already starts limit fuel).ending = (ntdRun g { c with next := next' } already starts limit fuel).ending :=
  run_local (vert := fun r : NtdReport V S M ML => r.vertex) (ntd_readsOne (g := g) (c := c)) c.next next' fuel (prepareLimit limit)
    (ntdInit g c already starts) h

/-- The actions of the textbook version that are still to come. -/
def ntdRest (g : TravGear V K L S M ML) (c : NtdCfg V K L) (n : Nat) (s : NtdState V L S M ML) : List (Act V) :=
  match s.pc with
  | .edges _ es =>
    let new := fresh c.isTree c.vid (g.so.contains s.visited) (es.map (·.1))
    new.map Act.reported ++ stackActs c.isTree c.vid (fun v => (c.next v).map (·.1)) n (new.reverse ++ s.toExpand)
      (if c.isTree then g.so.contains s.visited else seenWith c.vid (g.so.contains s.visited) new)
  | .loop => stackActs c.isTree c.vid (fun v => (c.next v).map (·.1)) n s.toExpand (g.so.contains s.visited)

theorem ntd_rest (hg : g.so.Lawful) (n : Nat) (s : NtdState V L S M ML) :
    RestStep (ntdWho c) (fun r : NtdReport V S M ML => r.vertex) (ntdRest g c) (fun _ => True) n s (ntdStep g c s) := by
  rcases hm : ntdStep g c s with s' | e | s' | ⟨r, s'⟩ | s'
  case expand =>
    obtain ⟨v, rest, hpc, hx, hw, hpc', hx', hv'⟩ := ntd_expand hm
    refine ⟨trivial, v, hw, ?_⟩
    simp only [ntdRest, hpc, hpc', hx, hx', hv', stackActs, List.cons_append]
  case fail => trivial
  all_goals
    unfold ntdStep at hm
    rcases hpc : s.pc with _ | ⟨v, es⟩ <;> simp only [hpc] at hm
    · rcases hx : s.toExpand with _ | ⟨u, rest⟩ <;> simp only [hx, reduceCtorEq] at hm
      all_goals first
        | (exfalso
           split at hm
           · split at hm <;> cases hm
           · cases hm)
        | (show ntdRest g c n s = []
           simp only [ntdRest, hpc, hx, stackActs_nil])
    · rcases es with _ | ⟨e, es⟩ <;> simp only [reduceCtorEq, Step.tau.injEq] at hm
      all_goals try
        (subst hm
         refine ⟨trivial, ?_⟩
         simp only [ntdRest, hpc, List.map_nil, fresh, List.nil_append, List.reverse_nil, seenWith_nil, ite_self])
      have hv := bfsVisit_seen hg c.isTree c.buildPaths c.vid s.visited s.preds s.labels v e
      rcases hb : bfsVisit g c.isTree c.buildPaths c.vid s.visited s.preds s.labels v e with _ | ⟨vis, pr, la⟩ <;>
        simp only [hb] at hv hm <;> cases hm
      all_goals refine ⟨trivial, ?_⟩
      all_goals first
        | (simp only [ntdRest, hpc, List.map_cons, fresh, hv.1, hv.2, Bool.not_false, Bool.and_self, if_true])
        | (rcases hv with ⟨ht, rfl⟩ | ⟨ht, h1, h2⟩
           · simp only [ntdRest, hpc, ht, fresh_tree, if_true, List.map_cons, List.cons_append, List.append_assoc,
               List.nil_append, List.reverse_cons]
           · simp only [ntdRest, hpc, ht, List.map_cons, fresh, h1, Bool.not_false, Bool.and_false, Bool.false_eq_true,
               if_false, List.cons_append, List.append_assoc, List.nil_append, h2, seenWith_cons, List.reverse_cons])

/-- **C79 for neighbors-before-depth, exact order.** What the traversal does is what the textbook version with a stack does. The
start vertices are on the stack, the last one is taken first. -/
theorem C79_ntd_stack (hg : g.so.Lawful) (already : S) (starts : List V) (limit : Option Int) (fuel n : Nat) (hn : fuel ≤ n) :
    let textbook := stackActs c.isTree c.vid (fun v => (c.next v).map (·.1)) n starts.reverse
      (seenWith c.vid (g.so.contains already) starts)
    ntdActs g c already starts limit fuel <+: textbook ∧
    ((ntdRun g c already starts limit fuel).ending = .done → ntdActs g c already starts limit fuel = textbook) := by
  intro textbook
  have h := acts_prefix (m := ntdStep g c) (who := ntdWho c) (vert := fun r : NtdReport V S M ML => r.vertex) (ntdRest g c) (fun _ => True)
    (fun n s _ => ntd_rest (c := c) hg n s) fuel n hn (prepareLimit limit) (ntdInit g c already starts) trivial
  have e : ntdRest g c n (ntdInit g c already starts) = textbook := by
    simp only [ntdRest, ntdInit, textbook]
    cases ht : c.isTree
    · congr 1
      funext k
      simp [hg.contains_addAll, seenWith]
    · exact stackActs_tree _ _ _ _
  rw [e] at h
  exact h

/-- The reported vertices in the actions are those of the run, and each counted expansion is a read. -/
theorem C79_ntd_actions (already : S) (starts : List V) (limit : Option Int) (fuel : Nat) :
    reportedOf (ntdActs g c already starts limit fuel) =
      (ntdRun g c already starts limit fuel).reports.map (fun r => r.vertex) ∧
    (readsOf (ntdActs g c already starts limit fuel)).length = expsOf (ntdRun g c already starts limit fuel).events := by
  refine ⟨acts_reported _ _ _, acts_reads_length (fun s s' hm => ?_) _ _ _⟩
  obtain ⟨v, -, -, -, hw, -⟩ := ntd_expand hm
  exact ⟨v, hw⟩

end

/-! ## Examples -/

/-- An infinite graph: only the edges of five vertices are read for seven reports. -/
def exReadsCfg : TravCfg Nat Nat Char := ⟨fun v => [(2 * v, 'a'), (v + 1, 'b'), (v + 2, 'c')], id, false, false⟩

example : bfsActs exBits exReadsCfg [] [1] none 28 =
      [.read 1, .reported 2, .reported 3, .read 2, .reported 4, .read 3, .reported 6, .reported 5, .read 4, .reported 8,
       .read 6] ∧
    queueActs false id (fun v => (exReadsCfg.next v).map (·.1)) 5 [1] (seenWith id (exBits.so.contains []) [1]) =
      [.read 1, .reported 2, .reported 3, .read 2, .reported 4, .read 3, .reported 6, .reported 5, .read 4, .reported 8,
       .read 6, .reported 12, .reported 7] := by
  refine ⟨?_, ?_⟩ <;> decide +kernel

example : ntdActs exBits ⟨exReadsCfg, true⟩ [] [1] none 11 =
      [.read 1, .reported 2, .reported 3, .read 3, .reported 6, .reported 4, .reported 5, .read 5] ∧
    stackActs false id (fun v => (exReadsCfg.next v).map (·.1)) 3 [1] (seenWith id (exBits.so.contains []) [1]) =
      [.read 1, .reported 2, .reported 3, .read 3, .reported 6, .reported 4, .reported 5, .read 5, .reported 10,
       .reported 7] := by
  refine ⟨?_, ?_⟩ <;> decide +kernel

/-- The run ends, and the limit stops it. -/
example : (bfsRun exBits (exCfg true) [] [0] none 60).ending = .done ∧
    bfsActs exBits (exCfg true) [] [0] none 60 =
      queueActs false id (fun v => ((exCfg true).next v).map (·.1)) 60 [0] (seenWith id (exBits.so.contains []) [0]) ∧
    (bfsRun exBits exReadsCfg [] [1] (some 2) 60).ending = .raised .runtimeError ∧
    bfsActs exBits exReadsCfg [] [1] (some 2) 60 = [.read 1, .reported 2, .reported 3, .read 2, .reported 4] := by
  refine ⟨?_, ?_, ?_, ?_⟩ <;> decide +kernel

end NoGraphs
