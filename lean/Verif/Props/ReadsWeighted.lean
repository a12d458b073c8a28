import Verif.Proofs.AStar
import Verif.Props.ReadsDepth
import Verif.Props.SearchAwareMst
import Verif.Props.SearchAwareSp

/-! # Reading edges on demand: C79 for the weighted traversals -/

set_option linter.unusedSectionVars false

namespace NoGraphs

open Spec

variable {V K L W : Type} [DecidableEq V] [DecidableEq K]

/-! ## Shortest paths and A* -/

section
variable {M ML D : Type} [AddCommMonoid W] [LinearOrder W] [IsOrderedAddMonoid W]

/-- Entries of the heap with zero edges are those of start vertices. -/
def HeapKnown (starts : List V) (h : List (HEntry W (V × Nat))) : Prop := ∀ e ∈ h, e.item.2 = 0 → e.item.1 ∈ starts

/-- What holds at the program counter. -/
def SpPcKnown (starts : List V) (t : List (Act V)) : SpPc V L W → Prop
  | .expand v _ _ => Known starts t v
  | _ => True

theorem HeapKnown.push {starts : List V} {h : List (HEntry W (V × Nat))} (hh : HeapKnown starts h) (w : W) (no : Int) (v : V)
    (n : Nat) : HeapKnown starts (heapPush h ⟨w, no, (v, n + 1)⟩) := by
  intro e he h0
  rcases mem_heapPush.1 he with rfl | he
  · simp at h0
  · exact hh e he h0

section
variable {g : WGear V K L W M ML D} {c : WCfg V K L W}

theorem sp_read_step {starts : List V} {t : List (Act V)} {s : SpState V L W M ML D}
    (h : OnDemand starts t ∧ HeapKnown starts s.heap ∧ SpPcKnown starts t s.pc) :
    match spStep g c s with
    | .tau s' => OnDemand starts t ∧ HeapKnown starts s'.heap ∧ SpPcKnown starts t s'.pc
    | .emit r s' => OnDemand starts (t ++ [.reported r.vertex]) ∧ HeapKnown starts s'.heap ∧
        SpPcKnown starts (t ++ [.reported r.vertex]) s'.pc
    | .expand s' => ∃ v, spWho s = some v ∧ OnDemand starts (t ++ [.read v]) ∧ HeapKnown starts s'.heap ∧
        SpPcKnown starts (t ++ [.read v]) s'.pc
    | _ => True := by
  obtain ⟨h1, h2, h3⟩ := h
  unfold spStep
  rcases hpc : s.pc with _ | ⟨v, w, ec⟩ | ⟨v, w, ec, _ | ⟨⟨n, x, l⟩, es⟩⟩ <;> simp only [hpc] at h3 ⊢
  · rcases hx : s.heap with _ | ⟨e, rest⟩
    · trivial
    · rw [hx] at h2
      have hr : HeapKnown starts rest := fun f hf => h2 f (List.mem_cons_of_mem _ hf)
      simp only
      by_cases hc : (!c.isTree && decide (g.dd.get s.dist (c.vid e.item.1) < e.key)) = true
      · simp only [if_pos hc]
        exact ⟨h1, hr, trivial⟩
      · simp only [if_neg hc]
        by_cases he : e.item.2 > 0
        · simp only [if_pos he]
          exact ⟨h1.report _, hr, Known.last⟩
        · simp only [if_neg he]
          exact ⟨h1, hr, .inl (h2 e List.mem_cons_self (by omega))⟩
  · exact ⟨v, by simp only [spWho, hpc], h1.read h3, h2, trivial⟩
  · exact ⟨h1, h2, trivial⟩
  · by_cases hi : c.inf ≤ x + w
    · simp only [if_pos hi]
    · simp only [if_neg hi]
      rcases spImprove g c s.dist (c.vid n) (x + w) with _ | d
      · exact ⟨h1, h2, trivial⟩
      · exact ⟨h1, h2.push _ _ _ _, trivial⟩

theorem spStartEntries_item (d : D) (vs : List V) (no : Int) :
    ∀ e ∈ spStartEntries g c d vs no, e.item.1 ∈ vs := by
  induction vs generalizing no with
  | nil => simp [spStartEntries]
  | cons v vs ih =>
    intro e he
    rcases List.mem_cons.1 he with rfl | he
    · exact List.mem_cons_self
    · exact List.mem_cons_of_mem _ (ih _ e he)

/-- **C79 for the shortest paths traversal, on demand.** For any gear, any weights, any limit and any options. -/
theorem C79_shortest_paths_on_demand (known : Option D) (starts : List V) (limit : Option Int) (fuel : Nat) :
    OnDemand starts (spActs g c known starts limit fuel) := by
  obtain ⟨s, h⟩ := acts_inv (m := spStep g c) (who := spWho) (vert := fun r : SpReport V W M ML D => r.vertex)
    (fun t s => OnDemand starts t ∧ HeapKnown starts s.heap ∧ SpPcKnown starts t s.pc)
    (fun t s s' h hm => by have := sp_read_step (g := g) (c := c) h; simp only [hm] at this; exact this)
    (fun t s r s' h hm => by have := sp_read_step (g := g) (c := c) h; simp only [hm] at this; exact this)
    (fun t s s' h hm => by have := sp_read_step (g := g) (c := c) h; simp only [hm] at this; exact this)
    fuel (prepareLimit limit) [] (spInit g c known starts)
    ⟨.nil, fun e he _ => spStartEntries_item _ _ _ e (mem_heapify.1 he), trivial⟩
  exact h.1

/-- **C79 for the shortest paths traversal, locality.** -/
theorem C79_shortest_paths_local (next' : V → List (V × W × L)) (known : Option D) (starts : List V) (limit : Option Int)
    (fuel : Nat) (h : ∀ v, Act.read v ∈ spActs g c known starts limit fuel → c.next v = next' v) :
    (spRun g c known starts limit fuel).events = (spRun g { c with next := next' } known starts limit fuel).events ∧
    (spRun g c known starts limit fuel).ending = (spRun g { c with next := next' } known starts limit fuel).ending := by
  unfold spRun
  rw [spInit_next next' known starts]
  exact run_local (vert := fun r : SpReport V W M ML D => r.vertex) (sp_readsOne (g := g) (c := c)) c.next next' fuel
    (prepareLimit limit) (spInit g c known starts) h

theorem C79_shortest_paths_actions (known : Option D) (starts : List V) (limit : Option Int) (fuel : Nat) :
    reportedOf (spActs g c known starts limit fuel) =
      (spRun g c known starts limit fuel).reports.map (fun r => r.vertex) := acts_reported _ _ _

end

section
variable {g : WGear V K L W M ML D} {c : AStarCfg V K L W}

theorem a_read_step {starts : List V} {t : List (Act V)} {s : AStarState V L W M ML D}
    (h : OnDemand starts t ∧ HeapKnown starts s.heap ∧ SpPcKnown starts t s.pc) :
    match aStep g c s with
    | .tau s' => OnDemand starts t ∧ HeapKnown starts s'.heap ∧ SpPcKnown starts t s'.pc
    | .emit r s' => OnDemand starts (t ++ [.reported r.vertex]) ∧ HeapKnown starts s'.heap ∧
        SpPcKnown starts (t ++ [.reported r.vertex]) s'.pc
    | .expand s' => ∃ v, aWho s = some v ∧ OnDemand starts (t ++ [.read v]) ∧ HeapKnown starts s'.heap ∧
        SpPcKnown starts (t ++ [.read v]) s'.pc
    | _ => True := by
  obtain ⟨h1, h2, h3⟩ := h
  unfold aStep
  rcases hpc : s.pc with _ | ⟨v, w, ec⟩ | ⟨v, w, ec, _ | ⟨⟨n, x, l⟩, es⟩⟩ <;> simp only [hpc] at h3 ⊢
  · rcases hx : s.heap with _ | ⟨e, rest⟩
    · trivial
    · rw [hx] at h2
      have hr : HeapKnown starts rest := fun f hf => h2 f (List.mem_cons_of_mem _ hf)
      simp only
      by_cases hc : (!c.isTree && decide (g.dd.get s.guesses (c.vid e.item.1) < e.key)) = true
      · simp only [if_pos hc]
        exact ⟨h1, hr, trivial⟩
      · simp only [if_neg hc]
        by_cases he : e.item.2 > 0
        · simp only [if_pos he]
          exact ⟨h1.report _, hr, Known.last⟩
        · simp only [if_neg he]
          exact ⟨h1, hr, .inl (h2 e List.mem_cons_self (by omega))⟩
  · exact ⟨v, by simp only [aWho, hpc], h1.read h3, h2, trivial⟩
  · exact ⟨h1, h2, trivial⟩
  · by_cases hi : c.inf ≤ x + w
    · simp only [if_pos hi]
    · simp only [if_neg hi]
      rcases aImprove g c s.dist (c.vid n) (x + w) with _ | d
      · exact ⟨h1, h2, trivial⟩
      · simp only
        by_cases hg : c.heur n ≠ c.inf ∧ c.inf ≤ aGuess c.inf (x + w) (c.heur n)
        · simp only [if_pos hg]
        · simp only [if_neg hg]
          exact ⟨h1, h2.push _ _ _ _, trivial⟩

theorem aStartEntries_item (d : D) (vs : List V) (no : Int) :
    ∀ e ∈ aStartEntries g c d vs no, e.item.1 ∈ vs := by
  induction vs generalizing no with
  | nil => simp [aStartEntries]
  | cons v vs ih =>
    intro e he
    rcases List.mem_cons.1 he with rfl | he
    · exact List.mem_cons_self
    · exact List.mem_cons_of_mem _ (ih _ e he)

/-- **C79 for A\*, on demand.** For any heuristic function. -/
theorem C79_astar_on_demand (known knownGuesses : Option D) (starts : List V) (limit : Option Int) (fuel : Nat) :
    OnDemand starts (aActs g c known knownGuesses starts limit fuel) := by
  obtain ⟨s, h⟩ := acts_inv (m := aStep g c) (who := aWho) (vert := fun r : AStarReport V W M ML D => r.vertex)
    (fun t s => OnDemand starts t ∧ HeapKnown starts s.heap ∧ SpPcKnown starts t s.pc)
    (fun t s s' h hm => by have := a_read_step (g := g) (c := c) h; simp only [hm] at this; exact this)
    (fun t s r s' h hm => by have := a_read_step (g := g) (c := c) h; simp only [hm] at this; exact this)
    (fun t s s' h hm => by have := a_read_step (g := g) (c := c) h; simp only [hm] at this; exact this)
    fuel (prepareLimit limit) [] (aInit g c known knownGuesses starts)
    ⟨.nil, fun e he _ => aStartEntries_item _ _ _ e (mem_heapify.1 he), trivial⟩
  exact h.1

theorem a_readsOne : ReadsOne (fun next => aStep g { c with next := next }) aWho := by
  constructor
  · intro f f' s h
    unfold aWho at h
    unfold aStep
    rcases hpc : s.pc with _ | ⟨v, w, ec⟩ | ⟨v, w, ec, es⟩
    · rfl
    · rw [hpc] at h
      simp only [h v rfl]
    · rcases es with _ | ⟨e, es⟩ <;> rfl
  · intro f s v h
    unfold aWho at h
    unfold aStep
    rcases hpc : s.pc with _ | ⟨u, w, ec⟩ | ⟨u, w, ec, es⟩ <;> rw [hpc] at h <;> simp only [reduceCtorEq] at h
    exact ⟨_, rfl⟩

theorem aStartEntries_next' (f : V → List (V × W × L)) (d : D) (vs : List V) (no : Int) :
    aStartEntries g { c with next := f } d vs no = aStartEntries g c d vs no := by
  induction vs generalizing no with
  | nil => rfl
  | cons v vs ih => simp only [aStartEntries, ih]

theorem aInit_next' (f : V → List (V × W × L)) (known knownGuesses : Option D) (starts : List V) :
    (aInit g { c with next := f } known knownGuesses starts : AStarState V L W M ML D) =
      aInit g c known knownGuesses starts := by
  unfold aInit
  simp only [aStartEntries_next']
  rfl

/-- **C79 for A\*, locality.** -/
theorem C79_astar_local (next' : V → List (V × W × L)) (known knownGuesses : Option D) (starts : List V)
    (limit : Option Int) (fuel : Nat)
    (h : ∀ v, Act.read v ∈ aActs g c known knownGuesses starts limit fuel → c.next v = next' v) :
    (aRun g c known knownGuesses starts limit fuel).events =
      (aRun g { c with next := next' } known knownGuesses starts limit fuel).events ∧
    (aRun g c known knownGuesses starts limit fuel).ending =
      (aRun g { c with next := next' } known knownGuesses starts limit fuel).ending := by
  unfold aRun
  rw [aInit_next' next' known knownGuesses starts]
  exact run_local (vert := fun r : AStarReport V W M ML D => r.vertex) (a_readsOne (g := g) (c := c)) c.next next' fuel
    (prepareLimit limit) (aInit g c known knownGuesses starts) h

theorem C79_astar_actions (known knownGuesses : Option D) (starts : List V) (limit : Option Int) (fuel : Nat) :
    reportedOf (aActs g c known knownGuesses starts limit fuel) =
      (aRun g c known knownGuesses starts limit fuel).reports.map (fun r => r.vertex) := acts_reported _ _ _

end

end

/-! ## Minimum spanning tree -/

section
variable {S M ML : Type} [LinearOrder W] {g : TravGear V K L S M ML} {c : MstCfg V K L W}

/-- What holds at the program counter. -/
def MstPcKnown (starts : List V) (t : List (Act V)) : MstPc V L W → Prop
  | .starts vs => ∀ v ∈ vs, v ∈ starts
  | .expand v => Known starts t v
  | _ => True

theorem mst_read_step {starts : List V} {t : List (Act V)} {s : MstState V L W S M ML}
    (h : OnDemand starts t ∧ MstPcKnown starts t s.pc) :
    match mstStep g c s with
    | .tau s' => OnDemand starts t ∧ MstPcKnown starts t s'.pc
    | .emit r s' => OnDemand starts (t ++ [.reported r.vertex]) ∧ MstPcKnown starts (t ++ [.reported r.vertex]) s'.pc
    | .expand s' => ∃ v, mstWho s = some v ∧ OnDemand starts (t ++ [.read v]) ∧ MstPcKnown starts (t ++ [.read v]) s'.pc
    | _ => True := by
  obtain ⟨h1, h2⟩ := h
  unfold mstStep
  rcases hpc : s.pc with (_ | ⟨v, vs⟩) | _ | v | ⟨v, _ | ⟨e, es⟩⟩ <;> simp only [hpc] at h2 ⊢
  · exact ⟨h1, trivial⟩
  · exact ⟨v, by simp only [mstWho, hpc], h1.read (.inl (h2 v List.mem_cons_self)),
      fun u hu => h2 u (List.mem_cons_of_mem _ hu)⟩
  · rcases hx : s.heap with _ | ⟨e, rest⟩
    · trivial
    · simp only
      by_cases hc : (g.so.checkAdd s.visited (c.vid e.item.2.1)).1 = true
      · simp only [if_pos hc]
        exact ⟨h1, trivial⟩
      · simp only [if_neg hc]
        exact ⟨h1.report _, Known.last⟩
  · exact ⟨v, by simp only [mstWho, hpc], h1.read h2, trivial⟩
  · exact ⟨h1, trivial⟩
  · by_cases hc : g.so.contains s.visited (c.vid e.1) = true
    · simp only [if_pos hc]
      exact ⟨h1, trivial⟩
    · simp only [if_neg hc]
      exact ⟨h1, trivial⟩

/-- **C79 for the minimum spanning tree traversal, on demand.** -/
theorem C79_mst_on_demand (starts : List V) (limit : Option Int) (fuel : Nat) :
    OnDemand starts (mstActs g c starts limit fuel) := by
  unfold mstActs
  split
  · exact .nil
  · obtain ⟨s, h⟩ := acts_inv (m := mstStep g c) (who := mstWho) (vert := fun r : MstReport V L W M ML => r.vertex)
      (fun t s => OnDemand starts t ∧ MstPcKnown starts t s.pc)
      (fun t s s' h hm => by have := mst_read_step (g := g) (c := c) h; simp only [hm] at this; exact this)
      (fun t s r s' h hm => by have := mst_read_step (g := g) (c := c) h; simp only [hm] at this; exact this)
      (fun t s s' h hm => by have := mst_read_step (g := g) (c := c) h; simp only [hm] at this; exact this)
      fuel (prepareLimit limit) [] (mstInit g c starts) ⟨.nil, fun _ hv => hv⟩
    exact h.1

/-- **C79 for the minimum spanning tree traversal, locality.** -/
theorem C79_mst_local (next' : V → List (V × W × L)) (starts : List V) (limit : Option Int) (fuel : Nat)
    (h : ∀ v, Act.read v ∈ mstActs g c starts limit fuel → c.next v = next' v) :
    (mstRun g c starts limit fuel).events = (mstRun g { c with next := next' } starts limit fuel).events ∧
    (mstRun g c starts limit fuel).ending = (mstRun g { c with next := next' } starts limit fuel).ending := by
  unfold mstActs at h
  unfold mstRun
  split
  · exact ⟨rfl, rfl⟩
  · rename_i hl
    rw [if_neg hl] at h
    exact run_local (vert := fun r : MstReport V L W M ML => r.vertex) (mst_readsOne (g := g) (c := c)) c.next next' fuel
      (prepareLimit limit) (mstInit g c starts) h

theorem C79_mst_actions (starts : List V) (limit : Option Int) (fuel : Nat) :
    reportedOf (mstActs g c starts limit fuel) = (mstRun g c starts limit fuel).reports.map (fun r => r.vertex) := by
  unfold mstActs mstRun
  split
  · rfl
  · exact acts_reported _ _ _

end

/-! ## Examples -/

/-- An infinite weighted graph. -/
def exReadsW : Nat → List (Nat × Nat × Char) := fun v => [(2 * v, v, 'a'), (v + 1, 2, 'b')]

example : spActs exWArr ⟨exReadsW, id, false, true, true, 1000⟩ none [1] none 24 =
    [.read 1, .reported 2, .read 2, .reported 3, .read 3, .reported 4, .read 4, .reported 5, .read 5] := by
  decide +kernel

example : aActs exWArr ⟨exReadsW, id, false, true, 1000, fun v => 10 - v⟩ none none [1] none 24 =
    [.read 1, .reported 2, .read 2, .reported 4, .read 4, .reported 8, .read 8, .reported 9, .read 9] := by
  decide +kernel

example : mstActs exBits ⟨exReadsW, id, true⟩ [1] none 20 =
    [.read 1, .reported 2, .read 2, .reported 4, .read 4, .reported 3, .read 3, .reported 5, .read 5] := by
  decide +kernel

end NoGraphs
