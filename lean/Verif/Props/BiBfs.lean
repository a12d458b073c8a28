import Verif.Proofs.BiBfsEnd
import Verif.Props.Bfs

/-! # Properties of the bidirectional breadth-first search: C28, C29, C30

`Connects E vid starts goals n` (a walk of `n` edges leads from a start to a goal vertex), `IsMinLength`
and `Opposite` (both edges functions describe the same graph) are defined in `Verif/Spec/Graph.lean`. -/

set_option linter.unusedSectionVars false

namespace NoGraphs

open Spec

variable {V K L S M ML : Type} [DecidableEq V] [DecidableEq K]
variable (g : TravGear V K L S M ML) (c : BiCfg V K L)

theorem biCommon_none {vid : V → K} {starts goals : List V} (h : biCommon vid starts goals true true = none) :
    ∀ s ∈ starts, ∀ t ∈ goals, vid s ≠ vid t := by
  intro s hs t ht he
  simp only [biCommon, if_true, List.find?_eq_none, decide_eq_true_eq] at h
  exact h s hs (he ▸ List.mem_map_of_mem ht)

theorem biCommon_some {vid : V → K} {starts goals : List V} {v : V}
    (h : biCommon vid starts goals true true = some v) : v ∈ starts ∧ ∃ t ∈ goals, vid v = vid t := by
  simp only [biCommon, if_true] at h
  have h1 := List.find?_some h
  have h2 := List.mem_of_find?_eq_some h
  simp only [decide_eq_true_eq, List.mem_map] at h1
  obtain ⟨t, ht, he⟩ := h1
  exact ⟨h2, t, ht, he.symm⟩

/-- The limits of both traversals stay absent if absent. -/
theorem bi_no_limit {starts goals : List V} {h : List (Ev Unit)} {s : BiState V L S M ML}
    (hr : Reaches (biStep g c) (biInit g c starts goals none) h s) : s.fw.lim = none ∧ s.bw.lim = none := by
  refine Reaches.invariant (fun _ (s : BiState V L S M ML) => s.fw.lim = none ∧ s.bw.lim = none) ⟨rfl, rfl⟩ ?_ ?_ ?_ hr
  · intro _ s t inv hs
    unfold biStep at hs
    split at hs
    · simp at hs
    · simp at hs
    · simp only [Step.tau.injEq] at hs
      subst hs
      unfold BiState.setCur BiState.cur
      split <;> simp [inv]
    · split at hs <;> simp at hs
    · split at hs
      · simp only [Step.tau.injEq] at hs
        subst hs
        unfold BiState.setCur BiState.cur
        split <;> simp [inv]
      · split at hs
        · simp at hs
        · simp only [Step.tau.injEq] at hs
          subst hs
          unfold BiState.setCur BiState.cur
          split <;> simp [inv]
  · intro _ s r t _ hs; exact absurd hs (biStep_no_emit s t r)
  · intro _ s t inv hs
    have hl : s.cur.lim = none := by unfold BiState.cur; split <;> simp [inv]
    unfold biStep at hs
    split at hs
    · simp at hs
    · simp at hs
    · simp at hs
    · rw [hl] at hs
      simp only [checkLimit, Step.expand.injEq] at hs
      subst hs
      unfold BiState.setCur
      split <;> simp [inv]
    · split at hs
      · simp at hs
      · split at hs <;> simp at hs

/-- The search only fails by the check of the calculation limit. -/
theorem bi_fail {s : BiState V L S M ML} {e : PyErr} (hs : biStep g c s = .fail e) :
    e = .runtimeError ∧ s.cur.lim ≠ none := by
  unfold biStep at hs
  split at hs
  · simp at hs
  · rename_i e' he
    exact absurd he (bfs_no_fail _ _)
  · simp at hs
  · split at hs
    · rename_i hl
      simp only [Step.fail.injEq] at hs
      refine ⟨hs.symm, fun h => ?_⟩
      rw [h] at hl
      simp [checkLimit] at hl
    · simp at hs
  · split at hs
    · simp at hs
    · split at hs <;> simp at hs

/-- **C28.** What `BSearchBreadthFirst` returns, for any gear, graph, start and goal collections (that can
be iterated again), with equivalent vertices (same id) having equivalent edges: a found length is the
minimal number of edges from a start to a goal vertex; "no path" is only answered if no walk
leads from a start to a goal vertex; and an exception is only raised because of a given calculation limit. -/
theorem C28_bibfs (hg : g.so.Lawful) (hcF : Compat (Edge c.nextF) c.vid) (hcB : Compat (Edge c.nextB) c.vid)
    (hop : OppositeEdges c.nextF c.nextB) (starts goals : List V) (limit : Option Int) (fuel : Nat) :
    match biSearch g c starts goals true true limit fuel with
    | .found n _ => ∃ m : Nat, n = m ∧ IsMinLength (Edge c.nextF) c.vid starts goals m
    | .notFound => ∀ n, ¬ Connects (Edge c.nextF) c.vid starts goals n
    | .raised e => e = .runtimeError ∧ limit ≠ none
    | .outOfFuel => True := by
  have hok : BiOk g c := ⟨hg, hcF, hcB⟩
  unfold biSearch
  cases hcom : biCommon c.vid starts goals true true with
  | some v =>
    obtain ⟨h1, t, ht, he⟩ := biCommon_some hcom
    exact ⟨0, rfl, ⟨v, t, ht, he, .start h1⟩, fun _ _ => Nat.zero_le _⟩
  | none =>
    have hno := biCommon_none hcom
    obtain ⟨s, hr, he⟩ := run_reaches (biStep g c) fuel none (biInit g c starts goals limit)
    have inv := bi_inv hok limit hno hr
    revert he
    dsimp only
    cases (runMachine (biStep g c) fuel none (biInit g c starts goals limit)).ending with
    | outOfFuel => intro _; trivial
    | raised e =>
      rintro (he | ⟨-, h, -⟩)
      · obtain ⟨h1, h2⟩ := bi_fail g c he
        refine ⟨h1, ?_⟩
        rintro rfl
        obtain ⟨h3, h4⟩ := bi_no_limit g c hr
        apply h2
        unfold BiState.cur; split <;> assumption
      · exact absurd rfl h
    | done =>
      intro he
      dsimp only at he ⊢
      rcases biStep_stop he with ⟨h1, x, hx⟩ | ⟨r, x, hx, hp, hcon, s', hs', h1⟩
      · rw [h1, inv.result]
        exact bi_notFound hok hop inv hx
      · rw [h1]
        obtain ⟨-, n, j, hj, hd, -, -, -, hmin, -⟩ := bi_found hok hop inv hx hp hcon
        refine ⟨n + 1 + j, ?_, hmin⟩
        rw [hs', bi_depth_sum, hj]
        show x.depth + (j : Int) = _
        rw [hd]
        push_cast
        rfl

/-- **C28 (termination).** The search ends if there is a path, or if only finitely many vertices can be
reached in both directions. -/
theorem C28_bibfs_ends (hg : g.so.Lawful) (hcF : Compat (Edge c.nextF) c.vid) (hcB : Compat (Edge c.nextB) c.vid)
    (hop : OppositeEdges c.nextF c.nextB) (starts goals : List V) (limit : Option Int)
    (hfin : (∃ n, Connects (Edge c.nextF) c.vid starts goals n) ∨
      (FinitelyReachable (Edge c.nextF) (· ∈ starts) c.vid ∧
        FinitelyReachable (Edge c.nextB) (· ∈ goals) c.vid)) :
    ∃ N, ∀ fuel, N ≤ fuel → biSearch g c starts goals true true limit fuel ≠ .outOfFuel := by
  have hok : BiOk g c := ⟨hg, hcF, hcB⟩
  unfold biSearch
  cases hcom : biCommon c.vid starts goals true true with
  | some v => exact ⟨0, fun _ _ h => by simp at h⟩
  | none =>
    obtain ⟨N, hN⟩ := bi_terminates hok hop (biCommon_none hcom) hfin limit
    refine ⟨N, fun fuel hf => ?_⟩
    have := hN fuel hf none
    dsimp only
    split
    · split <;> simp
    · simp
    · rename_i h; exact absurd h this

/-- **C28 (exact result).** Without calculation limit: if start and goal vertices are connected, the search
returns the minimal number of edges; if they are not, and only finitely many vertices can be reached, it
answers "no path". -/
theorem C28_bibfs_exact (hg : g.so.Lawful) (hcF : Compat (Edge c.nextF) c.vid) (hcB : Compat (Edge c.nextB) c.vid)
    (hop : OppositeEdges c.nextF c.nextB) (starts goals : List V) :
    (∀ m, IsMinLength (Edge c.nextF) c.vid starts goals m →
      ∃ N, ∀ fuel, N ≤ fuel → ∃ p, biSearch g c starts goals true true none fuel = .found m p) ∧
    ((∀ n, ¬ Connects (Edge c.nextF) c.vid starts goals n) →
      FinitelyReachable (Edge c.nextF) (· ∈ starts) c.vid → FinitelyReachable (Edge c.nextB) (· ∈ goals) c.vid →
      ∃ N, ∀ fuel, N ≤ fuel → biSearch g c starts goals true true none fuel = .notFound) := by
  constructor
  · intro m hm
    obtain ⟨N, hN⟩ := C28_bibfs_ends g c hg hcF hcB hop starts goals none (.inl ⟨m, hm.1⟩)
    refine ⟨N, fun fuel hf => ?_⟩
    have h1 := hN fuel hf
    have h2 := C28_bibfs g c hg hcF hcB hop starts goals none fuel
    cases hres : biSearch g c starts goals true true none fuel with
    | found n p =>
      rw [hres] at h2
      obtain ⟨m', rfl, hm'⟩ := h2
      have : m' = m := Nat.le_antisymm (hm'.2 _ hm.1) (hm.2 _ hm'.1)
      exact ⟨p, by rw [this]⟩
    | notFound => rw [hres] at h2; exact absurd hm.1 (h2 m)
    | raised e => rw [hres] at h2; exact absurd rfl h2.2
    | outOfFuel => exact absurd hres h1
  · intro hno hf hb
    obtain ⟨N, hN⟩ := C28_bibfs_ends g c hg hcF hcB hop starts goals none (.inr ⟨hf, hb⟩)
    refine ⟨N, fun fuel hf => ?_⟩
    have h1 := hN fuel hf
    have h2 := C28_bibfs g c hg hcF hcB hop starts goals none fuel
    cases hres : biSearch g c starts goals true true none fuel with
    | found n p =>
      rw [hres] at h2
      obtain ⟨m', rfl, hm'⟩ := h2
      exact absurd hm'.1 (hno m')
    | notFound => rfl
    | raised e => rw [hres] at h2; exact absurd rfl h2.2
    | outOfFuel => exact absurd hres h1

/-- **C29.** The path returned with `build_path`: its iterations (vertices, edges, labeled edges, in both
directions) show one and the same walk `p` of labeled edges of the graph, from a start vertex to a goal vertex,
with exactly the returned number of edges. -/
theorem C29_bibfs_path (hg : g.so.Lawful) (hinj : Function.Injective c.vid) (hb : c.buildPath = true)
    (hop : Opposite c.nextF c.nextB) (starts goals : List V) {validV : V → Prop} {validL : L → Prop}
    (hsF : Storable g (c.side false) starts validV validL) (hsB : Storable g (c.side true) goals validV validL)
    (limit : Option Int) (fuel : Nat) (n : Int) (o : PathObj V L)
    (hres : biSearch g c starts goals true true limit fuel = .found n o) :
    ∃ p : SPath V L, o.Shows p ∧ p.first ∈ starts ∧ IsPath c.nextF p.first p.steps ∧
      (∃ t ∈ goals, p.verts.getLast? = some t) ∧ (p.steps.length : Int) = n := by
  have hok : BiOk g c := ⟨hg, .of_injective _ _ hinj, .of_injective _ _ hinj⟩
  unfold biSearch at hres
  cases hcom : biCommon c.vid starts goals true true with
  | some v =>
    obtain ⟨h1, t, ht, he⟩ := biCommon_some hcom
    rw [hcom] at hres
    simp only [SearchResult.found.injEq] at hres
    obtain ⟨rfl, rfl⟩ := hres
    have : v = t := hinj he
    subst this
    exact ⟨⟨v, []⟩, ⟨rfl, rfl, rfl, rfl, rfl, rfl⟩, h1, trivial, ⟨v, ht, rfl⟩, rfl⟩
  | none =>
    have hno := biCommon_none hcom
    obtain ⟨s, hr, he⟩ := run_reaches (biStep g c) fuel none (biInit g c starts goals limit)
    have inv := bi_inv hok limit hno hr
    rw [hcom] at hres
    dsimp only at hres
    split at hres
    · rename_i hend
      rw [hend] at he
      dsimp only at he
      split at hres
      · rename_i n' o' hfin
        simp only [SearchResult.found.injEq] at hres
        obtain ⟨rfl, rfl⟩ := hres
        rcases biStep_stop he with ⟨h1, x, hx⟩ | ⟨r, x, hx, hp, hcon, s', hs', h1⟩
        · rw [h1, inv.result] at hfin; simp at hfin
        · rw [h1] at hfin
          simp only [Option.some.injEq, Prod.mk.injEq] at hfin
          obtain ⟨rfl, rfl⟩ := hfin
          exact bi_found_path hok hop hinj hb (fun b => by cases b <;> assumption) inv hx hp hcon hs'
      · simp at hres
    · simp at hres
    · simp at hres

/-- **C30 (partial).** The part of C30 that holds: if no start vertex has the id of a goal vertex, the result
does not depend on whether start and goal vertices are given as one-shot iterators. Missing: common
vertices, see `C30_counterexample`. -/
theorem C30_bibfs_iterators_partial (starts goals : List V) (limit : Option Int) (fuel : Nat)
    (hno : ∀ s ∈ starts, ∀ t ∈ goals, c.vid s ≠ c.vid t) (reF reB : Bool) :
    biSearch g c starts goals reF reB limit fuel = biSearch g c starts goals true true limit fuel := by
  have key : ∀ reF reB, biCommon c.vid starts goals reF reB = none := by
    intro reF reB
    simp only [biCommon, List.find?_eq_none, decide_eq_true_eq, List.mem_map]
    rintro s hs ⟨t, ht, he⟩
    refine hno s ?_ t ?_ he.symm
    · cases reF <;> simp_all
    · cases reB <;> simp_all
  unfold biSearch
  rw [key reF reB, key true true]

/-! ## Examples -/

/-- The incoming edges of `exNext`. -/
def exPrev : Nat → List (Nat × Char)
  | 0 => [(1, 'd')]
  | 1 => [(0, 'a'), (0, 'x')]
  | 2 => [(0, 'b'), (2, 's')]
  | 3 => [(1, 'c'), (2, 'e')]
  | 4 => [(3, 'f'), (5, 'g')]
  | 6 => [(5, 'h')]
  | _ => []

/-- The example as configuration. -/
def exBi : BiCfg Nat Nat Char := ⟨exNext, exPrev, id, true⟩

theorem exOpposite : Opposite exNext exPrev := by
  have h1 : ∀ u v l, (v, l) ∈ exNext u → (u, l) ∈ exPrev v := by
    intro u v l h
    unfold exNext at h
    split at h <;> simp at h <;>
      (try rcases h with ⟨rfl, rfl⟩ | ⟨rfl, rfl⟩ | ⟨rfl, rfl⟩) <;>
      (try rcases h with ⟨rfl, rfl⟩ | ⟨rfl, rfl⟩) <;> (try obtain ⟨rfl, rfl⟩ := h) <;> simp_all [exPrev]
  have h2 : ∀ u v l, (u, l) ∈ exPrev v → (v, l) ∈ exNext u := by
    intro u v l h
    unfold exPrev at h
    split at h <;> simp at h <;>
      (try rcases h with ⟨rfl, rfl⟩ | ⟨rfl, rfl⟩) <;> (try obtain ⟨rfl, rfl⟩ := h) <;> simp_all [exNext]
  exact fun u v l => ⟨h1 u v l, h2 u v l⟩

/-- The hypotheses of C28 hold for the example, and the search finds the 3 edges from 0 to 4. -/
example : exHash.so.Lawful ∧ Compat (Edge exBi.nextF) exBi.vid ∧ Compat (Edge exBi.nextB) exBi.vid ∧
    OppositeEdges exBi.nextF exBi.nextB ∧
    biSearch exHash exBi [0] [4] true true none 100 = .found 3 ⟨[0, 1, 3, 4], [4, 3, 1, 0],
      [(0, 1, 'a'), (1, 3, 'c'), (3, 4, 'f')], [(3, 4, 'f'), (1, 3, 'c'), (0, 1, 'a')]⟩ ∧
    biSearch exHash exBi [0] [6] true true none 100 = .notFound := by
  refine ⟨hashSet_lawful, .of_injective _ _ (fun _ _ h => h), .of_injective _ _ (fun _ _ h => h), ?_, ?_, ?_⟩
  · intro u v
    exact ⟨fun ⟨l, h⟩ => ⟨l, (exOpposite u v l).1 h⟩, fun ⟨l, h⟩ => ⟨l, (exOpposite u v l).2 h⟩⟩
  · decide +kernel
  · decide +kernel

/-- The hypotheses of C29 hold for the example, with hash based collections. -/
example : Storable exHash (exBi.side false) [0] (fun _ => True) (fun _ => True) ∧
    Storable exHash (exBi.side true) [4] (fun _ => True) (fun _ => True) :=
  ⟨⟨dictMap_lawful, dictMap_lawful, fun _ _ => trivial, fun _ _ _ _ => trivial, by simp⟩,
   ⟨dictMap_lawful, dictMap_lawful, fun _ _ => trivial, fun _ _ _ _ => trivial, by simp⟩⟩

/-- **C30 does not hold in general**: one vertex, no edges, start and goal vertex given as one-shot
iterators. As re-iterable collections, the search finds the path of length 0; as iterators, they are already
consumed when the search looks for common vertices, and it answers "no path". -/
theorem C30_counterexample :
    let c : BiCfg Nat Nat Unit := ⟨fun _ => [], fun _ => [], id, true⟩
    let g : TravGear Nat Nat Unit (List Nat) (Nat → Option Nat) (Nat → Option Unit) := ⟨hashSet, dictMap, dictMap⟩
    biSearch g c [0] [0] true true none 100 = .found 0 (.fromVertex 0) ∧
    biSearch g c [0] [0] false false none 100 = .notFound := by
  decide +kernel

end NoGraphs
