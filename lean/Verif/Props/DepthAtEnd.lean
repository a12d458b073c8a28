import Verif.Props.Bfs

/-! # C99: the search depth after the end of a breadth-first traversal -/

set_option linter.unusedSectionVars false

namespace NoGraphs

open Spec

section
variable {V K L S M ML : Type} {g : TravGear V K L S M ML} {c : TravCfg V K L} {already : S} {starts : List V}

/-- The depth of the last report, 0 if there is none. -/
def lastDepth (h : List (Ev (BfsReport V S M ML))) : Int := ((repsOf h).getLast?.map (fun r => r.depth)).getD 0

/-- Between the steps. -/
def EndInv (starts : List V) (h : List (Ev (BfsReport V S M ML))) (s : BfsState V L S M ML) : Prop :=
  match s.pc with
  | .check => (s.toExpand = [] → starts = [] → repsOf h = [] ∧ s.depth = 1) ∧
      (s.toExpand = [] → starts ≠ [] → lastDepth h = s.depth - 2) ∧
      (s.toExpand ≠ [] → starts ≠ [] ∧ lastDepth h = s.depth - 1 ∧ s.nextToExpand = [])
  | _ => starts ≠ [] ∧ (s.nextToExpand = [] → lastDepth h = s.depth - 1) ∧ (s.nextToExpand ≠ [] → lastDepth h = s.depth)

theorem bfs_endInv {h : List (Ev (BfsReport V S M ML))} {s : BfsState V L S M ML}
    (hr : Reaches (bfsStep g c false) (bfsInit g c already starts) h s) : EndInv starts h s := by
  refine Reaches.invariant (EndInv starts) ?_ ?_ ?_ ?_ hr
  · refine ⟨fun h1 h2 => ⟨rfl, rfl⟩, fun h1 h2 => absurd h1 h2, fun h1 => ⟨h1, rfl, rfl⟩⟩
  · intro h s s' inv hs
    unfold bfsStep at hs
    split at hs
    · rename_i hp
      simp only [EndInv, hp] at inv
      split at hs
      · simp at hs
      · rename_i hx
        simp only [Step.tau.injEq] at hs
        subst hs
        obtain ⟨h1, h2, h3⟩ := inv.2.2 (by rw [hx]; simp)
        exact ⟨h1, fun _ => h2, fun h4 => absurd h3 h4⟩
    · rename_i hp
      simp only [EndInv, hp] at inv
      split at hs
      · simp at hs
      · split at hs
        · contradiction
        · simp only [Step.tau.injEq] at hs
          subst hs
          exact inv
    · rename_i hp
      simp only [EndInv, hp] at inv
      simp only [Step.tau.injEq] at hs
      subst hs
      exact inv
    · rename_i hp
      simp only [EndInv, hp] at inv
      split at hs
      · simp only [Step.tau.injEq] at hs
        subst hs
        exact inv
      · simp at hs
    · rename_i hp
      simp only [EndInv, hp] at inv
      simp only [Step.tau.injEq] at hs
      subst hs
      refine ⟨fun _ h2 => absurd h2 inv.1, fun h1 _ => ?_, fun h1 => ⟨inv.1, ?_, rfl⟩⟩
      · have := inv.2.1 h1
        simp only
        omega
      · have := inv.2.2 h1
        simp only
        omega
  · intro h s r s' inv hs
    unfold bfsStep at hs
    split at hs
    · split at hs <;> simp at hs
    · split at hs
      · simp at hs
      · split at hs
        · contradiction
        · simp at hs
    · simp at hs
    · rename_i hp
      simp only [EndInv, hp] at inv
      split at hs
      · simp at hs
      · simp only [Step.emit.injEq] at hs
        obtain ⟨rfl, rfl⟩ := hs
        refine ⟨inv.1, fun h1 => ?_, fun _ => ?_⟩
        · simp at h1
        · simp [lastDepth, repsOf_append]
    · simp at hs
  · intro h s s' inv hs
    unfold bfsStep at hs
    split at hs
    · split at hs <;> simp at hs
    · rename_i hp
      simp only [EndInv, hp] at inv
      split at hs
      · simp only [Step.expand.injEq] at hs
        subst hs
        have e : lastDepth (h ++ [Ev.exp]) = lastDepth h := by simp [lastDepth, repsOf_append]
        exact ⟨inv.1, fun h1 => e.trans (inv.2.1 h1), fun h1 => e.trans (inv.2.2 h1)⟩
      · split at hs <;> simp at hs
    · simp at hs
    · split at hs <;> simp at hs
    · simp at hs

/-- **C99, with each option.** When a breadth-first traversal has ended, attribute `depth` is the depth of the vertex that has
been reported last; it is 0 if nothing has been reported, and -1 if there are no start vertices. -/
theorem C99_last (already : S) (starts : List V) (limit : Option Int) (fuel : Nat)
    (hdone : (bfsRun g c already starts limit fuel).ending = .done) :
    let run := bfsRun g c already starts limit fuel
    (∀ r, run.reports.getLast? = some r → run.final.depth = r.depth) ∧
    (run.reports = [] → starts ≠ [] → run.final.depth = 0) ∧
    (starts = [] → run.reports = [] ∧ run.final.depth = -1) := by
  intro run
  obtain ⟨s, hs, he⟩ := run_reaches (bfsStep g c false) fuel (prepareLimit limit) (bfsInit g c already starts)
  have inv := bfs_endInv hs
  unfold bfsRun at hdone
  rw [hdone] at he
  simp only at he
  change bfsStep g c false s = .stop run.final at he
  have hp : s.pc = .check ∧ s.toExpand = [] ∧ run.final.depth = s.depth - 2 := by
    unfold bfsStep at he
    split at he
    · rename_i hp
      split at he
      · rename_i hx
        simp only [Step.stop.injEq] at he
        exact ⟨hp, hx, by rw [← he]⟩
      · simp at he
    · split at he
      · simp at he
      · split at he <;> simp at he
    · simp at he
    · split at he <;> simp at he
    · simp at he
  obtain ⟨hp, hx, hd⟩ := hp
  simp only [EndInv, hp] at inv
  by_cases hst : starts = []
  · obtain ⟨h1, h2⟩ := inv.1 hx hst
    have h1 : run.reports = [] := h1
    refine ⟨fun r hr => ?_, fun _ h => absurd hst h, fun _ => ⟨h1, by omega⟩⟩
    rw [h1] at hr
    simp at hr
  · have h1 : lastDepth run.events = s.depth - 2 := inv.2.1 hx hst
    refine ⟨fun r hr => ?_, fun h2 _ => ?_, fun h => absurd h hst⟩
    · have hr : (repsOf run.events).getLast? = some r := hr
      simp only [lastDepth, hr, Option.map_some, Option.getD_some] at h1
      omega
    · have h2 : repsOf run.events = [] := h2
      simp only [lastDepth, h2, List.getLast?_nil, Option.map_none, Option.getD_none] at h1
      omega

variable [DecidableEq V] [DecidableEq K]

/-- **C99.** When a breadth-first traversal has ended, attribute `depth` is the largest depth that a vertex has, i.e., each
vertex that can be reached from the start vertices can be reached with at most this number of edges, and some need that
many. -/
theorem C99_bfs (hg : g.so.Lawful) (ht : c.isTree = false) (hc : Compat (Edge c.next) c.vid) (starts : List V)
    (hst : starts ≠ []) (limit : Option Int) (fuel : Nat)
    (hdone : (bfsRun g c g.so.empty starts limit fuel).ending = .done) :
    ∃ n : Nat, (bfsRun g c g.so.empty starts limit fuel).final.depth = n ∧
      (∃ v, IsDepth (Edge c.next) (· ∈ starts) c.vid v n) ∧
      ∀ v d, IsDepth (Edge c.next) (· ∈ starts) c.vid v d → d ≤ n := by
  obtain ⟨h1, h2, -⟩ := C99_last (g := g) (c := c) g.so.empty starts limit fuel hdone
  have hdep := C01_bfs_depth g c hg ht hc starts limit fuel
  have hord := (C02_bfs_once_ordered g c hg ht hc g.so.empty starts limit fuel).2.2
  have hcom := (C03_bfs_complete g c hg ht hc g.so.empty starts limit fuel hdone).1
  generalize bfsRun g c g.so.empty starts limit fuel = run at *
  have hmax : ∀ r ∈ run.reports, r.depth ≤ run.final.depth := by
    intro r hr
    rcases List.eq_nil_or_concat run.reports with h | ⟨l, x, h⟩
    · rw [h] at hr; simp at hr
    · rw [List.concat_eq_append] at h
      rw [h1 x (by rw [h]; simp)]
      rw [h] at hr hord
      rw [List.map_append, List.pairwise_append] at hord
      rcases List.mem_append.1 hr with hr | hr
      · exact hord.2.2 _ (List.mem_map.2 ⟨r, hr, rfl⟩) _ (by simp)
      · simp only [List.mem_singleton] at hr
        rw [hr]
  have hex : ∃ n : Nat, run.final.depth = n ∧ ∃ v, IsDepth (Edge c.next) (· ∈ starts) c.vid v n := by
    rcases List.eq_nil_or_concat run.reports with h | ⟨l, x, h⟩
    · obtain ⟨v, rest, rfl⟩ := List.exists_cons_of_ne_nil hst
      exact ⟨0, h2 h hst, v, .start (by simp), fun _ _ _ _ => Nat.zero_le _⟩
    · obtain ⟨d, e, hd⟩ := hdep x (by rw [h]; simp)
      exact ⟨d, (h1 x (by rw [h]; simp)).trans e, _, hd⟩
  obtain ⟨n, hn, hv⟩ := hex
  refine ⟨n, hn, hv, fun v d hd => ?_⟩
  rcases hcom v (by have := bfsE_empty g c hg; unfold bfsE at this; rw [this]; exact ⟨d, hd.1⟩) with h | ⟨r, hr, e⟩
  · obtain ⟨u, hu, e⟩ := List.mem_map.1 h
    have := hd.2 0 u (.start hu) e
    omega
  · obtain ⟨d', e', hd'⟩ := hdep r hr
    have h3 := hmax r hr
    have h4 := hd.2 d' _ hd'.1 e
    rw [e', hn] at h3
    omega

end

/-! ## Non-vacuity -/

example : (bfsRun exBits (exCfg true) exBits.so.empty [0] none 100).ending = .done ∧
    (bfsRun exBits (exCfg true) exBits.so.empty [0] none 100).final.depth = 3 ∧
    (bfsRun exBits (exCfg true) exBits.so.empty [4] none 100).ending = .done ∧
    (bfsRun exBits (exCfg true) exBits.so.empty [] none 100).final.depth = -1 := by
  refine ⟨?_, ?_, ?_, ?_⟩ <;> decide +kernel

end NoGraphs
