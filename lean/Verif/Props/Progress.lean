import Verif.Proofs.Progress
import Verif.Props.Bfs
import Verif.Props.ShortestPaths

/-! # C71: progress in infinite graphs -/

set_option linter.unusedSectionVars false

namespace NoGraphs

open Spec

variable {V K L S M ML : Type} [DecidableEq V] [DecidableEq K]

/-- The graph without the edges from vertices whose id is not in `ids`. -/
def cutNext {E : Type} (next : V → List E) (vid : V → K) (ids : List K) (v : V) : List E :=
  if vid v ∈ ids then next v else []

theorem cutNext_sub {E : Type} {next : V → List E} {vid : V → K} {ids : List K} {v : V} {e : E}
    (h : e ∈ cutNext next vid ids v) : e ∈ next v := by
  unfold cutNext at h
  split at h
  · exact h
  · simp at h

/-- Vertices that can be reached by at most `n` edges. -/
def layers (next : V → List (V × L)) (starts : List V) : Nat → List V
  | 0 => starts
  | n + 1 => layers next starts n ++ (layers next starts n).flatMap (fun v => (next v).map (fun e => e.1))

theorem mem_layers {next : V → List (V × L)} {starts : List V} {n m : Nat} {v : V}
    (h : WalkN (Edge next) (· ∈ starts) m v) (hm : m ≤ n) : v ∈ layers next starts n := by
  induction n generalizing m v with
  | zero =>
    cases h with
    | start h => exact h
    | step _ _ => omega
  | succ n ih =>
    simp only [layers, List.mem_append]
    cases h with
    | start h => exact .inl (ih (.start h) (Nat.zero_le _))
    | @step k u _ hw he =>
      obtain ⟨l, hl⟩ := he
      exact .inr (List.mem_flatMap.2 ⟨u, ih hw (by omega), List.mem_map.2 ⟨_, hl, rfl⟩⟩)

variable {g : TravGear V K L S M ML} {c : TravCfg V K L}

theorem walk_mono {E E' : V → V → Prop} {S : V → Prop} (h : ∀ u v, E u v → E' u v) {n : Nat} {v : V} (hw : WalkN E S n v) :
    WalkN E' S n v := by
  induction hw with
  | start h => exact .start h
  | step _ he ih => exact .step ih (h _ _ he)

/-- **C71 for breadth-first search.** In each graph, also in an infinite one, each vertex that can be reached from a start
vertex without going through already visited vertices is reported, after finitely many steps. -/
theorem C71_bfs_progress (hg : g.so.Lawful) (ht : c.isTree = false) (hc : Compat (Edge c.next) c.vid)
    (already : S) (starts : List V) (v : V) (hv : c.vid v ∉ starts.map c.vid)
    (hr : Reachable (Allowed c.next c.vid (fun k => g.so.contains already k = true)) (· ∈ starts) v) :
    ∃ N, ∀ fuel, N ≤ fuel → ∃ r ∈ (bfsRun g c already starts none fuel).reports, c.vid r.vertex = c.vid v := by
  obtain ⟨n, hw⟩ := hr
  let ids := (layers c.next starts n).map c.vid
  let c' : TravCfg V K L := { c with next := cutNext c.next c.vid ids }
  have hsub : ∀ u w, Allowed c'.next c.vid (fun k => g.so.contains already k = true) u w → Edge c.next u w :=
    fun u w ⟨⟨l, hl⟩, _⟩ => ⟨l, cutNext_sub hl⟩
  have hc' : Compat (Edge c'.next) c'.vid := by
    rintro u u' w e ⟨l, hl⟩
    obtain ⟨w', ⟨l', hl'⟩, e'⟩ := hc u u' w e ⟨l, cutNext_sub hl⟩
    refine ⟨w', ⟨l', ?_⟩, e'⟩
    have e0 : c.vid u = c.vid u' := e
    simp only [c', cutNext] at hl ⊢
    rw [← e0]
    split at hl
    · rename_i hm
      rw [if_pos hm]
      exact hl'
    · simp at hl
  -- the walk to `v` is a walk of the cut graph
  have hcut : ∀ m w, m ≤ n → WalkN (Allowed c.next c.vid (fun k => g.so.contains already k = true)) (· ∈ starts) m w →
      WalkN (Allowed c'.next c.vid (fun k => g.so.contains already k = true)) (· ∈ starts) m w := by
    intro m w hm hw
    induction hw with
    | start h => exact .start h
    | @step k u w hw he ih =>
      obtain ⟨⟨l, hl⟩, h2⟩ := he
      refine .step (ih (by omega)) ⟨⟨l, ?_⟩, h2⟩
      have : c.vid u ∈ ids := List.mem_map_of_mem (mem_layers (walk_mono (fun _ _ h => h.1) hw) (by omega))
      simp only [c', cutNext, if_pos this]
      exact hl
  -- the cut graph is finite
  have hfin : FinitelyReachable (Allowed c'.next c'.vid (fun k => g.so.contains already k = true)) (· ∈ starts) c'.vid := by
    refine ⟨(layers c.next starts (n + 1)).map c.vid, ?_⟩
    rintro w ⟨m, hw⟩
    cases hw with
    | start h => exact List.mem_map_of_mem (mem_layers (.start h) (Nat.zero_le _))
    | @step k u _ hu he =>
      obtain ⟨⟨l, hl⟩, -⟩ := he
      simp only [c', cutNext] at hl
      split at hl
      · rename_i hm
        obtain ⟨u', hu', e⟩ := List.mem_map.1 hm
        obtain ⟨w', ⟨l', hl'⟩, e'⟩ := hc u u' w e.symm ⟨l, hl⟩
        rw [show c'.vid w = c.vid w from rfl, ← e']
        refine List.mem_map_of_mem ?_
        simp only [layers, List.mem_append]
        exact .inr (List.mem_flatMap.2 ⟨u', hu', List.mem_map.2 ⟨_, hl', rfl⟩⟩)
      · simp at hl
  -- so, the traversal of the cut graph ends, and `v` is reported
  obtain ⟨N, hN⟩ := C03_bfs_terminates (M := M) (ML := ML) (g := g) (c := c') hg ht hc' already starts hfin
  have hdone := hN N (Nat.le_refl _)
  obtain ⟨r, hr, hrv⟩ := ((C03_bfs_complete (g := g) (c := c') hg ht hc' already starts none N hdone).1 v
    ⟨n, hcut n v (Nat.le_refl _) hw⟩).resolve_left hv
  obtain ⟨s, hs, -⟩ := run_reaches (bfsStep g c' false) N none (bfsInit g c' already starts)
  obtain ⟨a, b, hab⟩ := List.append_of_mem hr
  obtain ⟨h1, t, t', ha, hb, hbef⟩ := hs.emitted hab
  have hs1 : Reaches (bfsStep g c' false) (bfsInit g c' already starts) (h1 ++ [.rep r]) t' := .emit ha hb
  -- up to this report, the edges of all vertices are the same
  have hQ : Reaches (bfsStep g c false) (bfsInit g c' already starts) (h1 ++ [.rep r]) t' := by
    refine Reaches.transfer (fun h => ∀ r ∈ repsOf h, r.depth ≤ n) ?_ ?_ hs1 ?_
    · intro a b h r hr
      exact h r (by rw [repsOf_append]; exact List.mem_append_left _ hr)
    · intro h s hs hle
      obtain ⟨k, inv⟩ := bfs_inv (c := c') hg ht hc' hs
      unfold bfsStep
      rcases hpc : s.pc with _ | _ | ⟨u, es⟩ | _
      · rfl
      · rcases hx : s.toExpand with _ | ⟨u, rest⟩
        · rfl
        · have hd := inv.exp u (by rw [hx]; exact List.mem_cons_self)
          have hu : c.vid u ∈ ids := by
            refine List.mem_map_of_mem (mem_layers (walk_mono hsub hd.1) ?_)
            rcases Nat.eq_zero_or_pos k with h0 | h0
            · omega
            · have hvis := (inv.vis (c'.vid u)).2 (.inr (.inl ⟨k, u, Nat.le_refl _, hd.1, rfl⟩))
              rcases inv.cover _ hvis with hal | hst | ⟨r', hr', e⟩
              · exfalso
                have hw := hd.1
                cases hw with
                | start _ => omega
                | step _ he => exact he.2 hal
              · exfalso
                obtain ⟨z, hz, e⟩ := List.mem_map.1 hst
                have := hd.2 0 z (.start hz) e
                omega
              · obtain ⟨d, e1, -, -, hd', -⟩ := inv.reps r' hr'
                have h2 := hd'.2 k u hd.1 e.symm
                have h3 := hd.2 d r'.vertex hd'.1 e
                have h4 := hle r' hr'
                omega
          simp only [c', cutNext, if_pos hu]
      · rcases es with _ | ⟨e, es⟩ <;> rfl
      · rfl
    · intro r' hr'
      obtain ⟨k, inv⟩ := bfs_inv (c := c') hg ht hc' hs1
      obtain ⟨d, e1, -, -, hd, -⟩ := inv.reps r (by simp)
      have h2 := hd.2 n v (hcut n v (Nat.le_refl _) hw) hrv.symm
      have hso := inv.sorted
      simp only [repsOf_append, repsOf_rep, repsOf_nil, List.map_append, List.map_cons, List.map_nil,
        List.pairwise_append, List.mem_map, List.mem_singleton] at hso
      simp only [repsOf_append, repsOf_rep, repsOf_nil, List.mem_append, List.mem_singleton] at hr'
      rcases hr' with hr' | rfl
      · have := hso.2.2 r'.depth ⟨r', hr', rfl⟩ r.depth rfl
        omega
      · omega
  obtain ⟨N', hN'⟩ := hQ.reported
  refine ⟨N', fun fuel hf => ?_⟩
  obtain ⟨h', e⟩ := hN' fuel hf
  refine ⟨r, ?_, hrv⟩
  unfold bfsRun RunResult.reports
  have : (runMachine (bfsStep g c false) fuel (prepareLimit none) (bfsInit g c already starts)).events =
    h1 ++ [.rep r] ++ h' := e
  rw [this]
  simp

/-! ## Example: an infinite graph -/

/-- Each number has edges to its successor and to its double. -/
def exInfinite (v : Nat) : List (Nat × Char) := [(2 * v, 'd'), (v + 1, 's')]

/-- Each number from 2 on is reported by the search from 1. -/
example (v : Nat) (hv : 2 ≤ v) : ∃ N, ∀ fuel, N ≤ fuel →
    ∃ r ∈ (bfsRun exHash ⟨exInfinite, id, false, true⟩ [] [1] none fuel).reports, r.vertex = v := by
  refine C71_bfs_progress (c := ⟨exInfinite, id, false, true⟩) hashSet_lawful rfl
    (Compat.of_injective _ _ (fun _ _ h => h)) [] [1] v (by simp; omega) ?_
  have : ∀ n, Reachable (Allowed exInfinite id (fun k => exHash.so.contains [] k = true)) (· ∈ [1]) (n + 1) := by
    intro n
    induction n with
    | zero => exact ⟨0, .start (by simp)⟩
    | succ n ih =>
      obtain ⟨m, hm⟩ := ih
      exact ⟨m + 1, .step hm ⟨⟨'s', by simp [exInfinite]⟩, by simp [exHash, hashSet]⟩⟩
  obtain ⟨n, rfl⟩ := Nat.exists_eq_add_of_le hv
  rw [show 2 + n = n + 1 + 1 by omega]
  exact this (n + 1)

end NoGraphs
