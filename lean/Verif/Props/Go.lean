import Mathlib.Data.List.Dedup
import Mathlib.Data.List.Perm.Subperm
import Mathlib.Order.Nat
import Mathlib.Tactic.Push
import Verif.Model.Go

/-! # Properties C40, C41, C42: `go_for_vertices_in`, `go_to`, ranges -/

namespace NoGraphs

variable {ρ V K W : Type} [DecidableEq K]

/-! ## C41 -/

/-- **C41, found.** If some report has the id, `go_to` returns the first such report, and exactly the
reports up to it have been consumed. -/
theorem C41_go_to_found (id : ρ → K) (k : K) (fs : Bool) (before after : List ρ) (r : ρ) (e : Ending)
    (hb : ∀ x ∈ before, id x ≠ k) (hr : id r = k) :
    goTo id k fs (before ++ r :: after) e = .found r after := by
  induction before with
  | nil => simp [goTo, hr]
  | cons x xs ih =>
    have hx : id x ≠ k := hb x List.mem_cons_self
    simp only [List.cons_append, goTo]
    rw [if_pos hx]
    exact ih (fun y hy => hb y (List.mem_cons_of_mem _ hy))

/-- **C41, not found.** If no report has the id and the traversal ends, `KeyError` is raised, or `None`
is returned with `fail_silently`; an exception of the traversal is passed on. -/
theorem C41_go_to_not_found (id : ρ → K) (k : K) (fs : Bool) (reports : List ρ) (e : Ending)
    (h : ∀ x ∈ reports, id x ≠ k) :
    goTo id k fs reports e = match e with
      | .done => if fs then .none_ else .raised .keyError
      | .raised x => .raised x
      | .outOfFuel => .outOfFuel := by
  induction reports with
  | nil => cases e <;> rfl
  | cons x xs ih =>
    have hx : id x ≠ k := h x List.mem_cons_self
    simp only [goTo]
    rw [if_pos hx, ih (fun y hy => h y (List.mem_cons_of_mem _ hy))]

/-- The two cases of C41 are exhaustive, and both occur. -/
example : goTo (fun n : Nat => n) 3 false [1, 3, 2, 3] .done = .found 3 [2, 3] ∧
    goTo (fun n : Nat => n) 4 false [1, 3, 2, 3] .done = .raised .keyError ∧
    goTo (fun n : Nat => n) 4 true [1, 3, 2, 3] .done = .none_ := by decide

/-! ## C40 -/

theorem goForLoop_count (inSet : ρ → Bool) (reports : List ρ) (e : Ending) (count : Nat) (h0 : 0 < count) :
    let m := (reports.filter inSet).length
    (m < count → goForLoop inSet reports e count =
      (⟨reports.filter inSet, [], e⟩, count - m)) ∧
    (count ≤ m → ∃ a r b, reports = a ++ r :: b ∧ inSet r = true ∧
      ((a ++ [r]).filter inSet).length = count ∧
      goForLoop inSet reports e count = (⟨(a ++ [r]).filter inSet, b, .done⟩, 0)) := by
  induction reports generalizing count with
  | nil => exact ⟨fun _ => rfl, fun h => by simp at h; omega⟩
  | cons x xs ih =>
    intro m
    by_cases hx : inSet x = true
    · have hm : m = (xs.filter inSet).length + 1 := by simp [m, hx]
      by_cases h1 : count - 1 = 0
      · refine ⟨fun h => by omega, fun h => ⟨[], x, xs, rfl, hx, by simp [hx]; omega, ?_⟩⟩
        simp [goForLoop, hx, h1]
      · obtain ⟨i1, i2⟩ := ih (count - 1) (by omega)
        refine ⟨fun h => ?_, fun h => ?_⟩
        · have := i1 (by omega)
          simp only [goForLoop, hx, if_true, h1, if_false, this]
          simp only [hx, List.filter_cons_of_pos, Prod.mk.injEq, true_and]
          omega
        · obtain ⟨a, r, b, e1, e2, e3, e4⟩ := i2 (by omega)
          refine ⟨x :: a, r, b, by simp [e1], e2, ?_, ?_⟩
          · simp only [List.cons_append, hx, List.filter_cons_of_pos, List.length_cons, e3]; omega
          · simp only [goForLoop, hx, if_true, h1, if_false, e4]
            simp [hx]
    · have hm : m = (xs.filter inSet).length := by simp [m, hx]
      obtain ⟨i1, i2⟩ := ih count h0
      refine ⟨fun h => ?_, fun h => ?_⟩
      · have := i1 (by omega)
        simp only [goForLoop, hx, Bool.false_eq_true, if_false, this]
        simp [m, hx]
      · obtain ⟨a, r, b, e1, e2, e3, e4⟩ := i2 (by omega)
        refine ⟨x :: a, r, b, by simp [e1], e2, ?_, ?_⟩
        · simpa [hx] using e3
        · simp only [goForLoop, hx, Bool.false_eq_true, if_false, e4]
          simp [hx]

/-- If ids of reports are unique, the number of reports in the collection reaches the number of
different given ids exactly when all of them are found. -/
theorem unique_count (id : ρ → K) (ids : List K) (l : List ρ) (hu : (l.map id).Nodup) :
    (l.filter (fun r => decide (id r ∈ ids.dedup))).length ≤ ids.dedup.length ∧
    ((l.filter (fun r => decide (id r ∈ ids.dedup))).length = ids.dedup.length ↔
      ∀ k ∈ ids, ∃ r ∈ l, id r = k) := by
  have hn : ((l.filter (fun r => decide (id r ∈ ids.dedup))).map id).Nodup :=
    hu.sublist ((List.filter_sublist (l := l)).map id)
  have hsub : (l.filter (fun r => decide (id r ∈ ids.dedup))).map id ⊆ ids.dedup := by
    intro k hk
    obtain ⟨r, hr, rfl⟩ := List.mem_map.1 hk
    simpa using (List.mem_filter.1 hr).2
  have hle := (hn.subperm hsub)
  refine ⟨by simpa using hle.length_le, fun he => ?_, fun hall => ?_⟩
  · have hp := hle.perm_of_length_le (by rw [List.length_map]; omega)
    intro k hk
    have : k ∈ (l.filter (fun r => decide (id r ∈ ids.dedup))).map id :=
      hp.mem_iff.2 (List.mem_dedup.2 hk)
    obtain ⟨r, hr, e⟩ := List.mem_map.1 this
    exact ⟨r, (List.mem_filter.1 hr).1, e⟩
  · have hsub2 : ids.dedup ⊆ (l.filter (fun r => decide (id r ∈ ids.dedup))).map id := by
      intro k hk
      obtain ⟨r, hr, e⟩ := hall k (List.mem_dedup.1 hk)
      exact List.mem_map.2 ⟨r, List.mem_filter.2 ⟨hr, by simpa [e] using hk⟩, e⟩
    have h2 := ((List.nodup_dedup ids).subperm hsub2).length_le
    have h1 := hle.length_le
    simp only [List.length_map] at h1 h2
    omega

/-- **C40 (for traversals that report no id twice), all found.** If the reports contain all the
given ids, `go_for_vertices_in` yields exactly the reports with given ids, in the order of the
traversal, and stops without exception directly after the last of them (nothing more is consumed). -/
theorem C40_found_partial (id : ρ → K) (ids : List K) (fs : Bool) (reports : List ρ) (e : Ending)
    (hu : (reports.map id).Nodup) (hne : ids ≠ []) (hall : ∀ k ∈ ids, ∃ r ∈ reports, id r = k) :
    ∃ consumed rest, reports = consumed ++ rest ∧
      goForVerticesIn id ids fs reports e =
        ⟨reports.filter (fun r => decide (id r ∈ ids)), rest, .done⟩ ∧
      (∃ init last, consumed = init ++ [last] ∧ id last ∈ ids) := by
  have hcount : 0 < ids.dedup.length := by
    cases ids with
    | nil => exact absurd rfl hne
    | cons k ks => exact List.length_pos_of_mem (List.mem_dedup.2 (List.mem_cons_self (a := k) (l := ks)))
  obtain ⟨-, hiff⟩ := unique_count id ids reports hu
  have hm := hiff.2 hall
  obtain ⟨a, r, b, e1, e2, e3, e4⟩ :=
    (goForLoop_count (fun r => decide (id r ∈ ids.dedup)) reports e ids.dedup.length hcount).2 (by omega)
  have hfd : (fun r => decide (id r ∈ ids.dedup)) = (fun r => decide (id r ∈ ids)) := by
    funext r; simp [List.mem_dedup]
  refine ⟨a ++ [r], b, by simp [e1], ?_, a, r, rfl, by simpa using e2⟩
  unfold goForVerticesIn
  simp only [show ¬ ids.dedup.length = 0 by omega, if_false, e4]
  have hb : b.filter (fun r => decide (id r ∈ ids.dedup)) = [] := by
    have : (reports.filter (fun r => decide (id r ∈ ids.dedup))).length =
        ((a ++ [r]).filter (fun r => decide (id r ∈ ids.dedup))).length +
        (b.filter (fun r => decide (id r ∈ ids.dedup))).length := by
      rw [← List.length_append, ← List.filter_append]; simp [e1]
    rw [hm, e3] at this
    exact List.length_eq_zero_iff.1 (by omega)
  have hfull : reports.filter (fun r => decide (id r ∈ ids.dedup)) =
      (a ++ [r]).filter (fun r => decide (id r ∈ ids.dedup)) := by
    have : reports = (a ++ [r]) ++ b := by simp [e1]
    rw [this, List.filter_append, hb, List.append_nil]
  rw [← hfull, hfd]
  simp

/-- **C40 (for traversals that report no id twice), not all found.** If the traversal ends and some
given id is not reported, the reports with given ids are yielded, all reports are consumed, and
`KeyError` is raised (nothing is raised with `fail_silently`). -/
theorem C40_not_found_partial (id : ρ → K) (ids : List K) (fs : Bool) (reports : List ρ)
    (hu : (reports.map id).Nodup) (hmiss : ∃ k ∈ ids, ∀ r ∈ reports, id r ≠ k) :
    goForVerticesIn id ids fs reports .done =
      ⟨reports.filter (fun r => decide (id r ∈ ids)), [], if fs then .done else .raised .keyError⟩ := by
  obtain ⟨k, hk, hmiss⟩ := hmiss
  have hcount : 0 < ids.dedup.length := List.length_pos_of_mem (List.mem_dedup.2 hk)
  obtain ⟨hle, hiff⟩ := unique_count id ids reports hu
  have hlt : (reports.filter (fun r => decide (id r ∈ ids.dedup))).length < ids.dedup.length := by
    rcases Nat.lt_or_ge (reports.filter (fun r => decide (id r ∈ ids.dedup))).length ids.dedup.length with h | h
    · exact h
    · obtain ⟨r, hr, e⟩ := hiff.1 (by omega) k hk
      exact absurd e (hmiss r hr)
  have h1 := (goForLoop_count (fun r => decide (id r ∈ ids.dedup)) reports .done ids.dedup.length hcount).1 hlt
  have hfd : (fun r => decide (id r ∈ ids.dedup)) = (fun r => decide (id r ∈ ids)) := by
    funext r; simp [List.mem_dedup]
  unfold goForVerticesIn
  simp only [show ¬ ids.dedup.length = 0 by omega, if_false, h1]
  have : ids.dedup.length - (reports.filter (fun r => decide (id r ∈ ids.dedup))).length > 0 := by omega
  rw [hfd] at *
  cases fs <;> simp [this]

/-- **C40 (for traversals that report no id twice), exceptions of the traversal** are passed on, after the
reports with given ids have been yielded, if not all the ids had been found before. -/
theorem C40_exception_partial (id : ρ → K) (ids : List K) (fs : Bool) (reports : List ρ) (err : PyErr)
    (hu : (reports.map id).Nodup) (hmiss : ∃ k ∈ ids, ∀ r ∈ reports, id r ≠ k) :
    goForVerticesIn id ids fs reports (.raised err) =
      ⟨reports.filter (fun r => decide (id r ∈ ids)), [], .raised err⟩ := by
  obtain ⟨k, hk, hmiss⟩ := hmiss
  have hcount : 0 < ids.dedup.length := List.length_pos_of_mem (List.mem_dedup.2 hk)
  obtain ⟨hle, hiff⟩ := unique_count id ids reports hu
  have hlt : (reports.filter (fun r => decide (id r ∈ ids.dedup))).length < ids.dedup.length := by
    rcases Nat.lt_or_ge (reports.filter (fun r => decide (id r ∈ ids.dedup))).length ids.dedup.length with h | h
    · exact h
    · obtain ⟨r, hr, e⟩ := hiff.1 (by omega) k hk
      exact absurd e (hmiss r hr)
  have h1 := (goForLoop_count (fun r => decide (id r ∈ ids.dedup)) reports (.raised err)
    ids.dedup.length hcount).1 hlt
  have hfd : (fun r => decide (id r ∈ ids.dedup)) = (fun r => decide (id r ∈ ids)) := by
    funext r; simp [List.mem_dedup]
  unfold goForVerticesIn
  simp only [show ¬ ids.dedup.length = 0 by omega, if_false, h1]
  rw [hfd]

/-- **C40, no vertices given.** Nothing is yielded and nothing is consumed. -/
theorem C40_nothing_given (id : ρ → K) (fs : Bool) (reports : List ρ) (e : Ending) :
    goForVerticesIn id [] fs reports e = ⟨[], reports, .done⟩ := by
  simp [goForVerticesIn]

/-- Non-vacuity of C40. -/
example : (goForVerticesIn (fun n : Nat => n) [5, 2, 5] false [1, 2, 3, 5, 4] .done).yielded = [2, 5] ∧
    (goForVerticesIn (fun n : Nat => n) [5, 2, 5] false [1, 2, 3, 5, 4] .done).rest = [4] ∧
    (goForVerticesIn (fun n : Nat => n) [5, 9] false [1, 2, 3, 5, 4] .done).ending = .raised .keyError := by
  decide

/-- **C40 fails for traversals that report an id repeatedly** (depth-first search with several events or in
mode `ALL_PATHS`, A* with an inconsistent heuristic): here vertex 2 is requested and reported, but
`go_for_vertices_in` stops before it, since it counts two reports of vertex 1, and raises nothing. -/
theorem C40_counterexample_repeated :
    ∃ (reports ids : List Nat), (∀ k ∈ ids, k ∈ reports) ∧
      (goForVerticesIn (fun n : Nat => n) ids false reports .done).ending = .done ∧
      2 ∈ ids ∧ 2 ∉ (goForVerticesIn (fun n : Nat => n) ids false reports .done).yielded :=
  ⟨[1, 1, 2], [1, 2], by decide⟩

/-! ## C42 -/

/-- **C40 for a traversal that has come to its end** and has reported no id twice: exactly the reports of the
given vertices are yielded; no exception is raised iff all of them have been reported, otherwise it
is `KeyError`. -/
theorem C40_ended (id : ρ → K) (ks : List K) (reports : List ρ) (hu : (reports.map id).Nodup) (hne : ks ≠ []) :
    let res := goForVerticesIn id ks false reports .done
    res.yielded = reports.filter (fun r => decide (id r ∈ ks)) ∧
    (res.ending = .done ↔ ∀ k ∈ ks, ∃ r ∈ reports, id r = k) ∧
    (res.ending = .done ∨ res.ending = .raised .keyError) := by
  intro res
  by_cases hall : ∀ k ∈ ks, ∃ r ∈ reports, id r = k
  · obtain ⟨_, rest, -, e, -⟩ := C40_found_partial id ks false reports .done hu hne hall
    simp only [res, e]
    exact ⟨trivial, by simpa using hall, .inl trivial⟩
  · have e := C40_not_found_partial id ks false reports hu (by push Not at hall; exact hall)
    simp only [res, e]
    refine ⟨trivial, ⟨fun h => by simp at h, fun h => absurd h hall⟩, .inr (by simp)⟩

variable [LinearOrder W]

theorem goRangeLoop2_sorted (dist : ρ → W) (stop : W) (reports : List ρ) (e : Ending)
    (hs : (reports.map dist).Pairwise (· ≤ ·)) :
    (goRangeLoop2 dist stop reports e).yielded = reports.filter (fun r => decide (dist r < stop)) ∧
    ((∀ r ∈ reports, dist r < stop) ∧ (goRangeLoop2 dist stop reports e).rest = [] ∧
        (goRangeLoop2 dist stop reports e).ending = e ∨
      ∃ r b, reports = reports.filter (fun r => decide (dist r < stop)) ++ r :: b ∧ stop ≤ dist r ∧
        (goRangeLoop2 dist stop reports e).rest = b ∧ (goRangeLoop2 dist stop reports e).ending = .done) := by
  induction reports with
  | nil => exact ⟨rfl, .inl ⟨by simp, rfl, rfl⟩⟩
  | cons x xs ih =>
    simp only [List.map_cons, List.pairwise_cons, List.mem_map, forall_exists_index, and_imp,
      forall_apply_eq_imp_iff₂] at hs
    obtain ⟨i1, i2⟩ := ih hs.2
    by_cases hx : stop ≤ dist x
    · have hall : (x :: xs).filter (fun r => decide (dist r < stop)) = [] := by
        rw [List.filter_eq_nil_iff]
        intro r hr
        rcases List.mem_cons.1 hr with rfl | hr
        · simp [hx]
        · simpa using le_trans hx (hs.1 r hr)
      simp only [goRangeLoop2, hx, if_true, hall]
      exact ⟨trivial, .inr ⟨x, xs, rfl, hx, by simp, by simp⟩⟩
    · have hx' : dist x < stop := lt_of_not_ge hx
      have hf : (x :: xs).filter (fun r => decide (dist r < stop)) =
          x :: xs.filter (fun r => decide (dist r < stop)) := by simp [hx']
      simp only [goRangeLoop2, hx, if_false, hf]
      refine ⟨by rw [i1], ?_⟩
      rcases i2 with ⟨h1, h2, h3⟩ | ⟨r, b, h1, h2, h3, h4⟩
      · refine .inl ⟨fun r hr => ?_, h2, h3⟩
        rcases List.mem_cons.1 hr with rfl | hr
        · exact hx'
        · exact h1 r hr
      · exact .inr ⟨r, b, by rw [List.cons_append, ← h1], h2, h3, h4⟩

/-- **C42, reports.** If depths (distances) of the reports do not decrease, the range methods yield
exactly the reports with `start ≤ depth < stop`, in order. -/
theorem C42_range_reports (dist : ρ → W) (start stop : W) (reports : List ρ) (e : Ending)
    (hs : (reports.map dist).Pairwise (· ≤ ·)) :
    (goRange dist start stop reports e).yielded =
      reports.filter (fun r => decide (start ≤ dist r ∧ dist r < stop)) := by
  induction reports with
  | nil => rfl
  | cons x xs ih =>
    simp only [List.map_cons, List.pairwise_cons, List.mem_map, forall_exists_index, and_imp,
      forall_apply_eq_imp_iff₂] at hs
    by_cases hx : start ≤ dist x
    · obtain ⟨h1, -⟩ := goRangeLoop2_sorted dist stop xs e hs.2
      have hxs : xs.filter (fun r => decide (start ≤ dist r ∧ dist r < stop)) =
          xs.filter (fun r => decide (dist r < stop)) := by
        apply List.filter_congr
        intro r hr
        have : start ≤ dist r := le_trans hx (hs.1 r hr)
        simp [this]
      by_cases hx2 : dist x < stop
      · simp only [goRange, hx, if_true, hx2, h1]
        rw [List.filter_cons_of_pos (by simp [hx, hx2]), hxs]
      · simp only [goRange, hx, if_true, hx2, if_false, h1]
        rw [List.filter_cons_of_neg (by simp [hx2]), hxs]
    · simp only [goRange, hx, if_false]
      rw [List.filter_cons_of_neg (by simp [hx])]
      exact ih hs.2

/-- **C42, consumption, non-empty ranges.** If some report lies in the range, then the method either
consumes all reports (none of them is at or above `stop`) and ends like the traversal, or it stops after
having consumed exactly one report at or above `stop`. -/
theorem C42_range_consumption_partial (dist : ρ → W) (start stop : W) (reports : List ρ) (e : Ending)
    (hs : (reports.map dist).Pairwise (· ≤ ·)) (hne : ∃ r ∈ reports, start ≤ dist r ∧ dist r < stop) :
    ((∀ r ∈ reports, dist r < stop) ∧ (goRange dist start stop reports e).rest = [] ∧
      (goRange dist start stop reports e).ending = e) ∨
    ∃ r b, reports = reports.filter (fun r => decide (dist r < stop)) ++ r :: b ∧ stop ≤ dist r ∧
      (goRange dist start stop reports e).rest = b ∧ (goRange dist start stop reports e).ending = .done := by
  induction reports with
  | nil => obtain ⟨r, hr, _⟩ := hne; simp at hr
  | cons x xs ih =>
    simp only [List.map_cons, List.pairwise_cons, List.mem_map, forall_exists_index, and_imp,
      forall_apply_eq_imp_iff₂] at hs
    obtain ⟨r0, hr0, h0⟩ := hne
    have hx2 : dist x < stop := by
      rcases List.mem_cons.1 hr0 with rfl | h
      · exact h0.2
      · exact lt_of_le_of_lt (hs.1 _ h) h0.2
    have hf : (x :: xs).filter (fun r => decide (dist r < stop)) =
        x :: xs.filter (fun r => decide (dist r < stop)) := by simp [hx2]
    have lift : ∀ res : GoResult ρ, ((∀ r ∈ xs, dist r < stop) ∧ res.rest = [] ∧ res.ending = e ∨
        ∃ r b, xs = xs.filter (fun r => decide (dist r < stop)) ++ r :: b ∧ stop ≤ dist r ∧ res.rest = b ∧
          res.ending = .done) →
        ((∀ r ∈ x :: xs, dist r < stop) ∧ res.rest = [] ∧ res.ending = e ∨
        ∃ r b, x :: xs = (x :: xs).filter (fun r => decide (dist r < stop)) ++ r :: b ∧ stop ≤ dist r ∧
          res.rest = b ∧ res.ending = .done) := by
      rintro res (⟨h1, h2, h3⟩ | ⟨r, b, h1, h2, h3, h4⟩)
      · refine .inl ⟨fun r hr => ?_, h2, h3⟩
        rcases List.mem_cons.1 hr with rfl | hr
        · exact hx2
        · exact h1 r hr
      · exact .inr ⟨r, b, by rw [hf, List.cons_append, ← h1], h2, h3, h4⟩
    by_cases hx : start ≤ dist x
    · obtain ⟨-, h2⟩ := goRangeLoop2_sorted dist stop xs e hs.2
      simp only [goRange, hx, if_true, hx2]
      exact lift { goRangeLoop2 dist stop xs e with yielded := x :: (goRangeLoop2 dist stop xs e).yielded } h2
    · simp only [goRange, hx, if_false]
      refine lift _ (ih hs.2 ⟨r0, ?_, h0⟩)
      rcases List.mem_cons.1 hr0 with rfl | h
      · exact absurd h0.1 hx
      · exact h

/-- Non-vacuity of C42. -/
example : (goRange (fun n : Nat => n) 2 4 [1, 1, 2, 3, 3, 5, 6] .done).yielded = [2, 3, 3] ∧
    (goRange (fun n : Nat => n) 2 4 [1, 1, 2, 3, 3, 5, 6] .done).rest = [6] := by decide

/-- **C42, the documented loss of one report is exceeded for empty ranges**: with distances 1, 7, 9 and the
range from 3 to 5, nothing is yielded, but both the reports with distance 7 and 9 are consumed and lost. -/
theorem C42_counterexample_two_lost :
    (goRange (fun n : Nat => n) 3 5 [1, 7, 9] .done).yielded = [] ∧
    (goRange (fun n : Nat => n) 3 5 [1, 7, 9] .done).rest = [] ∧
    (goRange (fun n : Nat => n) 3 5 [1, 7, 9] .done).ending = .done := by decide

end NoGraphs
