import Mathlib.Tactic.NormNum
import Mathlib.Tactic.Positivity
import Verif.Proofs.InRange
import Verif.Proofs.Infinity
import Verif.Props.BiDijkstra
import Verif.Spec.CTypes

/-! # Gears with a bounded type for distances: C73

`Spec.cIntTypes` (type codes of `array.array`) and `Spec.FitsCInt` (numbers that an item can store)
are defined in `Verif/Spec/CTypes.lean`. -/

set_option linter.unusedSectionVars false

namespace NoGraphs

open Spec

/-! ## The type codes -/

/-- **C73 (type codes).** The infinity value of the gear is one of the numbers that an array with the type code can store,
and so are all numbers from zero to it, on each platform (whatever the actual size of the items is: the
documentation of `array` guarantees a minimum). It is the largest number for which this holds. -/
theorem C73_type_codes (tc : TypeCode) (t : CIntType) (ht : (tc.char, t) ∈ cIntTypes) (x : Int) (hx : 0 ≤ x) :
    x ≤ maxValue tc ↔ ∀ size, t.minSize ≤ size → FitsCInt t.signed size x := by
  have key : ∀ (a : Nat) (size : Nat), a ≤ size → (2 : Int) ^ (8 * a) ≤ 2 ^ (8 * size) ∧
      (2 : Int) ^ (8 * a - 1) ≤ 2 ^ (8 * size - 1) := fun a size h =>
    ⟨pow_le_pow_right₀ (by norm_num) (by omega), pow_le_pow_right₀ (by norm_num) (by omega)⟩
  have hpos : ∀ n, (0 : Int) < 2 ^ n := fun n => by positivity
  constructor
  · intro hle size hs
    unfold FitsCInt
    have hp := hpos (8 * size - 1)
    cases tc <;> simp [cIntTypes, TypeCode.char] at ht <;> subst ht <;>
      simp only [maxValue, TypeCode.bytes, TypeCode.isLower] at hle hs ⊢ <;> norm_num at hle ⊢ <;>
      first
        | (have := (key 1 size hs); norm_num at this; omega)
        | (have := (key 2 size hs); norm_num at this; omega)
        | (have := (key 4 size hs); norm_num at this; omega)
        | (have := (key 8 size hs); norm_num at this; omega)
  · intro h
    have := h _ (le_refl _)
    unfold FitsCInt at this
    cases tc <;> simp [cIntTypes, TypeCode.char] at ht <;> subst ht <;>
      simp only [maxValue, TypeCode.bytes, TypeCode.isLower] at this ⊢ <;> norm_num at this ⊢ <;> omega

/-- Each type code is in the documentation. -/
theorem TypeCode.documented (tc : TypeCode) : ∃ t, (tc.char, t) ∈ cIntTypes := by
  cases tc <;> simp [cIntTypes, TypeCode.char]

theorem maxValue_nonneg (tc : TypeCode) : 0 < maxValue tc := by cases tc <;> decide

theorem cIntDist_keeps (tc : TypeCode) (pre : Nat) :
    (cIntDist tc pre).Keeps (fun m => ∀ x ∈ m, 0 ≤ x ∧ x ≤ maxValue tc) (fun w => 0 ≤ w ∧ w ≤ maxValue tc) :=
  seqDist_keeps _ ⟨(maxValue_nonneg tc).le, le_refl _⟩ pre

theorem cIntDist_lawful (tc : TypeCode) (pre : Nat) : (cIntDist tc pre).Lawful (maxValue tc) :=
  seqDist_lawful _ (fun _ => Nat.succ_pos _) pre

/-! ## What is stored, can be stored -/

section
variable {V L M ML : Type} [DecidableEq V] (mo : MapOps M Nat V) (lo : MapOps ML Nat L)
variable (tc : TypeCode) (pre : Nat)

/-- **C73 (`TraversalShortestPaths`).** If weights are not negative, then at each moment of a traversal, all numbers in the
array of distances can be stored in an array with the given type code, on each platform. -/
theorem C73_sp_fits (c : WCfg V Nat L Int) (hinf : c.inf = maxValue tc) (hn : NonNeg c.next)
    (t : CIntType) (ht : (tc.char, t) ∈ cIntTypes) (size : Nat) (hs : t.minSize ≤ size)
    (starts : List V) (limit : Option Int) (fuel : Nat) :
    ∀ x ∈ (spRun ⟨mo, lo, cIntDist tc pre⟩ c none starts limit fuel).final.dist, FitsCInt t.signed size x := by
  have hk := cIntDist_keeps tc pre
  rw [← hinf] at hk
  have h0 : 0 ≤ c.inf := by rw [hinf]; exact (maxValue_nonneg tc).le
  intro x hx
  have := (run_final (m := spStep ⟨mo, lo, cIntDist tc pre⟩ c) (SpRange fun m => ∀ x ∈ m, 0 ≤ x ∧ x ≤ c.inf) (sp_range ⟨mo, lo, cIntDist tc pre⟩ c hk h0 hn) fuel
    (prepareLimit limit) _ (sp_range_init ⟨mo, lo, cIntDist tc pre⟩ c hk h0 starts)).1 x hx
  rw [hinf] at this
  exact (C73_type_codes tc t ht x this.1).1 this.2 size hs

/-- **C73 (`TraversalAStar`).** The same for the distances and for the guesses of path lengths, if the values of the heuristic function are
not negative, and those of the start vertices are not larger than infinity. -/
theorem C73_astar_fits (c : AStarCfg V Nat L Int) (hinf : c.inf = maxValue tc) (hn : NonNeg c.next)
    (hh : ∀ v, 0 ≤ c.heur v) (t : CIntType) (ht : (tc.char, t) ∈ cIntTypes) (size : Nat) (hs : t.minSize ≤ size)
    (starts : List V) (hst : ∀ v ∈ starts, c.heur v ≤ c.inf) (limit : Option Int) (fuel : Nat) :
    let final := (aRun ⟨mo, lo, cIntDist tc pre⟩ c none none starts limit fuel).final
    (∀ x ∈ final.dist, FitsCInt t.signed size x) ∧ ∀ x ∈ final.guesses, FitsCInt t.signed size x := by
  have hk := cIntDist_keeps tc pre
  have hd := cIntDist_lawful tc pre
  rw [← hinf] at hk hd
  have h0 : 0 ≤ c.inf := by rw [hinf]; exact (maxValue_nonneg tc).le
  have := run_final (m := aStep ⟨mo, lo, cIntDist tc pre⟩ c) (ARange fun m => ∀ x ∈ m, 0 ≤ x ∧ x ≤ c.inf) (a_range ⟨mo, lo, cIntDist tc pre⟩ c hk h0 hn hh) fuel
    (prepareLimit limit) _ (a_range_init ⟨mo, lo, cIntDist tc pre⟩ c hd hk h0 starts fun v hv => ⟨hh v, hst v hv⟩)
  refine ⟨fun x hx => ?_, fun x hx => ?_⟩
  · have := this.1 x hx
    rw [hinf] at this
    exact (C73_type_codes tc t ht x this.1).1 this.2 size hs
  · have := this.2.1 x hx
    rw [hinf] at this
    exact (C73_type_codes tc t ht x this.1).1 this.2 size hs

/-- **C73 (`BSearchShortestPath`).** The same for the distances of both directions. -/
theorem C73_bd_fits (c : BdCfg V Nat L Int) (hinf : c.inf = maxValue tc) (hnF : NonNeg c.nextF) (hnB : NonNeg c.nextB)
    (t : CIntType) (ht : (tc.char, t) ∈ cIntTypes) (size : Nat) (hs : t.minSize ≤ size)
    (start : V) (starts goals : List V) (limit : Option Int) (fuel : Nat) :
    let g : WGear V Nat L Int M ML (List Int) := ⟨mo, lo, cIntDist tc pre⟩
    let final := (runMachine (bdStep g c) fuel none (bdInit g c start starts goals limit)).final
    (∀ x ∈ final.fw.dist, FitsCInt t.signed size x) ∧ ∀ x ∈ final.bw.dist, FitsCInt t.signed size x := by
  intro g final
  have hk := cIntDist_keeps tc pre
  rw [← hinf] at hk
  have h0 : 0 ≤ c.inf := by rw [hinf]; exact (maxValue_nonneg tc).le
  have := run_final (m := bdStep g c) (BdRange fun m => ∀ x ∈ m, 0 ≤ x ∧ x ≤ c.inf) (bd_range g c hk hnF hnB) fuel
    none _ (bd_range_init g c hk h0 start starts goals limit)
  refine ⟨fun x hx => ?_, fun x hx => ?_⟩
  · have := this.1.1 x hx
    rw [hinf] at this
    exact (C73_type_codes tc t ht x this.1).1 this.2 size hs
  · have := this.2.1.1 x hx
    rw [hinf] at this
    exact (C73_type_codes tc t ht x this.1).1 this.2 size hs

end

/-! ## A small infinity value does not change results silently -/

section
variable {V K L W M ML D D' : Type} [DecidableEq V] [DecidableEq K]
variable [AddCommMonoid W] [LinearOrder W] [IsOrderedAddMonoid W]
variable {g : WGear V K L W M ML D} {dd' : DistOps D' K W}

/-- **C73 (`TraversalShortestPaths`).** Run a traversal with a gear, and with a gear with a larger infinity value (for
example, with unbounded integers). Either both runs report the same vertices, in the same order, with the same
distances, depths, predecessors and labels, distances collections with the same finite content, and end the same way; or the first run
raises `OverflowError`, and what it has reported before are the first reports of the other run. -/
theorem C73_sp_same_or_overflow (c : WCfg V K L W) (inf' : W) (hd : g.dd.Lawful c.inf) (hd' : dd'.Lawful inf')
    (hle : c.inf ≤ inf') (h0 : 0 < c.inf) (starts : List V) (limit : Option Int) (fuel : Nat) :
    let run := spRun g c none starts limit fuel
    let run' := spRun ⟨g.mo, g.lo, dd'⟩ { c with inf := inf' } none starts limit fuel
    let same (r : SpReport V W M ML D) (r' : SpReport V W M ML D') : Prop :=
      r.vertex = r'.vertex ∧ r.distance = r'.distance ∧ r.depth = r'.depth ∧ r.preds = r'.preds ∧ r.labels = r'.labels ∧
      ∀ k, (g.dd.get r.dist k = dd'.get r'.dist k ∧ g.dd.get r.dist k < c.inf) ∨
        (g.dd.get r.dist k = c.inf ∧ dd'.get r'.dist k = inf')
    (List.Forall₂ same run.reports run'.reports ∧ run.ending = run'.ending) ∨
    (run.ending = .raised .overflowError ∧
      ∃ pre rest, run'.reports = pre ++ rest ∧ List.Forall₂ same run.reports pre) :=
  sp_inf_sim hd hd' hle h0 starts limit fuel

/-- **C73 (`TraversalAStar`).** The same, for a heuristic function with values below infinity. -/
theorem C73_astar_same_or_overflow (c : AStarCfg V K L W) (inf' : W) (hd : g.dd.Lawful c.inf) (hd' : dd'.Lawful inf')
    (hle : c.inf ≤ inf') (h0 : 0 < c.inf) (hh : ∀ v, c.heur v < c.inf)
    (starts : List V) (limit : Option Int) (fuel : Nat) :
    let run := aRun g c none none starts limit fuel
    let run' := aRun ⟨g.mo, g.lo, dd'⟩ { c with inf := inf' } none none starts limit fuel
    let same (r : AStarReport V W M ML D) (r' : AStarReport V W M ML D') : Prop :=
      r.vertex = r'.vertex ∧ r.pathLength = r'.pathLength ∧ r.depth = r'.depth ∧ r.preds = r'.preds ∧
      r.labels = r'.labels ∧
      ∀ k, (g.dd.get r.dist k = dd'.get r'.dist k ∧ g.dd.get r.dist k < c.inf) ∨
        (g.dd.get r.dist k = c.inf ∧ dd'.get r'.dist k = inf')
    (List.Forall₂ same run.reports run'.reports ∧ run.ending = run'.ending) ∨
    (run.ending = .raised .overflowError ∧
      ∃ pre rest, run'.reports = pre ++ rest ∧ List.Forall₂ same run.reports pre) :=
  a_inf_sim hd hd' hle h0 hh starts limit fuel

/-- **C73 (`BSearchShortestPath`).** If a search with a gear returns a path, or answers that there is none, then a search
with a gear with another infinity value (and maybe other calculation limits) does not give the contrary answer. (In
particular, a path that is too long for the type of distances is not answered by "no path".) -/
theorem C73_bd_same_or_overflow (c : BdCfg V K L W) (inf' : W) (H : BdHyp g c)
    (hd' : dd'.Lawful inf') (h0' : 0 ≤ inf') (starts goals : List V) (limit limit' : Option Int)
    (fuel fuel' pathFuel pathFuel' : Nat) :
    let res := bdSearch g c starts goals limit fuel pathFuel
    let res' := bdSearch ⟨g.mo, g.lo, dd'⟩ { c with inf := inf' } starts goals limit' fuel' pathFuel'
    (res = .notFound → ∀ w p, res' ≠ .found w p) ∧ (∀ w p, res = .found w p → res' ≠ .notFound) := by
  intro res res'
  have H' : BdHyp (⟨g.mo, g.lo, dd'⟩ : WGear V K L W M ML D') { c with inf := inf' } :=
    ⟨hd', H.nonnegF, H.nonnegB, H.compatF, H.compatB, h0', H.opp⟩
  have h1 := C32_bd H starts goals limit fuel pathFuel
  have h2 := C32_bd H' starts goals limit' fuel' pathFuel'
  refine ⟨fun he w p he' => ?_, fun w p he he' => ?_⟩
  · rw [show bdSearch g c starts goals limit fuel pathFuel = _ from he] at h1
    rw [show bdSearch _ _ starts goals limit' fuel' pathFuel' = _ from he'] at h2
    exact h1 w h2
  · rw [show bdSearch g c starts goals limit fuel pathFuel = _ from he] at h1
    rw [show bdSearch _ _ starts goals limit' fuel' pathFuel' = _ from he'] at h2
    exact h2 w h1

end

/-! ## Examples -/

/-- A graph with distances 100 (vertex 1), 120 (vertex 2), and, if `far`, an edge to vertex 3, with distance 130. -/
def exFar (far : Bool) : Nat → List (Nat × Int × Unit)
  | 0 => [(1, 100, ()), (2, 125, ())]
  | 1 => [(2, 20, ())]
  | 2 => if far then [(3, 10, ())] else []
  | _ => []

/-- The graph, with distances of type code "b". -/
def exFarCfg (far : Bool) : WCfg Nat Nat Unit Int := ⟨exFar far, id, false, false, true, maxValue .b⟩

/-- Small arrays, for the evaluation by the kernel. -/
def exFarGear (inf : Int) : WGear Nat Nat Unit Int (List (Option Nat)) (List (Option Unit)) (List Int) :=
  ⟨listMap ⟨none, 2, true⟩ 0, listMap ⟨none, 2, true⟩ 0, seqDist ⟨inf, 2, true⟩ 0⟩

example : maxValue .b = 127 ∧ maxValue .B = 255 ∧ maxValue .i = 32767 ∧ maxValue .l = 2147483647 ∧
    maxValue .Q = 18446744073709551615 := by decide

example : ('l', (⟨true, 4⟩ : CIntType)) ∈ cIntTypes ∧ ¬ FitsCInt true 1 128 ∧ FitsCInt true 1 127 := by decide

theorem exFar_nonNeg (far : Bool) : NonNeg (exFar far) := by
  rintro u v x ⟨l, h⟩
  match u, h with
  | 0, h => simp [exFar] at h; rcases h with h | h <;> omega
  | 1, h => simp [exFar] at h; omega
  | 2, h => cases far <;> simp [exFar] at h; omega
  | _ + 3, h => simp [exFar] at h

example (fuel : Nat) : ∀ x ∈ (spRun (⟨dictMap, dictMap, cIntDist .b 0⟩ :
      WGear Nat Nat Unit Int (Nat → Option Nat) (Nat → Option Unit) (List Int))
      (exFarCfg true) none [0] none fuel).final.dist, FitsCInt true 1 x :=
  C73_sp_fits _ _ .b 0 (exFarCfg true) rfl (exFar_nonNeg true) ⟨true, 1⟩ (by decide) 1 (le_refl _) [0] none fuel

/-- Without the edge to vertex 3: the same reports as with a large infinity value. -/
example : let run := spRun (exFarGear 127) (exFarCfg false) none [0] none 40
    let run' := spRun (exFarGear 1000) { exFarCfg false with inf := 1000 } none [0] none 40
    run.ending = .done ∧ run'.ending = .done ∧
    run.reports.map (fun r => (r.vertex, r.distance)) = [(1, 100), (2, 120)] ∧
    run'.reports.map (fun r => (r.vertex, r.distance)) = [(1, 100), (2, 120)] := by
  refine ⟨?_, ?_, ?_, ?_⟩ <;> decide +kernel

/-- With the edge: `OverflowError`, after a part of the reports. -/
example : let run := spRun (exFarGear 127) (exFarCfg true) none [0] none 40
    let run' := spRun (exFarGear 1000) { exFarCfg true with inf := 1000 } none [0] none 40
    run.ending = .raised .overflowError ∧ run'.ending = .done ∧
    run.reports.map (fun r => (r.vertex, r.distance)) = [(1, 100), (2, 120)] ∧
    run'.reports.map (fun r => (r.vertex, r.distance)) = [(1, 100), (2, 120), (3, 130)] := by
  refine ⟨?_, ?_, ?_, ?_⟩ <;> decide +kernel

/-- The hypotheses of the theorem hold for this pair of gears. -/
example (fuel : Nat) := C73_sp_same_or_overflow (g := exFarGear 127) (dd' := (exFarGear 1000).dd) (exFarCfg true) 1000
  (seqDist_lawful _ (fun _ => by decide) 0) (seqDist_lawful _ (fun _ => by decide) 0) (by decide) (by decide) [0] none fuel

/-- The same for `TraversalAStar`, with a heuristic function. -/
def exFarACfg (far : Bool) : AStarCfg Nat Nat Unit Int :=
  ⟨exFar far, id, false, false, maxValue .b, fun v => if v = 1 then 5 else 0⟩

example (fuel : Nat) := C73_astar_same_or_overflow (g := exFarGear 127) (dd' := (exFarGear 1000).dd) (exFarACfg true) 1000
  (seqDist_lawful _ (fun _ => by decide) 0) (seqDist_lawful _ (fun _ => by decide) 0) (by decide) (by decide)
  (fun v => by simp only [exFarACfg]; split <;> decide) [0] none fuel

example : let run := aRun (exFarGear 127) (exFarACfg true) none none [0] none 40
    let run' := aRun (exFarGear 1000) { exFarACfg true with inf := 1000 } none none [0] none 40
    run.ending = .raised .overflowError ∧ run'.ending = .done ∧
    run.reports.map (fun r => (r.vertex, r.pathLength)) = [(1, 100), (2, 120)] ∧
    run'.reports.map (fun r => (r.vertex, r.pathLength)) = [(1, 100), (2, 120), (3, 130)] := by
  refine ⟨?_, ?_, ?_, ?_⟩ <;> decide +kernel

/-- The heuristic function may overflow the guesses, where the distances do not. -/
example : (aRun (exFarGear 127) { exFarACfg false with heur := fun v => if v = 2 then 30 else 0 }
      none none [0] none 40).ending = .raised .overflowError := by decide +kernel

example (fuel : Nat) := C73_astar_fits (dictMap (K := Nat) (X := Nat)) (dictMap (K := Nat) (X := Unit)) .b 0 (exFarACfg true) rfl
  (exFar_nonNeg true) (fun v => by simp only [exFarACfg]; split <;> decide) ⟨true, 1⟩ (by decide) 1 (le_refl _) [0]
  (fun v _ => by simp only [exFarACfg]; split <;> decide) none fuel

end NoGraphs
