import Verif.Proofs.FloatGear
import Verif.Props.BiDijkstra
import Verif.Spec.CFloats

/-! # Gears that store distances as C-native floats: C83

`Spec.asFloat32` (conversion to the C type `float`) is defined in `Verif/Spec/CFloats.lean`. -/

set_option linter.unusedSectionVars false
set_option linter.unnecessarySeqFocus false

namespace NoGraphs

open Spec

/-! ## The conversion -/

/-- Numbers of the format are not changed by rounding. -/
theorem roundBits_of_hasBits {bits n : Nat} (h : HasBits bits n) : roundBits bits n = n := by
  obtain ⟨s, e, hs, rfl⟩ := h
  have hd : 2 ^ (Nat.log 2 (s * 2 ^ e) + 1 - bits) ∣ s * 2 ^ e := by
    rcases Nat.eq_zero_or_pos s with rfl | hpos
    · simp
    · have hlt : s * 2 ^ e < 2 ^ (bits + e) := by
        rw [pow_add]; exact Nat.mul_lt_mul_of_pos_right hs (Nat.pow_pos (by decide))
      have hlog : Nat.log 2 (s * 2 ^ e) < bits + e :=
        Nat.log_lt_of_lt_pow (Nat.mul_pos hpos (Nat.pow_pos (by decide))).ne' hlt
      exact (Nat.pow_dvd_pow 2 (by omega)).trans (Nat.dvd_mul_left _ _)
  have hr := Nat.mod_eq_zero_of_dvd hd
  have hp : 0 < 2 ^ (Nat.log 2 (s * 2 ^ e) + 1 - bits) := Nat.pow_pos (by decide)
  unfold roundBits
  simp only [hr]
  rw [if_neg (by omega)]
  exact Nat.div_mul_cancel hd

/-- Rounding gives a number of the format. -/
theorem hasBits_roundBits (bits : Nat) (hb : 0 < bits) (n : Nat) : HasBits bits (roundBits bits n) := by
  unfold roundBits
  simp only
  set e := Nat.log 2 n + 1 - bits with he
  have hs : n / 2 ^ e < 2 ^ bits := by
    rw [Nat.div_lt_iff_lt_mul (Nat.pow_pos (by decide)), ← pow_add]
    exact lt_of_lt_of_le (Nat.lt_pow_succ_log_self (by decide) n) (Nat.pow_le_pow_right (by decide) (by omega))
  split
  · rcases Nat.lt_or_ge (n / 2 ^ e + 1) (2 ^ bits) with h | h
    · exact ⟨_, e, h, rfl⟩
    · refine ⟨1, bits + e, Nat.one_lt_two_pow hb.ne', ?_⟩
      rw [show n / 2 ^ e + 1 = 2 ^ bits by omega, one_mul, pow_add]
  · exact ⟨_, e, hs, rfl⟩

/-- Rounding changes a number by at most half of the distance of two neighboring numbers of the format. -/
theorem roundBits_near (bits n : Nat) :
    let ulp := 2 ^ (Nat.log 2 n + 1 - bits)
    2 * roundBits bits n ≤ 2 * n + ulp ∧ 2 * n ≤ 2 * roundBits bits n + ulp := by
  unfold roundBits
  simp only
  have hu : 0 < 2 ^ (Nat.log 2 n + 1 - bits) := Nat.pow_pos (by decide)
  generalize 2 ^ (Nat.log 2 n + 1 - bits) = ulp at hu ⊢
  have h := Nat.div_add_mod n ulp
  have hm := Nat.mod_lt n hu
  rw [mul_comm] at h
  split
  · rw [add_mul, one_mul]; omega
  · omega

/-- Integers up to `2 ^ 24` can be stored as `float`. -/
theorem asFloat32_small (inf : Nat) {n : Nat} (h : n ≤ 2 ^ 24) : asFloat32 inf n = n := by
  have hb : HasBits 24 n := by
    rcases Nat.lt_or_eq_of_le h with h | rfl
    · exact ⟨n, 0, h, by simp⟩
    · exact ⟨1, 24, by decide, by decide⟩
  unfold asFloat32
  rw [roundBits_of_hasBits hb, if_neg]
  exact not_le.2 (lt_of_le_of_lt h (by decide))

/-! ## The same results as with exact storage -/

section
variable {V L W M ML : Type} [DecidableEq V] (mo : MapOps M Nat V) (lo : MapOps ML Nat L)
variable (st : W → W) (pre : Nat)

section
variable [Add W] [Zero W] [LinearOrder W] [WeightLaws W]

/-- **C83, shortest paths, partial** (the full statement has no hypothesis `hst`, see `C83_missing_counterexample` and
`C83_twice_counterexample`). If the computed weights of all walks from start vertices can be stored without change, the
traversal with an array of C-native floats does exactly the same as with a list of Python floats:
the same reports with the same distances, paths and contents of `distances`, and the same ending. -/
theorem C83_sp_exact_partial (c : WCfg V Nat L W) (h0 : st 0 = 0) (hinf : st c.inf = c.inf) (starts : List V)
    (hst : ∀ w v, WalkW c.next (· ∈ starts) w v → w < c.inf → st w = w) (limit : Option Int) (fuel : Nat) :
    spRun ⟨mo, lo, cFloatDist st c.inf pre⟩ c none starts limit fuel =
    spRun ⟨mo, lo, seqDist ⟨c.inf, 1024, true⟩ pre⟩ c none starts limit fuel :=
  spRun_agree (g := ⟨mo, lo, seqDist ⟨c.inf, 1024, true⟩ pre⟩) (seqDist_lawful _ (fun _ => Nat.succ_pos _) pre)
    (viaDist_agree st ⟨c.inf, 1024, true⟩ hinf pre) h0 hst limit fuel

end

section
variable [AddCommMonoid W] [LinearOrder W] [IsOrderedAddMonoid W]

/-- **C83, A\*, partial** (see `C83_astar_counterexample`). The same for A*, if also the sums of the weight of a walk and
the estimate for its end can be stored without change. -/
theorem C83_astar_exact_partial (c : AStarCfg V Nat L W) (hc : WCompat c.next c.vid) (hh : HeurCompat c.heur c.vid)
    (h0 : st 0 = 0) (hinf : st c.inf = c.inf) (starts : List V)
    (hst : ∀ w v, WalkW c.next (· ∈ starts) w v → w < c.inf → st w = w)
    (hsg : ∀ w v, WalkW c.next (· ∈ starts) w v → w + c.heur v < c.inf → st (w + c.heur v) = w + c.heur v)
    (hle : ∀ v ∈ starts, c.heur v ≤ c.inf) (limit : Option Int) (fuel : Nat) :
    aRun ⟨mo, lo, cFloatDist st c.inf pre⟩ c none none starts limit fuel =
    aRun ⟨mo, lo, seqDist ⟨c.inf, 1024, true⟩ pre⟩ c none none starts limit fuel :=
  aRun_agree (g := ⟨mo, lo, seqDist ⟨c.inf, 1024, true⟩ pre⟩) (seqDist_lawful _ (fun _ => Nat.succ_pos _) pre) hc hh
    (viaDist_agree st ⟨c.inf, 1024, true⟩ hinf pre) h0 hinf hst hsg hle limit fuel

/-- **C83, bidirectional search, partial** (see `C83_bd_counterexample`). The same for the bidirectional search of a shortest
path, if the weights of walks from start vertices and, backwards, from goal vertices can be stored without change. -/
theorem C83_bd_exact_partial (c : BdCfg V Nat L W) (h0 : st 0 = 0) (hinf : st c.inf = c.inf) (starts goals : List V)
    (hstF : ∀ w v, WalkW c.nextF (· ∈ starts) w v → w < c.inf → st w = w)
    (hstB : ∀ w v, WalkW c.nextB (· ∈ goals) w v → w < c.inf → st w = w) (limit : Option Int) (fuel pathFuel : Nat) :
    bdSearch ⟨mo, lo, cFloatDist st c.inf pre⟩ c starts goals limit fuel pathFuel =
    bdSearch ⟨mo, lo, seqDist ⟨c.inf, 1024, true⟩ pre⟩ c starts goals limit fuel pathFuel := by
  refine bdSearch_agree (g := ⟨mo, lo, seqDist ⟨c.inf, 1024, true⟩ pre⟩) (seqDist_lawful _ (fun _ => Nat.succ_pos _) pre)
    (viaDist_agree st ⟨c.inf, 1024, true⟩ hinf pre) h0 ?_ limit fuel pathFuel
  intro b
  cases b
  · exact hstF
  · exact hstB

end

/-- **C83, type code "d".** With items of 8 bytes, nothing is changed by storing a number. Then, the distance mapping of the
gears with C-native floats behaves like the one of the gears with lists. -/
theorem C83_doubles [LinearOrder W] (inf : W) : cFloatDist id inf pre = seqDist ⟨inf, 1024, true⟩ pre := by
  unfold cFloatDist viaDist seqDist
  congr 1

end

/-! ## What holds with each rounding -/

section
variable {V L W M ML : Type} [DecidableEq V] (mo : MapOps M Nat V) (lo : MapOps ML Nat L)
variable (st : W → W) (pre : Nat) [Add W] [Zero W] [LinearOrder W] [WeightLaws W]

/-- **C83, sound reports.** Whatever storing does to a number (other than zero and infinity), each report gives the weight of a
walk from a start vertex to the reported vertex, start vertices are not reported, and reported
distances never decrease. (What can fail: the walk need not have minimal weight, a vertex can be missing, and a vertex can be
reported several times.) -/
theorem C83_sp_sound (c : WCfg V Nat L W) (ht : c.isTree = false) (h0 : st 0 = 0) (hinf : st c.inf = c.inf) (hn : NonNeg c.next)
    (starts : List V) (limit : Option Int) (fuel : Nat) :
    let reports := (spRun ⟨mo, lo, cFloatDist st c.inf pre⟩ c none starts limit fuel).reports
    (∀ r ∈ reports, WalkW c.next (· ∈ starts) r.distance r.vertex ∧ c.vid r.vertex ∉ starts.map c.vid) ∧
    (reports.map (·.distance)).Pairwise (· ≤ ·) := by
  have hv : StoresVia st c.inf (cFloatDist st c.inf pre) := viaDist_stores st ⟨c.inf, 1024, true⟩ hinf (fun _ => Nat.succ_pos _) pre
  intro reports
  obtain ⟨s, hr, -⟩ := run_reaches (spStep ⟨mo, lo, cFloatDist st c.inf pre⟩ c) fuel (prepareLimit limit)
    (spInit ⟨mo, lo, cFloatDist st c.inf pre⟩ c none starts)
  have := sp_via_inv (g := ⟨mo, lo, cFloatDist st c.inf pre⟩) (c := c) (starts := starts) ht hv h0 hn hr
  exact ⟨this.reps, this.sorted⟩

end

/-! ## Small integers, in four bytes -/

section
variable {V L M ML : Type} [DecidableEq V] (mo : MapOps M Nat V) (lo : MapOps ML Nat L) (pre : Nat)

/-- **C83 for small integers, partial.** If weights are non-negative integers, and all weights of walks from the start
vertices are at most `2 ^ 24`, the traversal with an array of type code "f" reports the same as the one with exact
storage. -/
theorem C83_sp_small_partial (c : WCfg V Nat L Nat) (hinf : asFloat32 c.inf c.inf = c.inf) (starts : List V)
    (hst : ∀ w v, WalkW c.next (· ∈ starts) w v → w ≤ 2 ^ 24) (limit : Option Int) (fuel : Nat) :
    spRun ⟨mo, lo, cFloatDist (asFloat32 c.inf) c.inf pre⟩ c none starts limit fuel =
    spRun ⟨mo, lo, seqDist ⟨c.inf, 1024, true⟩ pre⟩ c none starts limit fuel :=
  C83_sp_exact_partial mo lo _ pre c (asFloat32_small _ (Nat.zero_le _)) hinf starts
    (fun w v h _ => asFloat32_small _ (hst w v h)) limit fuel

end

/-! ## Counterexamples -/

/-- Infinity: larger than each number of the type `double`. -/
def exFInf : Nat := 2 ^ 1024

/-- A gear with an array of type code "f", with space for three vertices. -/
def exFGear : WGear Nat Nat Unit Nat (List (Option Nat)) (List (Option Unit)) (List Nat) :=
  ⟨listMap ⟨none, 2, true⟩ 3, listMap ⟨none, 2, true⟩ 3, cFloatDist (asFloat32 exFInf) exFInf 3⟩

/-- The same with exact storage. -/
def exDGear : WGear Nat Nat Unit Nat (List (Option Nat)) (List (Option Unit)) (List Nat) :=
  ⟨listMap ⟨none, 2, true⟩ 3, listMap ⟨none, 2, true⟩ 3, seqDist ⟨exFInf, 1024, true⟩ 3⟩

/-- An edge with weight `2 ^ 24 + 1`. -/
def exLong : Nat → List (Nat × Nat × Unit)
  | 0 => [(1, 16777217, ())]
  | _ => []

/-- The edge backwards. -/
def exLongBack : Nat → List (Nat × Nat × Unit)
  | 1 => [(0, 16777217, ())]
  | _ => []

/-- Two parallel edges. -/
def exPar : Nat → List (Nat × Nat × Unit)
  | 0 => [(1, 33554438, ()), (1, 33554439, ())]
  | _ => []

example : asFloat32 exFInf 16777217 = 16777216 ∧ asFloat32 exFInf 33554438 = 33554440 ∧ asFloat32 exFInf exFInf = exFInf := by
  refine ⟨?_, ?_, ?_⟩ <;> decide +kernel

/-- The Python float 0.7, in units of `2 ^ (-53)`, becomes smaller: 0.699999988. -/
example : asFloat32 exFInf 6305039478318694 = 6305039370944512 := by decide +kernel

/-- **C83, counterexample.** With the gear with type code "f", a vertex that is reachable over one edge is not reported (with
or without `keep_distances`): the stored distance is smaller than the distance of the path, which is thus taken for a path that has been
replaced by a better one. -/
theorem C83_missing_counterexample (keep : Bool) :
    let c : WCfg Nat Nat Unit Nat := ⟨exLong, id, false, false, keep, exFInf⟩
    let run := spRun exFGear c none [0] none 20
    let exact := spRun exDGear c none [0] none 20
    run.ending = .done ∧ run.reports.map (fun r => (r.vertex, r.distance)) = [] ∧
    exact.ending = .done ∧ exact.reports.map (fun r => (r.vertex, r.distance)) = [(1, 16777217)] := by
  cases keep <;> refine ⟨?_, ?_, ?_, ?_⟩ <;> decide +kernel

/-- **C83, counterexample.** With the gear with type code "f" and `keep_distances`, a vertex is reported twice, the second
time with a distance that is not minimal. -/
theorem C83_twice_counterexample :
    let c : WCfg Nat Nat Unit Nat := ⟨exPar, id, false, false, true, exFInf⟩
    let run := spRun exFGear c none [0] none 30
    let exact := spRun exDGear c none [0] none 30
    run.ending = .done ∧ run.reports.map (fun r => (r.vertex, r.distance)) = [(1, 33554438), (1, 33554439)] ∧
    exact.ending = .done ∧ exact.reports.map (fun r => (r.vertex, r.distance)) = [(1, 33554438)] := by
  refine ⟨?_, ?_, ?_, ?_⟩ <;> decide +kernel

/-- **C83, counterexample for A\*.** The goal 1 is not found with the gear with type code "f" (the estimate 0 is consistent). -/
theorem C83_astar_counterexample :
    let c : AStarCfg Nat Nat Unit Nat := ⟨exLong, id, false, false, exFInf, fun _ => 0⟩
    let run := aRun exFGear c none none [0] none 20
    let exact := aRun exDGear c none none [0] none 20
    run.ending = .done ∧ run.reports.map (fun r => (r.vertex, r.pathLength)) = [] ∧
    exact.ending = .done ∧ exact.reports.map (fun r => (r.vertex, r.pathLength)) = [(1, 16777217)] := by
  refine ⟨?_, ?_, ?_, ?_⟩ <;> decide +kernel

/-- The length that a search returns. -/
def SearchResult.length? {W V L : Type} : SearchResult W V L → Option W
  | .found w _ => some w
  | _ => none

/-- Whether a search answers that there is no path. -/
def SearchResult.isNotFound {W V L : Type} : SearchResult W V L → Bool
  | .notFound => true
  | _ => false

theorem SearchResult.eq_notFound {W V L : Type} {r : SearchResult W V L} (h : r.isNotFound = true) : r = .notFound := by
  cases r <;> simp_all [isNotFound]

/-- **C83, counterexample for the bidirectional search.** With the gear with type code "f", the search answers that there is no path between
the ends of an edge. -/
theorem C83_bd_counterexample :
    let c : BdCfg Nat Nat Unit Nat := ⟨exLong, exLongBack, id, false, exFInf⟩
    bdSearch exFGear c [0] [1] none 30 5 = .notFound ∧ (bdSearch exDGear c [0] [1] none 30 5).length? = some 16777217 := by
  refine ⟨SearchResult.eq_notFound ?_, ?_⟩ <;> decide +kernel

/-! ## Examples -/

/-- A graph with small integers as weights. -/
def exSmall : Nat → List (Nat × Nat × Unit)
  | 0 => [(1, 5, ()), (2, 1000, ())]
  | 1 => [(2, 7, ())]
  | _ => []

theorem exSmall_walk {w v : Nat} (h : WalkW exSmall (· ∈ [0]) w v) :
    (v = 0 ∧ w = 0) ∨ (v = 1 ∧ w = 5) ∨ (v = 2 ∧ w ≤ 1000) := by
  induction h with
  | start hs => simp at hs; simp [hs]
  | step _ he ih =>
    obtain ⟨l, hl⟩ := he
    rcases ih with ⟨rfl, rfl⟩ | ⟨rfl, rfl⟩ | ⟨rfl, _⟩ <;> simp [exSmall] at hl
    · rcases hl with ⟨rfl, rfl⟩ | ⟨rfl, rfl⟩ <;> simp
    · obtain ⟨rfl, rfl⟩ := hl; simp

/-- The hypotheses of the partial theorems are met, and the results are as expected. -/
example (limit : Option Int) (fuel : Nat) :=
  C83_sp_small_partial (listMap ⟨none, 2, true⟩ 3) (listMap (X := Unit) ⟨none, 2, true⟩ 3) 3
    ⟨exSmall, id, false, false, true, exFInf⟩ (by decide +kernel) [0]
    (fun w v h => by rcases exSmall_walk h with ⟨_, rfl⟩ | ⟨_, rfl⟩ | ⟨_, h⟩ <;> omega) limit fuel

example : (spRun exFGear ⟨exSmall, id, false, false, true, exFInf⟩ none [0] none 40).reports.map (fun r => (r.vertex, r.distance)) =
    [(1, 5), (2, 12)] := by decide +kernel

example (fuel : Nat) :=
  C83_astar_exact_partial (listMap ⟨none, 2, true⟩ 3) (listMap (X := Unit) ⟨none, 2, true⟩ 3) (asFloat32 exFInf) 3
    ⟨exSmall, id, false, false, exFInf, fun v => 2 - v⟩ wcompat_id (fun _ _ h => congrArg _ h)
    (asFloat32_small _ (Nat.zero_le _)) (by decide +kernel) [0]
    (fun w v h _ => asFloat32_small _ (by rcases exSmall_walk h with ⟨_, rfl⟩ | ⟨_, rfl⟩ | ⟨_, h⟩ <;> omega))
    (fun w v h _ => asFloat32_small _ (by rcases exSmall_walk h with ⟨rfl, rfl⟩ | ⟨rfl, rfl⟩ | ⟨rfl, h⟩ <;> simp <;> omega))
    (fun v hv => by simp at hv; subst hv; decide +kernel) none fuel

example (fuel : Nat) :=
  C83_sp_sound (listMap ⟨none, 2, true⟩ 3) (listMap (X := Unit) ⟨none, 2, true⟩ 3) (asFloat32 exFInf) 3
    ⟨exPar, id, false, false, true, exFInf⟩ rfl (asFloat32_small _ (Nat.zero_le _)) (by decide +kernel)
    (fun _ _ _ _ => Nat.zero_le _) [0] none fuel

end NoGraphs
