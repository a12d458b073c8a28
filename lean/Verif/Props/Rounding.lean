import Mathlib.Algebra.Order.Ring.Rat
import Mathlib.Algebra.Order.Ring.Abs
import Mathlib.Algebra.Order.Field.Basic
import Mathlib.Tactic.Linarith
import Mathlib.Tactic.NormNum
import Verif.Spec.Rounding
import Verif.Props.ShortestPaths

/-! # C75: shortest paths with weights that are rounded

Floating point addition computes the exact sum and rounds it to a number of the format. Then, addition is not
associative any more, and the weight of a path depends on the order of the additions. Here, we start from the
exact arithmetic and a rounding function, and say what the shortest paths traversal computes with the
rounded addition. -/

set_option linter.unusedSectionVars false

namespace NoGraphs

open Spec

/-- The numbers of the format. -/
def Rounded {A : Type} (rd : A → A) : Type := {a : A // rd a = a}

section

variable {A : Type} [AddCommMonoid A] [LinearOrder A] [IsOrderedAddMonoid A] {rd : A → A} [hr : Fact (IsRounding rd)]

instance : LinearOrder (Rounded rd) := inferInstanceAs (LinearOrder {a : A // rd a = a})

/-- The sum of two numbers of the format is the rounded exact sum. -/
instance : Add (Rounded rd) := ⟨fun a b => ⟨rd (a.1 + b.1), hr.out.idem _⟩⟩

instance : Zero (Rounded rd) := ⟨⟨0, hr.out.zero⟩⟩

/-- The laws that the proofs about the traversal need hold with each rounding. -/
instance : WeightLaws (Rounded rd) where
  comm a b := Subtype.ext (by change rd _ = rd _; rw [add_comm])
  zero a := Subtype.ext (by change rd (a.1 + 0) = a.1; rw [add_zero]; exact a.2)
  mono a b c h := hr.out.mono _ _ (add_le_add_left (show a.1 ≤ b.1 from h) c.1)

end

variable {A V K L M ML D : Type} [DecidableEq V] [DecidableEq K]
variable [AddCommMonoid A] [LinearOrder A] [IsOrderedAddMonoid A] {rd : A → A} [hr : Fact (IsRounding rd)]

/-- The edges, with the weights as exact numbers. -/
def exactEdges (next : V → List (V × Rounded rd × L)) : V → List (V × A × L) :=
  fun v => (next v).map (fun e => (e.1, e.2.1.1, e.2.2))

theorem wedge_exact {next : V → List (V × Rounded rd × L)} {u v : V} {a : A} :
    WEdge (exactEdges next) u v a ↔ ∃ x : Rounded rd, x.1 = a ∧ WEdge next u v x := by
  constructor
  · rintro ⟨l, hl⟩
    obtain ⟨⟨v', x, l'⟩, he, h⟩ := List.mem_map.1 hl
    obtain ⟨rfl, rfl, rfl⟩ : v' = v ∧ x.1 = a ∧ l' = l := by simpa using h
    exact ⟨x, rfl, l', he⟩
  · rintro ⟨x, rfl, l, he⟩
    exact ⟨l, List.mem_map.2 ⟨_, he, rfl⟩⟩

theorem roundedWalk_iff {next : V → List (V × Rounded rd × L)} {S : V → Prop} {a : A} {v : V} :
    RoundedWalk rd (exactEdges next) S a v ↔ ∃ w : Rounded rd, w.1 = a ∧ WalkW next S w v := by
  constructor
  · intro h
    induction h with
    | start hs => exact ⟨0, rfl, .start hs⟩
    | step _ he ih =>
      obtain ⟨w, rfl, hw⟩ := ih
      obtain ⟨x, rfl, hx⟩ := wedge_exact.1 he
      exact ⟨w + x, rfl, .step hw hx⟩
  · rintro ⟨w, rfl, hw⟩
    induction hw with
    | start hs => exact .start hs
    | step _ he ih => exact .step ih (wedge_exact.2 ⟨_, rfl, he⟩)

theorem roundedPath_of {next : V → List (V × Rounded rd × L)} {w w' : Rounded rd} {u : V} {steps : List (V × L)}
    (h : IsWPathFrom next w u steps w') : RoundedPath rd (exactEdges next) w.1 u steps w'.1 := by
  induction h with
  | nil => exact .nil
  | cons he _ ih => exact .cons (List.mem_map.2 ⟨_, he, rfl⟩) ih

variable (g : WGear V K L (Rounded rd) M ML D) (c : WCfg V K L (Rounded rd))

theorem nonNeg_exact {next : V → List (V × Rounded rd × L)} (h : NonNeg (exactEdges next)) : NonNeg next :=
  fun u v x he => h u v x.1 (wedge_exact.2 ⟨x, rfl, he⟩)

/-- **C75, distances.** With rounded arithmetic, the distance that is reported for a vertex is the least computed weight
of walks from a start vertex to it. (So, no walk is missed because of rounding, and the distance is
the value that one gets for some walk when the weights are added in the order of the walk.) -/
theorem C75_rounded_distance (ht : c.isTree = false) (hd : g.dd.Lawful c.inf) (hn : NonNeg (exactEdges c.next))
    (hc : WCompat c.next c.vid) (starts : List V) (limit : Option Int) (fuel : Nat) :
    ∀ r ∈ (spRun g c none starts limit fuel).reports,
      RoundedWalk rd (exactEdges c.next) (· ∈ starts) r.distance.1 r.vertex ∧
      ∀ a v, RoundedWalk rd (exactEdges c.next) (· ∈ starts) a v → c.vid v = c.vid r.vertex → r.distance.1 ≤ a := by
  intro r hr
  obtain ⟨h1, h2⟩ := C18_sp_distance g c ht hd (nonNeg_exact hn) hc starts limit fuel r hr
  refine ⟨roundedWalk_iff.2 ⟨_, rfl, h1⟩, fun a v ha hv => ?_⟩
  obtain ⟨w, rfl, hw⟩ := roundedWalk_iff.1 ha
  exact h2 w v hw hv

/-- **C75, order.** With rounded arithmetic, no vertex is reported twice, no start vertex is reported, and the reported
distances never decrease. -/
theorem C75_rounded_ordered (ht : c.isTree = false) (hd : g.dd.Lawful c.inf) (hn : NonNeg (exactEdges c.next))
    (hc : WCompat c.next c.vid) (starts : List V) (limit : Option Int) (fuel : Nat) :
    let reports := (spRun g c none starts limit fuel).reports
    (reports.map (fun r => c.vid r.vertex)).Nodup ∧
    (∀ r ∈ reports, c.vid r.vertex ∉ starts.map c.vid) ∧
    (reports.map (fun r => r.distance.1)).Pairwise (· ≤ ·) := by
  obtain ⟨h1, h2, h3⟩ := C19_sp_once_ordered g c ht hd (nonNeg_exact hn) hc starts limit fuel
  refine ⟨h1, h2, ?_⟩
  rw [List.pairwise_map] at h3 ⊢
  exact h3

/-- **C75, termination and completeness.** With rounded arithmetic, if finitely many vertices are reachable, the traversal
ends. It ends normally if no computed sum reaches infinity, and then it has reported all reachable vertices
other than the starts. -/
theorem C75_rounded_complete (ht : c.isTree = false) (hd : g.dd.Lawful c.inf) (hn : NonNeg (exactEdges c.next))
    (hc : WCompat c.next c.vid) (starts : List V)
    (hfin : ∃ ids : List K, ∀ a v, RoundedWalk rd (exactEdges c.next) (· ∈ starts) a v → c.vid v ∈ ids)
    (hinf : ∀ a v, RoundedWalk rd (exactEdges c.next) (· ∈ starts) a v → a < c.inf.1) :
    ∃ N, ∀ fuel, N ≤ fuel → (spRun g c none starts none fuel).ending = .done ∧
      ∀ a v, RoundedWalk rd (exactEdges c.next) (· ∈ starts) a v → c.vid v ∈ starts.map c.vid ∨
        ∃ r ∈ (spRun g c none starts none fuel).reports, c.vid r.vertex = c.vid v := by
  obtain ⟨ids, hids⟩ := hfin
  obtain ⟨N, hN⟩ := C20_sp_terminates g c ht hd (nonNeg_exact hn) hc starts
    ⟨ids, fun w v hw => hids _ _ (roundedWalk_iff.2 ⟨w, rfl, hw⟩)⟩
  refine ⟨N, fun fuel hf => ?_⟩
  rcases hN fuel hf with ⟨h, -⟩ | ⟨-, u, v, x, d, hu, huv, hle⟩
  · refine ⟨h, fun a v ha => ?_⟩
    obtain ⟨w, -, hw⟩ := roundedWalk_iff.1 ha
    exact C20_sp_complete g c ht hd (nonNeg_exact hn) hc starts none fuel h w v hw
  · exact absurd (hinf _ v (roundedWalk_iff.2 ⟨d + x, rfl, .step hu.1 huv⟩)) (not_lt_of_ge hle)

/-- **C75, paths.** With rounded arithmetic and `build_paths`, the stored path of a reported vertex is a path of the graph
with exactly the reported distance as computed weight (the weights are added from the start vertex on),
and its number of edges is `depth`. -/
theorem C75_rounded_paths (ht : c.isTree = false) (hb : c.buildPaths = true) (hd : g.dd.Lawful c.inf)
    (hn : NonNeg (exactEdges c.next)) (hc : WCompat c.next c.vid) {validV : V → Prop} {validL : L → Prop}
    (starts : List V) (hst : WStorable g.mo g.lo c.next c.vid starts validV validL)
    (limit : Option Int) (fuel : Nat)
    {before after : List (SpReport V (Rounded rd) M ML D)} {r : SpReport V (Rounded rd) M ML D}
    (hr : (spRun g c none starts limit fuel).reports = before ++ r :: after) :
    ∃ p : SPath V L, p.first ∈ starts ∧ RoundedPath rd (exactEdges c.next) 0 p.first p.steps r.distance.1 ∧
      p.verts.getLast? = some r.vertex ∧ p.steps.length = r.depth ∧
      ∀ r' ∈ r :: after, ShowsPath (pathsView g.mo g.lo c.vid r'.preds r'.labels) r.vertex p := by
  obtain ⟨p, h1, h2, h3⟩ := C21_sp_paths_ordered g c ht hb hd (nonNeg_exact hn) hc starts hst limit fuel hr
  exact ⟨p, h1, roundedPath_of h2, h3⟩

/-! ## Error bounds -/

theorem iterate_add {f : A → A} (h : ∀ a b, f (a + b) = f a + f b) (n : Nat) (a b : A) :
    f^[n] (a + b) = f^[n] a + f^[n] b := by
  induction n generalizing a b with
  | zero => rfl
  | succ n ih => rw [Function.iterate_succ_apply, h, ih]; rfl

theorem le_iterate {f : A → A} (hf : ∀ a, 0 ≤ a → a ≤ f a) (n : Nat) {a : A} (ha : 0 ≤ a) : a ≤ f^[n] a := by
  induction n generalizing a with
  | zero => exact le_refl _
  | succ n ih =>
    rw [Function.iterate_succ_apply]
    exact (hf a ha).trans (ih (ha.trans (hf a ha)))

theorem iterate_le {f : A → A} (hf : ∀ a, 0 ≤ a → f a ≤ a) (h0 : ∀ a, 0 ≤ a → 0 ≤ f a) (n : Nat) {a : A} (ha : 0 ≤ a) :
    f^[n] a ≤ a := by
  induction n generalizing a with
  | zero => exact le_refl _
  | succ n ih =>
    rw [Function.iterate_succ_apply]
    exact (ih (h0 a ha)).trans (hf a ha)

theorem rounded_of_counted {next : V → List (V × A × L)} {S : V → Prop} {lo up : A → A} (hn : NonNeg next)
    (he : ErrorBounds rd lo up) {n : Nat} {w : A} {v : V} (h : CountedWalk next S n w v) :
    ∃ a, RoundedWalk rd next S a v ∧ 0 ≤ a ∧ a ≤ up^[n] w := by
  induction h with
  | start hs => exact ⟨0, .start hs, le_refl _, le_refl _⟩
  | @step n w u v x _ hx ih =>
    obtain ⟨a, h1, h2, h3⟩ := ih
    have hx0 := hn _ _ _ hx
    have hs : 0 ≤ a + x := add_nonneg h2 hx0
    refine ⟨_, .step h1 hx, ?_, ?_⟩
    · have := hr.out.mono _ _ hs
      rwa [hr.out.zero] at this
    · refine (he.up_rd _ hs).trans ?_
      rw [Function.iterate_succ_apply', iterate_add he.up_add]
      exact he.up_mono _ _ (add_le_add h3 (le_iterate he.up_ge n hx0))

theorem counted_of_path {next : V → List (V × A × L)} {S : V → Prop} {lo up : A → A} (hn : NonNeg next)
    (he : ErrorBounds rd lo up) {w w' : A} {u : V} {steps : List (V × L)} (h : RoundedPath rd next w u steps w') :
    ∀ {n : Nat} {x : A} {last : V}, CountedWalk next S n x u → 0 ≤ w → lo^[n] x ≤ w →
      (u :: steps.map Prod.fst).getLast? = some last →
      ∃ x', CountedWalk next S (n + steps.length) x' last ∧ lo^[n + steps.length] x' ≤ w' := by
  induction h with
  | nil =>
    intro n x last hc _ hle hl
    obtain rfl : _ = last := by simpa using hl
    exact ⟨x, hc, hle⟩
  | @cons w u v y l rest w' hmem _ ih =>
    intro n x last hc h0 hle hl
    have hy0 := hn _ _ _ ⟨l, hmem⟩
    have hs : 0 ≤ w + y := add_nonneg h0 hy0
    rw [List.map_cons, List.getLast?_cons_cons] at hl
    obtain ⟨x', h1, h2⟩ := ih (n := n + 1) (x := x + y) (.step hc ⟨l, hmem⟩)
      (by have := hr.out.mono _ _ hs; rwa [hr.out.zero] at this)
      (by
        rw [Function.iterate_succ_apply', iterate_add he.lo_add]
        exact (he.lo_mono _ _ (add_le_add hle (iterate_le he.lo_le he.lo_nonneg n hy0))).trans (he.lo_rd _ hs)) hl
    have e : n + ((v, l) :: rest).length = n + 1 + rest.length := by simp only [List.length_cons]; omega
    rw [e]
    exact ⟨x', h1, h2⟩

/-- **C75, error bounds.** The reported distance is not too large in comparison with any walk to the vertex, and it is not
too small in comparison with the exact weight of the stored path: each edge contributes the error
of one rounding. -/
theorem C75_rounded_error (ht : c.isTree = false) (hb : c.buildPaths = true) (hd : g.dd.Lawful c.inf)
    (hn : NonNeg (exactEdges c.next)) (hc : WCompat c.next c.vid) {validV : V → Prop} {validL : L → Prop}
    (starts : List V) (hst : WStorable g.mo g.lo c.next c.vid starts validV validL)
    {lo up : A → A} (he : ErrorBounds rd lo up) (limit : Option Int) (fuel : Nat) :
    ∀ r ∈ (spRun g c none starts limit fuel).reports,
      (∀ n w v, CountedWalk (exactEdges c.next) (· ∈ starts) n w v → c.vid v = c.vid r.vertex →
        r.distance.1 ≤ up^[n] w) ∧
      ∃ w, CountedWalk (exactEdges c.next) (· ∈ starts) r.depth w r.vertex ∧ lo^[r.depth] w ≤ r.distance.1 := by
  intro r hr
  constructor
  · intro n w v hw hv
    obtain ⟨a, h1, -, h3⟩ := rounded_of_counted hn he hw
    exact ((C75_rounded_distance g c ht hd hn hc starts limit fuel r hr).2 a v h1 hv).trans h3
  · obtain ⟨before, after, hab⟩ := List.append_of_mem hr
    obtain ⟨p, h1, h2, h3, h4, -⟩ := C75_rounded_paths g c ht hb hd hn hc starts hst limit fuel hab
    obtain ⟨x, h5, h6⟩ := counted_of_path (S := (· ∈ starts)) hn he h2 (n := 0) (.start h1) (le_refl _) (le_refl _) h3
    rw [Nat.zero_add, h4] at h5 h6
    exact ⟨x, h5, h6⟩

/-- **C75, relative error.** If a rounding changes a non-negative number by at most `ε` times the number, the reported
distance is at most `(1 + ε) ^ n` times the exact weight of each walk with `n` edges to the vertex, and at
least `(1 - ε) ^ depth` times the exact weight of some walk with `depth` edges to it. -/
theorem C75_rounded_relative_error {F : Type} [Field F] [LinearOrder F] [IsStrictOrderedRing F] {rd : F → F}
    [Fact (IsRounding rd)] (g : WGear V K L (Rounded rd) M ML D) (c : WCfg V K L (Rounded rd))
    (ht : c.isTree = false) (hb : c.buildPaths = true) (hd : g.dd.Lawful c.inf)
    (hn : NonNeg (exactEdges c.next)) (hc : WCompat c.next c.vid) {validV : V → Prop} {validL : L → Prop}
    (starts : List V) (hst : WStorable g.mo g.lo c.next c.vid starts validV validL)
    {ε : F} (h0 : 0 ≤ ε) (h1 : ε ≤ 1) (he : ∀ a, 0 ≤ a → |rd a - a| ≤ ε * a) (limit : Option Int) (fuel : Nat) :
    ∀ r ∈ (spRun g c none starts limit fuel).reports,
      (∀ n w v, CountedWalk (exactEdges c.next) (· ∈ starts) n w v → c.vid v = c.vid r.vertex →
        r.distance.1 ≤ (1 + ε) ^ n * w) ∧
      ∃ w, CountedWalk (exactEdges c.next) (· ∈ starts) r.depth w r.vertex ∧ (1 - ε) ^ r.depth * w ≤ r.distance.1 := by
  have hb' : ErrorBounds rd (fun a => (1 - ε) * a) (fun a => (1 + ε) * a) :=
    { lo_mono := fun a b h => mul_le_mul_of_nonneg_left h (by linarith)
      lo_add := fun a b => mul_add _ _ _
      lo_le := fun a ha => by have := mul_nonneg h0 ha; change (1 - ε) * a ≤ a; rw [sub_mul, one_mul]; linarith
      lo_nonneg := fun a ha => mul_nonneg (by linarith) ha
      lo_rd := fun a ha => by
        have := (abs_le.1 (he a ha)).1
        change (1 - ε) * a ≤ rd a
        rw [sub_mul, one_mul]; linarith
      up_mono := fun a b h => mul_le_mul_of_nonneg_left h (by linarith)
      up_add := fun a b => mul_add _ _ _
      up_ge := fun a ha => by have := mul_nonneg h0 ha; change a ≤ (1 + ε) * a; rw [add_mul, one_mul]; linarith
      up_rd := fun a ha => by
        have := (abs_le.1 (he a ha)).2
        change rd a ≤ (1 + ε) * a
        rw [add_mul, one_mul]; linarith }
  intro r hr
  have h := C75_rounded_error g c ht hb hd hn hc starts hst hb' limit fuel r hr
  simpa only [mul_left_iterate] using h

/-! ## Non-vacuity -/

/-- Natural numbers with two decimal digits of precision (up to 999): from 100 on, numbers are
rounded down to a multiple of ten. -/
def exRd (a : Nat) : Nat := if a < 100 then a else a / 10 * 10

theorem exRd_rounding : IsRounding exRd where
  mono a b h := by unfold exRd; split <;> split <;> omega
  idem a := by
    by_cases h : a < 100
    · simp [exRd, h]
    · have h2 : ¬ a / 10 * 10 < 100 := by omega
      simp only [exRd, h, h2, if_false]; omega
  zero := rfl

instance : Fact (IsRounding exRd) := ⟨exRd_rounding⟩

/-- A number of the format. -/
def exNum (a : Nat) (h : exRd a = a := by decide) : Rounded exRd := ⟨a, h⟩

/-- A rounding of rational numbers with a relative error of at most 1/2: the numbers between 1 and 2 are not available. -/
example : ∃ rd : ℚ → ℚ, IsRounding rd ∧ rd (3 / 2) = 1 ∧ ∀ a, 0 ≤ a → |rd a - a| ≤ 1 / 2 * a := by
  refine ⟨fun a => if 1 ≤ a ∧ a < 2 then 1 else a, ⟨fun a b h => ?_, fun a => ?_, by norm_num⟩, by norm_num,
    fun a ha => ?_⟩
  · split <;> split <;> (try rw [not_and] at *) <;> grind
  · split <;> simp_all
  · beta_reduce
    split
    · rw [abs_le]; constructor <;> linarith
    · rw [sub_self, abs_zero]; linarith

/-- Addition is not associative. -/
example : (exNum 95 + exNum 8) + exNum 8 ≠ exNum 95 + (exNum 8 + exNum 8) := by decide

/-- A path of three edges with exact weight 111 and computed weight 100, and an edge with weight 110. -/
def exRW : Nat → List (Nat × Rounded exRd × Char)
  | 0 => [(1, exNum 95, 'a'), (3, exNum 110, 'd')]
  | 1 => [(2, exNum 8, 'b')]
  | 2 => [(3, exNum 8, 'c')]
  | _ => []

/-- The example as configuration. -/
def exRCfg : WCfg Nat Nat Char (Rounded exRd) := ⟨exRW, id, false, true, true, exNum 500⟩

/-- Hash based collections. -/
def exRHash : WGear Nat Nat Char (Rounded exRd) (Nat → Option Nat) (Nat → Option Char) (Nat → Option (Rounded exRd)) :=
  ⟨dictMap, dictMap, dictDist (exNum 500)⟩

/-- The traversal finds the least computed weight (100), and not the computed weight of the walk with the least exact weight
(110). -/
example : (spRun exRHash exRCfg none [0] none 100).reports.map (fun r => (r.vertex, r.distance.1, r.depth)) =
    [(1, 95, 1), (2, 100, 2), (3, 100, 3)] := by decide +kernel

theorem exRW_reach {w : Nat} {v : Nat} (h : RoundedWalk exRd (exactEdges exRW) (· ∈ [0]) w v) : v ≤ 3 ∧ w < 500 := by
  have : (v = 0 ∧ w = 0) ∨ (v = 1 ∧ w = 95) ∨ (v = 2 ∧ w = 100) ∨ (v = 3 ∧ (w = 100 ∨ w = 110)) := by
    induction h with
    | start hs => simp at hs; omega
    | @step w u v x _ he ih =>
      obtain ⟨l, hl⟩ := he
      rcases ih with ⟨rfl, rfl⟩ | ⟨rfl, rfl⟩ | ⟨rfl, rfl⟩ | ⟨rfl, -⟩ <;> simp [exactEdges, exRW, exNum] at hl
      · rcases hl with ⟨rfl, rfl, -⟩ | ⟨rfl, rfl, -⟩ <;> simp [exRd]
      · obtain ⟨rfl, rfl, -⟩ := hl; simp [exRd]
      · obtain ⟨rfl, rfl, -⟩ := hl; simp [exRd]
  omega

/-- The hypotheses of the theorems hold for the example. -/
example : exRHash.dd.Lawful exRCfg.inf ∧ NonNeg (exactEdges exRW) ∧ WCompat exRW (id : Nat → Nat) ∧
    (∃ ids : List Nat, ∀ a v, RoundedWalk exRd (exactEdges exRW) (· ∈ [0]) a v → id v ∈ ids) ∧
    (∀ a v, RoundedWalk exRd (exactEdges exRW) (· ∈ [0]) a v → a < exRCfg.inf.1) ∧
    WStorable exRHash.mo exRHash.lo exRW id [0] (fun _ => True) (fun _ => True) ∧
    ErrorBounds exRd (fun _ => 0) (fun a => a) := by
  refine ⟨dictDist_lawful _, fun _ _ _ _ => Nat.zero_le _, wcompat_id, ⟨[0, 1, 2, 3], fun w v hv => ?_⟩,
    fun a v h => (exRW_reach h).2,
    ⟨dictMap_lawful, dictMap_lawful, fun _ _ _ => trivial, fun _ _ _ _ _ => trivial,
      fun s hs t ht _ => by simp at hs ht; omega⟩, ?_⟩
  · have := (exRW_reach hv).1
    have : v = 0 ∨ v = 1 ∨ v = 2 ∨ v = 3 := by omega
    simpa using this
  · refine ⟨fun _ _ _ => le_refl _, fun _ _ => rfl, fun _ _ => Nat.zero_le _, fun _ _ => le_refl _,
      fun _ _ => Nat.zero_le _, fun _ _ h => h, fun _ _ => rfl, fun _ _ => le_refl _, fun a _ => ?_⟩
    unfold exRd; split <;> omega

end NoGraphs
