import Verif.Proofs.TspTours
import Verif.Proofs.BiDijkstraSub

/-! Traveling salesman: results of the search in the state graph. -/

set_option linter.unusedSectionVars false

namespace NoGraphs

open Spec

section

variable {G M ML D : Type} [AddCommGroup G] [LinearOrder G] [IsOrderedAddMonoid G]
variable {n : Nat} {weight : Nat → Nat → Option G} {inf : WithTop G}

/-- The state graph, without the edges of numbers that are no states. -/
def tspRestr (n : Nat) (weight : Nat → Nat → Option G) (inf : WithTop G) : BdCfg Nat Nat Unit (WithTop G) where
  nextF := fun s => if TspValid n s then tspNextF n weight s else []
  nextB := fun s => if TspValid n s then tspNextB n (fun v w => weight w v) s else []
  vid := id
  buildPath := true
  inf := inf

theorem tspRestr_edgeF {u v : Nat} {x : WithTop G} {l : Unit} :
    (v, x, l) ∈ (tspRestr n weight inf).nextF u ↔ TspValid n u ∧ (v, x, l) ∈ tspNextF n weight u := by
  unfold tspRestr; dsimp only; split <;> simp [*]

theorem tspRestr_edgeB {u v : Nat} {x : WithTop G} {l : Unit} :
    (v, x, l) ∈ (tspRestr n weight inf).nextB u ↔ TspValid n u ∧ (v, x, l) ∈ tspNextB n (fun v w => weight w v) u := by
  unfold tspRestr; dsimp only; split <;> simp [*]

theorem tspCfg_closed (hn : 2 ≤ n) (b : Bool) (u : Nat) (hu : TspValid n u) :
    ∀ x ∈ (tspCfg n weight inf).next b u, TspValid n x.1 := by
  rintro ⟨v, x, l⟩ hx
  cases b with
  | false => exact (tspNextF_target hn hu hx).1
  | true => exact (tspNextB_sound hn hu hx).1

theorem tspRestr_next (b : Bool) (u : Nat) (hu : TspValid n u) :
    (tspRestr n weight inf).next b u = (tspCfg n weight inf).next b u := by
  cases b <;> simp [tspRestr, tspCfg, BdCfg.next, hu]

theorem tspRestr_opp (hn : 2 ≤ n) {u v : Nat} {x : WithTop G} {l : Unit}
    (h : (u, x, l) ∈ (tspRestr n weight inf).nextB v) : (v, x, l) ∈ (tspRestr n weight inf).nextF u := by
  rw [tspRestr_edgeB] at h
  rw [tspRestr_edgeF]
  exact tspNextB_sound hn h.1 h.2

theorem tspRestr_coe {b : Bool} {u v : Nat} {x : WithTop G} (h : WEdge ((tspRestr n weight inf).next b) u v x) :
    ∃ a b, ∃ w : G, weight a b = some w ∧ x = (w : WithTop G) := by
  obtain ⟨l, h⟩ := h
  cases b with
  | false =>
    obtain ⟨-, h⟩ := tspRestr_edgeF.1 h
    obtain ⟨t, w, -, -, -, h5, h6⟩ := mem_tspNextF.1 h
    simp only [Prod.mk.injEq] at h6
    exact ⟨_, _, w, h5, h6.2.1⟩
  | true =>
    obtain ⟨-, h⟩ := tspRestr_edgeB.1 h
    obtain ⟨t, w, -, -, -, h5, h6⟩ := mem_tspNextB.1 h
    simp only [Prod.mk.injEq] at h6
    exact ⟨_, _, w, h5, h6.2.1⟩

theorem tspRestr_walk {b : Bool} {S : Nat → Prop} {w : WithTop G} {v : Nat}
    (h : WalkW ((tspRestr n weight inf).next b) S w v) : ∃ x : G, w = (x : WithTop G) := by
  induction h with
  | start _ => exact ⟨0, rfl⟩
  | step _ he ih =>
    obtain ⟨x, rfl⟩ := ih
    obtain ⟨_, _, y, -, rfl⟩ := tspRestr_coe he
    exact ⟨x + y, rfl⟩

theorem tspRestr_walk_valid (hn : 2 ≤ n) {b : Bool} {S : Nat → Prop} {w : WithTop G} {v : Nat}
    (hS : ∀ s, S s → TspValid n s)
    (h : WalkW ((tspRestr n weight inf).next b) S w v) : TspValid n v := by
  induction h with
  | start hs => exact hS _ hs
  | step _ he ih =>
    obtain ⟨l, he⟩ := he
    rw [tspRestr_next b _ ih] at he
    exact tspCfg_closed hn b _ ih _ he

theorem tspValid_lt (hn : 2 ≤ n) {s : Nat} (h : TspValid n s) : s < 2 ^ n * n :=
  (Nat.div_lt_iff_lt_mul (by omega)).1 h.lt

theorem tspRestr_isWPath (hn : 2 ≤ n) {s : Nat} {steps : List (Nat × Unit)} {x : WithTop G} (hs : TspValid n s)
    (h : IsWPath (tspNextF n weight) s steps x) : IsWPath (tspRestr n weight inf).nextF s steps x := by
  induction h with
  | nil => exact .nil
  | cons he _ ih => exact .cons (tspRestr_edgeF.2 ⟨hs, he⟩) (ih (tspNextF_target hn hs he).1)

theorem isWPath_of_tspRestr {s : Nat} {steps : List (Nat × Unit)} {x : WithTop G}
    (h : IsWPath (tspRestr n weight inf).nextF s steps x) : IsWPath (tspNextF n weight) s steps x := by
  induction h with
  | nil => exact .nil
  | cons he _ ih => exact .cons (tspRestr_edgeF.1 he).2 ih

variable {g : WGear Nat Nat Unit (WithTop G) M ML D}

theorem tspRestr_ok (hn : 2 ≤ n) (hdd : g.dd.Lawful inf) (hinf : 0 ≤ inf)
    (hnn : ∀ a b w, weight a b = some w → 0 ≤ w) : BdOk g (tspRestr n weight inf) [tspStart n] [0] where
  dd := hdd
  nonneg := by
    intro b u v x he
    obtain ⟨a, b, w, h1, rfl⟩ := tspRestr_coe he
    exact WithTop.coe_le_coe.2 (hnn a b w h1)
  compat := by
    rintro b u u' v x h he
    have : u = u' := h
    subst this
    exact ⟨v, he, rfl⟩
  inf := hinf
  no := by
    intro s hs t ht
    simp only [List.mem_singleton] at hs ht
    subst hs; subst ht
    exact tspStart_ne hn

theorem tsp_search_eq (hn : 2 ≤ n) (fuel pathFuel : Nat) :
    bdSearch g (tspCfg n weight inf) [tspStart n] [0 + 0 * n] none fuel pathFuel =
      bdSearch g (tspRestr n weight inf) [tspStart n] [0] none fuel pathFuel := by
  rw [show 0 + 0 * n = 0 by simp]
  refine bdSearch_congr (c := tspCfg n weight inf) (c' := tspRestr n weight inf) (P := fun _ => TspValid n) rfl rfl rfl (tspCfg_closed hn) tspRestr_next ?_ ?_ none fuel pathFuel
  · simpa using tspStart_valid hn
  · simpa using tspGoal_valid

/-- The gear can store the states and the (empty) labels. -/
structure TspStorable (g : WGear Nat Nat Unit (WithTop G) M ML D) (n : Nat) (validV : Nat → Prop) (validL : Unit → Prop) :
    Prop where
  mo : g.mo.Lawful validV
  lo : g.lo.Lawful validL
  states : ∀ s, s < 2 ^ n * n → validV s
  labels : validL ()

theorem tsp_storable (hn : 2 ≤ n) {validV : Nat → Prop} {validL : Unit → Prop} (h : TspStorable g n validV validL) {b : Bool} {s0 : Nat}
    (hs : TspValid n s0) : WStorable g.mo g.lo ((tspRestr n weight inf).next b) (tspRestr n weight inf).vid [s0] validV validL where
  mo := h.mo
  lo := h.lo
  verts := fun w v hw => h.states v (tspValid_lt hn (tspRestr_walk_valid hn (by simpa using hs) hw))
  labs := fun _ _ _ _ _ => h.labels
  distinct := by simp

/-- The search gives a round trip with its length, and only for infinity values other than ⊤ it can end with an
`OverflowError`. -/
theorem tsp_search (hn : 2 ≤ n) (hdd : g.dd.Lawful inf) (hinf : 0 ≤ inf) (hnn : ∀ a b w, weight a b = some w → 0 ≤ w)
    {validV : Nat → Prop} {validL : Unit → Prop} (hst : TspStorable g n validV validL)
    (ns : Prop) (hns : ns → ∀ h s, Reaches (bdStep g (tspCfg n weight inf))
      (bdInit g (tspCfg n weight inf) (tspStart n) [tspStart n] [0 + 0 * n] none) h s → ¬ BdStale g (tspCfg n weight inf) s)
    (fuel pathFuel : Nat) :
    match bdSearch g (tspCfg n weight inf) [tspStart n] [0 + 0 * n] none fuel pathFuel with
    | .found x o => ∃ path len, x = ((len : G) : WithTop G) ∧ IsRoundTrip weight (List.range n) path len ∧
        path.head? = some 0 ∧ path.length = n + 1 ∧ (n < pathFuel → o.vertsForwards.map (fun v => v % n) = path) ∧
        ∀ path' l', IsRoundTrip weight (List.range n) path' l' → len ≤ l' + l' ∧ (ns → len ≤ l')
    | .notFound => True
    | .raised e => e = .overflowError ∧ inf ≠ ⊤
    | .outOfFuel => True := by
  have hns' : ns → ∀ h s, Reaches (bdStep g (tspRestr n weight inf))
      (bdInit g (tspRestr n weight inf) (tspStart n) [tspStart n] [0] none) h s → ¬ BdStale g (tspRestr n weight inf) s := by
    intro h h1 s hr
    rw [show 0 + 0 * n = 0 by simp] at hns
    refine hns h h1 s (bd_reaches_congr (c := tspCfg n weight inf) (c' := tspRestr n weight inf) (P := fun _ => TspValid n) rfl rfl rfl (tspCfg_closed hn) tspRestr_next ?_ ?_ _ none hr)
    · simpa using tspStart_valid hn
    · simpa using tspGoal_valid
  rw [tsp_search_eq hn]
  have hok := tspRestr_ok (g := g) hn hdd hinf hnn
  have hinj : Function.Injective (tspRestr n weight inf).vid := fun _ _ h => h
  have hres := bd_result_start hok hinj
    (fun u x ⟨l, h⟩ => (tspNextF_target hn (tspRestr_edgeF.1 h).1 (tspRestr_edgeF.1 h).2).2 rfl)
    (fun u v x ⟨l, h⟩ => ⟨l, tspRestr_opp hn h⟩)
    (fun u v x hu ⟨l, h⟩ => by
      obtain ⟨h1, h2⟩ := tspRestr_edgeF.1 h
      exact ⟨l, tspRestr_edgeB.2 ⟨(tspNextF_target hn h1 h2).1, tspNextB_complete hn h1 hu h2⟩⟩)
    ns none hns' fuel pathFuel
  cases hb : bdSearch g (tspRestr n weight inf) [tspStart n] [0] none fuel pathFuel with
  | notFound => trivial
  | outOfFuel => trivial
  | raised e =>
    rw [hb] at hres
    rcases hres with ⟨-, h⟩ | ⟨h, b, u, u', z, d, hd, he, hle⟩
    · exact absurd rfl h
    · refine ⟨h, ?_⟩
      rintro rfl
      obtain ⟨x, rfl⟩ := tspRestr_walk hd.1
      obtain ⟨_, _, y, -, rfl⟩ := tspRestr_coe he
      rw [← WithTop.coe_add] at hle
      exact absurd (top_le_iff.1 hle) (WithTop.coe_ne_top)
  | found x o =>
    rw [hb] at hres
    obtain ⟨p, hp1, hp2, hp3, hp4⟩ := bd_path_start hok hinj rfl (fun u v x l h => tspRestr_opp hn h)
      (tsp_storable (b := false) hn hst (tspStart_valid hn)) (tsp_storable (b := true) hn hst tspGoal_valid)
      none fuel x pathFuel o hb
    rw [hp1] at hp2
    have hp3' : (tspStart n :: p.steps.map Prod.fst).getLast? = some 0 := by
      rw [← hp1]; exact hp3
    obtain ⟨len, rfl, hlen, htrip⟩ := tsp_trip_of_walk hn (isWPath_of_tspRestr hp2) hp3'
    refine ⟨_, len, rfl, htrip, ?_, ?_, ?_, ?_⟩
    · simp [tspStart_mod hn]
    · simp [hlen]
    · intro hfuel
      obtain ⟨o', ho, hs⟩ := hp4 pathFuel (by omega)
      rw [hb] at ho
      simp only [SearchResult.found.injEq, true_and] at ho
      subst ho
      rw [hs.1]
      unfold SPath.verts
      rw [hp1]
    · intro path' l' ht'
      obtain ⟨path'', ht'', h0⟩ := roundTrip_rotate ht' (v := 0) (by simp; omega)
      obtain ⟨steps, q1, q2, -⟩ := tsp_walk_of_trip hn ht'' h0
      have hw := (tspRestr_isWPath (inf := inf) hn (tspStart_valid hn) q1).walk (.start (S := (· ∈ [tspStart n])) (by simp)) q2
      rw [zero_add] at hw
      have := hres.2 _ ⟨0, 0, by simp, rfl, hw⟩
      rw [← WithTop.coe_add, WithTop.coe_le_coe, WithTop.coe_le_coe] at this
      exact this

theorem tsp_search_ends (hn : 2 ≤ n) (hdd : g.dd.Lawful inf) (hinf : 0 ≤ inf) (hnn : ∀ a b w, weight a b = some w → 0 ≤ w) :
    ∃ N, ∀ fuel, N ≤ fuel → ∀ pathFuel,
      bdSearch g (tspCfg n weight inf) [tspStart n] [0 + 0 * n] none fuel pathFuel ≠ .outOfFuel := by
  have hok := tspRestr_ok (g := g) hn hdd hinf hnn
  have hfin : ∀ b s, TspValid n s → WFinitelyReachable ((tspRestr n weight inf).next b) (· ∈ [s]) (tspRestr n weight inf).vid :=
    fun b s hs => ⟨List.range (2 ^ n * n), fun w v hw =>
      List.mem_range.2 (tspValid_lt hn (tspRestr_walk_valid hn (by simpa using hs) hw))⟩
  obtain ⟨N, hN⟩ := bd_ends_start hok none (hfin false _ (tspStart_valid hn)) (hfin true _ tspGoal_valid)
  exact ⟨N, fun fuel hf pathFuel => by rw [tsp_search_eq hn]; exact hN fuel hf pathFuel⟩

end

end NoGraphs
