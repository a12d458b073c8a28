import Verif.Props.ProgressSp
import Verif.Props.BiDijkstra
import Verif.Proofs.BiDijkstraSub

/-! # C71: progress in infinite graphs, for the bidirectional shortest path search -/

set_option linter.unusedSectionVars false

namespace NoGraphs

open Spec

variable {V K L W M ML D : Type} [DecidableEq V] [DecidableEq K]
variable [AddCommMonoid W] [LinearOrder W] [IsOrderedAddMonoid W]
variable {g : WGear V K L W M ML D} {c : BdCfg V K L W} {starts goals : List V}

/-- A vertex that is expanded is not farther away than any connection between start and goal vertices is long. -/
theorem BdWit.expand_le {ns : Prop} {s : BdState V L W M ML D} {t : Bool → SpState V L W M ML D}
    {h : Bool → List (Ev (SpReport V W M ML D))} {F : Bool → K → Option W} {cur : Bool → W}
    (hok : BdOk g c starts goals) (w : BdWit g c starts goals ns s t h F cur) (hpc : s.pc = .loop)
    (hf : ∀ u v x, WEdge c.nextF u v x → WEdge c.nextB v u x)
    {e : HEntry W V} {rest : List (HEntry W V)} (hh : (s.get s.back).heap = e :: rest)
    (hgo : ¬ (c.inf ≠ s.best ∧ s.best ≤ e.key + s.others))
    {d : W} (hc : WConnects c.nextF c.vid starts goals d) (hlt : d < c.inf) :
    e.key ≤ d ∧ WalkW (c.next s.back) (· ∈ biEnds starts goals s.back) e.key e.item := by
  constructor
  · rcases w.lower hok hpc (S0 := fun _ => False) (fun u v x _ => hf u v x) (fun _ h => h.elim) hh hc hlt with h1 | h1
    · by_contra hno
      exact hgo ⟨(ne_of_lt (lt_of_le_of_lt h1 hlt)).symm,
        (h1.trans (not_le.1 hno).le).trans (le_add_of_nonneg_right w.others_nonneg)⟩
    · exact (le_add_of_nonneg_right (w.all (!s.back)).1.cur0).trans h1
  · obtain ⟨e', rest', h1, rfl, -⟩ := w.heap_cons hh
    exact aw_plain ((w.all s.back).1.walk e' (by rw [h1]; exact List.mem_cons_self))

/-- What holds for all states of the search, if there is a connection of weight `d`. -/
def BdNear (g : WGear V K L W M ML D) (c : BdCfg V K L W) (starts goals : List V) (d : W) (s : BdState V L W M ML D) : Prop :=
  (∃ t h F cur, BdWit g c starts goals False s t h F cur) ∧ ∀ v x es, s.pc = .edges v x es →
    x ≤ d ∧ WalkW (c.next s.back) (· ∈ biEnds starts goals s.back) x v ∧ ∀ e ∈ es, e ∈ c.next s.back v

theorem BdNear.step {d : W} {s s' : BdState V L W M ML D} (hok : BdOk g c starts goals)
    (hf : ∀ u v x, WEdge c.nextF u v x → WEdge c.nextB v u x)
    (hc : WConnects c.nextF c.vid starts goals d) (hlt : d < c.inf) (hs : BdNear g c starts goals d s)
    (hn : (bdStep g c s).next? = some s') : BdNear g c starts goals d s' := by
  obtain ⟨⟨t, h, F, cur, w⟩, hedges⟩ := hs
  obtain ⟨t', h', F', cur', w', -⟩ := bd_step hok w False.elim hn
  refine ⟨⟨t', h', F', cur', w'⟩, ?_⟩
  clear w'
  unfold bdStep at hn
  simp only at hn
  split at hn
  · rename_i hpc
    split at hn
    · simp [Step.next?] at hn
    · rename_i e rest hh
      split at hn
      · simp only [Step.next?, Option.some.injEq] at hn
        subst hn
        intro v x es h
        rw [(s.setCur_fields _).2.2.2.2, hpc] at h
        simp at h
      · split at hn
        · simp [Step.next?] at hn
        · rename_i hgo
          split at hn
          · simp [Step.next?] at hn
          · simp only [Step.next?, Option.some.injEq] at hn
            subst hn
            intro v x es h
            simp only [BdPc.edges.injEq] at h
            obtain ⟨rfl, rfl, rfl⟩ := h
            obtain ⟨q1, q2⟩ := w.expand_le hok hpc hf hh hgo hc hlt
            rw [s.setCur_back]
            exact ⟨q1, q2, fun _ h => h⟩
  · simp only [Step.next?, Option.some.injEq] at hn
    subst hn
    intro v x es h
    simp at h
  · rename_i v0 x0 n y l es0 hpc
    obtain ⟨q1, q2, q3⟩ := hedges _ _ _ hpc
    split at hn
    · simp [Step.next?] at hn
    · split at hn
      · simp only [Step.next?, Option.some.injEq] at hn
        subst hn
        intro v x es h
        simp only [BdPc.edges.injEq] at h
        obtain ⟨rfl, rfl, rfl⟩ := h
        exact ⟨q1, q2, fun e he => q3 e (List.mem_cons_of_mem _ he)⟩
      · split at hn
        all_goals
          simp only [Step.next?, Option.some.injEq] at hn
          subst hn
          intro v x es h
          simp only [BdPc.edges.injEq] at h
          obtain ⟨rfl, rfl, rfl⟩ := h
          rw [s.setCur_back]
          exact ⟨q1, q2, fun e he => q3 e (List.mem_cons_of_mem _ he)⟩

/-- **C71 for the bidirectional shortest path search.** Also in an infinite graph, a search for which a connection of
total weight `d` exists ends, if in both directions only finitely many vertices can be reached by walks of total weight
at most `d`. If the distances that occur there are smaller than the infinity value of the gear, and
no calculation limit is given, it returns a path from a start to a goal vertex, of at most twice the weight. -/
theorem C71_bd_progress (H : BdHyp g c) (starts goals : List V) (d : W) (hd : WConnects c.nextF c.vid starts goals d)
    (hlt : d < c.inf)
    (hfF : ∃ ids : List K, ∀ x u, WalkW c.nextF (· ∈ starts) x u → x ≤ d → c.vid u ∈ ids)
    (hfB : ∃ ids : List K, ∀ x u, WalkW c.nextB (· ∈ goals) x u → x ≤ d → c.vid u ∈ ids) :
    (∀ limit, ∃ N, ∀ fuel, N ≤ fuel → ∀ pathFuel, bdSearch g c starts goals limit fuel pathFuel ≠ .outOfFuel) ∧
    ((∀ x u u' y, WalkW c.nextF (· ∈ starts) x u → x ≤ d → WEdge c.nextF u u' y → x + y < c.inf) →
      (∀ x u u' y, WalkW c.nextB (· ∈ goals) x u → x ≤ d → WEdge c.nextB u u' y → x + y < c.inf) →
      ∃ N, ∀ fuel, N ≤ fuel → ∀ pathFuel, ∃ w p, bdSearch g c starts goals none fuel pathFuel = .found w p ∧
        WConnects c.nextF c.vid starts goals w ∧ w ≤ d + d) := by
  obtain ⟨idsF, hidsF⟩ := hfF
  obtain ⟨idsB, hidsB⟩ := hfB
  have hf : ∀ u v x, WEdge c.nextF u v x → WEdge c.nextB v u x := fun u v x => (H.opp u v x).1
  have hend : ∀ limit, ∃ N, ∀ fuel, N ≤ fuel → ∀ pathFuel,
      bdSearch g c starts goals limit fuel pathFuel ≠ .outOfFuel := by
    intro limit
    unfold bdSearch
    split
    · exact ⟨0, fun _ _ _ h => by simp at h⟩
    · exact ⟨0, fun _ _ _ h => by simp at h⟩
    · rename_i start rs gl rg
      cases hcom : biCommon c.vid (start :: rs) (gl :: rg) true true with
      | some v => exact ⟨0, fun _ _ _ h => by simp at h⟩
      | none =>
        have hno := biCommon_none hcom
        have hok := H.ok hno
        let c' : BdCfg V K L W := { c with nextF := cutNext c.nextF c.vid idsF, nextB := cutNext c.nextB c.vid idsB }
        have hok' : BdOk g c' (start :: rs) (gl :: rg) :=
          { dd := H.dd
            nonneg := by
              rintro (_ | _) u v x ⟨l, hl⟩
              · exact H.nonnegF u v x ⟨l, cutNext_sub hl⟩
              · exact H.nonnegB u v x ⟨l, cutNext_sub hl⟩
            compat := by
              rintro (_ | _)
              · exact cutNext_wcompat H.compatF idsF
              · exact cutNext_wcompat H.compatB idsB
            inf := H.inf
            no := hno }
        obtain ⟨jF, hjF⟩ := cutNext_finite H.compatF idsF (start :: rs)
        obtain ⟨jB, hjB⟩ := cutNext_finite H.compatB idsB (gl :: rg)
        obtain ⟨N, hN⟩ := bd_terminates hok' (ids := fun b => if b then jB else jF)
          (fun b w v hw => by cases b; exacts [hjF w v hw, hjB w v hw]) start limit
        have hcongr : ∀ fuel lim, runMachine (bdStep g c) fuel lim (bdInit g c start (start :: rs) (gl :: rg) limit) =
            runMachine (bdStep g c') fuel lim (bdInit g c' start (start :: rs) (gl :: rg) limit) := by
          intro fuel lim
          have hi : (bdInit g c' start (start :: rs) (gl :: rg) limit : BdState V L W M ML D) =
              bdInit g c start (start :: rs) (gl :: rg) limit := by
            have hentries : ∀ (d : D) (vs : List V) (no : Int), bdStartEntries g c' d vs no = bdStartEntries g c d vs no := by
              intro d vs
              induction vs with
              | nil => intro _; rfl
              | cons v vs ih => intro no; simp only [bdStartEntries, ih, c']
            simp only [bdInit, bdInitSide, bdDistances, hentries, c']
          rw [hi]
          refine run_congr (BdNear g c (start :: rs) (gl :: rg) d) ?_ (fun s s' hs hn => hs.step hok hf hd hlt hn) fuel lim _
            ⟨⟨_, _, _, _, bd_init hok False start limit⟩, fun v x es h => by simp [bdInit] at h⟩
          rintro s ⟨⟨t, h, F, cur, w⟩, -⟩
          unfold bdStep
          simp only [c']
          split
          · rename_i hpc
            split
            · rfl
            · rename_i e rest hh
              by_cases hst : g.dd.get (s.get s.back).dist (c.vid e.item) < e.key
              · simp only [hst, if_true]
              · simp only [hst, if_false]
                by_cases hgo : c.inf ≠ s.best ∧ s.best ≤ e.key + s.others
                · rw [if_pos hgo, if_pos hgo]
                · rw [if_neg hgo, if_neg hgo]
                  obtain ⟨q1, q2⟩ := w.expand_le hok hpc hf hh hgo hd hlt
                  have : BdCfg.next { c with nextF := cutNext c.nextF c.vid idsF, nextB := cutNext c.nextB c.vid idsB }
                      s.back e.item = c.next s.back e.item := by
                    cases hb : s.back with
                    | false =>
                      rw [hb] at q2
                      exact if_pos (hidsF _ _ q2 q1)
                    | true =>
                      rw [hb] at q2
                      exact if_pos (hidsB _ _ q2 q1)
                  rw [this]
          · rfl
          · rfl
        refine ⟨N, fun fuel hf pathFuel => ?_⟩
        have := hN fuel hf none
        rw [← hcongr] at this
        dsimp only
        split
        · split <;> simp
        · simp
        · rename_i h; exact absurd h this
  refine ⟨hend, fun hoF hoB => ?_⟩
  obtain ⟨N, hN⟩ := hend none
  refine ⟨N, fun fuel hfu pathFuel => ?_⟩
  have h1 := hN fuel hfu pathFuel
  have h2 := bd_result H False starts goals none False.elim fuel pathFuel
  cases hres : bdSearch g c starts goals none fuel pathFuel with
  | found w p => rw [hres] at h2; exact ⟨w, p, rfl, h2.1, (h2.2 d hd).1⟩
  | notFound => rw [hres] at h2; exact absurd hd (h2 d)
  | outOfFuel => exact absurd hres h1
  | raised e =>
    exfalso
    clear h1 h2
    unfold bdSearch at hres
    split at hres
    · simp at hres
    · simp at hres
    · rename_i start rs gl rg
      cases hcom : biCommon c.vid (start :: rs) (gl :: rg) true true with
      | some v => simp [hcom] at hres
      | none =>
        have hok := H.ok (biCommon_none hcom)
        rw [hcom] at hres
        dsimp only at hres
        obtain ⟨s, hr, he⟩ := run_reaches (bdStep g c) fuel none (bdInit g c start (start :: rs) (gl :: rg) none)
        have hnear : BdNear g c (start :: rs) (gl :: rg) d s := by
          refine Reaches.invariant (fun _ s => BdNear g c (start :: rs) (gl :: rg) d s)
            ⟨⟨_, _, _, _, bd_init hok False start none⟩, fun v x es h => by simp [bdInit] at h⟩ ?_ ?_ ?_ hr
          · intro _ s s' inv hs; exact inv.step hok hf hd hlt (by rw [hs]; rfl)
          · intro _ s r s' inv hs; exact inv.step hok hf hd hlt (by rw [hs]; rfl)
          · intro _ s s' inv hs; exact inv.step hok hf hd hlt (by rw [hs]; rfl)
        split at hres
        · split at hres <;> simp at hres
        · rename_i e0 hend
          rw [hend] at he
          rcases he with he | ⟨-, h, -⟩
          · rcases bdStep_fail he with ⟨-, h2⟩ | ⟨-, v, x, n, y, l, es, h2, h3⟩
            · obtain ⟨h3, h4⟩ := bd_no_limit hr
              apply h2
              unfold BdState.get; split <;> assumption
            · obtain ⟨q1, q2, q3⟩ := hnear.2 _ _ _ h2
              have q4 := q3 _ List.mem_cons_self
              rw [add_comm] at h3
              cases hb : s.back with
              | false =>
                rw [hb] at q2 q4
                exact absurd h3 (not_le_of_gt (hoF x v n y q2 q1 ⟨l, q4⟩))
              | true =>
                rw [hb] at q2 q4
                exact absurd h3 (not_le_of_gt (hoB x v n y q2 q1 ⟨l, q4⟩))
          · exact absurd rfl h
        · simp at hres

/-! ## Example: the integers, infinite in both directions -/

/-- Each integer has edges to its successor, with weight 1, and to the fifth number after it, with weight 3. -/
def exLine : BdCfg Int Int Unit Nat :=
  ⟨fun v => [(v + 5, 3, ()), (v + 1, 1, ())], fun v => [(v - 5, 3, ()), (v - 1, 1, ())], id, true, 1000⟩

/-- Hash based collections for it. -/
def exLineGear : WGear Int Int Unit Nat (Int → Option Int) (Int → Option Unit) (Int → Option Nat) :=
  ⟨dictMap, dictMap, dictDist 1000⟩

theorem exLineHyp : BdHyp exLineGear exLine where
  dd := dictDist_lawful 1000
  nonnegF := fun _ _ _ _ => Nat.zero_le _
  nonnegB := fun _ _ _ _ => Nat.zero_le _
  compatF := fun u u' n x e he => ⟨n, (show u = u' from e) ▸ he, rfl⟩
  compatB := fun u u' n x e he => ⟨n, (show u = u' from e) ▸ he, rfl⟩
  inf := Nat.zero_le _
  opp := by
    intro u v x
    constructor
    · rintro ⟨l, hl⟩
      refine ⟨l, ?_⟩
      simp [exLine] at hl ⊢
      omega
    · rintro ⟨l, hl⟩
      refine ⟨l, ?_⟩
      simp [exLine] at hl ⊢
      omega

/-- From 0, each number from 1 to 900 is found, by a path of at most twice its weight when only steps of length 1 are
used. -/
example (v : Nat) (hv' : v ≤ 900) : ∃ N, ∀ fuel, N ≤ fuel → ∀ pathFuel, ∃ w p,
    bdSearch exLineGear exLine [0] [(v : Int)] none fuel pathFuel = .found w p ∧
      WConnects exLine.nextF exLine.vid [0] [(v : Int)] w ∧ w ≤ v + v := by
  have hF : ∀ x u, WalkW exLine.nextF (· ∈ [0]) x u → 0 ≤ u ∧ u ≤ 2 * x := by
    intro x u h
    induction h with
    | start h => simp at h; omega
    | @step x u v y _ he ih =>
      obtain ⟨l, hl⟩ := he
      simp [exLine] at hl
      push_cast
      omega
  have hB : ∀ x u, WalkW exLine.nextB (· ∈ [(v : Int)]) x u → u ≤ v ∧ (v : Int) - 2 * x ≤ u := by
    intro x u h
    induction h with
    | start h => simp at h; omega
    | @step x u v y _ he ih =>
      obtain ⟨l, hl⟩ := he
      simp [exLine] at hl
      push_cast
      omega
  refine (C71_bd_progress exLineHyp [0] [(v : Int)] v ⟨v, v, by simp, rfl, ?_⟩ (show v < 1000 by omega)
    ⟨(List.range (2 * v + 1)).map (fun n : Nat => (n : Int)), fun x u hw hx => ?_⟩
    ⟨(List.range (2 * v + 1)).map (fun n : Nat => (v : Int) - n), fun x u hw hx => ?_⟩).2 ?_ ?_
  · clear hv' hF hB
    induction v with
    | zero => exact .start (by simp)
    | succ n ih => exact .step ih ⟨(), by simp [exLine]⟩
  · have := hF x u hw
    exact List.mem_map.2 ⟨u.toNat, by simp; omega, by show ((u.toNat : Nat) : Int) = u; omega⟩
  · have := hB x u hw
    exact List.mem_map.2 ⟨((v : Int) - u).toNat, by simp; omega, by show (v : Int) - ((v : Int) - u).toNat = u; omega⟩
  · rintro x u u' y hw hx ⟨l, hl⟩
    simp [exLine] at hl
    show x + y < 1000
    omega
  · rintro x u u' y hw hx ⟨l, hl⟩
    simp [exLine] at hl
    show x + y < 1000
    omega

end NoGraphs
