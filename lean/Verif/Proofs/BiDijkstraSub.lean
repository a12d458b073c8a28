import Verif.Proofs.BiDijkstraResult
import Verif.Props.BiBfs

/-! Bidirectional shortest path search: searches that see only a part of the graph, and searches where
the backward graph has no edges to the start vertex. -/

set_option linter.unusedSectionVars false

namespace NoGraphs

open Spec

/-- Machines that agree on all states with an invariant have equal runs. -/
theorem run_congr {σ ρ : Type} {m m' : σ → Step σ ρ} (I : σ → Prop) (heq : ∀ s, I s → m s = m' s)
    (hstep : ∀ s s', I s → (m s).next? = some s' → I s') (fuel : Nat) (lim : Option Int) (s : σ) (hs : I s) :
    runMachine m fuel lim s = runMachine m' fuel lim s := by
  induction fuel generalizing lim s with
  | zero => rfl
  | succ fuel ih =>
    unfold runMachine
    rw [← heq s hs]
    cases hm : m s with
    | stop s' => rfl
    | fail e => rfl
    | tau s' => exact ih lim s' (hstep s s' hs (by rw [hm]; rfl))
    | emit r s' => dsimp only; rw [ih lim s' (hstep s s' hs (by rw [hm]; rfl))]
    | expand s' =>
      dsimp only
      split
      · rfl
      · rename_i lim' _
        rw [ih lim' s' (hstep s s' hs (by rw [hm]; rfl))]

variable {V K L W M ML D : Type} [DecidableEq V] [DecidableEq K]
variable [AddCommMonoid W] [LinearOrder W] [IsOrderedAddMonoid W]
variable {g : WGear V K L W M ML D} {c c' : BdCfg V K L W} {starts goals : List V}

/-- The vertices a search state contains are in `P`. -/
def BdIn (P : Bool → V → Prop) (s : BdState V L W M ML D) : Prop :=
  (∀ b, ∀ e ∈ (s.get b).heap, P b e.item) ∧
  match s.pc with
  | .loop => True
  | .edges _ _ es => ∀ x ∈ es, P s.back x.1

theorem BdIn.setCur {P : Bool → V → Prop} {s : BdState V L W M ML D} (h : ∀ b, ∀ e ∈ (s.get b).heap, P b e.item)
    {x : BdSide V W M ML D} (hx : ∀ e ∈ x.heap, P s.back e.item) :
    ∀ b, ∀ e ∈ ((s.setCur x).get b).heap, P b e.item := by
  refine bool_cases s.back ?_ ?_
  · rw [BdState.get_setCur_same]; exact hx
  · rw [BdState.get_setCur_other]; exact h _

theorem bd_in_step {P : Bool → V → Prop} (hP : ∀ b u, P b u → ∀ x ∈ c.next b u, P b x.1)
    {s s' : BdState V L W M ML D} (h : BdIn P s) (hs : (bdStep g c s).next? = some s') : BdIn P s' := by
  obtain ⟨h1, h2⟩ := h
  unfold bdStep at hs
  simp only at hs
  split at hs
  · rename_i hp
    split at hs
    · simp [Step.next?] at hs
    · rename_i e rest hh
      have hrest : ∀ x : BdSide V W M ML D, x.heap = rest → ∀ e ∈ x.heap, P s.back e.item := by
        intro x hx e' he'
        rw [hx] at he'
        exact h1 s.back e' (by rw [hh]; exact List.mem_cons_of_mem _ he')
      have hpc : ∀ x : BdSide V W M ML D, (s.setCur x).pc = s.pc := fun x => (s.setCur_fields x).2.2.2.2
      split at hs
      · simp only [Step.next?, Option.some.injEq] at hs
        subst hs
        refine ⟨BdIn.setCur h1 (hrest _ rfl), ?_⟩
        simp only [hpc, hp]
      · split at hs
        · simp [Step.next?] at hs
        · split at hs
          · simp [Step.next?] at hs
          · simp only [Step.next?, Option.some.injEq] at hs
            subst hs
            refine ⟨BdIn.setCur h1 (hrest _ rfl), ?_⟩
            simp only [BdState.setCur_back]
            exact hP _ _ (h1 s.back e (by rw [hh]; exact List.mem_cons_self))
  · simp only [Step.next?, Option.some.injEq] at hs
    subst hs
    exact ⟨h1, trivial⟩
  · rename_i v x n y l es hpc
    rw [hpc] at h2
    have hes : ∀ x ∈ es, P s.back x.1 := fun x hx => h2 x (List.mem_cons_of_mem _ hx)
    split at hs
    · simp [Step.next?] at hs
    · split at hs
      · simp only [Step.next?, Option.some.injEq] at hs
        subst hs
        exact ⟨h1, hes⟩
      · have hpush : ∀ z : BdSide V W M ML D, ∀ k j, z.heap = heapPush (s.get s.back).heap ⟨k, j, n⟩ →
            ∀ e ∈ z.heap, P s.back e.item := by
          intro z k j hz e he
          rw [hz] at he
          rcases List.mem_cons.1 ((heapPush_perm _ _).subset he) with rfl | he
          · exact h2 _ List.mem_cons_self
          · exact h1 _ e he
        split at hs
        · simp only [Step.next?, Option.some.injEq] at hs
          subst hs
          refine ⟨BdIn.setCur h1 (hpush _ _ _ rfl), ?_⟩
          simp only [BdState.setCur_back]
          exact hes
        · simp only [Step.next?, Option.some.injEq] at hs
          subst hs
          refine ⟨BdIn.setCur h1 (hpush _ _ _ rfl), ?_⟩
          simp only [BdState.setCur_back]
          exact hes

theorem bdStartEntries_item {d : D} {vs : List V} {no : Int} {e : HEntry W V}
    (he : e ∈ bdStartEntries g c d vs no) : e.item ∈ vs := by
  induction vs generalizing no with
  | nil => simp [bdStartEntries] at he
  | cons v vs ih =>
    simp only [bdStartEntries, List.mem_cons] at he ⊢
    rcases he with rfl | he
    · exact .inl rfl
    · exact .inr (ih he)

theorem bd_in_init {P : Bool → V → Prop} (hF : ∀ v ∈ starts, P false v) (hB : ∀ v ∈ goals, P true v) (start : V)
    (limit : Option Int) : BdIn P (bdInit g c start starts goals limit : BdState V L W M ML D) := by
  refine ⟨fun b => ?_, trivial⟩
  cases b with
  | false => exact fun e he => hF _ (bdStartEntries_item ((heapify_perm _).subset he))
  | true => exact fun e he => hB _ (bdStartEntries_item ((heapify_perm _).subset he))

/-- A search sees only the vertices that can be reached: for configurations that agree on them, its results are equal. -/
theorem bdSearch_congr {P : Bool → V → Prop} (hvid : c'.vid = c.vid) (hbp : c'.buildPath = c.buildPath)
    (hinf : c'.inf = c.inf) (hP : ∀ b u, P b u → ∀ x ∈ c.next b u, P b x.1)
    (heq : ∀ b u, P b u → c'.next b u = c.next b u) (hF : ∀ v ∈ starts, P false v) (hB : ∀ v ∈ goals, P true v)
    (limit : Option Int) (fuel pathFuel : Nat) :
    bdSearch g c starts goals limit fuel pathFuel = bdSearch g c' starts goals limit fuel pathFuel := by
  have hstep : ∀ s : BdState V L W M ML D, BdIn P s → bdStep g c s = bdStep g c' s := by
    intro s hs
    unfold bdStep
    simp only [hvid, hbp, hinf]
    split
    · split
      · rfl
      · rename_i e rest hh
        rw [heq _ _ (hs.1 s.back e (by rw [hh]; exact List.mem_cons_self))]
    · rfl
    · rfl
  have hentries : ∀ (d : D) (vs : List V) (no : Int), bdStartEntries g c' d vs no = bdStartEntries g c d vs no := by
    intro d vs
    induction vs with
    | nil => intro _; rfl
    | cons v vs ih => intro no; simp only [bdStartEntries, hvid, ih]
  have hinit : ∀ start, (bdInit g c' start starts goals limit : BdState V L W M ML D) =
      bdInit g c start starts goals limit := by
    intro start
    simp only [bdInit, bdInitSide, bdDistances, hvid, hbp, hinf, hentries]
  have hpath : ∀ s : BdState V L W M ML D, bdPath g c' s pathFuel = bdPath g c s pathFuel := by
    intro s; simp only [bdPath, hvid, hbp]
  unfold bdSearch
  split
  · rfl
  · rfl
  · rename_i start rs gl rg
    rw [hvid, hinit start, run_congr (BdIn P) hstep (fun s s' h1 h2 => bd_in_step hP h1 h2) fuel none _
      (bd_in_init hF hB start limit)]
    simp only [hpath]

/-- And the states that occur are the same. -/
theorem bd_reaches_congr {P : Bool → V → Prop} (hvid : c'.vid = c.vid) (hbp : c'.buildPath = c.buildPath)
    (hinf : c'.inf = c.inf) (hP : ∀ b u, P b u → ∀ x ∈ c.next b u, P b x.1)
    (heq : ∀ b u, P b u → c'.next b u = c.next b u) (hF : ∀ v ∈ starts, P false v) (hB : ∀ v ∈ goals, P true v)
    (start : V) (limit : Option Int) {h : List (Ev Unit)} {s : BdState V L W M ML D}
    (hr : Reaches (bdStep g c') (bdInit g c' start starts goals limit) h s) :
    Reaches (bdStep g c) (bdInit g c start starts goals limit) h s := by
  have hstep : ∀ s : BdState V L W M ML D, BdIn P s → bdStep g c' s = bdStep g c s := by
    intro s hs
    unfold bdStep
    simp only [hvid, hbp, hinf]
    split
    · split
      · rfl
      · rename_i e rest hh
        rw [heq _ _ (hs.1 s.back e (by rw [hh]; exact List.mem_cons_self))]
    · rfl
    · rfl
  have hentries : ∀ (d : D) (vs : List V) (no : Int), bdStartEntries g c' d vs no = bdStartEntries g c d vs no := by
    intro d vs
    induction vs with
    | nil => intro _; rfl
    | cons v vs ih => intro no; simp only [bdStartEntries, hvid, ih]
  have hinit : (bdInit g c' start starts goals limit : BdState V L W M ML D) = bdInit g c start starts goals limit := by
    simp only [bdInit, bdInitSide, bdDistances, hvid, hbp, hinf, hentries]
  rw [hinit] at hr
  have key : Reaches (bdStep g c) (bdInit g c start starts goals limit) h s ∧ BdIn P s := by
    induction hr with
    | refl => exact ⟨.refl, bd_in_init hF hB start limit⟩
    | tau _ hm ih =>
      rw [hstep _ ih.2] at hm
      exact ⟨.tau ih.1 hm, bd_in_step hP ih.2 (by rw [hm]; rfl)⟩
    | emit _ hm ih =>
      rw [hstep _ ih.2] at hm
      exact ⟨.emit ih.1 hm, bd_in_step hP ih.2 (by rw [hm]; rfl)⟩
    | expand _ hm ih =>
      rw [hstep _ ih.2] at hm
      exact ⟨.expand ih.1 hm, bd_in_step hP ih.2 (by rw [hm]; rfl)⟩
  exact key.1

/-! ## Backward graphs without edges to the start vertex -/

/-- The start vertex is expanded by the first step. -/
theorem bd_start_done {s0 : V} {t0 : V} (hok : BdOk g c [s0] [t0]) (hinj : Function.Injective c.vid)
    (hin : ∀ u x, ¬ WEdge c.nextF u s0 x) (limit : Option Int) {hh : List (Ev Unit)} {s : BdState V L W M ML D}
    (hr : Reaches (bdStep g c) (bdInit g c s0 [s0] [t0] limit) hh s) :
    s = bdInit g c s0 [s0] [t0] limit ∨
    ∀ {ns t h F cur}, BdWit g c [s0] [t0] ns s t h F cur → (F false (c.vid s0)).isSome := by
  let P : Bool → V → Prop := fun b v => b = false → v ≠ s0
  have hP : ∀ b u, P b u → ∀ x ∈ c.next b u, P b x.1 := by
    rintro b u - ⟨v, x, l⟩ hx rfl rfl
    exact hin u x ⟨l, hx⟩
  have key : s = bdInit g c s0 [s0] [t0] limit ∨ BdIn P s := by
    have hstep : ∀ s s' : BdState V L W M ML D, (s = bdInit g c s0 [s0] [t0] limit ∨ BdIn P s) →
        (bdStep g c s).next? = some s' → s' = bdInit g c s0 [s0] [t0] limit ∨ BdIn P s' := by
      rintro s s' (rfl | h) hs
      · right
        unfold bdStep at hs
        simp only [bdInit, BdState.get, bdInitSide, bdStartEntries, heapify, List.foldl_cons, List.foldl_nil,
          heapPush, lt_irrefl, if_false, ne_eq, not_true_eq_false, false_and, Bool.false_eq_true] at hs
        split at hs
        · simp [Step.next?] at hs
        · simp only [Step.next?, Option.some.injEq] at hs
          subst hs
          refine ⟨fun b => ?_, ?_⟩
          · cases b with
            | false => simp [BdState.get, BdState.setCur]
            | true => intro e he h; cases h
          · rintro ⟨v, x, l⟩ hx - h0
            subst h0
            exact hin v x ⟨l, hx⟩
      · exact .inr (bd_in_step hP h hs)
    refine Reaches.invariant (fun _ s => s = bdInit g c s0 [s0] [t0] limit ∨ BdIn P s) (.inl rfl) ?_ ?_ ?_ hr
    · intro _ s s' inv hs; exact hstep s s' inv (by rw [hs]; rfl)
    · intro _ s r s' inv hs; exact hstep s s' inv (by rw [hs]; rfl)
    · intro _ s s' inv hs; exact hstep s s' inv (by rw [hs]; rfl)
  rcases key with h | h
  · exact .inl h
  · right
    intro ns t h' F cur w
    cases hF : F false (c.vid s0) with
    | some x => rfl
    | none =>
      exfalso
      obtain ⟨-, ⟨-, h2⟩ | ⟨e, he, h2, -⟩⟩ := (w.all false).1.undone _ hF
      · exact h2 (List.mem_map.2 ⟨s0, by simp [biEnds], rfl⟩)
      · have h3 : forget e ∈ (s.get false).heap := by
          rw [(w.rel false).heap]; exact List.mem_map.2 ⟨e, he, rfl⟩
        exact h.1 false _ h3 rfl (hinj h2)

/-- What holds for the ways the search can end, if the backward graph contains the opposite edges of the forward graph,
except for those from the start vertex. -/
theorem bd_result_start {s0 t0 : V} (hok : BdOk g c [s0] [t0]) (hinj : Function.Injective c.vid)
    (hin : ∀ u x, ¬ WEdge c.nextF u s0 x)
    (hopp : ∀ u v x, WEdge c.nextB u v x → WEdge c.nextF v u x)
    (hf : ∀ u v x, u ≠ s0 → WEdge c.nextF u v x → WEdge c.nextB v u x)
    (ns : Prop) (limit : Option Int)
    (hns : ns → ∀ h s, Reaches (bdStep g c) (bdInit g c s0 [s0] [t0] limit) h s → ¬ BdStale g c s)
    (fuel pathFuel : Nat) :
    match bdSearch g c [s0] [t0] limit fuel pathFuel with
    | .found w _ => WConnects c.nextF c.vid [s0] [t0] w ∧
        ∀ d, WConnects c.nextF c.vid [s0] [t0] d → w ≤ d + d ∧ (ns → w ≤ d)
    | .notFound => True
    | .raised e => (e = .runtimeError ∧ limit ≠ none) ∨
        (e = .overflowError ∧ ∃ b, ∃ u u' z d, IsDist (c.next b) (· ∈ biEnds [s0] [t0] b) c.vid u d ∧
          WEdge (c.next b) u u' z ∧ c.inf ≤ d + z)
    | .outOfFuel => True := by
  unfold bdSearch
  dsimp only
  cases hcom : biCommon c.vid [s0] [t0] true true with
  | some v =>
    obtain ⟨h1, t, ht, he⟩ := biCommon_some hcom
    exact absurd he (hok.no v h1 t ht)
  | none =>
    obtain ⟨s, hr, he⟩ := run_reaches (bdStep g c) fuel none (bdInit g c s0 [s0] [t0] limit)
    obtain ⟨t, h, F, cur, w⟩ := bd_inv hok s0 limit hns hr
    have hdone := bd_start_done hok hinj hin limit hr
    revert he
    dsimp only
    cases (runMachine (bdStep g c) fuel none (bdInit g c s0 [s0] [t0] limit)).ending with
    | outOfFuel => intro _; trivial
    | raised e =>
      rintro (he | ⟨-, h, -⟩)
      · rcases bdStep_fail he with ⟨rfl, h2⟩ | ⟨rfl, v, x, n, y, l, es, h2, h3⟩
        · refine .inl ⟨rfl, ?_⟩
          rintro rfl
          obtain ⟨h3, h4⟩ := bd_no_limit hr
          apply h2
          unfold BdState.get; split <;> assumption
        · exact .inr ⟨rfl, w.overflow hok h2 h3⟩
      · exact absurd rfl h
    | done =>
      intro he
      dsimp only at he ⊢
      obtain ⟨hpc, ⟨h1, hh⟩ | ⟨h1, e, rest, hh, -, hb, hle⟩⟩ := bdStep_stop he
      · rw [h1, w.found]
        trivial
      · rw [h1]
        rcases hdone with rfl | hdone
        · exact absurd rfl hb
        · have q1 := w.real hok hopp hb
          have q2 := w.found_bounds hok hpc (S0 := (· = s0)) (fun u v x h => hf u v x h)
            (fun u hu => by rw [hu]; exact hdone w) hh hb hle
          exact ⟨q1, q2⟩

/-- The returned path. -/
theorem bd_path_start {s0 t0 : V} (hok : BdOk g c [s0] [t0]) (hinj : Function.Injective c.vid) (hb : c.buildPath = true)
    (hop : ∀ u v x l, (u, x, l) ∈ c.nextB v → (v, x, l) ∈ c.nextF u) {validV : V → Prop} {validL : L → Prop}
    (hstF : WStorable g.mo g.lo c.nextF c.vid [s0] validV validL)
    (hstB : WStorable g.mo g.lo c.nextB c.vid [t0] validV validL)
    (limit : Option Int) (fuel : Nat) (w : W) (pathFuel : Nat) (o : PathObj V L)
    (hres : bdSearch g c [s0] [t0] limit fuel pathFuel = .found w o) :
    ∃ p : SPath V L, p.first = s0 ∧ IsWPath c.nextF p.first p.steps w ∧ p.verts.getLast? = some t0 ∧
      ∀ pathFuel', p.steps.length < pathFuel' →
        ∃ o', bdSearch g c [s0] [t0] limit fuel pathFuel' = .found w o' ∧ o'.Shows p := by
  unfold bdSearch at hres ⊢
  dsimp only at hres ⊢
  cases hcom : biCommon c.vid [s0] [t0] true true with
  | some v =>
    obtain ⟨h1, t, ht, he⟩ := biCommon_some hcom
    exact absurd he (hok.no v h1 t ht)
  | none =>
    obtain ⟨s, hr, he⟩ := run_reaches (bdStep g c) fuel none (bdInit g c s0 [s0] [t0] limit)
    obtain ⟨t, h, F, cur, wit⟩ := bd_inv (ns := False) hok s0 limit False.elim hr
    rw [hcom] at hres
    dsimp only at hres ⊢
    split at hres
    · rename_i hend
      rw [hend] at he
      dsimp only at he
      obtain ⟨hpc, ⟨h1, hh⟩ | ⟨h1, e, rest, hh, -, hbest, hle⟩⟩ := bdStep_stop he
      · rw [h1, wit.found] at hres
        simp at hres
      · rw [h1] at hres ⊢
        simp only [if_true, SearchResult.found.injEq] at hres
        obtain ⟨rfl, -⟩ := hres
        obtain ⟨p, p1, p2, p3, t, p4, p5⟩ := wit.path hok hinj hb hop hstF hstB hbest
        rw [List.mem_singleton.1 p4] at p5
        exact ⟨p, List.mem_singleton.1 p2, p3, p5, fun pathFuel' hf => ⟨_, rfl, p1 pathFuel' hf⟩⟩
    · simp at hres
    · simp at hres

/-- The search ends. -/
theorem bd_ends_start {s0 t0 : V} (hok : BdOk g c [s0] [t0]) (limit : Option Int)
    (hfF : WFinitelyReachable c.nextF (· ∈ [s0]) c.vid) (hfB : WFinitelyReachable c.nextB (· ∈ [t0]) c.vid) :
    ∃ N, ∀ fuel, N ≤ fuel → ∀ pathFuel, bdSearch g c [s0] [t0] limit fuel pathFuel ≠ .outOfFuel := by
  unfold bdSearch
  dsimp only
  cases hcom : biCommon c.vid [s0] [t0] true true with
  | some v => exact ⟨0, fun _ _ _ h => by simp at h⟩
  | none =>
    obtain ⟨idsF, hF⟩ := hfF
    obtain ⟨idsB, hB⟩ := hfB
    obtain ⟨N, hN⟩ := bd_terminates hok (ids := fun b => if b then idsB else idsF)
      (fun b w v hw => by cases b; exacts [hF w v hw, hB w v hw]) s0 limit
    refine ⟨N, fun fuel hf pathFuel => ?_⟩
    have := hN fuel hf none
    dsimp only
    split
    · split <;> simp
    · simp
    · rename_i h; exact absurd h this

end NoGraphs
