import Mathlib.Order.GameAdd
import Verif.Proofs.BiDijkstra

/-! Bidirectional shortest path search: results. -/

set_option linter.unusedSectionVars false

namespace NoGraphs

open Spec

variable {V K L W M ML D : Type} [DecidableEq V] [DecidableEq K]
variable [AddCommMonoid W] [LinearOrder W] [IsOrderedAddMonoid W]

/-! ## Joining paths -/

theorem Spec.IsWPath.append {next : V → List (V × W × L)} {s u : V} {a b : List (V × L)} {x y : W}
    (ha : IsWPath next s a x) (hu : (s :: a.map Prod.fst).getLast? = some u) (hb : IsWPath next u b y) :
    IsWPath next s (a ++ b) (x + y) := by
  induction ha with
  | nil =>
    simp only [List.map_nil, List.getLast?_singleton, Option.some.injEq] at hu
    subst hu; rw [zero_add]; exact hb
  | cons he _ ih =>
    rw [add_assoc]
    exact .cons he (ih (by simpa [List.getLast?_cons_cons] using hu))

theorem revSteps_isWPath {nextF nextB : V → List (V × W × L)}
    (hop : ∀ u v x l, (u, x, l) ∈ nextB v → (v, x, l) ∈ nextF u)
    {s v : V} {steps : List (V × L)} {x : W} (h : (s :: steps.map Prod.fst).getLast? = some v)
    (hp : IsWPath nextB s steps x) : IsWPath nextF v (revSteps s steps) x := by
  induction hp with
  | nil => exact .nil
  | @cons u t x l rest w he _ ih =>
    have h' : (t :: rest.map Prod.fst).getLast? = some v := by
      simpa [List.getLast?_cons_cons] using h
    simp only [revSteps]
    rw [add_comm]
    exact (ih h').snoc (revSteps_last t v rest h') (hop _ _ _ _ he)

/-- The edges without weights. -/
def dropWeights (next : V → List (V × W × L)) (v : V) : List (V × L) := (next v).map (fun e => (e.1, e.2.2))

theorem Spec.IsWPath.isPath {next : V → List (V × W × L)} {s : V} {steps : List (V × L)} {x : W}
    (h : IsWPath next s steps x) : IsPath (dropWeights next) s steps := by
  induction h with
  | nil => trivial
  | cons he _ ih => exact ⟨List.mem_map.2 ⟨_, he, rfl⟩, ih⟩

theorem Spec.IsWPath.walk {next : V → List (V × W × L)} {S : V → Prop} {s u : V} {steps : List (V × L)} {x w : W}
    (h : IsWPath next s steps x) (hs : WalkW next S w s) (hu : (s :: steps.map Prod.fst).getLast? = some u) :
    WalkW next S (w + x) u := by
  induction h generalizing w with
  | nil =>
    simp only [List.map_nil, List.getLast?_singleton, Option.some.injEq] at hu
    subst hu; rw [add_zero]; exact hs
  | cons he _ ih =>
    rw [← add_assoc]
    exact ih (.step hs ⟨_, he⟩) (by simpa [List.getLast?_cons_cons] using hu)

/-! ## Stored paths of a traversal -/

section

variable {c : WCfg V K L W} {starts : List V} {g : WGear V K L W M ML D}
  {h : List (Ev (SpReport V W M ML D))} {t : SpState V L W M ML D} {F : K → Option W} {cur : W}

/-- For each distance below infinity, a path with this weight is stored. -/
theorem SpAll.stored (ok : SpAll c starts (spB c starts) g h t F cur) (hk : c.keepDistances = true)
    (hb : c.buildPaths = true) {validV : V → Prop} {validL : L → Prop}
    (hst : WStorable g.mo g.lo c.next c.vid starts validV validL) {k : K} (hlt : g.dd.get t.dist k < c.inf) :
    ∃ v p, c.vid v = k ∧ p.first ∈ starts ∧ IsWPath c.next p.first p.steps (g.dd.get t.dist k) ∧
      StoredPath (g.mo.get? t.preds) (g.lo.get? t.labels) c.vid v p := by
  obtain ⟨inv, pinv, -⟩ := ok
  have pinv := pinv hb ⟨validV, validL, hst⟩
  have conv : ∀ {F v w ec p}, SpStored c starts (spB c starts) g F t.preds t.labels v w ec p →
      p.first ∈ starts ∧ IsWPath c.next p.first p.steps w ∧
        StoredPath (g.mo.get? t.preds) (g.lo.get? t.labels) c.vid v p := by
    rintro F v w ec p ⟨h1, h2, -, h4, -⟩
    rw [spB_start _ h1] at h2
    exact ⟨h1, h2.exact_zero, h4⟩
  cases hF : F k with
  | some w =>
    obtain ⟨h1, -, h3, h4, -⟩ := inv.donev _ _ hF
    rw [h4, if_pos hk]
    rcases inv.doneRep _ _ hF with hs | ⟨r, hr, he⟩
    · obtain ⟨v, hv, rfl⟩ := List.mem_map.1 hs
      rw [spB_start v hv] at h3
      have hw : w = 0 := le_antisymm h3 h1
      subst hw
      exact ⟨v, ⟨v, []⟩, rfl, hv, .nil, storedPath_nil (pinv.fin v hv (by rw [hF, spB_start v hv]))⟩
    · obtain ⟨a, b, hab⟩ := List.append_of_mem hr
      obtain ⟨p, hp, -⟩ := pinv.rep a r b hab
      have := (inv.reps r hr).1
      rw [he, hF] at this
      obtain ⟨q1, q2, q3⟩ := conv hp
      rw [← Option.some.inj this] at q2
      exact ⟨r.vertex, p, he, q1, q2, q3⟩
  | none =>
    obtain ⟨-, ⟨h2, h3⟩ | ⟨e, he, h1, h2⟩⟩ := inv.undone _ hF
    · rw [h2, spB, if_neg h3] at hlt; exact absurd hlt (lt_irrefl _)
    · obtain ⟨p, hp⟩ := pinv.popFresh_path inv he (by rw [h1, h2]; exact lt_irrefl _) (by rw [h1]; exact hF)
      obtain ⟨q1, q2, q3⟩ := conv hp
      rw [← h2]
      exact ⟨_, p, h1, q1, q2, q3⟩

end

variable {g : WGear V K L W M ML D} {c : BdCfg V K L W} {starts goals : List V}
variable {ns : Prop} {s : BdState V L W M ML D} {t : Bool → SpState V L W M ML D}
  {h : Bool → List (Ev (SpReport V W M ML D))} {F : Bool → K → Option W} {cur : Bool → W}

/-- How the search stops. -/
theorem bdStep_stop {s' : BdState V L W M ML D} (hs : bdStep g c s = .stop s') : s.pc = .loop ∧
    ((s' = s ∧ (s.get s.back).heap = []) ∨
    (s' = { s with found := true } ∧ ∃ e rest, (s.get s.back).heap = e :: rest ∧
      ¬ g.dd.get (s.get s.back).dist (c.vid e.item) < e.key ∧ c.inf ≠ s.best ∧ s.best ≤ e.key + s.others)) := by
  unfold bdStep at hs
  simp only at hs
  split at hs
  · rename_i hpc
    refine ⟨hpc, ?_⟩
    split at hs
    · rename_i hh
      simp only [Step.stop.injEq] at hs
      exact .inl ⟨hs.symm, hh⟩
    · rename_i e rest hh
      split at hs
      · simp at hs
      · rename_i hst
        split at hs
        · rename_i hgo
          simp only [Step.stop.injEq] at hs
          exact .inr ⟨hs.symm, e, rest, hh, hst, hgo.1, hgo.2⟩
        · split at hs <;> simp at hs
  · simp at hs
  · split at hs
    · simp at hs
    · split at hs
      · simp at hs
      · split at hs <;> simp at hs

/-- How the search fails. -/
theorem bdStep_fail {e : PyErr} (hs : bdStep g c s = .fail e) :
    (e = .runtimeError ∧ (s.get s.back).lim ≠ none) ∨
    (e = .overflowError ∧ ∃ v w n x l es, s.pc = .edges v w ((n, x, l) :: es) ∧ c.inf ≤ x + w) := by
  unfold bdStep at hs
  simp only at hs
  split at hs
  · split at hs
    · simp at hs
    · split at hs
      · simp at hs
      · split at hs
        · simp at hs
        · split at hs
          · rename_i hl
            simp only [Step.fail.injEq] at hs
            refine .inl ⟨hs.symm, fun h => ?_⟩
            rw [h] at hl
            simp [checkLimit] at hl
          · simp at hs
  · simp at hs
  · rename_i v w n x l es hpc
    split at hs
    · rename_i hinf
      simp only [Step.fail.injEq] at hs
      exact .inr ⟨hs.symm, v, w, n, x, l, es, hpc, hinf⟩
    · split at hs
      · simp at hs
      · split at hs <;> simp at hs

/-- Without a limit, there is none in each state. -/
theorem bd_no_limit {start : V} {hh : List (Ev Unit)}
    (hr : Reaches (bdStep g c) (bdInit g c start starts goals none) hh s) : s.fw.lim = none ∧ s.bw.lim = none := by
  have hset : ∀ (s : BdState V L W M ML D) x, (s.fw.lim = none ∧ s.bw.lim = none) → x.lim = none →
      (s.setCur x).fw.lim = none ∧ (s.setCur x).bw.lim = none := by
    intro s x h1 h2
    unfold BdState.setCur
    split <;> simp [h1, h2]
  have hget : ∀ (s : BdState V L W M ML D) b, (s.fw.lim = none ∧ s.bw.lim = none) → (s.get b).lim = none := by
    intro s b h1
    unfold BdState.get
    split <;> simp [h1]
  have key : ∀ s s' : BdState V L W M ML D, (s.fw.lim = none ∧ s.bw.lim = none) →
      (bdStep g c s).next? = some s' → (s'.fw.lim = none ∧ s'.bw.lim = none) := by
    intro s s' inv hs
    have hl := hget s s.back inv
    unfold bdStep at hs
    simp only at hs
    split at hs
    · split at hs
      · simp [Step.next?] at hs
      · split at hs
        · simp only [Step.next?, Option.some.injEq] at hs
          subst hs
          exact hset s _ inv hl
        · split at hs
          · simp [Step.next?] at hs
          · split at hs
            · simp [Step.next?] at hs
            · rename_i lim hlim
              rw [hl] at hlim
              simp only [checkLimit, Option.some.injEq] at hlim
              simp only [Step.next?, Option.some.injEq] at hs
              subst hs
              exact hset s _ inv hlim.symm
    · simp only [Step.next?, Option.some.injEq] at hs
      subst hs
      exact inv
    · split at hs
      · simp [Step.next?] at hs
      · split at hs
        · simp only [Step.next?, Option.some.injEq] at hs
          subst hs
          exact inv
        · split at hs
          · simp only [Step.next?, Option.some.injEq] at hs
            subst hs
            exact hset s _ inv hl
          · simp only [Step.next?, Option.some.injEq] at hs
            subst hs
            exact hset s _ inv hl
  refine Reaches.invariant (fun _ (s : BdState V L W M ML D) => s.fw.lim = none ∧ s.bw.lim = none) ⟨rfl, rfl⟩ ?_ ?_ ?_ hr
  · intro _ s s' inv hs; exact key s s' inv (by rw [hs]; rfl)
  · intro _ s r s' inv hs; exact key s s' inv (by rw [hs]; rfl)
  · intro _ s s' inv hs; exact key s s' inv (by rw [hs]; rfl)

/-- A connection, in the chosen direction. -/
theorem BdOk.connects (hok : BdOk g c starts goals) (hf : ∀ u v x, WEdge c.nextF u v x → WEdge c.nextB v u x)
    (b : Bool) {w : W}
    (hw : WConnects c.nextF c.vid starts goals w) :
    WConnects (c.next b) c.vid (biEnds starts goals b) (biEnds starts goals (!b)) w := by
  cases b
  · exact hw
  · exact hw.symm hf (hok.compat true)

/-- The best weight is the weight of a connection. -/
theorem BdWit.real (hok : BdOk g c starts goals) (hopp : ∀ u v x, WEdge c.nextB u v x → WEdge c.nextF v u x)
    (w : BdWit g c starts goals ns s t h F cur) (hb : c.inf ≠ s.best) :
    WConnects c.nextF c.vid starts goals s.best := by
  rcases w.val with h1 | ⟨h1, h2⟩
  · exact absurd h1.symm hb
  · have hnn : ∀ b, 0 ≤ g.dd.get (s.get b).dist (c.vid s.node) := by
      intro b; rw [(w.rel b).dist]; exact (w.all b).1.dist_nonneg rfl hok.inf _
    have hlt : ∀ b, g.dd.get (s.get b).dist (c.vid s.node) < c.inf := by
      intro b
      refine lt_of_le_of_lt ?_ h1
      rw [h2, bdSum_eq _ _ b]
      exact le_add_of_nonneg_right (hnn _)
    have hwk : ∀ b, ∃ u, c.vid u = c.vid s.node ∧
        WalkW (c.next b) (· ∈ biEnds starts goals b) (g.dd.get (s.get b).dist (c.vid s.node)) u := by
      intro b
      have := hlt b
      rw [(w.rel b).dist] at this ⊢
      exact (w.all b).1.dist_walk rfl this
    obtain ⟨u, hu, hwu⟩ := hwk false
    obtain ⟨u', hu', hwu'⟩ := hwk true
    obtain ⟨x, a, ha, hx, hwx⟩ := walkW_join (nextF := c.nextB) (nextB := c.nextF) hopp (hok.compat false)
      hwu' hwu (hu.trans hu'.symm)
    refine ⟨x, a, ha, hx, ?_⟩
    rw [h2, bdSum_eq _ _ true]
    exact hwx

/-- The lower bound for all connections: the best weight found so far, or the sum of bounds of the finished distances in
both directions. The edges of the forward graph from vertices with `S0` may be missing in the backward graph, if these
vertices are finished. -/
theorem BdWit.lower_gen (hok : BdOk g c starts goals) (w : BdWit g c starts goals ns s t h F cur) (hpc : s.pc = .loop)
    {S0 : V → Prop} (hf : ∀ u v x, ¬ S0 u → WEdge c.nextF u v x → WEdge c.nextB v u x)
    (hS0 : ∀ u, S0 u → (F false (c.vid u)).isSome) {a : Bool → W}
    (ha : ∀ b p v, WalkW (c.next b) (· ∈ biEnds starts goals b) p v → p < c.inf → p < a b → (F b (c.vid v)).isSome)
    {d : W} (hc : WConnects c.nextF c.vid starts goals d) (hlt : d < c.inf) :
    s.best ≤ d ∨ a false + a true ≤ d := by
  obtain ⟨v, g0, hg0, hv, hwalk⟩ := hc
  have inv := (w.all false).1
  have inv' := (w.all true).1
  have hn := hok.nonneg false
  have hn' := hok.nonneg true
  have key : ∀ p v, WalkW c.nextF (· ∈ starts) p v →
      ∀ q v', WalkW c.nextB (· ∈ goals) q v' → c.vid v' = c.vid v →
        g.dd.get (s.get true).dist (c.vid v) ≤ q → p + q < c.inf →
        s.best ≤ p + q ∨ a false + a true ≤ p + q := by
    intro p v hp
    induction hp with
    | @start v hs =>
      intro q v' hq he hd _
      left
      have := w.low (c.vid v)
      rw [bdSum_eq _ _ false, w.dist_end false v hs, zero_add] at this
      rw [zero_add]
      exact this.trans hd
    | @step p u v x hu hedge ih =>
      intro q v' hq he hd hlt
      have hq0 : 0 ≤ q := hq.nonneg hn'
      have hpv := WalkW.step hu hedge
      have hx0 : 0 ≤ x := hn _ _ _ hedge
      have hp0 : 0 ≤ p + x := hpv.nonneg hn
      have hplt : p + x < c.inf := lt_of_le_of_lt (le_add_of_nonneg_right hq0) hlt
      have hqlt : q < c.inf := lt_of_le_of_lt (le_add_of_nonneg_left hp0) hlt
      have fin : g.dd.get (s.get false).dist (c.vid v) ≤ p + x → s.best ≤ p + x + q := by
        intro hle
        have := w.low (c.vid v)
        rw [bdSum_eq _ _ false] at this
        exact this.trans (add_le_add hle hd)
      rcases lt_or_ge (p + x) (a false) with hk | hk
      · left
        have hF := ha false _ _ hpv hplt hk
        refine fin ?_
        rw [(w.rel false).dist]
        exact inv.dist_le rfl hn (hok.compat false) hpv hplt hF
      · rcases lt_or_ge q (a true) with hk' | hk'
        · by_cases hu0 : S0 u
          · left
            have hF := hS0 u hu0
            have hpl : p < c.inf := lt_of_le_of_lt (le_add_of_nonneg_right hx0) hplt
            have hr := inv.dist_relaxed rfl (hok.compat false) (w.pc_loop hpc false) hF hedge
            have hdu := inv.dist_le rfl hn (hok.compat false) hu hpl hF
            refine fin ?_
            rw [(w.rel false).dist]
            exact hr.trans (add_le_add_left hdu x)
          · have hF := ha true _ _ hq hqlt hk'
            obtain ⟨u', hu1, hu2⟩ := hok.compat true v v' u x he.symm (hf _ _ _ hu0 hedge)
            have hr := inv'.dist_relaxed rfl (hok.compat true) (w.pc_loop hpc true) hF hu1
            have hdv := inv'.dist_le rfl hn' (hok.compat true) hq hqlt hF
            have hbound : g.dd.get (s.get true).dist (c.vid u) ≤ q + x := by
              rw [(w.rel true).dist, ← hu2]
              exact hr.trans (add_le_add_left hdv x)
            have heq : p + (q + x) = p + x + q := by rw [add_comm q x, add_assoc]
            have := ih (q + x) u' (.step hq hu1) hu2 hbound (by rw [heq]; exact hlt)
            rw [heq] at this
            exact this
        · exact .inr (add_le_add hk hk')
  have := key d v hwalk 0 g0 (.start hg0) hv.symm
    (by have := w.dist_end true g0 hg0; rw [hv, this]) (by rw [add_zero]; exact hlt)
  rw [add_zero] at this
  exact this

/-- The lower bound for all connections: the best weight found so far, or a bound by the next distances of both
directions. -/
theorem BdWit.lower (hok : BdOk g c starts goals) (w : BdWit g c starts goals ns s t h F cur) (hpc : s.pc = .loop)
    {S0 : V → Prop} (hf : ∀ u v x, ¬ S0 u → WEdge c.nextF u v x → WEdge c.nextB v u x)
    (hS0 : ∀ u, S0 u → (F false (c.vid u)).isSome)
    {b : Bool} {e : HEntry W V} {rest : List (HEntry W V)} (hh : (s.get b).heap = e :: rest)
    {d : W} (hc : WConnects c.nextF c.vid starts goals d) (hlt : d < c.inf) :
    s.best ≤ d ∨ e.key + cur (!b) ≤ d := by
  obtain ⟨e', rest', h1, rfl, -⟩ := w.heap_cons hh
  have hcomp := (w.all b).1.complete (w.pc_loop hpc b) (hok.nonneg b) (hok.compat b) h1
  have hcomp' := (w.all (!b)).2.2
  have hb : ∀ p v, WalkW (c.next b) (· ∈ biEnds starts goals b) p v → p < c.inf → p < e'.key →
      (F b (c.vid v)).isSome := by
    intro p v hp hl hk
    obtain ⟨w2, v2, q1, q2, q3⟩ := aw_of_plain (c := c.side b) (hok.nonneg b) (hok.compat b) hp hl
    have := hcomp w2 v2 q1 (lt_of_le_of_lt q2 hk)
    rw [q3] at this; exact this
  have hb' : ∀ p v, WalkW (c.next (!b)) (· ∈ biEnds starts goals (!b)) p v → p < c.inf → p < cur (!b) →
      (F (!b) (c.vid v)).isSome := by
    intro p v hp hl hk
    obtain ⟨w2, v2, q1, q2, q3⟩ := aw_of_plain (c := c.side (!b)) (hok.nonneg (!b)) (hok.compat (!b)) hp hl
    have := hcomp' w2 v2 q1 (lt_of_le_of_lt q2 hk)
    rw [q3] at this; exact this
  cases b with
  | false =>
    exact w.lower_gen hok hpc hf hS0 (a := fun b => if b then cur true else e'.key)
      (fun b => by cases b; exacts [hb, hb']) hc hlt
  | true =>
    have := w.lower_gen hok hpc hf hS0 (a := fun b => if b then e'.key else cur false)
      (fun b => by cases b; exacts [hb', hb]) hc hlt
    rw [add_comm]; exact this

/-- The found weight: a real connection, at most twice as long as any, and minimal if no superseded heap entry has
been met. -/
theorem BdWit.found_bounds (hok : BdOk g c starts goals) (w : BdWit g c starts goals ns s t h F cur) (hpc : s.pc = .loop)
    {S0 : V → Prop} (hf : ∀ u v x, ¬ S0 u → WEdge c.nextF u v x → WEdge c.nextB v u x)
    (hS0 : ∀ u, S0 u → (F false (c.vid u)).isSome)
    {e : HEntry W V} {rest : List (HEntry W V)} (hh : (s.get s.back).heap = e :: rest)
    (hb : c.inf ≠ s.best) (hle : s.best ≤ e.key + s.others) :
    ∀ d, WConnects c.nextF c.vid starts goals d → s.best ≤ d + d ∧ (ns → s.best ≤ d) := by
  intro d hd
  have hd0 : 0 ≤ d := by
    obtain ⟨v, t, -, -, hw⟩ := hd
    exact hw.nonneg (hok.nonneg false)
  rcases lt_or_ge d c.inf with hlt | hge
  · rcases w.lower hok hpc hf hS0 hh hd hlt with h1 | h1
    · exact ⟨h1.trans (le_add_of_nonneg_right hd0), fun _ => h1⟩
    · constructor
      · obtain ⟨b, hb'⟩ := w.oth
        by_cases hbb : b = s.back
        · rw [hb', hbb] at hle
          obtain ⟨e', rest', h2, rfl, -⟩ := w.heap_cons hh
          have hlow := (w.all s.back).1.lower e' (by rw [h2]; exact List.mem_cons_self)
          have hed : e'.key ≤ d := (le_add_of_nonneg_right (w.all (!s.back)).1.cur0).trans h1
          exact hle.trans (add_le_add hed (hlow.trans hed))
        · have : b = !s.back := by cases b <;> cases hs : s.back <;> simp_all
          rw [hb', this] at hle
          exact (hle.trans h1).trans (le_add_of_nonneg_right hd0)
      · intro hn
        have := w.othNs hn
        rw [hpc] at this
        simp only at this
        rw [this] at hle
        exact hle.trans h1
  · have := w.best_le.trans hge
    exact ⟨this.trans (le_add_of_nonneg_right hd0), fun _ => this⟩

/-- Nothing found: there is no connection. -/
theorem BdWit.notFound (hok : BdOk g c starts goals) (w : BdWit g c starts goals ns s t h F cur) (hpc : s.pc = .loop)
    (hf : s.back = true → ∀ u v x, WEdge c.nextF u v x → WEdge c.nextB v u x)
    (hh : (s.get s.back).heap = []) : ∀ d, ¬ WConnects c.nextF c.vid starts goals d := by
  intro d hd
  have hd' : WConnects (c.next s.back) c.vid (biEnds starts goals s.back) (biEnds starts goals (!s.back)) d := by
    cases hb : s.back with
    | false => exact hd
    | true => exact hok.connects (hf hb) true hd
  obtain ⟨v, g0, hg0, hv, hwalk⟩ := hd'
  have hh' : (t s.back).heap = [] := by
    have := (w.rel s.back).heap
    rw [hh] at this
    simpa using this.symm
  obtain ⟨w', h1, -⟩ := (w.all s.back).1.all_done (hok.nonneg s.back) (hok.compat s.back) (w.pc_loop hpc _) hh' hwalk
  have := w.goal s.back g0 hg0
  rw [← hv] at this
  have h2 : F s.back (c.vid v) = some w' := h1
  rw [this] at h2
  simp at h2

/-- Overflow: in one of the directions, a distance and the weight of a further edge reach infinity. -/
theorem BdWit.overflow (hok : BdOk g c starts goals) (w : BdWit g c starts goals ns s t h F cur)
    {v n : V} {x y : W} {l : L} {es : List (V × W × L)} (hpc : s.pc = .edges v x ((n, y, l) :: es))
    (hinf : c.inf ≤ y + x) :
    ∃ b, ∃ u u' z d, IsDist (c.next b) (· ∈ biEnds starts goals b) c.vid u d ∧ WEdge (c.next b) u u' z ∧ c.inf ≤ d + z := by
  obtain ⟨ec, htpc⟩ := w.pc_edges hpc
  have inv := (w.all s.back).1
  have hp := inv.pcok
  rw [htpc] at hp
  obtain ⟨u0, e0, hd0⟩ := inv.isDist (hok.nonneg _) (hok.compat _) hp.1
  exact ⟨s.back, v, n, y, x, ⟨aw_plain hp.2.2.1, fun w' v' hw' e => hd0.2 w' v' hw' (e.trans e0.symm)⟩,
    ⟨l, hp.2.2.2 _ List.mem_cons_self⟩, by rw [add_comm]; exact hinf⟩

/-- Both directions store a path for the connecting vertex. -/
theorem BdWit.stored (hok : BdOk g c starts goals) (hinj : Function.Injective c.vid) (hb : c.buildPath = true)
    {validV : V → Prop} {validL : L → Prop}
    (hstF : WStorable g.mo g.lo c.nextF c.vid starts validV validL)
    (hstB : WStorable g.mo g.lo c.nextB c.vid goals validV validL)
    (w : BdWit g c starts goals ns s t h F cur) (hbest : c.inf ≠ s.best) (b : Bool) :
    ∃ p : SPath V L, p.first ∈ biEnds starts goals b ∧
      IsWPath (c.next b) p.first p.steps (g.dd.get (s.get b).dist (c.vid s.node)) ∧
      StoredPath (g.mo.get? (s.get b).preds) (g.lo.get? (s.get b).labels) c.vid s.node p := by
  rcases w.val with h1 | ⟨h1, h2⟩
  · exact absurd h1.symm hbest
  have hlt : ∀ b, g.dd.get (s.get b).dist (c.vid s.node) < c.inf := by
    intro b
    refine lt_of_le_of_lt ?_ h1
    rw [h2, bdSum_eq _ _ b]
    refine le_add_of_nonneg_right ?_
    rw [(w.rel (!b)).dist]; exact (w.all (!b)).1.dist_nonneg rfl hok.inf _
  have hstb : ∀ b, WStorable g.mo g.lo (c.side b).next (c.side b).vid (biEnds starts goals b) validV validL := by
    intro b; cases b
    · exact hstF
    · exact hstB
  have hl := hlt b
  have hr := w.rel b
  rw [hr.dist] at hl ⊢
  obtain ⟨v, p, q1, q2, q3, q4⟩ := (w.all b).stored rfl hb (hstb b) hl
  have : v = s.node := hinj q1
  subst this
  rw [hr.preds, hr.labels]
  exact ⟨p, q2, q3, q4⟩

/-- The returned path. -/
theorem BdWit.path (hok : BdOk g c starts goals) (hinj : Function.Injective c.vid) (hb : c.buildPath = true)
    (hop : ∀ u v x l, (u, x, l) ∈ c.nextB v → (v, x, l) ∈ c.nextF u) {validV : V → Prop} {validL : L → Prop}
    (hstF : WStorable g.mo g.lo c.nextF c.vid starts validV validL)
    (hstB : WStorable g.mo g.lo c.nextB c.vid goals validV validL)
    (w : BdWit g c starts goals ns s t h F cur) (hbest : c.inf ≠ s.best) :
    ∃ p : SPath V L, (∀ pathFuel, p.steps.length < pathFuel → (bdPath g c s pathFuel).Shows p) ∧ p.first ∈ starts ∧
      IsWPath c.nextF p.first p.steps s.best ∧ ∃ t ∈ goals, p.verts.getLast? = some t := by
  rcases w.val with h1 | ⟨h1, h2⟩
  · exact absurd h1.symm hbest
  have hpath := w.stored hok hinj hb hstF hstB hbest
  obtain ⟨f, f1, f2, f3⟩ := hpath false
  obtain ⟨b, b1, b2, b3⟩ := hpath true
  have hfl : (f.first :: f.steps.map Prod.fst).getLast? = some s.node := f3.last
  have hbl : (b.first :: b.steps.map Prod.fst).getLast? = some s.node := b3.last
  have hop' : ∀ u v l, (u, l) ∈ dropWeights c.nextB v → (v, l) ∈ dropWeights c.nextF u := by
    intro u v l hm
    obtain ⟨⟨u', x, l'⟩, he, heq⟩ := List.mem_map.1 hm
    simp only [Prod.mk.injEq] at heq
    obtain ⟨rfl, rfl⟩ := heq
    exact List.mem_map.2 ⟨_, hop u' v x l' he, rfl⟩
  have key : ∀ fuel, f.steps.length < fuel → b.steps.length < fuel → _ := fun fuel hff hfb =>
    fromBidirectional_shows hstF.mo hstF.lo hop' (v := s.node)
      (hf := ⟨f1, f2.isPath, f3⟩) (hb := ⟨b1, b2.isPath, b3⟩) fuel hff hfb
  refine ⟨⟨f.first, f.steps ++ revSteps b.first b.steps⟩, fun pathFuel hpf => ?_, f1, ?_, ?_⟩
  · simp only [List.length_append, revSteps_length] at hpf
    obtain ⟨p, hp1, -, -, -, -, rfl⟩ := key pathFuel (by omega) (by omega)
    unfold bdPath; rw [if_pos hb]; exact hp1
  · rw [h2, bdSum_eq _ _ false]
    exact f2.append hfl (revSteps_isWPath (fun u v x l h => hop u v x l h) hbl b2)
  · obtain ⟨p, -, -, -, hp4, -, rfl⟩ := key (max f.steps.length b.steps.length + 1) (by omega) (by omega)
    exact hp4

/-! ## Termination -/

theorem bd_terminates (hok : BdOk g c starts goals) {ids : Bool → List K}
    (hids : ∀ b w v, WalkW (c.next b) (· ∈ biEnds starts goals b) w v → c.vid v ∈ ids b) (start : V) (limit : Option Int) :
    ∃ N, ∀ fuel, N ≤ fuel → ∀ lim,
      (runMachine (bdStep g c) fuel lim (bdInit g c start starts goals limit : BdState V L W M ML D)).ending ≠ .outOfFuel := by
  refine run_terminates_ghost _ (Prod.GameAdd lex4 lex4) (WellFounded.prod_gameAdd lex4_wf lex4_wf)
    (fun a s => ∃ t h F cur, BdWit g c starts goals False s t h F cur ∧
      a = (spMeasure (ids false) (F false) (t false), spMeasure (ids true) (F true) (t true))) ?_ _ _
      ⟨_, _, _, _, bd_init hok False start limit, rfl⟩
  rintro a s s' ⟨t, h, F, cur, w, rfl⟩ hs
  obtain ⟨t', h', F', cur', h1, ⟨h2, h3⟩, h4⟩ := bd_step hok w False.elim hs
  refine ⟨_, ⟨t', h', F', cur', h1, rfl⟩, ?_⟩
  have h5 := h4 (ids s.back) (fun w v hw => hids s.back w v (aw_plain hw))
  cases hb : s.back with
  | false =>
    rw [hb] at h2 h3 h5
    simp only [Bool.not_false] at h2 h3
    rw [h2, h3]
    exact .fst h5
  | true =>
    rw [hb] at h2 h3 h5
    simp only [Bool.not_true] at h2 h3
    rw [h2, h3]
    exact .snd h5

/-! ## Equal weights -/

variable (g c) in
/-- Invariant of a direction if all weights are equal to `x`. -/
structure UniSide (x : W) (y : BdSide V W M ML D) : Prop where
  sorted : y.heap.Pairwise HEntry.le
  ent : ∀ e ∈ y.heap, g.dd.get y.dist (c.vid e.item) = e.key
  lt : ∀ e ∈ y.heap, e.key < c.inf
  near : ∀ k, g.dd.get y.dist k = c.inf ∨ ∀ e ∈ y.heap, g.dd.get y.dist k ≤ e.key + x

variable (g c) in
/-- Invariant of the search if all weights are equal to `x`. -/
def UniInv (x : W) (s : BdState V L W M ML D) : Prop :=
  (∀ b, UniSide g c x (s.get b)) ∧
  match s.pc with
  | .loop => True
  | .edges v w es => (∀ e ∈ es, e ∈ c.next s.back v) ∧ (∀ e ∈ (s.get s.back).heap, w ≤ e.key) ∧
    ∀ k, g.dd.get (s.get s.back).dist k = c.inf ∨ g.dd.get (s.get s.back).dist k ≤ w + x

theorem bdStartEntries_mem {d : D} {vs : List V} {no : Int} {e : HEntry W V}
    (h : e ∈ bdStartEntries g c d vs no) : e.item ∈ vs ∧ e.key = g.dd.get d (c.vid e.item) := by
  induction vs generalizing no with
  | nil => simp [bdStartEntries] at h
  | cons v vs ih =>
    simp only [bdStartEntries, List.mem_cons] at h
    rcases h with rfl | h
    · exact ⟨List.mem_cons_self, rfl⟩
    · exact ⟨List.mem_cons_of_mem _ (ih h).1, (ih h).2⟩

theorem uni_init (hd : g.dd.Lawful c.inf) (hinf : 0 < c.inf) {x : W} (hx : 0 ≤ x) (start : V) (limit : Option Int) :
    UniInv g c x (bdInit g c start starts goals limit : BdState V L W M ML D) := by
  have key : ∀ vs, UniSide g c x (bdInitSide g c vs limit : BdSide V W M ML D) := by
    intro vs
    have hdist : ∀ k, g.dd.get (bdDistances g c vs) k = if k ∈ vs.map c.vid then 0 else c.inf := by
      intro k
      unfold bdDistances
      rw [hd.get_setAll_const, hd.get_empty]
    have hm : ∀ e ∈ (bdInitSide g c vs limit : BdSide V W M ML D).heap,
        e.item ∈ vs ∧ e.key = g.dd.get (bdDistances g c vs) (c.vid e.item) := by
      intro e he
      simp only [bdInitSide, mem_heapify] at he
      exact bdStartEntries_mem he
    have h0 : ∀ e ∈ (bdInitSide g c vs limit : BdSide V W M ML D).heap, e.key = 0 := by
      intro e he
      rw [(hm e he).2, hdist, if_pos (List.mem_map.2 ⟨_, (hm e he).1, rfl⟩)]
    refine ⟨heapify_sorted _, fun e he => (hm e he).2.symm, fun e he => by rw [h0 e he]; exact hinf, fun k => ?_⟩
    by_cases hk : k ∈ vs.map c.vid
    · right
      intro e he
      show g.dd.get (bdDistances g c vs) k ≤ _
      rw [hdist, if_pos hk, h0 e he, zero_add]; exact hx
    · left
      show g.dd.get (bdDistances g c vs) k = _
      rw [hdist, if_neg hk]
  refine ⟨fun b => ?_, trivial⟩
  cases b
  · exact key _
  · exact key _

theorem uni_step (hd : g.dd.Lawful c.inf) {x : W} (hx : 0 ≤ x) (hu : ∀ b u v y, WEdge (c.next b) u v y → y = x)
    (inv : UniInv g c x s) {s' : BdState V L W M ML D} (hs : (bdStep g c s).next? = some s') : UniInv g c x s' := by
  obtain ⟨hside, hp⟩ := inv
  have hrest : ∀ {e rest} lim, (s.get s.back).heap = e :: rest →
      UniSide g c x { s.get s.back with heap := rest, lim := lim } := by
    intro e rest lim hh
    have i := hside s.back
    have hso := i.sorted
    rw [hh] at hso
    have hsub : ∀ f ∈ rest, f ∈ (s.get s.back).heap := fun f hf => by rw [hh]; exact List.mem_cons_of_mem _ hf
    exact ⟨(List.pairwise_cons.1 hso).2, fun f hf => i.ent f (hsub f hf), fun f hf => i.lt f (hsub f hf),
      fun k => (i.near k).imp id (fun h f hf => h f (hsub f hf))⟩
  have hset : ∀ y, UniSide g c x y → ∀ b, UniSide g c x ((s.setCur y).get b) := by
    intro y hy
    refine bool_cases s.back ?_ ?_
    · rw [BdState.get_setCur_same]; exact hy
    · rw [BdState.get_setCur_other]; exact hside _
  unfold bdStep at hs
  simp only at hs
  split at hs
  · rename_i hpc
    split at hs
    · simp [Step.next?] at hs
    · rename_i e rest hh
      split at hs
      · simp only [Step.next?, Option.some.injEq] at hs
        subst hs
        refine ⟨hset _ (hrest (s.get s.back).lim hh), ?_⟩
        simp only [(s.setCur_fields _).2.2.2.2, hpc]
      · split at hs
        · simp [Step.next?] at hs
        · split at hs
          · simp [Step.next?] at hs
          · rename_i lim _
            simp only [Step.next?, Option.some.injEq] at hs
            subst hs
            refine ⟨hset _ (hrest lim hh), ?_⟩
            have i := hside s.back
            have hso := i.sorted
            rw [hh] at hso
            have hg : ∀ z : BdSide V W M ML D, ({ s.setCur z with
                others := e.key, pc := .edges e.item e.key (c.next s.back e.item) } : BdState V L W M ML D).get
                (s.setCur z).back = z := by
              intro z
              rw [BdState.setCur_back]
              exact BdState.get_setCur_same s z
            simp only [hg]
            refine ⟨fun f hf => by rw [BdState.setCur_back]; exact hf, fun f hf => HEntry.le.key_le ((List.pairwise_cons.1 hso).1 f hf), fun k => ?_⟩
            exact (i.near k).imp id (fun h => h e (by rw [hh]; exact List.mem_cons_self))
  · simp only [Step.next?, Option.some.injEq] at hs
    subst hs
    exact ⟨hside, trivial⟩
  · rename_i v w n y l es hpc
    rw [hpc] at hp
    obtain ⟨p1, p2, p3⟩ := hp
    split at hs
    · simp [Step.next?] at hs
    · rename_i hinf
      have hlt : y + w < c.inf := lt_of_not_ge hinf
      have hyx : y = x := hu s.back v n y ⟨l, p1 _ List.mem_cons_self⟩
      subst hyx
      split at hs
      · simp only [Step.next?, Option.some.injEq] at hs
        subst hs
        exact ⟨hside, fun e he => p1 e (List.mem_cons_of_mem _ he), p2, p3⟩
      · rename_i d himp
        have hnew := hd.improve_some _ _ _ _ hlt himp
        have hgt : y + w < g.dd.get (s.get s.back).dist (c.vid n) := by
          refine lt_of_not_ge (fun hle => ?_)
          rw [(hd.improve_none _ _ _ hlt).2 hle] at himp
          simp at himp
        have hold : g.dd.get (s.get s.back).dist (c.vid n) = c.inf := by
          rcases p3 (c.vid n) with h1 | h1
          · exact h1
          · exact absurd hgt (not_lt_of_ge (by rw [add_comm]; exact h1))
        have i := hside s.back
        have hwle : w ≤ y + w := le_add_of_nonneg_left hx
        have hold_ne : ∀ e ∈ (s.get s.back).heap, c.vid e.item ≠ c.vid n := by
          intro e he heq
          have h1 := i.ent e he
          rw [heq, hold] at h1
          exact absurd (i.lt e he) (by rw [← h1]; exact lt_irrefl _)
        obtain ⟨me', hme⟩ : ∃ me' : BdSide V W M ML D, me' = { s.get s.back with
            heap := heapPush (s.get s.back).heap ⟨y + w, (s.get s.back).no, n⟩
            no := (s.get s.back).no - 1
            dist := d
            preds := if c.buildPath then g.mo.set (s.get s.back).preds (c.vid n) v else (s.get s.back).preds
            labels := if c.buildPath then g.lo.set (s.get s.back).labels (c.vid n) l else (s.get s.back).labels } := ⟨_, rfl⟩
        have hwk : ∀ e ∈ me'.heap, w ≤ e.key := by
          intro e he
          rw [hme] at he
          rcases mem_heapPush.1 he with rfl | he
          · exact hwle
          · exact p2 e he
        have hnear : ∀ k, g.dd.get d k = c.inf ∨ g.dd.get d k ≤ w + y := by
          intro k
          rw [hnew]
          split
          · right; rw [add_comm]
          · exact p3 k
        have hme' : UniSide g c y me' := by
          constructor
          · rw [hme]; exact heapPush_sorted _ i.sorted
          · intro e he
            rw [hme] at he ⊢
            simp only [hnew]
            rcases mem_heapPush.1 he with rfl | he
            · rw [if_pos rfl]
            · rw [if_neg (hold_ne e he)]; exact i.ent e he
          · intro e he
            rw [hme] at he
            rcases mem_heapPush.1 he with rfl | he
            · exact hlt
            · exact i.lt e he
          · intro k
            refine Or.imp (by rw [hme]; exact id) (fun h e he => ?_) (hnear k)
            rw [hme]
            exact h.trans (add_le_add_left (hwk e he) y)
        have hg : ∀ b n', ({ s.setCur me' with pc := .edges v w es, best := b, node := n' } : BdState V L W M ML D).get
            (s.setCur me').back = me' := by
          intro b n'
          rw [BdState.setCur_back]
          exact BdState.get_setCur_same s me'
        have hall : ∀ b n', UniInv g c y ({ s.setCur me' with pc := .edges v w es, best := b, node := n' } : BdState V L W M ML D) := by
          intro b n'
          refine ⟨hset _ hme', ?_⟩
          simp only [hg]
          refine ⟨fun e he => ?_, hwk, fun k => by rw [hme]; exact hnear k⟩
          rw [BdState.setCur_back]; exact p1 e (List.mem_cons_of_mem _ he)
        rw [← hme] at hs
        split at hs
        · simp only [Step.next?, Option.some.injEq] at hs
          subst hs
          exact hall _ _
        · simp only [Step.next?, Option.some.injEq] at hs
          subst hs
          exact hall _ _

/-- With equal weights, no heap entry is superseded. -/
theorem uni_no_stale (hd : g.dd.Lawful c.inf) (hinf : 0 < c.inf) {x : W} (hx : 0 ≤ x)
    (hu : ∀ b u v y, WEdge (c.next b) u v y → y = x) (start : V) (limit : Option Int) {hh : List (Ev Unit)}
    (hr : Reaches (bdStep g c) (bdInit g c start starts goals limit) hh s) : ¬ BdStale g c s := by
  have inv : UniInv g c x s := by
    refine Reaches.invariant (fun _ s => UniInv g c x s) (uni_init hd hinf hx start limit) ?_ ?_ ?_ hr
    · intro _ s s' inv hs; exact uni_step hd hx hu inv (by rw [hs]; rfl)
    · intro _ s r s' inv hs; exact uni_step hd hx hu inv (by rw [hs]; rfl)
    · intro _ s s' inv hs; exact uni_step hd hx hu inv (by rw [hs]; rfl)
  rintro ⟨-, e, rest, h1, h2⟩
  rw [(inv.1 s.back).ent e (by rw [h1]; exact List.mem_cons_self)] at h2
  exact lt_irrefl _ h2

end NoGraphs
