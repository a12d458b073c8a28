import Verif.Proofs.AStarGoal

/-! A*: stored paths. -/

set_option linter.unusedSectionVars false

namespace NoGraphs

open Spec

variable {V K L W M ML D : Type} [DecidableEq V] [DecidableEq K]
variable [AddCommMonoid W] [LinearOrder W] [IsOrderedCancelAddMonoid W]

section

variable (next : V → List (V × W × L)) (starts : List V) (vid : V → K) (Q : Prop)

/-- `AChain get lab dist EC v p y`: the path `p` with weight `y` to `v` is stored (`get`, `lab`), with local relations
between the distances (`dist`) and edge counts (`EC`) of its vertices. -/
inductive AChain (get : K → Option V) (lab : K → Option L) (dist : K → W) (EC : K → Nat) : V → SPath V L → W → Prop
  | start {v} : v ∈ starts → get (vid v) = some v → dist (vid v) = 0 → EC (vid v) = 0 →
      AChain get lab dist EC v ⟨v, []⟩ 0
  | step {u p y n x l} : AChain get lab dist EC u p y → (n, x, l) ∈ next u → get (vid n) = some u →
      lab (vid n) = some l → vid u ≠ vid n → dist (vid u) + x ≤ dist (vid n) →
      (Q → dist (vid u) + x = dist (vid n) → EC (vid n) = EC (vid u) + 1) →
      AChain get lab dist EC n (p.snoc n l) (y + x)

end

variable {next : V → List (V × W × L)} {starts : List V} {vid : V → K} {Q : Prop}
variable {get get' : K → Option V} {lab lab' : K → Option L} {dist dist' : K → W} {EC EC' : K → Nat}
variable {v : V} {p : SPath V L} {y : W}

theorem AChain.le (h : AChain next starts vid Q get lab dist EC v p y) : y ≤ dist (vid v) := by
  induction h with
  | start _ _ h _ => exact h.ge
  | @step u p y n x l _ _ _ _ _ hle _ ih => exact (add_le_add_left ih x).trans hle

theorem AChain.stored (h : AChain next starts vid Q get lab dist EC v p y) :
    p.first ∈ starts ∧ IsWPath next p.first p.steps y ∧ StoredPath get lab vid v p := by
  induction h with
  | start hs hg _ _ => exact ⟨hs, .nil, storedPath_nil hg⟩
  | step _ he hg hl hne _ _ ih =>
    exact ⟨ih.1, ih.2.1.snoc ih.2.2.last he, ih.2.2.extend hg hl (fun e => hne (by rw [e]))⟩

theorem AChain.walk (h : AChain next starts vid Q get lab dist EC v p y) : WalkW next (· ∈ starts) y v := by
  induction h with
  | start hs _ _ _ => exact .start hs
  | step _ he _ _ _ _ _ ih => exact .step ih ⟨_, he⟩

theorem AChain.verts_le (hn : NonNeg next) (h : AChain next starts vid Q get lab dist EC v p y) :
    ∀ u ∈ p.verts, dist (vid u) ≤ dist (vid v) := by
  induction h with
  | start _ _ _ _ =>
    intro u hu
    simp only [SPath.verts, List.map_nil, List.mem_singleton] at hu
    rw [hu]
  | @step u p y n x l _ he _ _ _ hle _ ih =>
    intro a ha
    rw [SPath.verts_snoc] at ha
    rcases List.mem_append.1 ha with ha | ha
    · exact (ih a ha).trans ((le_add_of_nonneg_right (hn _ _ _ ⟨l, he⟩)).trans hle)
    · rw [List.mem_singleton.1 ha]

/-- If the weight of the stored path is the distance, so it is for the path without the last edge. -/
theorem AChain.tight {u n : V} {x y : W} (hy : y ≤ dist (vid u)) (hle : dist (vid u) + x ≤ dist (vid n))
    (heq : y + x = dist (vid n)) : y = dist (vid u) ∧ dist (vid u) + x = dist (vid n) := by
  have h1 : dist (vid u) ≤ y := by
    rw [← heq] at hle
    exact le_of_add_le_add_right hle
  have h2 := le_antisymm hy h1
  exact ⟨h2, by rw [← h2]; exact heq⟩

theorem AChain.length (hQ : Q) (h : AChain next starts vid Q get lab dist EC v p y) (heq : y = dist (vid v)) :
    p.steps.length = EC (vid v) := by
  induction h with
  | start _ _ _ h => rw [h]; rfl
  | @step u p y n x l hch he _ _ _ hle hec ih =>
    obtain ⟨h1, h2⟩ := AChain.tight hch.le hle heq
    rw [hec hQ h2, ← ih h1]
    simp [SPath.snoc]

theorem AChain.verts_min (hinj : ∀ w u w' v, WalkW next (· ∈ starts) w u → WalkW next (· ∈ starts) w' v →
      vid u = vid v → u = v)
    (h : AChain next starts vid Q get lab dist EC v p y) (heq : y = dist (vid v))
    (hmin : IsIdDist next (· ∈ starts) vid (vid v) y) :
    ∀ u ∈ p.verts, IsIdDist next (· ∈ starts) vid (vid u) (dist (vid u)) := by
  induction h with
  | start _ _ _ _ =>
    intro u hu
    simp only [SPath.verts, List.map_nil, List.mem_singleton] at hu
    rw [hu, ← heq]; exact hmin
  | @step u p y n x l hch he _ _ _ hle hec ih =>
    intro a ha
    rw [SPath.verts_snoc] at ha
    rcases List.mem_append.1 ha with ha | ha
    · obtain ⟨h1, h2⟩ := AChain.tight hch.le hle heq
      refine ih h1 ⟨⟨u, rfl, hch.walk⟩, fun w' u' hw' hid => ?_⟩ a ha
      have := hinj _ _ _ _ hw' hch.walk hid
      subst this
      exact le_of_add_le_add_right (hmin.2 _ n (.step hw' ⟨l, he⟩) rfl)
    · rw [List.mem_singleton.1 ha, ← heq]; exact hmin

/-- The path is kept if an id changes that does not occur in it. -/
theorem AChain.frame {k0 : K} (hg : ∀ j, j ≠ k0 → get' j = get j) (hl : ∀ j, j ≠ k0 → lab' j = lab j)
    (hd : ∀ j, j ≠ k0 → dist' j = dist j) (he : ∀ j, j ≠ k0 → EC' j = EC j)
    (h : AChain next starts vid Q get lab dist EC v p y) (hp : ∀ u ∈ p.verts, vid u ≠ k0) :
    AChain next starts vid Q get' lab' dist' EC' v p y := by
  induction h with
  | @start v h1 h2 h3 h4 =>
    have hv : vid v ≠ k0 := hp v (by simp [SPath.verts])
    exact .start h1 (by rw [hg _ hv, h2]) (by rw [hd _ hv, h3]) (by rw [he _ hv, h4])
  | @step u p y n x l hch h1 h2 h3 h4 h5 h6 ih =>
    rw [SPath.verts_snoc] at hp
    have hn : vid n ≠ k0 := hp n (by simp)
    have hu : vid u ≠ k0 := hp u (List.mem_append_left _ (List.mem_of_getLast? hch.stored.2.2.last))
    exact .step (ih (fun a ha => hp a (List.mem_append_left _ ha))) h1 (by rw [hg _ hn, h2]) (by rw [hl _ hn, h3]) h4
      (by rw [hd _ hn, hd _ hu]; exact h5) (by rw [hd _ hn, hd _ hu, he _ hn, he _ hu]; exact h6)

/-- All vertices still have paths if one of them gets a better one. -/
theorem AChain.rechain {k0 : K} (hg : ∀ j, j ≠ k0 → get' j = get j) (hl : ∀ j, j ≠ k0 → lab' j = lab j)
    (hd : ∀ j, j ≠ k0 → dist' j = dist j) (he : ∀ j, j ≠ k0 → EC' j = EC j) (hlt : dist' k0 < dist k0)
    (hk0 : ∀ s ∈ starts, vid s ≠ k0)
    (hnew : ∀ w v, WalkW next (· ∈ starts) w v → vid v = k0 → ∃ p y, AChain next starts vid Q get' lab' dist' EC' v p y)
    (h : AChain next starts vid Q get lab dist EC v p y) :
    ∃ p y, AChain next starts vid Q get' lab' dist' EC' v p y := by
  induction h with
  | @start v h1 h2 h3 h4 =>
    have hv : vid v ≠ k0 := hk0 v h1
    exact ⟨_, _, .start h1 (by rw [hg _ hv, h2]) (by rw [hd _ hv, h3]) (by rw [he _ hv, h4])⟩
  | @step u p y n x l hch h1 h2 h3 h4 h5 h6 ih =>
    by_cases hn : vid n = k0
    · exact hnew _ n (.step hch.walk ⟨l, h1⟩) hn
    · obtain ⟨p', y', hch'⟩ := ih
      by_cases hu : vid u = k0
      · have hlt' : dist' (vid u) + x < dist' (vid n) := by
          rw [hd _ hn]
          refine lt_of_lt_of_le ?_ h5
          rw [hu]
          exact add_lt_add_left hlt x
        exact ⟨_, _, .step hch' h1 (by rw [hg _ hn, h2]) (by rw [hl _ hn, h3]) h4 hlt'.le
          (fun _ heq => absurd heq (ne_of_lt hlt'))⟩
      · exact ⟨_, _, .step hch' h1 (by rw [hg _ hn, h2]) (by rw [hl _ hn, h3]) h4
          (by rw [hd _ hn, hd _ hu]; exact h5) (by rw [hd _ hn, hd _ hu, he _ hn, he _ hu]; exact h6)⟩

/-! ## Invariant -/

variable {g : WGear V K L W M ML D} {c : AStarCfg V K L W}
variable {h : List (Ev (AStarReport V W M ML D))} {s : AStarState V L W M ML D}

variable (g c starts) in
/-- The stored path of a vertex. -/
def AStored (s : AStarState V L W M ML D) (EC : K → Nat) (v : V) (p : SPath V L) (y : W) : Prop :=
  AChain c.next starts c.vid (∀ v, c.heur v ≠ c.inf) (g.mo.get? s.preds) (g.lo.get? s.labels)
    (fun k => g.dd.get s.dist k) EC v p y

variable (g c starts) in
/-- Invariant about stored paths. -/
structure APathInv (h : List (Ev (AStarReport V W M ML D))) (s : AStarState V L W M ML D) (EC : K → Nat) : Prop where
  chains : ∀ w v, WalkW c.next (· ∈ starts) w v → AKnown g c starts s (c.vid v) → ∃ p y, AStored starts g c s EC v p y
  ents : (∀ v, c.heur v ≠ c.inf) → ∀ e ∈ s.heap, e.key = g.dd.get s.guesses (c.vid e.item.1) →
    e.item.2 = EC (c.vid e.item.1)
  pce : (∀ v, c.heur v ≠ c.inf) → match s.pc with
    | .loop => True
    | .expand v _ ec => ec = EC (c.vid v)
    | .edges v _ ec _ => ec = EC (c.vid v)
  rep : ∀ a r b, repsOf h = a ++ r :: b → IsIdDist c.next (· ∈ starts) c.vid (c.vid r.vertex) r.pathLength →
    ∃ p, AStored starts g c s EC r.vertex p r.pathLength ∧ g.dd.get s.dist (c.vid r.vertex) = r.pathLength ∧
      ((∀ v, c.heur v ≠ c.inf) → p.steps.length = r.depth) ∧
      ∀ r' ∈ r :: b, StoredPath (g.mo.get? r'.preds) (g.lo.get? r'.labels) c.vid r.vertex p

theorem APathInv.frame {EC : K → Nat} (pinv : APathInv starts g c h s EC) {h' : List (Ev (AStarReport V W M ML D))}
    {s' : AStarState V L W M ML D} (hd : s'.dist = s.dist) (hg : s'.guesses = s.guesses) (hpr : s'.preds = s.preds)
    (hla : s'.labels = s.labels) (hsub : s'.heap.Sublist s.heap) (hh : repsOf h' = repsOf h)
    (hpc : (∀ v, c.heur v ≠ c.inf) → match s'.pc with
      | .loop => True
      | .expand v _ ec => ec = EC (c.vid v)
      | .edges v _ ec _ => ec = EC (c.vid v)) : APathInv starts g c h' s' EC where
  chains := by unfold AStored AKnown; rw [hd, hpr, hla]; exact pinv.chains
  ents hf e he := by rw [hg]; exact pinv.ents hf e (hsub.subset he)
  pce := hpc
  rep := by unfold AStored; rw [hd, hpr, hla, hh]; exact pinv.rep

theorem a_path_step (ht : c.isTree = false) (hb : c.buildPaths = true) (hd : g.dd.Lawful c.inf) (hn : NonNeg c.next)
    {validV : V → Prop} {validL : L → Prop}
    (hst : WStorable g.mo g.lo c.next c.vid starts validV validL)
    (hinj : ∀ w u w' v, WalkW c.next (· ∈ starts) w u → WalkW c.next (· ∈ starts) w' v → c.vid u = c.vid v → u = v)
    (inv : AInv g c starts h s) {EC : K → Nat} (pinv : APathInv starts g c h s EC) :
    match aStep g c s with
    | .stop _ => True
    | .fail _ => True
    | .tau s' => ∃ EC, APathInv starts g c h s' EC
    | .emit r s' => ∃ EC, APathInv starts g c (h ++ [.rep r]) s' EC
    | .expand s' => ∃ EC, APathInv starts g c (h ++ [.exp]) s' EC := by
  apply aStep_cases (P := fun st => match st with
    | .stop _ => True
    | .fail _ => True
    | .tau s' => ∃ EC, APathInv starts g c h s' EC
    | .emit r s' => ∃ EC, APathInv starts g c (h ++ [.rep r]) s' EC
    | .expand s' => ∃ EC, APathInv starts g c (h ++ [.exp]) s' EC) ht s
  · intro _ _; trivial
  · intro e rest hpc hheap hst
    exact ⟨EC, pinv.frame rfl rfl rfl rfl (by rw [hheap]; exact List.sublist_cons_self _ _) rfl (by simp [hpc])⟩
  · intro e rest hpc hheap hst h0
    have he : e ∈ s.heap := by rw [hheap]; exact List.mem_cons_self
    have hkey : e.key = g.dd.get s.guesses (c.vid e.item.1) := le_antisymm (le_of_not_gt hst) (inv.guess_le he)
    exact ⟨EC, pinv.frame rfl rfl rfl rfl (by rw [hheap]; exact List.sublist_cons_self _ _) rfl
      (fun hf => pinv.ents hf e he hkey)⟩
  · intro e rest hpc hheap hst h0
    have he : e ∈ s.heap := by rw [hheap]; exact List.mem_cons_self
    have hkey : e.key = g.dd.get s.guesses (c.vid e.item.1) := le_antisymm (le_of_not_gt hst) (inv.guess_le he)
    have base : APathInv starts g c h
        { s with heap := rest, pc := .expand e.item.1 (g.dd.get s.dist (c.vid e.item.1)) e.item.2 } EC :=
      pinv.frame rfl rfl rfl rfl (by rw [hheap]; exact List.sublist_cons_self _ _) rfl
        (fun hf => pinv.ents hf e he hkey)
    refine ⟨EC, base.chains, base.ents, base.pce, fun a r b hr hmin => ?_⟩
    rw [repsOf_append, repsOf_rep] at hr
    rcases List.eq_nil_or_concat b with rfl | ⟨b', x, rfl⟩
    · have hr' := (List.append_inj' hr rfl).2
      simp only [List.cons.injEq] at hr'
      obtain ⟨rfl, -⟩ := hr'
      obtain ⟨w, hw⟩ := (inv.entR e he).1
      obtain ⟨p, y, hch⟩ := pinv.chains w _ hw (inv.known_ent he)
      have hy : y = g.dd.get s.dist (c.vid e.item.1) := le_antisymm hch.le (hmin.2 y _ hch.walk rfl)
      refine ⟨p, hy ▸ hch, rfl, fun hf => ?_, fun r' hr' => ?_⟩
      · rw [AChain.length hf hch hy]
        exact (pinv.ents hf e he hkey).symm
      · rw [List.mem_singleton.1 hr']
        exact hch.stored.2.2
    · rw [List.concat_eq_append, ← List.cons_append, ← List.append_assoc] at hr
      have := List.append_inj' hr rfl
      obtain ⟨q, h1, h2, h3, h4⟩ := pinv.rep a r b' this.1 hmin
      have hx := this.2
      simp only [List.cons.injEq] at hx
      replace hx := hx.1
      refine ⟨q, h1, h2, h3, fun r' hr' => ?_⟩
      rw [List.concat_eq_append, ← List.cons_append] at hr'
      rcases List.mem_append.1 hr' with hr' | hr'
      · exact h4 r' hr'
      · rw [List.mem_singleton.1 hr', ← hx]
        exact h1.stored.2.2
  · intro v w ec hpc
    have hp := pinv.pce
    rw [hpc] at hp
    exact ⟨EC, pinv.frame rfl rfl rfl rfl (List.Sublist.refl _) (by simp) hp⟩
  · intro v w ec hpc
    exact ⟨EC, pinv.frame rfl rfl rfl rfl (List.Sublist.refl _) rfl (fun _ => trivial)⟩
  · intro v w ec n x l es hpc hi; trivial
  · intro v w ec n x l es hpc hlt him
    have hp := pinv.pce
    rw [hpc] at hp
    exact ⟨EC, pinv.frame rfl rfl rfl rfl (List.Sublist.refl _) rfl hp⟩
  · intro v w ec n x l es d hpc hlt him h1 h2; trivial
  · intro v w ec n x l es d hpc hlt him hfin'
    obtain ⟨hgt, hns, hedge, hww, hdv, hne, hget⟩ := inv.improve hd hn hpc hlt him
    have hp := inv.pcok
    unfold APcOk at hp
    rw [hpc] at hp
    obtain ⟨⟨hkv, -, ⟨wv, hwv⟩, -⟩, hes, -⟩ := hp
    have hmem : (n, x, l) ∈ c.next v := hes _ List.mem_cons_self
    have hpe := pinv.pce
    rw [hpc] at hpe
    have hgm : ∀ j, g.mo.get? (g.mo.set s.preds (c.vid n) v) j =
        if j = c.vid n then some v else g.mo.get? s.preds j :=
      fun j => hst.mo.get_set _ _ _ _ (hst.verts _ _ hwv)
    have hgl : ∀ j, g.lo.get? (g.lo.set s.labels (c.vid n) l) j =
        if j = c.vid n then some l else g.lo.get? s.labels j :=
      fun j => hst.lo.get_set _ _ _ _ (hst.labs _ _ _ hwv hmem)
    have hguess : ∀ j, g.dd.get (g.dd.set s.guesses (c.vid n) (aGuess c.inf (x + w) (c.heur n))) j =
        if j = c.vid n then aGuess c.inf (x + w) (c.heur n) else g.dd.get s.guesses j := fun j => hd.get_set _ _ _ _
    have hgetn : g.dd.get d (c.vid n) = x + w := by rw [hget, if_pos rfl]
    let EC' : K → Nat := fun j => if j = c.vid n then ec + 1 else EC j
    have fr1 : ∀ j, j ≠ c.vid n → g.mo.get? (g.mo.set s.preds (c.vid n) v) j = g.mo.get? s.preds j :=
      fun j hj => by rw [hgm, if_neg hj]
    have fr2 : ∀ j, j ≠ c.vid n → g.lo.get? (g.lo.set s.labels (c.vid n) l) j = g.lo.get? s.labels j :=
      fun j hj => by rw [hgl, if_neg hj]
    have fr3 : ∀ j, j ≠ c.vid n → (fun k => g.dd.get d k) j = (fun k => g.dd.get s.dist k) j :=
      fun j hj => by simp only [hget, if_neg hj]
    have fr4 : ∀ j, j ≠ c.vid n → EC' j = EC j := fun j hj => if_neg hj
    obtain ⟨p, y, hch⟩ := pinv.chains wv v hwv hkv
    have hch' : AChain c.next starts c.vid (∀ v, c.heur v ≠ c.inf) (g.mo.get? (g.mo.set s.preds (c.vid n) v))
        (g.lo.get? (g.lo.set s.labels (c.vid n) l)) (fun k => g.dd.get d k) EC' v p y := by
      refine AChain.frame fr1 fr2 fr3 fr4 hch (fun u hu heq => ?_)
      have := hch.verts_le hn u hu
      simp only [heq, hdv] at this
      exact absurd (lt_of_le_of_lt hww hgt) (not_lt_of_ge this)
    have hnew := AChain.step hch' hmem (by rw [hgm, if_pos rfl]) (by rw [hgl, if_pos rfl]) hne.symm
      (by simp only [hget, if_true, if_neg hne.symm, hdv]; rw [add_comm])
      (fun hf _ => by simp only [EC', if_true, if_neg hne.symm]; rw [hpe hf])
    refine ⟨EC', ?_, ?_, ?_, ?_⟩
    · intro w' u hu hk
      simp only [AStored, hb, if_true]
      have hnew' : ∀ w v', WalkW c.next (· ∈ starts) w v' → c.vid v' = c.vid n → ∃ p y,
          AChain c.next starts c.vid (∀ v, c.heur v ≠ c.inf) (g.mo.get? (g.mo.set s.preds (c.vid n) v))
            (g.lo.get? (g.lo.set s.labels (c.vid n) l)) (fun k => g.dd.get d k) EC' v' p y := by
        intro w2 v' hw2 hid
        have := hinj _ _ _ _ hw2 (.step hwv hedge) hid
        rw [this]
        exact ⟨_, _, hnew⟩
      by_cases hj : c.vid u = c.vid n
      · exact hnew' w' u hu hj
      · have hk' : AKnown g c starts s (c.vid u) := by
          rcases hk with h1 | h1
          · exact .inl h1
          · simp only [hget, if_neg hj] at h1; exact .inr h1
        obtain ⟨p2, y2, hch2⟩ := pinv.chains w' u hu hk'
        exact AChain.rechain fr1 fr2 fr3 fr4 (by simp only [hgetn]; exact hgt)
          (fun t ht' heq => hns (heq ▸ List.mem_map_of_mem ht')) hnew' hch2
    · intro hf f hf' hk
      rcases mem_heapPush.1 hf' with rfl | hf'
      · simp only [EC', if_true]
      · by_cases hj : c.vid f.item.1 = c.vid n
        · exfalso
          simp only [hguess, if_pos hj] at hk
          have hle := inv.guess_le hf'
          rw [inv.guess _ (inv.known_ent hf'), hk, hj] at hle
          have h2 : c.heur f.item.1 = c.heur n := by
            obtain ⟨w', hw'⟩ := (inv.entR f hf').1
            rw [hinj _ _ _ _ hw' (.step hwv hedge) hj]
          rw [h2] at hle
          exact absurd (aGuess_strict (hf n) hgt) (not_lt_of_ge hle)
        · simp only [hguess, if_neg hj] at hk
          simp only [EC', if_neg hj]
          exact pinv.ents hf f hf' hk
    · intro hf
      simp only [EC', if_neg hne.symm]
      exact hpe hf
    · intro a r b hr hmin
      obtain ⟨q, h1, h2, h3, h4⟩ := pinv.rep a r b hr hmin
      simp only [AStored, hb, if_true]
      have hq : ∀ u ∈ q.verts, c.vid u ≠ c.vid n := by
        intro u hu heq
        have := h1.verts_min hinj h2.symm hmin u hu
        simp only [heq] at this
        have h5 := this.2 _ n (WalkW.step (S := (· ∈ starts)) hch.walk hedge) rfl
        have h6 : y ≤ w := by
          have := hch.le
          simp only [hdv] at this
          exact this
        have h7 := h5.trans (add_le_add_left h6 x)
        rw [add_comm w x] at h7
        exact absurd hgt (not_lt_of_ge h7)
      have hrn : c.vid r.vertex ≠ c.vid n := hq _ (List.mem_of_getLast? h1.stored.2.2.last)
      exact ⟨q, AChain.frame fr1 fr2 fr3 fr4 h1 hq, by simp only [hget, if_neg hrn]; exact h2, h3, h4⟩

theorem a_path (ht : c.isTree = false) (hb : c.buildPaths = true) (hd : g.dd.Lawful c.inf) (hn : NonNeg c.next)
    (hc : WCompat c.next c.vid) (hh : HeurCompat c.heur c.vid) {validV : V → Prop} {validL : L → Prop}
    (hst : WStorable g.mo g.lo c.next c.vid starts validV validL)
    (hinj : ∀ w u w' v, WalkW c.next (· ∈ starts) w u → WalkW c.next (· ∈ starts) w' v → c.vid u = c.vid v → u = v)
    (hr : Reaches (aStep g c) (aInit g c none none starts) h s) : ∃ EC, APathInv starts g c h s EC := by
  refine Reaches.invariant' (fun h s => ∃ EC, APathInv starts g c h s EC) ?_ ?_ ?_ ?_ hr
  · refine ⟨fun _ => 0, fun w v hw hk => ?_, fun _ e he _ => ?_, fun _ => trivial, fun a r b hr => by simp at hr⟩
    · have hm : c.vid v ∈ starts.map c.vid := by
        rcases hk with h | h
        · exact h
        · simp only [aInit, aDistances_none hd] at h
          by_contra hne
          rw [if_neg hne] at h
          exact lt_irrefl _ h
      obtain ⟨t, ht', hid⟩ := List.mem_map.1 hm
      have := hinj _ _ _ _ (.start ht') hw hid
      subst this
      refine ⟨_, _, .start ht' ?_ ?_ rfl⟩
      · simp only [aInit, hb, if_true]
        exact get_starts_of_mem g.mo hst.mo c.vid starts (fun v hv => hst.verts 0 v (.start hv)) hst.distinct _ ht'
      · exact (a_inv_init hd hh).start0 _ ht'
    · exact (aStartEntries_mem (mem_heapify.1 he)).2.1
  · rintro h s s' hr ⟨EC, o⟩ e
    have := a_path_step ht hb hd hn hst hinj (a_inv ht hd hn hc hh hr) o
    rw [e] at this; exact this
  · rintro h s r s' hr ⟨EC, o⟩ e
    have := a_path_step ht hb hd hn hst hinj (a_inv ht hd hn hc hh hr) o
    rw [e] at this; exact this
  · rintro h s s' hr ⟨EC, o⟩ e
    have := a_path_step ht hb hd hn hst hinj (a_inv ht hd hn hc hh hr) o
    rw [e] at this; exact this

end NoGraphs
