import Verif.Proofs.ShortestPaths
import Verif.Proofs.Walks
import Verif.Proofs.Shows

/-! Shortest paths traversal: stored paths, and the combined invariant. -/

set_option linter.unusedSectionVars false

namespace NoGraphs

open Spec

variable {V K L W M ML D : Type} [DecidableEq V] [DecidableEq K]
variable [Add W] [Zero W] [LinearOrder W] [WeightLaws W]

attribute [local instance] wAddCommMagma wAddZeroClass wAddRightMono wAddLeftMono

theorem Spec.KWalk.walk {next : V → List (V × W × L)} {S : V → Prop} {vid : V → K} {B : K → W} {w : W} {v : V}
    (h : KWalk next S vid B w v) : ∃ w', WalkW next S w' v := by
  induction h with
  | start hs => exact ⟨0, .start hs⟩
  | step _ he _ ih => obtain ⟨w', ih⟩ := ih; exact ⟨_, .step ih he⟩

/-- The assumptions for stored paths: the gear can store the vertices and labels of the reachable
graph, and start vertices with the same id are equal. -/
structure WStorable (mo : MapOps M K V) (lo : MapOps ML K L) (next : V → List (V × W × L)) (vid : V → K)
    (starts : List V) (validV : V → Prop) (validL : L → Prop) : Prop where
  mo : mo.Lawful validV
  lo : lo.Lawful validL
  verts : ∀ w v, WalkW next (· ∈ starts) w v → validV v
  labs : ∀ w u e, WalkW next (· ∈ starts) w u → e ∈ next u → validL e.2.2
  distinct : ∀ s ∈ starts, ∀ t ∈ starts, vid s = vid t → s = t

section

variable (c : WCfg V K L W) (starts : List V) (B : K → W) (g : WGear V K L W M ML D)

/-- A path to `v` with distance `w` and `ec` edges through finished vertices is stored. -/
def SpStored (F : K → Option W) (pr : M) (la : ML) (v : V) (w : W) (ec : Nat) (p : SPath V L) : Prop :=
  p.first ∈ starts ∧ IsWPathFrom c.next (B (c.vid p.first)) p.first p.steps w ∧
  p.steps.length = ec ∧ StoredPath (g.mo.get? pr) (g.lo.get? la) c.vid v p ∧
  ∀ u ∈ p.verts, (F (c.vid u)).isSome

/-- Invariant about stored paths. -/
structure SpPathInv (h : List (Ev (SpReport V W M ML D))) (s : SpState V L W M ML D) (F : K → Option W) :
    Prop where
  pcP : match s.pc with
    | .loop => True
    | .expand u w ec => ∃ p, SpStored c starts B g F s.preds s.labels u w ec p
    | .edges u w ec _ => ∃ p, SpStored c starts B g F s.preds s.labels u w ec p
  ent : ∀ e ∈ s.heap, F (c.vid e.item.1) = none → e.key = g.dd.get s.dist (c.vid e.item.1) →
    (e.item.2 = 0 → g.mo.get? s.preds (c.vid e.item.1) = some e.item.1) ∧
    (0 < e.item.2 → ∃ u p x l wu, g.mo.get? s.preds (c.vid e.item.1) = some u ∧
      g.lo.get? s.labels (c.vid e.item.1) = some l ∧ (e.item.1, x, l) ∈ c.next u ∧
      SpStored c starts B g F s.preds s.labels u wu (e.item.2 - 1) p ∧ wu + x = e.key)
  fin : ∀ v ∈ starts, F (c.vid v) = some (B (c.vid v)) → g.mo.get? s.preds (c.vid v) = some v
  rep : ∀ a r b, repsOf h = a ++ r :: b → ∃ p,
    SpStored c starts B g F s.preds s.labels r.vertex r.distance r.depth p ∧
    ∀ r' ∈ r :: b, StoredPath (g.mo.get? r'.preds) (g.lo.get? r'.labels) c.vid r.vertex p

variable {c starts B g} {h : List (Ev (SpReport V W M ML D))} {s : SpState V L W M ML D} {F : K → Option W}
  {cur : W}

theorem SpStored.fin {pr : M} {la : ML} {v : V} {w : W} {ec : Nat} {p : SPath V L}
    (hp : SpStored c starts B g F pr la v w ec p) (k : K) (y : W) :
    SpStored c starts B g (spFin F k y) pr la v w ec p := by
  refine ⟨hp.1, hp.2.1, hp.2.2.1, hp.2.2.2.1, fun u hu => ?_⟩
  have := hp.2.2.2.2 u hu
  unfold spFin
  split <;> simp_all

theorem SpStored.frame {pr pr' : M} {la la' : ML} {v : V} {w : W} {ec : Nat} {p : SPath V L}
    (hp : SpStored c starts B g F pr la v w ec p) {k : K} (hk : F k = none)
    (hg : ∀ j, j ≠ k → g.mo.get? pr' j = g.mo.get? pr j)
    (hl : ∀ j, j ≠ k → g.lo.get? la' j = g.lo.get? la j) :
    SpStored c starts B g F pr' la' v w ec p := by
  have hne : ∀ u ∈ p.verts, c.vid u ≠ k := by
    intro u hu e
    have := hp.2.2.2.2 u hu
    rw [e, hk] at this; simp at this
  exact ⟨hp.1, hp.2.1, hp.2.2.1, hp.2.2.2.1.frame (fun u hu => hg _ (hne u hu)) (fun u hu => hl _ (hne u hu)),
    hp.2.2.2.2⟩

theorem storedPath_nil {get : K → Option V} {lab : K → Option L} {vid : V → K} {v : V}
    (h : get (vid v) = some v) : StoredPath get lab vid v (⟨v, []⟩ : SPath V L) :=
  ⟨.start h, by simp [SPath.verts, SPath.edges, rawEdges, edgesFrom]⟩

theorem SpPathInv.popStale (pinv : SpPathInv c starts B g h s F) (hpc : s.pc = .loop) {e : HEntry W (V × Nat)}
    {rest : List (HEntry W (V × Nat))} (hh : s.heap = e :: rest) :
    SpPathInv c starts B g h { s with heap := rest } F where
  pcP := by simp only [hpc]
  ent f hf := pinv.ent f (by rw [hh]; exact List.mem_cons_of_mem _ hf)
  fin := pinv.fin
  rep := pinv.rep

theorem SpPathInv.popDup (pinv : SpPathInv c starts B g h s F) (inv : SpInv c starts B g h s F cur)
    (hd : g.dd.Lawful c.inf) {e : HEntry W (V × Nat)}
    {rest : List (HEntry W (V × Nat))} (hh : s.heap = e :: rest)
    (hns : ¬ g.dd.get s.dist (c.vid e.item.1) < e.key) {w : W} (hF : F (c.vid e.item.1) = some w) :
    SpPathInv c starts B g h { s with
      heap := rest
      dist := if !c.keepDistances then g.dd.set s.dist (c.vid e.item.1) 0 else s.dist
      pc := .expand e.item.1 e.key e.item.2 } F := by
  have he : e ∈ s.heap := by rw [hh]; exact List.mem_cons_self
  obtain ⟨hw, h0, -⟩ := inv.dup he hns hF
  obtain ⟨hs, hk⟩ := inv.ent0 e he h0
  have hget : ∀ j, F j = none → g.dd.get (if !c.keepDistances then g.dd.set s.dist (c.vid e.item.1) 0
      else s.dist) j = g.dd.get s.dist j := by
    intro j hj
    split
    · rw [hd.get_set, if_neg]; intro e'; rw [e', hF] at hj; simp at hj
    · rfl
  refine ⟨?_, fun f hf hn hk' => ?_, pinv.fin, pinv.rep⟩
  · refine ⟨⟨e.item.1, []⟩, hs, (by rw [hk]; exact .nil), h0.symm, ?_, ?_⟩
    · exact storedPath_nil (pinv.fin _ hs (by rw [hF, hw, hk]))
    · intro u hu
      simp only [SPath.verts, List.map_nil, List.mem_singleton] at hu
      rw [hu, hF]; rfl
  · simp only [hget _ hn] at hk'
    exact pinv.ent f (by rw [hh]; exact List.mem_cons_of_mem _ hf) hn hk'

theorem SpPathInv.popFresh_path (pinv : SpPathInv c starts B g h s F) (inv : SpInv c starts B g h s F cur)
    {e : HEntry W (V × Nat)} (he : e ∈ s.heap) (hns : ¬ g.dd.get s.dist (c.vid e.item.1) < e.key)
    (hF : F (c.vid e.item.1) = none) :
    ∃ p, SpStored c starts B g (spFin F (c.vid e.item.1) e.key) s.preds s.labels e.item.1 e.key e.item.2 p := by
  have hkey : e.key = g.dd.get s.dist (c.vid e.item.1) :=
    le_antisymm (le_of_not_gt hns) (inv.entU e he hF)
  obtain ⟨p0, pS⟩ := pinv.ent e he hF hkey
  have hfink : spFin F (c.vid e.item.1) e.key (c.vid e.item.1) = some e.key := if_pos rfl
  rcases Nat.eq_zero_or_pos e.item.2 with h0 | h0
  · obtain ⟨hs, hk⟩ := inv.ent0 e he h0
    refine ⟨⟨e.item.1, []⟩, hs, (by rw [hk]; exact .nil), h0.symm, storedPath_nil (p0 h0), ?_⟩
    intro u hu
    simp only [SPath.verts, List.map_nil, List.mem_singleton] at hu
    rw [hu, hfink]; rfl
  · obtain ⟨u, p, x, l, wu, h1, h2, h3, h4, h5⟩ := pS h0
    obtain ⟨q1, q2, q3, q4, q5⟩ := h4
    refine ⟨p.snoc e.item.1 l, q1, by rw [← h5]; exact q2.snoc q4.last h3, ?_, q4.extend h1 h2 ?_, ?_⟩
    · simp only [SPath.snoc, List.length_append, List.length_singleton, q3]; omega
    · intro heq
      have := q5 u (List.mem_of_getLast? q4.last)
      rw [heq, hF] at this; simp at this
    · intro v hv
      rw [SPath.verts_snoc] at hv
      rcases List.mem_append.1 hv with hv | hv
      · have := q5 v hv
        unfold spFin; split <;> simp_all
      · simp only [List.mem_singleton] at hv
        rw [hv, hfink]; rfl

theorem SpPathInv.popFresh (pinv : SpPathInv c starts B g h s F) (inv : SpInv c starts B g h s F cur)
    {validV : V → Prop} {validL : L → Prop} (hst : WStorable g.mo g.lo c.next c.vid starts validV validL)
    (hd : g.dd.Lawful c.inf) {e : HEntry W (V × Nat)}
    {rest : List (HEntry W (V × Nat))} (hh : s.heap = e :: rest)
    (hns : ¬ g.dd.get s.dist (c.vid e.item.1) < e.key) (hF : F (c.vid e.item.1) = none)
    (d' : D) (hd' : d' = if !c.keepDistances then g.dd.set s.dist (c.vid e.item.1) 0 else s.dist)
    (h' : List (Ev (SpReport V W M ML D)))
    (hh' : repsOf h' = repsOf h ∨
      repsOf h' = repsOf h ++ [⟨e.item.1, e.key, e.item.2, d', s.preds, s.labels⟩]) :
    SpPathInv c starts B g h' { s with
      heap := rest
      dist := d'
      pc := .expand e.item.1 e.key e.item.2 } (spFin F (c.vid e.item.1) e.key) := by
  have he : e ∈ s.heap := by rw [hh]; exact List.mem_cons_self
  have hfink : spFin F (c.vid e.item.1) e.key (c.vid e.item.1) = some e.key := if_pos rfl
  have hfin : ∀ j, j ≠ c.vid e.item.1 → spFin F (c.vid e.item.1) e.key j = F j := fun j hj => if_neg hj
  obtain ⟨p, hp⟩ := pinv.popFresh_path inv he hns hF
  have hkey : e.key = g.dd.get s.dist (c.vid e.item.1) :=
    le_antisymm (le_of_not_gt hns) (inv.entU e he hF)
  refine ⟨⟨p, hp⟩, fun f hf hn hk' => ?_, fun v hv hFv => ?_, fun a r b hr => ?_⟩
  · have hj : c.vid f.item.1 ≠ c.vid e.item.1 := by
      intro hj; rw [hj, hfink] at hn; simp at hn
    rw [hfin _ hj] at hn
    have hget : g.dd.get d' (c.vid f.item.1) = g.dd.get s.dist (c.vid f.item.1) := by
      rw [hd']
      split
      · rw [hd.get_set, if_neg hj]
      · rfl
    simp only [hget] at hk'
    obtain ⟨e0, eS⟩ := pinv.ent f (by rw [hh]; exact List.mem_cons_of_mem _ hf) hn hk'
    refine ⟨e0, fun hpos => ?_⟩
    obtain ⟨u, q, x, l, wu, h1, h2, h3, h4, h5⟩ := eS hpos
    exact ⟨u, q, x, l, wu, h1, h2, h3, h4.fin _ _, h5⟩
  · by_cases hj : c.vid v = c.vid e.item.1
    · rw [hj, hfink] at hFv
      simp only [Option.some.injEq] at hFv
      rcases Nat.eq_zero_or_pos e.item.2 with h0 | h0
      · have hs := (inv.ent0 e he h0).1
        rw [hst.distinct v hv _ hs hj]
        exact (pinv.ent e he hF hkey).1 h0
      · exact absurd (hFv ▸ (inv.entS e he h0).1) (lt_irrefl _)
    · rw [hfin _ hj] at hFv
      exact pinv.fin v hv hFv
  · rcases hh' with hh' | hh'
    · rw [hh'] at hr
      obtain ⟨q, h1, h2⟩ := pinv.rep a r b hr
      exact ⟨q, h1.fin _ _, h2⟩
    · rw [hh'] at hr
      rcases List.eq_nil_or_concat b with rfl | ⟨b', x, rfl⟩
      · have := List.append_inj' hr rfl
        have hr' := this.2
        simp only [List.cons.injEq, and_true] at hr'
        subst hr'
        exact ⟨p, hp, fun r' hr' => by
          simp only [List.mem_singleton] at hr'; subst hr'; exact hp.2.2.2.1⟩
      · rw [List.concat_eq_append, ← List.cons_append, ← List.append_assoc] at hr
        have := List.append_inj' hr rfl
        obtain ⟨q, h1, h2⟩ := pinv.rep a r b' this.1
        have hx := this.2
        simp only [List.cons.injEq, and_true] at hx
        refine ⟨q, h1.fin _ _, fun r' hr' => ?_⟩
        rw [List.concat_eq_append, ← List.cons_append] at hr'
        rcases List.mem_append.1 hr' with hr' | hr'
        · exact h2 r' hr'
        · simp only [List.mem_singleton] at hr'
          rw [hr', ← hx]
          exact h1.2.2.2.1

theorem SpPathInv.edgePush (pinv : SpPathInv c starts B g h s F) (inv : SpInv c starts B g h s F cur)
    {validV : V → Prop} {validL : L → Prop} (hst : WStorable g.mo g.lo c.next c.vid starts validV validL)
    (hd : g.dd.Lawful c.inf) (hn : NonNeg c.next)
    {v n : V} {w x : W} {l : L} {ec : Nat} {es : List (V × W × L)} {d : D} {no : Int}
    (hpc : s.pc = .edges v w ec ((n, x, l) :: es)) (hinf : ¬ c.inf ≤ x + w)
    (himp : g.dd.improve s.dist (c.vid n) (x + w) = some d) :
    SpPathInv c starts B g h
      ⟨.edges v w ec es, heapPush s.heap ⟨x + w, s.no, (n, ec + 1)⟩, no, d,
        g.mo.set s.preds (c.vid n) v, g.lo.set s.labels (c.vid n) l⟩ F := by
  obtain ⟨hF, hgt, hwalk, hB, hcur⟩ := inv.push_undone hd hn hpc hinf himp
  have hp := inv.pcok
  rw [hpc] at hp
  obtain ⟨p1, p2, p3, p4⟩ := hp
  obtain ⟨wv, hwv⟩ := p3.walk
  have hmem := p4 _ List.mem_cons_self
  have hgm : ∀ j, g.mo.get? (g.mo.set s.preds (c.vid n) v) j = if j = c.vid n then some v else g.mo.get? s.preds j :=
    fun j => hst.mo.get_set _ _ _ _ (hst.verts _ _ hwv)
  have hgl : ∀ j, g.lo.get? (g.lo.set s.labels (c.vid n) l) j = if j = c.vid n then some l else g.lo.get? s.labels j :=
    fun j => hst.lo.get_set _ _ _ _ (hst.labs _ _ _ hwv hmem)
  have hgm' : ∀ j, j ≠ c.vid n → g.mo.get? (g.mo.set s.preds (c.vid n) v) j = g.mo.get? s.preds j :=
    fun j hj => by rw [hgm, if_neg hj]
  have hgl' : ∀ j, j ≠ c.vid n → g.lo.get? (g.lo.set s.labels (c.vid n) l) j = g.lo.get? s.labels j :=
    fun j hj => by rw [hgl, if_neg hj]
  have hget := hd.improve_some _ _ _ _ (lt_of_not_ge hinf) himp
  have hpcP := pinv.pcP
  rw [hpc] at hpcP
  obtain ⟨p, hp⟩ := hpcP
  have hp' := hp.frame hF hgm' hgl'
  refine ⟨⟨p, hp'⟩, fun f hf hnone hk => ?_, fun u hu hFu => ?_, fun a r b hr => ?_⟩
  · rcases mem_heapPush.1 hf with rfl | hf
    · refine ⟨fun h0 => by simp at h0, fun _ => ?_⟩
      refine ⟨v, p, x, l, w, by simp only [hgm, if_true], by simp only [hgl, if_true], hmem, ?_, add_comm _ _⟩
      simpa using hp'
    · by_cases hj : c.vid f.item.1 = c.vid n
      · simp only [hget, if_pos hj] at hk
        have := inv.entU f hf hnone
        rw [hj, hk] at this
        exact absurd (lt_of_lt_of_le hgt this) (lt_irrefl _)
      · simp only [hget, if_neg hj] at hk
        obtain ⟨e0, eS⟩ := pinv.ent f hf hnone hk
        refine ⟨fun h0 => by simp only [hgm' _ hj]; exact e0 h0, fun hpos => ?_⟩
        obtain ⟨u, q, x', l', wu, h1, h2, h3, h4, h5⟩ := eS hpos
        exact ⟨u, q, x', l', wu, by simp only [hgm' _ hj]; exact h1, by simp only [hgl' _ hj]; exact h2, h3,
          h4.frame hF hgm' hgl', h5⟩
  · have hj : c.vid u ≠ c.vid n := by intro hj; rw [hj, hF] at hFu; simp at hFu
    simp only [hgm' _ hj]
    exact pinv.fin u hu hFu
  · obtain ⟨q, h1, h2⟩ := pinv.rep a r b hr
    exact ⟨q, h1.frame hF hgm' hgl', h2⟩

/-! ## The combined invariant -/

variable (c starts B g) in
/-- All that is known for given finished ids. -/
def SpAll (h : List (Ev (SpReport V W M ML D))) (s : SpState V L W M ML D) (F : K → Option W) (cur : W) : Prop :=
  SpInv c starts B g h s F cur ∧
    (c.buildPaths = true → (∃ (validV : V → Prop) (validL : L → Prop),
      WStorable g.mo g.lo c.next c.vid starts validV validL) → SpPathInv c starts B g h s F) ∧
    (∀ w v, AW c starts B w v → w < cur → (F (c.vid v)).isSome)

theorem spStartEntries_mem {d : D} {vs : List V} {no : Int} {e : HEntry W (V × Nat)}
    (h : e ∈ spStartEntries g c d vs no) :
    e.item.1 ∈ vs ∧ e.item.2 = 0 ∧ e.key = g.dd.get d (c.vid e.item.1) := by
  induction vs generalizing no with
  | nil => simp [spStartEntries] at h
  | cons v vs ih =>
    simp only [spStartEntries, List.mem_cons] at h
    rcases h with rfl | h
    · exact ⟨List.mem_cons_self, rfl, rfl⟩
    · obtain ⟨h1, h2⟩ := ih h
      exact ⟨List.mem_cons_of_mem _ h1, h2⟩

theorem spStartEntries_ex {d : D} {vs : List V} {no : Int} {v : V} (h : v ∈ vs) :
    ∃ e ∈ spStartEntries g c d vs no, e.item = (v, 0) ∧ e.key = g.dd.get d (c.vid v) := by
  induction vs generalizing no with
  | nil => simp at h
  | cons u vs ih =>
    rcases List.mem_cons.1 h with rfl | h
    · exact ⟨_, List.mem_cons_self, rfl, rfl⟩
    · obtain ⟨e, h1, h2⟩ := ih (no := no - 1) h
      exact ⟨e, List.mem_cons_of_mem _ h1, h2⟩

theorem Spec.KWalk.nonneg {w : W} {v : V} (hn : NonNeg c.next) (h0 : ∀ v ∈ starts, 0 ≤ B (c.vid v))
    (hw : AW c starts B w v) : 0 ≤ w := by
  induction hw with
  | start hs => exact h0 _ hs
  | step _ he _ ih => exact add_nonneg ih (hn _ _ _ he)

theorem sp_init0 {known : Option D} (hn : NonNeg c.next) (hB : ∀ k, g.dd.get (spDistances g c known starts) k = B k)
    (h0 : ∀ v ∈ starts, 0 ≤ B (c.vid v)) : SpAll c starts B g [] (spInit g c known starts) (fun _ => none) 0 := by
  refine ⟨?_, fun hb hst => ?_,
    fun w v hw hlt => absurd hlt (not_lt_of_ge (KWalk.nonneg hn h0 hw))⟩
  · have hm : ∀ e ∈ (spInit g c known starts : SpState V L W M ML D).heap,
        e.item.1 ∈ starts ∧ e.item.2 = 0 ∧ e.key = B (c.vid e.item.1) := by
      intro e he
      simp only [spInit, mem_heapify] at he
      obtain ⟨h1, h2, h3⟩ := spStartEntries_mem he
      exact ⟨h1, h2, h3.trans (hB _)⟩
    exact {
      sorted := heapify_sorted _
      uniq := by
        have : ∀ l : List (HEntry W (V × Nat)), (∀ e ∈ l, e.item.2 = 0) →
            l.Pairwise (fun e f => c.vid e.item.1 = c.vid f.item.1 → e.key = f.key →
              e.item.2 = 0 ∧ f.item.2 = 0) := by
          intro l
          induction l with
          | nil => intro _; exact .nil
          | cons a r ih =>
            intro h
            refine List.pairwise_cons.2 ⟨fun b hb _ _ => ⟨h a List.mem_cons_self,
              h b (List.mem_cons_of_mem _ hb)⟩, ih (fun e he => h e (List.mem_cons_of_mem _ he))⟩
        exact this _ (fun e he => (hm e he).2.1)
      cur0 := le_refl _
      lower := fun e he => by rw [(hm e he).2.2]; exact h0 _ (hm e he).1
      walk := fun e he => by rw [(hm e he).2.2]; exact .start (hm e he).1
      ent0 := fun e he _ => ⟨(hm e he).1, (hm e he).2.2⟩
      entS := fun e he hp => by rw [(hm e he).2.1] at hp; omega
      entU := fun e he _ => by
        have : g.dd.get (spInit g c known starts : SpState V L W M ML D).dist (c.vid e.item.1) = B (c.vid e.item.1) := hB _
        rw [this, (hm e he).2.2]
      entD := fun e he w hw => by simp at hw
      donev := fun k w hk => by simp at hk
      undone := fun k _ => by
        have hk : g.dd.get (spInit g c known starts : SpState V L W M ML D).dist k = B k := hB k
        rw [hk]
        refine ⟨le_refl _, ?_⟩
        by_cases hs : k ∈ starts.map c.vid
        · right
          obtain ⟨v, hv, rfl⟩ := List.mem_map.1 hs
          obtain ⟨e, h1, h2, h3⟩ := spStartEntries_ex (g := g) (c := c)
            (d := spDistances g c known starts) (no := 256) hv
          exact ⟨e, by simp only [spInit, mem_heapify]; exact h1, by rw [h2], h3.trans (hB _)⟩
        · exact .inl ⟨rfl, hs⟩
      relaxed := fun k w hk => by simp at hk
      pcok := trivial
      reps := fun r hr => by simp at hr
      nodup := by simp
      ordered := by simp
      doneRep := fun k w hk => by simp at hk }
  · obtain ⟨validV, validL, hst⟩ := hst
    refine ⟨trivial, fun e he _ _ => ?_, fun v hv hF => by simp at hF, fun a r b hr => by simp at hr⟩
    simp only [spInit, mem_heapify] at he
    obtain ⟨h1, h2, -⟩ := spStartEntries_mem he
    refine ⟨fun _ => ?_, fun hp => by omega⟩
    simp only [spInit, hb, if_true]
    exact get_starts_of_mem g.mo hst.mo c.vid starts (fun v hv => hst.verts 0 v (.start hv))
      hst.distinct _ h1

theorem sp_init {known : Option D} (hn : NonNeg c.next)
    (hB : ∀ k, g.dd.get (spDistances g c known starts) k = B k) (h0 : ∀ v ∈ starts, 0 ≤ B (c.vid v)) :
    ∃ F cur, SpAll c starts B g [] (spInit g c known starts) F cur :=
  ⟨_, _, sp_init0 hn hB h0⟩

/-- Case analysis of a step (not in tree mode). -/
theorem spStep_cases (ht : c.isTree = false) {P : Step (SpState V L W M ML D) (SpReport V W M ML D) → Prop}
    (s : SpState V L W M ML D)
    (hstop : s.pc = .loop → s.heap = [] → P (.stop s))
    (hstale : ∀ e rest, s.pc = .loop → s.heap = e :: rest → g.dd.get s.dist (c.vid e.item.1) < e.key →
      P (.tau { s with heap := rest }))
    (hpop : ∀ e rest d, s.pc = .loop → s.heap = e :: rest → ¬ g.dd.get s.dist (c.vid e.item.1) < e.key →
      d = (if !c.keepDistances then g.dd.set s.dist (c.vid e.item.1) 0 else s.dist) →
      (0 < e.item.2 → P (.emit ⟨e.item.1, e.key, e.item.2, d, s.preds, s.labels⟩
        { s with heap := rest, dist := d, pc := .expand e.item.1 e.key e.item.2 })) ∧
      (e.item.2 = 0 → P (.tau { s with heap := rest, dist := d, pc := .expand e.item.1 e.key e.item.2 })))
    (hexp : ∀ v w ec, s.pc = .expand v w ec → P (.expand { s with pc := .edges v w ec (c.next v) }))
    (hend : ∀ v w ec, s.pc = .edges v w ec [] → P (.tau { s with pc := .loop }))
    (hfail : ∀ v w ec n x l es, s.pc = .edges v w ec ((n, x, l) :: es) → c.inf ≤ x + w →
      P (.fail .overflowError))
    (hskip : ∀ v w ec n x l es, s.pc = .edges v w ec ((n, x, l) :: es) → ¬ c.inf ≤ x + w →
      g.dd.improve s.dist (c.vid n) (x + w) = none → P (.tau { s with pc := .edges v w ec es }))
    (hpush : ∀ v w ec n x l es d, s.pc = .edges v w ec ((n, x, l) :: es) → ¬ c.inf ≤ x + w →
      g.dd.improve s.dist (c.vid n) (x + w) = some d → P (.tau
        ⟨.edges v w ec es, heapPush s.heap ⟨x + w, s.no, (n, ec + 1)⟩, s.no - 1, d,
          if c.buildPaths then g.mo.set s.preds (c.vid n) v else s.preds,
          if c.buildPaths then g.lo.set s.labels (c.vid n) l else s.labels⟩)) :
    P (spStep g c s) := by
  unfold spStep
  split
  · rename_i hpc
    split
    · exact hstop hpc (by assumption)
    · rename_i e rest hh
      simp only [ht, Bool.not_false, Bool.true_and, decide_eq_true_eq]
      split
      · exact hstale e rest hpc hh (by assumption)
      · rename_i hns
        obtain ⟨h1, h2⟩ := hpop e rest _ hpc hh hns rfl
        split
        · exact h1 (by assumption)
        · exact h2 (by omega)
  · exact hexp _ _ _ (by assumption)
  · exact hend _ _ _ (by assumption)
  · rename_i v w ec n x l es hpc
    simp only
    split
    · exact hfail _ _ _ _ _ _ _ hpc (by assumption)
    · rename_i hinf
      simp only [spImprove, ht, Bool.false_eq_true, if_false]
      cases himp : g.dd.improve s.dist (c.vid n) (x + w) with
      | none => exact hskip _ _ _ _ _ _ _ hpc hinf himp
      | some d => exact hpush _ _ _ _ _ _ _ _ hpc hinf himp

/-- Measure for termination. -/
def spMeasure (ids : List K) (F : K → Option W) (s : SpState V L W M ML D) : Nat × Nat × Nat × Nat :=
  ((ids.filter (fun k => !(F k).isSome)).length + (s.heap.filter (fun e => e.item.2 == 0)).length,
    (match s.pc with | .loop => 0 | .expand .. => 2 | .edges .. => 1),
    (match s.pc with | .edges _ _ _ es => es.length | _ => 0), s.heap.length)

variable (c g) in
/-- The finished ids after a step. -/
def spNextF (s : SpState V L W M ML D) (F : K → Option W) : K → Option W :=
  match s.pc, s.heap with
  | .loop, e :: _ =>
    if g.dd.get s.dist (c.vid e.item.1) < e.key ∨ (F (c.vid e.item.1)).isSome then F
    else spFin F (c.vid e.item.1) e.key
  | _, _ => F

variable (c g) in
/-- The largest finished distance after a step. -/
def spNextCur (s : SpState V L W M ML D) (cur : W) : W :=
  match s.pc, s.heap with
  | .loop, e :: _ => if g.dd.get s.dist (c.vid e.item.1) < e.key then cur else e.key
  | _, _ => cur

variable (c starts B g) in
/-- What a step leads to. -/
def SpNext (s : SpState V L W M ML D) (F : K → Option W) (cur : W) (h' : List (Ev (SpReport V W M ML D)))
    (s' : SpState V L W M ML D) : Prop :=
  ∃ F' cur', (F' = spNextF c g s F ∧ cur' = spNextCur c g s cur) ∧ SpAll c starts B g h' s' F' cur' ∧
    ∀ ids : List K, (∀ w v, AW c starts B w v → c.vid v ∈ ids) → lex4 (spMeasure ids F' s') (spMeasure ids F s)

theorem SpInv.complete (inv : SpInv c starts B g h s F cur) (hpc : s.pc = .loop) (hn : NonNeg c.next)
    (hc : WCompat c.next c.vid) {e : HEntry W (V × Nat)} {rest : List (HEntry W (V × Nat))}
    (hh : s.heap = e :: rest) : ∀ w v, AW c starts B w v → w < e.key → (F (c.vid v)).isSome := by
  intro w v hw hlt
  rcases inv.frontier hpc hn hc hw with ⟨w', h1, -⟩ | ⟨f, hf, h1⟩
  · rw [h1]; rfl
  · exfalso
    rw [hh] at hf
    have hs := inv.sorted
    rw [hh] at hs
    rcases List.mem_cons.1 hf with rfl | hf
    · exact absurd hlt (not_lt_of_ge h1)
    · have := HEntry.le.key_le ((List.pairwise_cons.1 hs).1 f hf)
      exact absurd hlt (not_lt_of_ge (this.trans h1))

theorem sp_popFresh_emit (inv : SpInv c starts B g h s F cur) (hd : g.dd.Lawful c.inf) (hn : NonNeg c.next)
    (hc : WCompat c.next c.vid) {e : HEntry W (V × Nat)} {rest : List (HEntry W (V × Nat))}
    (hpc : s.pc = .loop) (hh : s.heap = e :: rest) (hns : ¬ g.dd.get s.dist (c.vid e.item.1) < e.key)
    (hF : F (c.vid e.item.1) = none) (hpos : 0 < e.item.2) (r : SpReport V W M ML D)
    (h1 : r.vertex = e.item.1) (h2 : r.distance = e.key) (h3 : r.depth = e.item.2) :
    SpInv c starts B g (h ++ [.rep r]) { s with
      heap := rest
      dist := if !c.keepDistances then g.dd.set s.dist (c.vid e.item.1) 0 else s.dist
      pc := .expand e.item.1 e.key e.item.2 } (spFin F (c.vid e.item.1) e.key) e.key := by
  have he : e ∈ s.heap := by rw [hh]; exact List.mem_cons_self
  refine inv.popFresh hd hn hc hpc hh hns hF _ ?_ ?_ ?_ ?_ ?_
  · intro r' hr
    simp only [repsOf_append, repsOf_rep, repsOf_nil, List.mem_append, List.mem_singleton] at hr
    rcases hr with hr | rfl
    · exact .inl hr
    · exact .inr ⟨h1, h2, h3, hpos⟩
  · simp only [repsOf_append, repsOf_rep, repsOf_nil, List.map_append, List.map_cons, List.map_nil]
    refine List.nodup_append.2 ⟨inv.nodup, by simp, ?_⟩
    intro a ha b hb hab
    simp only [List.mem_singleton] at hb
    obtain ⟨r', hr, rfl⟩ := List.mem_map.1 ha
    have := (inv.reps r' hr).1
    rw [hab, hb, h1, hF] at this; simp at this
  · simp only [repsOf_append, repsOf_rep, repsOf_nil, List.map_append, List.map_cons, List.map_nil]
    refine List.pairwise_append.2 ⟨inv.ordered, by simp, ?_⟩
    intro a ha b hb
    simp only [List.mem_singleton] at hb
    obtain ⟨r', hr, rfl⟩ := List.mem_map.1 ha
    have h1 := (inv.donev _ _ (inv.reps r' hr).1).2.1
    rw [hb, h2]
    exact h1.trans (inv.lower e he)
  · intro r' hr
    simp only [repsOf_append, List.mem_append]
    exact .inl hr
  · right
    exact ⟨r, by simp, by rw [h1]⟩

theorem spMeasure_fresh {e : HEntry W (V × Nat)} {rest : List (HEntry W (V × Nat))} (hh : s.heap = e :: rest)
    (hF : F (c.vid e.item.1) = none) (s' : SpState V L W M ML D) (hs' : s'.heap = rest) (w : W)
    (ids : List K) (hids : c.vid e.item.1 ∈ ids) :
    lex4 (spMeasure ids (spFin F (c.vid e.item.1) w) s') (spMeasure ids F s) := by
  unfold spMeasure
  rw [lex4_iff]
  left
  have h1 := filter_not_lt ids (fun k => (F k).isSome) (fun k => (spFin F (c.vid e.item.1) w k).isSome)
    (fun j hj => by unfold spFin; split <;> simp_all) hids (by simp [hF]) (by simp [spFin])
  have h2 : (s'.heap.filter (fun e => e.item.2 == 0)).length ≤ (s.heap.filter (fun e => e.item.2 == 0)).length := by
    rw [hs', hh, List.filter_cons]
    split
    · simp
    · exact le_refl _
  omega

theorem sp_step (ht : c.isTree = false) (hd : g.dd.Lawful c.inf) (hn : NonNeg c.next)
    (hc : WCompat c.next c.vid) (ok : SpAll c starts B g h s F cur) :
    match spStep g c s with
    | .tau s' => SpNext c starts B g s F cur h s'
    | .emit r s' => SpNext c starts B g s F cur (h ++ [.rep r]) s'
    | .expand s' => SpNext c starts B g s F cur (h ++ [.exp]) s'
    | _ => True := by
  obtain ⟨inv, pinv, comp⟩ := ok
  refine spStep_cases (g := g) (c := c) (P := fun st => match st with
    | .tau s' => SpNext c starts B g s F cur h s'
    | .emit r s' => SpNext c starts B g s F cur (h ++ [.rep r]) s'
    | .expand s' => SpNext c starts B g s F cur (h ++ [.exp]) s'
    | _ => True) ht s ?_ ?_ ?_ ?_ ?_ ?_ ?_ ?_
  · intros; trivial
  · intro e rest hpc hh hs
    refine ⟨F, cur, by simp [spNextF, spNextCur, hpc, hh, hs], ⟨inv.popStale hh hs, fun hb hst => (pinv hb hst).popStale hpc hh, comp⟩, fun ids _ => ?_⟩
    unfold spMeasure
    rw [lex4_iff]
    simp only [hh, List.filter_cons, List.length_cons]
    split
    · left; simp
    · right; simp
  · intro e rest d hpc hh hns hdd
    have he : e ∈ s.heap := by rw [hh]; exact List.mem_cons_self
    have comp' : ∀ w v, AW c starts B w v → w < e.key → (spFin F (c.vid e.item.1) e.key (c.vid v)).isSome := by
      intro w v hw hlt
      have := inv.complete hpc hn hc hh w v hw hlt
      unfold spFin; split <;> simp_all
    constructor
    · intro hpos
      cases hF : F (c.vid e.item.1) with
      | some w => have := (inv.dup he hns hF).2.1; omega
      | none =>
        refine ⟨spFin F (c.vid e.item.1) e.key, e.key, by simp [spNextF, spNextCur, hpc, hh, hns, hF], ⟨?_, fun hb hst => ?_, comp'⟩,
          fun ids hids => spMeasure_fresh hh hF _ rfl _ ids (hids _ _ (inv.walk e he))⟩
        · subst hdd
          exact sp_popFresh_emit inv hd hn hc hpc hh hns hF hpos _ rfl rfl rfl
        · obtain ⟨validV, validL, hst'⟩ := hst
          exact (pinv hb ⟨validV, validL, hst'⟩).popFresh inv hst' hd hh hns hF d hdd _ (.inr (by simp))
    · intro hz
      cases hF : F (c.vid e.item.1) with
      | some w =>
        refine ⟨F, cur, by simp [spNextF, spNextCur, hpc, hh, hF, hns, (inv.dup he hns hF).2.2], ⟨?_, fun hb hst => ?_, comp⟩, fun ids _ => ?_⟩
        · subst hdd; exact inv.popDup hd hpc hh hns hF
        · obtain ⟨validV, validL, hst'⟩ := hst
          subst hdd
          exact (pinv hb ⟨validV, validL, hst'⟩).popDup inv hd hh hns hF
        · unfold spMeasure
          rw [lex4_iff]
          left
          simp [hh, hz]
      | none =>
        refine ⟨spFin F (c.vid e.item.1) e.key, e.key, by simp [spNextF, spNextCur, hpc, hh, hns, hF], ⟨?_, fun hb hst => ?_, comp'⟩,
          fun ids hids => spMeasure_fresh hh hF _ rfl _ ids (hids _ _ (inv.walk e he))⟩
        · subst hdd
          exact inv.popFresh hd hn hc hpc hh hns hF _ (fun r hr => .inl hr) inv.nodup inv.ordered
            (fun r hr => hr) (.inl (inv.ent0 e he hz).1)
        · obtain ⟨validV, validL, hst'⟩ := hst
          exact (pinv hb ⟨validV, validL, hst'⟩).popFresh inv hst' hd hh hns hF d hdd _ (.inl rfl)
  · intro v w ec hpc
    refine ⟨F, cur, by simp [spNextF, spNextCur, hpc], ⟨inv.expand hpc, fun hb hst => ?_, comp⟩, fun ids _ => ?_⟩
    · have p := pinv hb hst
      have hp := p.pcP
      rw [hpc] at hp
      exact ⟨hp, p.ent, p.fin, fun a r b hr => p.rep a r b (by simpa using hr)⟩
    · unfold spMeasure; rw [lex4_iff]; simp [hpc]
  · intro v w ec hpc
    refine ⟨F, cur, by simp [spNextF, spNextCur, hpc], ⟨inv.edgesEnd hpc, fun hb hst => ?_, comp⟩, fun ids _ => ?_⟩
    · have p := pinv hb hst
      exact ⟨trivial, p.ent, p.fin, p.rep⟩
    · unfold spMeasure; rw [lex4_iff]; simp [hpc]
  · intros; trivial
  · intro v w ec n x l es hpc hinf himp
    refine ⟨F, cur, by simp [spNextF, spNextCur, hpc], ⟨inv.edgeSkip hd hn hpc hinf himp, fun hb hst => ?_, comp⟩, fun ids _ => ?_⟩
    · have p := pinv hb hst
      have hp := p.pcP
      rw [hpc] at hp
      exact ⟨hp, p.ent, p.fin, p.rep⟩
    · unfold spMeasure; rw [lex4_iff]; simp [hpc]
  · intro v w ec n x l es d hpc hinf himp
    refine ⟨F, cur, by simp [spNextF, spNextCur, hpc], ⟨inv.edgePush hd hn hpc hinf himp, fun hb hst => ?_, comp⟩, fun ids _ => ?_⟩
    · obtain ⟨validV, validL, hst'⟩ := hst
      simp only [hb, if_true]
      exact (pinv hb ⟨validV, validL, hst'⟩).edgePush inv hst' hd hn hpc hinf himp
    · unfold spMeasure
      rw [lex4_iff]
      have : ((heapPush s.heap ⟨x + w, s.no, (n, ec + 1)⟩).filter (fun e => e.item.2 == 0)).length =
          (s.heap.filter (fun e => e.item.2 == 0)).length := by
        have := ((heapPush_perm s.heap ⟨x + w, s.no, (n, ec + 1)⟩).filter (fun e => e.item.2 == 0)).length_eq
        rw [this]; simp
      simp only [this, hpc, List.length_cons]
      right; exact ⟨trivial, .inr ⟨trivial, .inl (by omega)⟩⟩

theorem sp_ok (ht : c.isTree = false) (hd : g.dd.Lawful c.inf) (hn : NonNeg c.next)
    (hc : WCompat c.next c.vid) {known : Option D}
    (hB : ∀ k, g.dd.get (spDistances g c known starts) k = B k) (h0 : ∀ v ∈ starts, 0 ≤ B (c.vid v))
    (hr : Reaches (spStep g c) (spInit g c known starts) h s) : ∃ F cur, SpAll c starts B g h s F cur := by
  refine Reaches.invariant (fun h s => ∃ F cur, SpAll c starts B g h s F cur) (sp_init hn hB h0) ?_ ?_ ?_ hr
  · rintro h s s' ⟨F, cur, ok⟩ hs
    have := sp_step ht hd hn hc ok
    rw [hs] at this
    obtain ⟨F', cur', -, h1, -⟩ := this; exact ⟨F', cur', h1⟩
  · rintro h s r s' ⟨F, cur, ok⟩ hs
    have := sp_step ht hd hn hc ok
    rw [hs] at this
    obtain ⟨F', cur', -, h1, -⟩ := this; exact ⟨F', cur', h1⟩
  · rintro h s s' ⟨F, cur, ok⟩ hs
    have := sp_step ht hd hn hc ok
    rw [hs] at this
    obtain ⟨F', cur', -, h1, -⟩ := this; exact ⟨F', cur', h1⟩

/-- If only finitely many ids are reached, the traversal comes to an end. -/
theorem sp_terminates (ht : c.isTree = false) (hd : g.dd.Lawful c.inf) (hn : NonNeg c.next)
    (hc : WCompat c.next c.vid) {known : Option D}
    (hB : ∀ k, g.dd.get (spDistances g c known starts) k = B k) (h0 : ∀ v ∈ starts, 0 ≤ B (c.vid v))
    (ids : List K) (hids : ∀ w v, AW c starts B w v → c.vid v ∈ ids) :
    ∃ N, ∀ fuel, N ≤ fuel → ∀ lim,
      (runMachine (spStep g c) fuel lim (spInit g c known starts)).ending ≠ .outOfFuel := by
  obtain ⟨F, cur, ok⟩ := sp_init (g := g) (c := c) (L := L) hn hB h0
  refine run_terminates_ghost _ lex4 lex4_wf
    (fun a s => ∃ h F cur, SpAll c starts B g h s F cur ∧ a = spMeasure ids F s) ?_ _ _ ⟨_, _, _, ok, rfl⟩
  rintro a s s' ⟨h, F, cur, ok, rfl⟩ hs
  have := sp_step ht hd hn hc ok
  cases hm : spStep g c s with
  | stop t => rw [hm] at hs; simp [Step.next?] at hs
  | fail t => rw [hm] at hs; simp [Step.next?] at hs
  | tau t =>
    rw [hm] at this hs; simp only [Step.next?, Option.some.injEq] at hs; subst hs
    obtain ⟨F', cur', -, h1, h2⟩ := this
    exact ⟨_, ⟨_, _, _, h1, rfl⟩, h2 ids hids⟩
  | emit r t =>
    rw [hm] at this hs; simp only [Step.next?, Option.some.injEq] at hs; subst hs
    obtain ⟨F', cur', -, h1, h2⟩ := this
    exact ⟨_, ⟨_, _, _, h1, rfl⟩, h2 ids hids⟩
  | expand t =>
    rw [hm] at this hs; simp only [Step.next?, Option.some.injEq] at hs; subst hs
    obtain ⟨F', cur', -, h1, h2⟩ := this
    exact ⟨_, ⟨_, _, _, h1, rfl⟩, h2 ids hids⟩

end

end NoGraphs
