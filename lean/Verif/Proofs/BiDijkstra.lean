import Verif.Model.BiDijkstra
import Verif.Proofs.SpPlain
import Verif.Proofs.BiBfsResult

/-! Bidirectional shortest path search: relation to two shortest paths traversals, invariant. -/

set_option linter.unusedSectionVars false

namespace NoGraphs

open Spec

variable {V K L W M ML D : Type} [DecidableEq V] [DecidableEq K]
variable [AddCommMonoid W] [LinearOrder W] [IsOrderedAddMonoid W]

/-! ## Walks in both directions -/

theorem walkW_join {nextF nextB : V → List (V × W × L)} {vid : V → K} {A B : List V}
    (hop : ∀ u v x, WEdge nextF u v x → WEdge nextB v u x) (hcB : WCompat nextB vid)
    {p q : W} {v v' : V} (hp : WalkW nextF (· ∈ A) p v) (hq : WalkW nextB (· ∈ B) q v') (he : vid v' = vid v) :
    ∃ u', ∃ a ∈ A, vid u' = vid a ∧ WalkW nextB (· ∈ B) (p + q) u' := by
  induction hp generalizing q v' with
  | start hs => exact ⟨v', _, hs, he, by rw [zero_add]; exact hq⟩
  | @step p u v x _ hedge ih =>
    obtain ⟨u', h1, h2⟩ := hcB v v' u x he.symm (hop _ _ _ hedge)
    obtain ⟨w, a, ha, h3, h4⟩ := ih (.step hq h1) h2
    refine ⟨w, a, ha, h3, ?_⟩
    rw [add_assoc, add_comm x q]; exact h4

theorem Spec.WConnects.symm {nextF nextB : V → List (V × W × L)} {vid : V → K} {A B : List V}
    (hop : ∀ u v x, WEdge nextF u v x → WEdge nextB v u x) (hcB : WCompat nextB vid)
    {w : W} (h : WConnects nextF vid A B w) : WConnects nextB vid B A w := by
  obtain ⟨v, t, ht, he, hw⟩ := h
  obtain ⟨u', a, ha, h1, h2⟩ := walkW_join hop hcB hw (.start (S := (· ∈ B)) ht) he.symm
  rw [add_zero] at h2
  exact ⟨u', a, ha, h1, h2⟩

/-! ## The traversals of the two directions -/

section

variable {g : WGear V K L W M ML D} {c : BdCfg V K L W} {starts goals : List V}

/-- The traversal of direction `b`. -/
def BdCfg.side (c : BdCfg V K L W) (b : Bool) : WCfg V K L W where
  next := c.next b
  vid := c.vid
  isTree := false
  buildPaths := c.buildPath
  keepDistances := true
  inf := c.inf

/-- Forget the number of edges of a heap entry. -/
def forget (e : HEntry W (V × Nat)) : HEntry W V := ⟨e.key, e.no, e.item.1⟩

theorem heapPush_forget (l : List (HEntry W (V × Nat))) (e : HEntry W (V × Nat)) :
    (heapPush l e).map forget = heapPush (l.map forget) (forget e) := by
  induction l with
  | nil => rfl
  | cons a r ih =>
    simp only [heapPush, List.map_cons]
    have : (forget e).le (forget a) ↔ e.le a := Iff.rfl
    by_cases h : e.le a
    · rw [if_pos h, if_pos (this.2 h)]; rfl
    · rw [if_neg h, if_neg (fun h' => h (this.1 h'))]; simp [ih]

theorem heapify_forget (l : List (HEntry W (V × Nat))) : (heapify l).map forget = heapify (l.map forget) := by
  have : ∀ a : List (HEntry W (V × Nat)), (l.foldl heapPush a).map forget = (l.map forget).foldl heapPush (a.map forget) := by
    induction l with
    | nil => intro a; rfl
    | cons e r ih => intro a; simp only [List.foldl_cons, List.map_cons, ih, heapPush_forget]
  exact this []

/-- The variables of a direction are those of a traversal. -/
structure SideRel (x : BdSide V W M ML D) (t : SpState V L W M ML D) : Prop where
  heap : x.heap = t.heap.map forget
  no : x.no = t.no
  dist : x.dist = t.dist
  preds : x.preds = t.preds
  labels : x.labels = t.labels

theorem bdStartEntries_forget (d : D) (vs : List V) (no : Int) (b : Bool) :
    bdStartEntries g c d vs no = (spStartEntries g (c.side b) d vs no).map forget := by
  induction vs generalizing no with
  | nil => rfl
  | cons v vs ih => simp only [bdStartEntries, spStartEntries, List.map_cons, ih]; rfl

theorem bdInit_rel (vs : List V) (limit : Option Int) (b : Bool) :
    SideRel (bdInitSide g c vs limit : BdSide V W M ML D) (spInit g (c.side b) none vs : SpState V L W M ML D) where
  heap := by
    simp only [bdInitSide, spInit, heapify_forget]
    rw [bdStartEntries_forget (b := b)]; rfl
  no := rfl
  dist := rfl
  preds := rfl
  labels := rfl

/-- A step of a traversal keeps its invariant. -/
theorem sp_adv {c : WCfg V K L W} {starts : List V} {B : K → W} (ht : c.isTree = false) (hd : g.dd.Lawful c.inf)
    (hn : NonNeg c.next) (hc : WCompat c.next c.vid) {h : List (Ev (SpReport V W M ML D))}
    {t t' : SpState V L W M ML D} {F : K → Option W} {cur : W}
    (ok : SpAll c starts B g h t F cur) (hs : (spStep g c t).next? = some t') :
    ∃ h', SpAll c starts B g h' t' (spNextF c g t F) (spNextCur c g t cur) ∧
      ∀ ids : List K, (∀ w v, AW c starts B w v → c.vid v ∈ ids) →
        lex4 (spMeasure ids (spNextF c g t F) t') (spMeasure ids F t) := by
  have := sp_step ht hd hn hc ok
  cases hm : spStep g c t with
  | stop t => rw [hm] at hs; simp [Step.next?] at hs
  | fail t => rw [hm] at hs; simp [Step.next?] at hs
  | tau t =>
    rw [hm] at this hs; simp only [Step.next?, Option.some.injEq] at hs; subst hs
    obtain ⟨F', cur', ⟨rfl, rfl⟩, h1, h2⟩ := this
    exact ⟨_, h1, h2⟩
  | emit r t =>
    rw [hm] at this hs; simp only [Step.next?, Option.some.injEq] at hs; subst hs
    obtain ⟨F', cur', ⟨rfl, rfl⟩, h1, h2⟩ := this
    exact ⟨_, h1, h2⟩
  | expand t =>
    rw [hm] at this hs; simp only [Step.next?, Option.some.injEq] at hs; subst hs
    obtain ⟨F', cur', ⟨rfl, rfl⟩, h1, h2⟩ := this
    exact ⟨_, h1, h2⟩

theorem lex4_trans {a b c : Nat × Nat × Nat × Nat} (h1 : lex4 a b) (h2 : lex4 b c) : lex4 a c := by
  obtain ⟨a1, a2, a3, a4⟩ := a
  obtain ⟨b1, b2, b3, b4⟩ := b
  obtain ⟨c1, c2, c3, c4⟩ := c
  rw [lex4_iff] at *
  omega

/-! ## What the distances mean -/

section

variable {c : WCfg V K L W} {starts : List V} {h : List (Ev (SpReport V W M ML D))} {t : SpState V L W M ML D}
  {F : K → Option W} {cur : W}

theorem SpInv.dist_nonneg (inv : SpInv c starts (spB c starts) g h t F cur) (hk : c.keepDistances = true)
    (hinf : 0 ≤ c.inf) (k : K) : 0 ≤ g.dd.get t.dist k := by
  cases hF : F k with
  | some w =>
    obtain ⟨h1, -, -, h4, -⟩ := inv.donev _ _ hF
    rw [h4, if_pos hk]; exact h1
  | none =>
    obtain ⟨-, ⟨h2, h3⟩ | ⟨e, he, -, h2⟩⟩ := inv.undone _ hF
    · rw [h2, spB, if_neg h3]; exact hinf
    · rw [← h2]; exact inv.cur0.trans (inv.lower e he)

/-- A distance below infinity is the weight of a walk. -/
theorem SpInv.dist_walk (inv : SpInv c starts (spB c starts) g h t F cur) (hk : c.keepDistances = true)
    {k : K} (hlt : g.dd.get t.dist k < c.inf) :
    ∃ u, c.vid u = k ∧ WalkW c.next (· ∈ starts) (g.dd.get t.dist k) u := by
  cases hF : F k with
  | some w =>
    obtain ⟨-, -, -, h4, -⟩ := inv.donev _ _ hF
    rw [h4, if_pos hk]
    obtain ⟨u, h1, h2, -⟩ := inv.relaxed _ _ hF
    exact ⟨u, h1, aw_plain h2⟩
  | none =>
    obtain ⟨-, ⟨h2, h3⟩ | ⟨e, he, h1, h2⟩⟩ := inv.undone _ hF
    · rw [h2, spB, if_neg h3] at hlt; exact absurd hlt (lt_irrefl _)
    · rw [← h2]; exact ⟨_, h1, aw_plain (inv.walk e he)⟩

/-- A walk to a finished id is not shorter than the distance. -/
theorem SpInv.dist_le (inv : SpInv c starts (spB c starts) g h t F cur) (hk : c.keepDistances = true)
    (hn : NonNeg c.next) (hc : WCompat c.next c.vid) {w : W} {v : V} (hw : WalkW c.next (· ∈ starts) w v)
    (hlt : w < c.inf) (hF : (F (c.vid v)).isSome) : g.dd.get t.dist (c.vid v) ≤ w := by
  obtain ⟨w', h1⟩ := Option.isSome_iff_exists.1 hF
  obtain ⟨-, -, -, h4, h5⟩ := inv.donev _ _ h1
  obtain ⟨w2, v2, h6, h7, h8⟩ := aw_of_plain hn hc hw hlt
  rw [h4, if_pos hk]
  exact (h5 _ _ h6 h8).trans h7

/-- Edges of finished vertices have been used. -/
theorem SpInv.dist_relaxed (inv : SpInv c starts (spB c starts) g h t F cur) (hk : c.keepDistances = true)
    (hc : WCompat c.next c.vid) (hpc : t.pc = .loop) {v u : V} {x : W}
    (hF : (F (c.vid v)).isSome) (he : WEdge c.next v u x) :
    g.dd.get t.dist (c.vid u) ≤ g.dd.get t.dist (c.vid v) + x := by
  obtain ⟨w', h1⟩ := Option.isSome_iff_exists.1 hF
  obtain ⟨-, -, -, h4, -⟩ := inv.donev _ _ h1
  rw [h4, if_pos hk]
  obtain ⟨v', h5, -, h6⟩ := inv.relaxed _ _ h1
  obtain ⟨u', h7, h8⟩ := hc v v' u x h5.symm he
  rcases h6 u' x h7 with h9 | ⟨-, h9⟩
  · rw [hpc] at h9; exact absurd h9 id
  · rw [h8] at h9
    unfold SpBest at h9
    cases hFu : F (c.vid u) with
    | some w2 =>
      rw [hFu] at h9
      rw [(inv.donev _ _ hFu).2.2.2.1, if_pos hk]; exact h9
    | none => rw [hFu] at h9; exact h9

end

/-! ## The invariant -/

variable (g c starts goals) in
/-- The assumptions. -/
structure BdOk : Prop where
  dd : g.dd.Lawful c.inf
  nonneg : ∀ b, NonNeg (c.next b)
  compat : ∀ b, WCompat (c.next b) c.vid
  inf : 0 ≤ c.inf
  no : ∀ s ∈ starts, ∀ t ∈ goals, c.vid s ≠ c.vid t

theorem BdOk.no' (hok : BdOk g c starts goals) (b : Bool) :
    ∀ s ∈ biEnds starts goals b, ∀ t ∈ biEnds starts goals (!b), c.vid s ≠ c.vid t := by
  cases b
  · exact hok.no
  · intro s hs t ht he; exact hok.no t ht s hs he.symm

/-- The sum of the distances in both directions. -/
def bdSum (g : WGear V K L W M ML D) (s : BdState V L W M ML D) (k : K) : W :=
  g.dd.get s.fw.dist k + g.dd.get s.bw.dist k

theorem bdSum_eq (s : BdState V L W M ML D) (k : K) (b : Bool) :
    bdSum g s k = g.dd.get (s.get b).dist k + g.dd.get (s.get (!b)).dist k := by
  cases b
  · rfl
  · exact add_comm _ _

/-- The pc of the traversal of direction `b`. -/
def BdPcRel (s : BdState V L W M ML D) (b : Bool) (pc : SpPc V L W) : Prop :=
  if b = s.back then
    match s.pc with
    | .loop => pc = .loop
    | .edges v w es => ∃ ec, pc = .edges v w ec es
  else pc = .loop

variable (g c starts goals) in
/-- Invariant, with witnesses: states `t` of two traversals, finished ids `F` and largest finished
distances `cur`. `ns`: no superseded heap entry has been met. -/
structure BdWit (ns : Prop) (s : BdState V L W M ML D) (t : Bool → SpState V L W M ML D)
    (h : Bool → List (Ev (SpReport V W M ML D))) (F : Bool → K → Option W) (cur : Bool → W) : Prop where
  all : ∀ b, SpAll (c.side b) (biEnds starts goals b) (spB (c.side b) (biEnds starts goals b)) g (h b) (t b) (F b) (cur b)
  rel : ∀ b, SideRel (s.get b) (t b)
  pcr : ∀ b, BdPcRel s b (t b).pc
  low : ∀ k, s.best ≤ bdSum g s k
  val : s.best = c.inf ∨ (s.best < c.inf ∧ s.best = bdSum g s (c.vid s.node))
  goal : ∀ b, ∀ v ∈ biEnds starts goals (!b), F b (c.vid v) = none
  oth : ∃ b, s.others = cur b
  othNs : ns → match s.pc with
    | .loop => s.others = cur (!s.back)
    | .edges _ _ _ => s.others = cur s.back
  found : s.found = false

variable (g c) in
/-- The next heap entry of the chosen direction is superseded. -/
def BdStale (s : BdState V L W M ML D) : Prop :=
  s.pc = .loop ∧ ∃ e rest, (s.get s.back).heap = e :: rest ∧ g.dd.get (s.get s.back).dist (c.vid e.item) < e.key

theorem BdState.get_setCur_same (s : BdState V L W M ML D) (x : BdSide V W M ML D) :
    (s.setCur x).get s.back = x := by
  cases hb : s.back <;> simp [BdState.get, BdState.setCur, hb]

theorem BdState.get_setCur_other (s : BdState V L W M ML D) (x : BdSide V W M ML D) :
    (s.setCur x).get (!s.back) = s.get (!s.back) := by
  cases hb : s.back <;> simp [BdState.get, BdState.setCur, hb]

theorem BdState.setCur_back (s : BdState V L W M ML D) (x : BdSide V W M ML D) : (s.setCur x).back = s.back := by
  unfold BdState.setCur; split <;> rfl

theorem BdState.setCur_fields (s : BdState V L W M ML D) (x : BdSide V W M ML D) :
    (s.setCur x).best = s.best ∧ (s.setCur x).node = s.node ∧ (s.setCur x).others = s.others ∧
    (s.setCur x).found = s.found ∧ (s.setCur x).pc = s.pc := by
  unfold BdState.setCur; split <;> simp

theorem bool_cases (b : Bool) {P : Bool → Prop} (h1 : P b) (h2 : P (!b)) : ∀ a, P a := by
  intro a; cases a <;> cases b <;> assumption

theorem bdSum_congr {s s' : BdState V L W M ML D} {k : K} {b : Bool}
    (h1 : g.dd.get (s'.get b).dist k = g.dd.get (s.get b).dist k)
    (h2 : g.dd.get (s'.get (!b)).dist k = g.dd.get (s.get (!b)).dist k) : bdSum g s' k = bdSum g s k := by
  rw [bdSum_eq s' k b, bdSum_eq s k b, h1, h2]

theorem bd_init (hok : BdOk g c starts goals) (ns : Prop) (start : V) (limit : Option Int) :
    BdWit g c starts goals ns (bdInit g c start starts goals limit : BdState V L W M ML D)
      (fun b => spInit g (c.side b) none (biEnds starts goals b)) (fun _ => []) (fun _ _ => none) (fun _ => 0) where
  all b := sp_init0 (hok.nonneg b) (fun k => spDistances_none (c := c.side b) hok.dd k) spB_start_nonneg
  rel b := by cases b <;> exact bdInit_rel _ _ _
  pcr b := by unfold BdPcRel; split <;> rfl
  low k := by
    have hd : ∀ b, g.dd.get ((bdInit g c start starts goals limit : BdState V L W M ML D).get b).dist k =
        spB (c.side b) (biEnds starts goals b) k := by
      intro b
      have := spDistances_none (g := g) (c := c.side b) (starts := biEnds starts goals b) hok.dd k
      cases b <;> exact this
    rw [bdSum_eq _ k false, hd, hd]
    show c.inf ≤ _
    unfold spB
    split
    · rename_i h1
      rw [if_neg]
      · rw [zero_add]; exact le_refl _
      · intro h2
        obtain ⟨s, hs, he⟩ := List.mem_map.1 h1
        obtain ⟨t, ht, he'⟩ := List.mem_map.1 h2
        exact hok.no s hs t ht (he.trans he'.symm)
    · split
      · rw [add_zero]; exact le_refl _
      · exact le_add_of_nonneg_right hok.inf
  val := .inl rfl
  goal b v hv := rfl
  oth := ⟨false, rfl⟩
  othNs _ := rfl
  found := rfl

variable {ns : Prop} {s : BdState V L W M ML D} {t : Bool → SpState V L W M ML D}
  {h : Bool → List (Ev (SpReport V W M ML D))} {F : Bool → K → Option W} {cur : Bool → W}

theorem BdWit.heap_cons (w : BdWit g c starts goals ns s t h F cur) {b : Bool} {e : HEntry W V} {rest : List (HEntry W V)}
    (hh : (s.get b).heap = e :: rest) :
    ∃ e' rest', (t b).heap = e' :: rest' ∧ forget e' = e ∧ rest'.map forget = rest := by
  have := (w.rel b).heap
  rw [hh] at this
  exact List.map_eq_cons_iff.1 this.symm

theorem BdWit.others_nonneg (w : BdWit g c starts goals ns s t h F cur) : 0 ≤ s.others := by
  obtain ⟨b, hb⟩ := w.oth
  rw [hb]; exact (w.all b).1.cur0

theorem BdWit.dist_end (w : BdWit g c starts goals ns s t h F cur) (b : Bool) :
    ∀ v ∈ biEnds starts goals b, g.dd.get (s.get b).dist (c.vid v) = 0 := by
  intro v hv
  rw [(w.rel b).dist]
  exact ((w.all b).1.get_done rfl).1 v hv

theorem BdWit.best_le (w : BdWit g c starts goals ns s t h F cur) : s.best ≤ c.inf := by
  rcases w.val with h | h
  · exact h.le
  · exact h.1.le

/-- A goal of the chosen direction is not expanded: the search ends before. -/
theorem BdWit.pop_goal (hok : BdOk g c starts goals) (w : BdWit g c starts goals ns s t h F cur)
    {e' : HEntry W (V × Nat)} {rest' : List (HEntry W (V × Nat))} (hh : (t s.back).heap = e' :: rest')
    (hst : ¬ g.dd.get (s.get s.back).dist (c.vid e'.item.1) < e'.key)
    (hgo : ¬ (c.inf ≠ s.best ∧ s.best ≤ e'.key + s.others)) :
    ∀ v ∈ biEnds starts goals (!s.back), c.vid v ≠ c.vid e'.item.1 := by
  intro v hv hid
  apply hgo
  have inv := (w.all s.back).1
  have he : e' ∈ (t s.back).heap := by rw [hh]; exact List.mem_cons_self
  have hF : F s.back (c.vid e'.item.1) = none := hid ▸ w.goal s.back v hv
  have hle := inv.entU e' he hF
  have hsum := w.low (c.vid e'.item.1)
  rw [bdSum_eq _ _ s.back, ← hid, w.dist_end (!s.back) v hv, add_zero, hid, (w.rel s.back).dist] at hsum
  have hb : s.best ≤ e'.key := hsum.trans hle
  have hlt : e'.key < c.inf := by
    refine (inv.entS e' he ?_).2
    rcases Nat.eq_zero_or_pos e'.item.2 with h0 | h0
    · exact absurd hid.symm (hok.no' s.back _ (inv.ent0 e' he h0).1 v hv)
    · exact h0
  exact ⟨fun heq => absurd (lt_of_le_of_lt hb hlt) (by rw [← heq]; exact lt_irrefl _),
    hb.trans (le_add_of_nonneg_right w.others_nonneg)⟩

/-- What a step leads to. -/
def BdNext (g : WGear V K L W M ML D) (c : BdCfg V K L W) (starts goals : List V) (ns : Prop)
    (s : BdState V L W M ML D) (t : Bool → SpState V L W M ML D) (F : Bool → K → Option W)
    (s' : BdState V L W M ML D) : Prop :=
  ∃ t' h' F' cur', BdWit g c starts goals ns s' t' h' F' cur' ∧
    (t' (!s.back) = t (!s.back) ∧ F' (!s.back) = F (!s.back)) ∧
    ∀ ids : List K, (∀ w v, AW (c.side s.back) (biEnds starts goals s.back)
        (spB (c.side s.back) (biEnds starts goals s.back)) w v → c.vid v ∈ ids) →
      lex4 (spMeasure ids (F' s.back) (t' s.back)) (spMeasure ids (F s.back) (t s.back))

theorem Bool.ne_not (b : Bool) : (!b) ≠ b := by cases b <;> simp

/-- Assemble the invariant after a step of one direction. -/
theorem BdWit.update (w : BdWit g c starts goals ns s t h F cur) {s' : BdState V L W M ML D}
    {T : SpState V L W M ML D} {H : List (Ev (SpReport V W M ML D))} {G : K → Option W} {y : W}
    (hall : SpAll (c.side s.back) (biEnds starts goals s.back) (spB (c.side s.back) (biEnds starts goals s.back)) g H T G y)
    (hrel : SideRel (s'.get s.back) T) (hoth : s'.get (!s.back) = s.get (!s.back))
    (hpcr : BdPcRel s' s.back T.pc) (hpcr' : BdPcRel s' (!s.back) (t (!s.back)).pc)
    (hlow : ∀ k, s'.best ≤ bdSum g s' k)
    (hval : s'.best = c.inf ∨ (s'.best < c.inf ∧ s'.best = bdSum g s' (c.vid s'.node)))
    (hgoal : ∀ v ∈ biEnds starts goals (!s.back), G (c.vid v) = none)
    (hothers : s'.others = y ∨ s'.others = cur (!s.back))
    (hns : ns → match s'.pc with
      | .loop => s'.others = (fun b => if b = s.back then y else cur b) (!s'.back)
      | .edges _ _ _ => s'.others = (fun b => if b = s.back then y else cur b) s'.back)
    (hf : s'.found = false) :
    BdWit g c starts goals ns s' (fun b => if b = s.back then T else t b) (fun b => if b = s.back then H else h b)
      (fun b => if b = s.back then G else F b) (fun b => if b = s.back then y else cur b) where
  all := by
    refine bool_cases s.back ?_ ?_
    · simpa using hall
    · simpa [Bool.ne_not] using w.all (!s.back)
  rel := by
    refine bool_cases s.back ?_ ?_
    · simpa using hrel
    · simp only [Bool.ne_not, if_false, hoth]; exact w.rel _
  pcr := by
    refine bool_cases s.back ?_ ?_
    · simpa using hpcr
    · simpa [Bool.ne_not] using hpcr'
  low := hlow
  val := hval
  goal := by
    refine bool_cases s.back ?_ ?_
    · simpa using hgoal
    · simp only [Bool.ne_not, if_false]; exact w.goal _
  oth := by
    rcases hothers with h | h
    · exact ⟨s.back, by simpa using h⟩
    · exact ⟨!s.back, by simpa [Bool.ne_not] using h⟩
  othNs := hns
  found := hf

theorem BdWit.pc_other (w : BdWit g c starts goals ns s t h F cur) : (t (!s.back)).pc = .loop := by
  have := w.pcr (!s.back)
  rw [BdPcRel, if_neg (Bool.ne_not _)] at this
  exact this

theorem BdWit.pc_loop (w : BdWit g c starts goals ns s t h F cur) (hpc : s.pc = .loop) (b : Bool) : (t b).pc = .loop := by
  have := w.pcr b
  rw [BdPcRel, hpc] at this
  split at this <;> exact this

theorem BdWit.pc_edges (w : BdWit g c starts goals ns s t h F cur) {v : V} {x : W} {es : List (V × W × L)}
    (hpc : s.pc = .edges v x es) : ∃ ec, (t s.back).pc = .edges v x ec es := by
  have := w.pcr s.back
  rw [BdPcRel, if_pos rfl, hpc] at this
  exact this

/-- Skipping a superseded entry. -/
theorem BdWit.stale (hok : BdOk g c starts goals) (w : BdWit g c starts goals ns s t h F cur) (hns : ns → ¬ BdStale g c s)
    (hpc : s.pc = .loop) {e : HEntry W V} {rest : List (HEntry W V)} (hh : (s.get s.back).heap = e :: rest)
    (hst : g.dd.get (s.get s.back).dist (c.vid e.item) < e.key) :
    BdNext g c starts goals ns s t F { s.setCur { s.get s.back with heap := rest } with back := !s.back } := by
  obtain ⟨e', rest', h1, h2, h3⟩ := w.heap_cons hh
  subst h2
  have htpc := w.pc_loop hpc s.back
  have hst' : g.dd.get (t s.back).dist (c.vid e'.item.1) < e'.key := by rw [← (w.rel s.back).dist]; exact hst
  have hstep : (spStep g (c.side s.back) (t s.back)).next? = some { t s.back with heap := rest' } := by
    unfold spStep
    rw [htpc, h1]
    have : (!(c.side s.back).isTree && decide (g.dd.get (t s.back).dist ((c.side s.back).vid e'.item.1) < e'.key)) = true := by
      simp [BdCfg.side, hst']
    simp only [this, if_true, Step.next?, htpc]
  obtain ⟨H, hall, hmes⟩ := sp_adv rfl hok.dd (hok.nonneg _) (hok.compat _) (w.all s.back) hstep
  have hF : spNextF (c.side s.back) g (t s.back) (F s.back) = F s.back := by
    unfold spNextF
    rw [htpc, h1]
    exact if_pos (.inl hst')
  have hcur : spNextCur (c.side s.back) g (t s.back) (cur s.back) = cur s.back := by
    unfold spNextCur
    rw [htpc, h1]
    exact if_pos hst'
  rw [hF, hcur] at hall
  rw [hF] at hmes
  have hget : ∀ b, ({ s.setCur { s.get s.back with heap := rest } with back := !s.back } : BdState V L W M ML D).get b =
      (s.setCur { s.get s.back with heap := rest }).get b := fun b => rfl
  have hsum : ∀ k, bdSum g ({ s.setCur { s.get s.back with heap := rest } with back := !s.back } : BdState V L W M ML D) k =
      bdSum g s k := by
    intro k
    refine bdSum_congr (b := s.back) ?_ ?_
    · rw [hget, BdState.get_setCur_same]
    · rw [hget, BdState.get_setCur_other]
  obtain ⟨f1, f2, f3, f4, f5⟩ := s.setCur_fields { s.get s.back with heap := rest }
  refine ⟨_, _, _, _, w.update hall ?_ ?_ ?_ ?_ ?_ ?_ (w.goal s.back) ?_ ?_ ?_, ?_, ?_⟩
  · rw [hget, BdState.get_setCur_same]
    have := w.rel s.back
    exact ⟨h3.symm, this.no, this.dist, this.preds, this.labels⟩
  · rw [hget, BdState.get_setCur_other]
  · simp only [BdPcRel, f5, hpc]; split <;> exact htpc
  · simp only [BdPcRel, f5, hpc]; split <;> exact w.pc_other
  · intro k; rw [hsum, f1]; exact w.low k
  · rw [hsum, f1, f2]; exact w.val
  · simp only [f3]
    obtain ⟨b, hb⟩ := w.oth
    by_cases hbb : b = s.back
    · left; rw [hb, hbb]
    · right
      have : b = !s.back := by cases b <;> cases hs : s.back <;> simp_all
      rw [hb, this]
  · intro hn; exact absurd ⟨hpc, _, _, hh, hst⟩ (hns hn)
  · simp only [f4]; exact w.found
  · simp [Bool.ne_not]
  · simp only [if_true]; exact hmes

/-- Taking a vertex from the heap and beginning to expand it. -/
theorem BdWit.expand (hok : BdOk g c starts goals) (w : BdWit g c starts goals ns s t h F cur)
    (hpc : s.pc = .loop) {e : HEntry W V} {rest : List (HEntry W V)} (hh : (s.get s.back).heap = e :: rest)
    (hst : ¬ g.dd.get (s.get s.back).dist (c.vid e.item) < e.key)
    (hgo : ¬ (c.inf ≠ s.best ∧ s.best ≤ e.key + s.others)) (lim : Option Int) :
    BdNext g c starts goals ns s t F { s.setCur { s.get s.back with heap := rest, lim := lim } with
      others := e.key, pc := .edges e.item e.key (c.next s.back e.item) } := by
  obtain ⟨e', rest', h1, h2, h3⟩ := w.heap_cons hh
  subst h2
  have htpc := w.pc_loop hpc s.back
  have hst' : ¬ g.dd.get (t s.back).dist (c.vid e'.item.1) < e'.key := by rw [← (w.rel s.back).dist]; exact hst
  have hng := w.pop_goal hok h1 hst hgo
  obtain ⟨T1, hT1⟩ : ∃ T1 : SpState V L W M ML D, T1 = { t s.back with
      heap := rest', pc := .expand e'.item.1 e'.key e'.item.2 } := ⟨_, rfl⟩
  have hstep : (spStep g (c.side s.back) (t s.back)).next? = some T1 := by
    unfold spStep
    rw [htpc, h1]
    have : (!(c.side s.back).isTree && decide (g.dd.get (t s.back).dist ((c.side s.back).vid e'.item.1) < e'.key)) = false := by
      simp only [Bool.and_eq_false_iff, decide_eq_false_iff_not]; exact .inr hst'
    have h2 : (!(c.side s.back).isTree && !(c.side s.back).keepDistances) = false := by simp [BdCfg.side]
    simp only [this, h2, Bool.false_eq_true, if_false]
    split <;> simp [Step.next?, hT1]
  obtain ⟨H, hall, hmes⟩ := sp_adv rfl hok.dd (hok.nonneg _) (hok.compat _) (w.all s.back) hstep
  have hstep2 : (spStep g (c.side s.back) T1).next? = some { T1 with
      pc := .edges e'.item.1 e'.key e'.item.2 (c.next s.back e'.item.1) } := by
    unfold spStep
    have : T1.pc = .expand e'.item.1 e'.key e'.item.2 := by rw [hT1]
    simp only [this, Step.next?]; rfl
  obtain ⟨H2, hall2, hmes2⟩ := sp_adv rfl hok.dd (hok.nonneg _) (hok.compat _) hall hstep2
  have hF2 : ∀ G, spNextF (c.side s.back) g T1 G = G := by
    intro G; unfold spNextF; rw [hT1]
  have hcur2 : ∀ y, spNextCur (c.side s.back) g T1 y = y := by
    intro G; unfold spNextCur; rw [hT1]
  rw [hF2, hcur2] at hall2
  rw [hF2] at hmes2
  have hcur : spNextCur (c.side s.back) g (t s.back) (cur s.back) = e'.key := by
    unfold spNextCur
    rw [htpc, h1]
    exact if_neg hst'
  rw [hcur] at hall2
  have hget : ∀ b, ({ s.setCur { s.get s.back with heap := rest, lim := lim } with
      others := (forget e').key, pc := .edges (forget e').item (forget e').key (c.next s.back (forget e').item) } : BdState V L W M ML D).get b =
      (s.setCur { s.get s.back with heap := rest, lim := lim }).get b := fun b => rfl
  have hsum : ∀ k, bdSum g ({ s.setCur { s.get s.back with heap := rest, lim := lim } with
      others := (forget e').key, pc := .edges (forget e').item (forget e').key (c.next s.back (forget e').item) } : BdState V L W M ML D) k =
      bdSum g s k := by
    intro k
    refine bdSum_congr (b := s.back) ?_ ?_
    · rw [hget, BdState.get_setCur_same]
    · rw [hget, BdState.get_setCur_other]
  obtain ⟨f1, f2, f3, f4, f5⟩ := s.setCur_fields { s.get s.back with heap := rest, lim := lim }
  have f6 := s.setCur_back { s.get s.back with heap := rest, lim := lim }
  refine ⟨_, _, _, _, w.update hall2 ?_ ?_ ?_ ?_ ?_ ?_ ?_ ?_ ?_ ?_, ?_, ?_⟩
  · rw [hget, BdState.get_setCur_same]
    have := w.rel s.back
    rw [hT1]
    exact ⟨h3.symm, this.no, this.dist, this.preds, this.labels⟩
  · rw [hget, BdState.get_setCur_other]
  · simp only [BdPcRel, f6, if_true]; exact ⟨_, rfl⟩
  · simp only [BdPcRel, f6, Bool.ne_not, if_false]; exact w.pc_other
  · intro k; rw [hsum, f1]; exact w.low k
  · rw [hsum, f1, f2]; exact w.val
  · intro v hv
    unfold spNextF
    rw [htpc, h1]
    simp only
    split
    · exact w.goal _ v hv
    · unfold spFin
      have hne : ¬ c.vid v = (c.side s.back).vid e'.item.1 := hng v hv
      rw [if_neg hne]
      exact w.goal _ v hv
  · exact .inl rfl
  · intro _
    simp only [f6, if_true]; rfl
  · simp only [f4]; exact w.found
  · simp [Bool.ne_not]
  · intro ids hids
    simp only [if_true]
    exact lex4_trans (hmes2 ids hids) (hmes ids hids)

/-- All edges of the vertex have been read. -/
theorem BdWit.edgesEnd (hok : BdOk g c starts goals) (w : BdWit g c starts goals ns s t h F cur)
    {v : V} {x : W} (hpc : s.pc = .edges v x []) :
    BdNext g c starts goals ns s t F { s with pc := .loop, back := !s.back } := by
  obtain ⟨ec, htpc⟩ := w.pc_edges hpc
  have hstep : (spStep g (c.side s.back) (t s.back)).next? = some { t s.back with pc := .loop } := by
    unfold spStep; rw [htpc]; rfl
  obtain ⟨H, hall, hmes⟩ := sp_adv rfl hok.dd (hok.nonneg _) (hok.compat _) (w.all s.back) hstep
  have hF : spNextF (c.side s.back) g (t s.back) (F s.back) = F s.back := by unfold spNextF; rw [htpc]
  have hcur : spNextCur (c.side s.back) g (t s.back) (cur s.back) = cur s.back := by unfold spNextCur; rw [htpc]
  rw [hF, hcur] at hall
  rw [hF] at hmes
  refine ⟨_, _, _, _, w.update hall ?_ rfl ?_ ?_ w.low w.val (w.goal s.back) ?_ ?_ w.found, ?_, ?_⟩
  · have := w.rel s.back
    exact ⟨this.heap, this.no, this.dist, this.preds, this.labels⟩
  · simp [BdPcRel]
  · simp only [BdPcRel]; split <;> exact w.pc_other
  · obtain ⟨b, hb⟩ := w.oth
    by_cases hbb : b = s.back
    · left; rw [hb, hbb]
    · right
      have : b = !s.back := by cases b <;> cases hs : s.back <;> simp_all
      rw [hb, this]
  · intro hn
    have := w.othNs hn
    rw [hpc] at this
    simpa using this
  · simp [Bool.ne_not]
  · simp only [if_true]; exact hmes

/-- No improvement for the neighbor. -/
theorem BdWit.edgeSkip (hok : BdOk g c starts goals) (w : BdWit g c starts goals ns s t h F cur)
    {v n : V} {x y : W} {l : L} {es : List (V × W × L)} (hpc : s.pc = .edges v x ((n, y, l) :: es))
    (hinf : ¬ c.inf ≤ y + x) (himp : g.dd.improve (s.get s.back).dist (c.vid n) (y + x) = none) :
    BdNext g c starts goals ns s t F { s with pc := .edges v x es } := by
  obtain ⟨ec, htpc⟩ := w.pc_edges hpc
  rw [(w.rel s.back).dist] at himp
  have hstep : (spStep g (c.side s.back) (t s.back)).next? = some { t s.back with pc := .edges v x ec es } := by
    unfold spStep; rw [htpc]
    have h1 : ¬ (c.side s.back).inf ≤ y + x := hinf
    have h2 : spImprove g (c.side s.back) (t s.back).dist ((c.side s.back).vid n) (y + x) = none := himp
    simp only [if_neg h1, h2, Step.next?]
  obtain ⟨H, hall, hmes⟩ := sp_adv rfl hok.dd (hok.nonneg _) (hok.compat _) (w.all s.back) hstep
  have hF : spNextF (c.side s.back) g (t s.back) (F s.back) = F s.back := by unfold spNextF; rw [htpc]
  have hcur : spNextCur (c.side s.back) g (t s.back) (cur s.back) = cur s.back := by unfold spNextCur; rw [htpc]
  rw [hF, hcur] at hall
  rw [hF] at hmes
  refine ⟨_, _, _, _, w.update hall ?_ rfl ?_ ?_ w.low w.val (w.goal s.back) ?_ ?_ w.found, ?_, ?_⟩
  · have := w.rel s.back
    exact ⟨this.heap, this.no, this.dist, this.preds, this.labels⟩
  · simp only [BdPcRel, if_true]; exact ⟨_, rfl⟩
  · simp only [BdPcRel, Bool.ne_not, if_false]; exact w.pc_other
  · obtain ⟨b, hb⟩ := w.oth
    by_cases hbb : b = s.back
    · left; rw [hb, hbb]
    · right
      have : b = !s.back := by cases b <;> cases hs : s.back <;> simp_all
      rw [hb, this]
  · intro hn
    have := w.othNs hn
    rw [hpc] at this
    simpa using this
  · simp [Bool.ne_not]
  · simp only [if_true]; exact hmes

/-- A shorter path to the neighbor: the part that concerns the direction. -/
theorem BdWit.edgePush (hok : BdOk g c starts goals) (w : BdWit g c starts goals ns s t h F cur)
    {v n : V} {x y : W} {l : L} {es : List (V × W × L)} {d : D} (hpc : s.pc = .edges v x ((n, y, l) :: es))
    (hinf : ¬ c.inf ≤ y + x) (himp : g.dd.improve (s.get s.back).dist (c.vid n) (y + x) = some d)
    {me' : BdSide V W M ML D}
    (hme : me' = { s.get s.back with
            heap := heapPush (s.get s.back).heap ⟨y + x, (s.get s.back).no, n⟩
            no := (s.get s.back).no - 1
            dist := d
            preds := if c.buildPath then g.mo.set (s.get s.back).preds (c.vid n) v else (s.get s.back).preds
            labels := if c.buildPath then g.lo.set (s.get s.back).labels (c.vid n) l else (s.get s.back).labels })
    {best : W} {node : V}
    (hbn : (s.best ≤ y + x + g.dd.get (s.get (!s.back)).dist (c.vid n) ∧ best = s.best ∧ node = s.node) ∨
      (¬ s.best ≤ y + x + g.dd.get (s.get (!s.back)).dist (c.vid n) ∧
        best = y + x + g.dd.get (s.get (!s.back)).dist (c.vid n) ∧ node = n)) :
    BdNext g c starts goals ns s t F { s.setCur me' with pc := .edges v x es, best := best, node := node } := by
  obtain ⟨ec, htpc⟩ := w.pc_edges hpc
  have hrel := w.rel s.back
  have hlt : y + x < c.inf := lt_of_not_ge hinf
  have hnew := hok.dd.improve_some _ _ _ _ hlt himp
  have hgt : y + x < g.dd.get (s.get s.back).dist (c.vid n) := by
    refine lt_of_not_ge (fun hle => ?_)
    rw [(hok.dd.improve_none _ _ _ hlt).2 hle] at himp
    simp at himp
  obtain ⟨T, hT⟩ : ∃ T : SpState V L W M ML D, T = ⟨.edges v x ec es,
      heapPush (t s.back).heap ⟨y + x, (t s.back).no, (n, ec + 1)⟩, (t s.back).no - 1, d,
          if c.buildPath then g.mo.set (t s.back).preds (c.vid n) v else (t s.back).preds,
          if c.buildPath then g.lo.set (t s.back).labels (c.vid n) l else (t s.back).labels⟩ := ⟨_, rfl⟩
  have hstep : (spStep g (c.side s.back) (t s.back)).next? = some T := by
    unfold spStep; rw [htpc]
    have h1 : ¬ (c.side s.back).inf ≤ y + x := hinf
    have h2 : spImprove g (c.side s.back) (t s.back).dist ((c.side s.back).vid n) (y + x) = some d := by
      rw [hrel.dist] at himp; exact himp
    simp only [if_neg h1, h2, Step.next?, hT]; rfl
  obtain ⟨H, hall, hmes⟩ := sp_adv rfl hok.dd (hok.nonneg _) (hok.compat _) (w.all s.back) hstep
  have hF : spNextF (c.side s.back) g (t s.back) (F s.back) = F s.back := by unfold spNextF; rw [htpc]
  have hcur : spNextCur (c.side s.back) g (t s.back) (cur s.back) = cur s.back := by unfold spNextCur; rw [htpc]
  rw [hF, hcur] at hall
  rw [hF] at hmes
  have hget : ∀ b, ({ s.setCur me' with pc := .edges v x es, best := best, node := node } : BdState V L W M ML D).get b =
      (s.setCur me').get b := fun b => rfl
  have hsum : ∀ k, bdSum g ({ s.setCur me' with pc := .edges v x es, best := best, node := node } : BdState V L W M ML D) k =
      if k = c.vid n then y + x + g.dd.get (s.get (!s.back)).dist (c.vid n) else bdSum g s k := by
    intro k
    rw [bdSum_eq _ k s.back, hget, hget, BdState.get_setCur_same, BdState.get_setCur_other, hme]
    simp only [hnew]
    split
    · rename_i hk; rw [hk]
    · rw [bdSum_eq s k s.back]
  obtain ⟨f1, f2, f3, f4, f5⟩ := s.setCur_fields me'
  have f6 := s.setCur_back me'
  refine ⟨_, _, _, _, w.update hall ?_ ?_ ?_ ?_ ?_ ?_ (w.goal s.back) ?_ ?_ ?_, ?_, ?_⟩
  · rw [hget, BdState.get_setCur_same, hme, hT]
    refine ⟨?_, ?_, rfl, ?_, ?_⟩
    · simp only [heapPush_forget, hrel.heap, hrel.no]; rfl
    · simp only [hrel.no]
    · simp only [hrel.preds]
    · simp only [hrel.labels]
  · rw [hget, BdState.get_setCur_other]
  · simp only [BdPcRel, f6, if_true]; exact ⟨ec, by rw [hT]⟩
  · simp only [BdPcRel, f6, Bool.ne_not, if_false]; exact w.pc_other
  · intro k
    rw [hsum]
    rcases hbn with ⟨h1, h2, -⟩ | ⟨h1, h2, -⟩
    · simp only [h2]
      split
      · exact h1
      · exact w.low k
    · simp only [h2]
      split
      · exact le_refl _
      · exact (le_of_lt (lt_of_not_ge h1)).trans (w.low k)
  · rw [hsum]
    rcases hbn with ⟨h1, h2, h3⟩ | ⟨h1, h2, h3⟩
    · simp only [h2, h3]
      rcases w.val with h4 | ⟨h4, h5⟩
      · exact .inl h4
      · right
        refine ⟨h4, ?_⟩
        split
        · rename_i hk
          refine le_antisymm h1 ?_
          rw [bdSum_eq _ _ s.back, hk] at h5
          rw [h5]
          exact add_le_add_left hgt.le _
        · exact h5
    · right
      simp only [h2, h3, if_true, and_true]
      exact lt_of_lt_of_le (lt_of_not_ge h1) w.best_le
  · simp only [f3]
    obtain ⟨b, hb⟩ := w.oth
    by_cases hbb : b = s.back
    · left; rw [hb, hbb]
    · right
      have : b = !s.back := by cases b <;> cases hs : s.back <;> simp_all
      rw [hb, this]
  · intro hn
    have := w.othNs hn
    rw [hpc] at this
    simpa [f3, f6] using this
  · simp only [f4]; exact w.found
  · simp [Bool.ne_not]
  · simp only [if_true]; exact hmes

/-- Every step keeps the invariant. -/
theorem bd_step (hok : BdOk g c starts goals) (w : BdWit g c starts goals ns s t h F cur) (hns : ns → ¬ BdStale g c s)
    {s' : BdState V L W M ML D} (hs : (bdStep g c s).next? = some s') : BdNext g c starts goals ns s t F s' := by
  unfold bdStep at hs
  simp only at hs
  split at hs
  · rename_i hpc
    split at hs
    · simp [Step.next?] at hs
    · rename_i e rest hh
      split at hs
      · rename_i hst
        simp only [Step.next?, Option.some.injEq] at hs
        subst hs
        exact w.stale hok hns hpc hh hst
      · rename_i hst
        split at hs
        · simp [Step.next?] at hs
        · rename_i hgo
          split at hs
          · simp [Step.next?] at hs
          · rename_i lim _
            simp only [Step.next?, Option.some.injEq] at hs
            subst hs
            exact w.expand hok hpc hh hst hgo lim
  · rename_i hpc
    simp only [Step.next?, Option.some.injEq] at hs
    subst hs
    exact w.edgesEnd hok hpc
  · rename_i v x n y l es hpc
    split at hs
    · simp [Step.next?] at hs
    · rename_i hinf
      split at hs
      · rename_i himp
        simp only [Step.next?, Option.some.injEq] at hs
        subst hs
        exact w.edgeSkip hok hpc hinf himp
      · rename_i d himp
        split at hs
        · rename_i hle
          simp only [Step.next?, Option.some.injEq] at hs
          subst hs
          have := w.edgePush hok hpc hinf himp rfl (.inl ⟨hle, rfl, rfl⟩)
          obtain ⟨f1, f2, -⟩ := s.setCur_fields { s.get s.back with
            heap := heapPush (s.get s.back).heap ⟨y + x, (s.get s.back).no, n⟩
            no := (s.get s.back).no - 1
            dist := d
            preds := if c.buildPath then g.mo.set (s.get s.back).preds (c.vid n) v else (s.get s.back).preds
            labels := if c.buildPath then g.lo.set (s.get s.back).labels (c.vid n) l else (s.get s.back).labels }
          rw [← f1, ← f2] at this
          exact this
        · rename_i hle
          simp only [Step.next?, Option.some.injEq] at hs
          subst hs
          exact w.edgePush hok hpc hinf himp rfl (.inr ⟨hle, rfl, rfl⟩)

theorem bdStep_no_emit (s s' : BdState V L W M ML D) (r : Unit) : bdStep g c s ≠ .emit r s' := by
  unfold bdStep
  simp only
  split
  · split
    · simp
    · split
      · simp
      · split
        · simp
        · split <;> simp
  · simp
  · split
    · simp
    · split
      · simp
      · split <;> simp

/-- The invariant holds at each moment. -/
theorem bd_inv (hok : BdOk g c starts goals) (start : V) (limit : Option Int)
    (hns : ns → ∀ h s, Reaches (bdStep g c) (bdInit g c start starts goals limit) h s → ¬ BdStale g c s)
    {hh : List (Ev Unit)} (hr : Reaches (bdStep g c) (bdInit g c start starts goals limit) hh s) :
    ∃ t h F cur, BdWit g c starts goals ns s t h F cur := by
  refine Reaches.invariant' (fun _ s => ∃ t h F cur, BdWit g c starts goals ns s t h F cur)
    ⟨_, _, _, _, bd_init hok ns start limit⟩ ?_ ?_ ?_ hr
  · rintro h0 s s' hr ⟨t, h, F, cur, w⟩ hs
    obtain ⟨t', h', F', cur', h1, -⟩ := bd_step hok w (fun hn => hns hn _ _ hr) (s' := s') (by rw [hs]; rfl)
    exact ⟨_, _, _, _, h1⟩
  · rintro h0 s r s' hr _ hs
    exact absurd hs (bdStep_no_emit s s' r)
  · rintro h0 s s' hr ⟨t, h, F, cur, w⟩ hs
    obtain ⟨t', h', F', cur', h1, -⟩ := bd_step hok w (fun hn => hns hn _ _ hr) (s' := s') (by rw [hs]; rfl)
    exact ⟨_, _, _, _, h1⟩

end

end NoGraphs
