import Verif.Proofs.AStarGoal
import Verif.Proofs.AStarTerm
import Verif.Proofs.SpPaths

/-! A* with known distances and known path length guesses: invariant of the traversal. -/

set_option linter.unusedSectionVars false

namespace NoGraphs

open Spec

variable {V K L W M ML D : Type} [DecidableEq V] [DecidableEq K]
variable [AddCommMonoid W] [LinearOrder W] [IsOrderedCancelAddMonoid W]
variable {g : WGear V K L W M ML D} {c : AStarCfg V K L W} {starts : List V} {B : K → W} {G : Prop}

section

/-- A walk that visits no id twice and begins with the known distance of its first vertex. -/
inductive KSimple (next : V → List (V × W × L)) (S : V → Prop) (vid : V → K) (B : K → W) : List K → W → V → Prop
  | start {v} : S v → KSimple next S vid B [vid v] (B (vid v)) v
  | step {ks w u v x} : KSimple next S vid B ks w u → WEdge next u v x → vid v ∉ ks →
      KSimple next S vid B (vid v :: ks) (w + x) v

theorem KSimple.plain {next : V → List (V × W × L)} {S : V → Prop} {vid : V → K} {ks : List K} {w : W} {v : V}
    (h : KSimple next S vid B ks w v) : ∃ s w', S s ∧ w = B (vid s) + w' ∧ SimpleWalkW next S vid ks w' v := by
  induction h with
  | start hs => exact ⟨_, 0, hs, (add_zero _).symm, .start hs⟩
  | step _ he hm ih =>
    obtain ⟨s, w', h1, h2, h3⟩ := ih
    exact ⟨s, _, h1, by rw [h2, add_assoc], .step h3 he hm⟩

variable (g c starts B)

/-- A start vertex, or a distance smaller than the initial one has been found for this id. -/
def KKnown (s : AStarState V L W M ML D) (k : K) : Prop := k ∈ starts.map c.vid ∨ g.dd.get s.dist k < B k

/-- The current distance has been reported, or it is the initial distance of a start vertex. -/
def KRep (h : List (Ev (AStarReport V W M ML D))) (s : AStarState V L W M ML D) (k : K) : Prop :=
  (k ∈ starts.map c.vid ∧ g.dd.get s.dist k = B k) ∨
    ∃ r ∈ repsOf h, c.vid r.vertex = k ∧ r.pathLength = g.dd.get s.dist k

/-- There is a heap entry for the current distance. -/
def KEnt (heap : List (HEntry W (V × Nat))) (s : AStarState V L W M ML D) (k : K) : Prop :=
  ∃ e ∈ heap, c.vid e.item.1 = k ∧ e.key = g.dd.get s.guesses k ∧ (g.dd.get s.dist k < B k → 0 < e.item.2)

/-- What holds for the vertex that is expanded. -/
def KPcOk (s : AStarState V L W M ML D) : Prop :=
  match s.pc with
  | .loop => True
  | .expand v w _ => KKnown g c starts B s (c.vid v) ∧ g.dd.get s.dist (c.vid v) = w
  | .edges v w _ es => (KKnown g c starts B s (c.vid v) ∧ g.dd.get s.dist (c.vid v) = w) ∧
      (∀ e ∈ es, e ∈ c.next v) ∧
      ∀ n x, WEdge c.next v n x → (∃ l, (n, x, l) ∈ es) ∨
        (w + x < c.inf ∧ g.dd.get s.dist (c.vid n) ≤ w + x)

variable (G)

/-- Invariant of the traversal. `B`: the initial distances. `G`: the initial guesses are right. -/
structure KInv (h : List (Ev (AStarReport V W M ML D))) (s : AStarState V L W M ML D) : Prop where
  sorted : s.heap.Pairwise HEntry.le
  ent : G → ∀ e ∈ s.heap, g.dd.get s.guesses (c.vid e.item.1) ≤ e.key
  entR : ∀ e ∈ s.heap, (e.item.2 = 0 → e.item.1 ∈ starts) ∧
    (0 < e.item.2 → g.dd.get s.dist (c.vid e.item.1) < B (c.vid e.item.1))
  leB : ∀ k, g.dd.get s.dist k ≤ B k
  walk : ∀ k, KKnown g c starts B s k → ∃ v, c.vid v = k ∧ KWalk c.next (· ∈ starts) c.vid B (g.dd.get s.dist k) v
  simple : ∀ k, KKnown g c starts B s k → ∃ ks v, c.vid v = k ∧
    KSimple c.next (· ∈ starts) c.vid B ks (g.dd.get s.dist k) v ∧ ∀ j ∈ ks, g.dd.get s.dist j ≤ g.dd.get s.dist k
  guess : G → ∀ v, KKnown g c starts B s (c.vid v) →
    g.dd.get s.guesses (c.vid v) = aGuess c.inf (g.dd.get s.dist (c.vid v)) (c.heur v)
  opened : ∀ k, KKnown g c starts B s k → KEnt g c B s.heap s k ∨
    (APcIs c s.pc k ∧ KRep g c starts B h s k) ∨ (AClosed g c s k ∧ KRep g c starts B h s k)
  pcok : KPcOk g c starts B s
  reps : ∀ r ∈ repsOf h, r.pathLength < B (c.vid r.vertex) ∧
    ∃ v, c.vid v = c.vid r.vertex ∧ KWalk c.next (· ∈ starts) c.vid B r.pathLength v

end

variable {h : List (Ev (AStarReport V W M ML D))} {s : AStarState V L W M ML D}

theorem KInv.known_ent (inv : KInv g c starts B G h s) {e : HEntry W (V × Nat)} (he : e ∈ s.heap) :
    KKnown g c starts B s (c.vid e.item.1) := by
  rcases Nat.eq_zero_or_pos e.item.2 with h0 | h0
  · exact .inl (List.mem_map_of_mem ((inv.entR e he).1 h0))
  · exact .inr ((inv.entR e he).2 h0)

theorem KRep.mono {h h' : List (Ev (AStarReport V W M ML D))} {s' : AStarState V L W M ML D} {k : K}
    (hr : KRep g c starts B h s k) (hs : ∀ r ∈ repsOf h, r ∈ repsOf h')
    (hd : g.dd.get s'.dist k = g.dd.get s.dist k) : KRep g c starts B h' s' k := by
  rcases hr with ⟨h1, h2⟩ | ⟨r, h1, h2, h3⟩
  · exact .inl ⟨h1, hd.trans h2⟩
  · exact .inr ⟨r, hs r h1, h2, h3.trans hd.symm⟩

/-- Steps that do not change the distances and estimates. -/
theorem KInv.frame {h' : List (Ev (AStarReport V W M ML D))} {s' : AStarState V L W M ML D}
    (inv : KInv g c starts B G h s)
    (hd : s'.dist = s.dist) (hgu : s'.guesses = s.guesses) (hs : ∀ r ∈ repsOf h, r ∈ repsOf h')
    (hsub : s'.heap.Sublist s.heap)
    (hop : ∀ k, KKnown g c starts B s k → KEnt g c B s.heap s k ∨ (APcIs c s.pc k ∧ KRep g c starts B h s k) →
      KEnt g c B s'.heap s k ∨ (APcIs c s'.pc k ∧ KRep g c starts B h' s k) ∨
      (AClosed g c s k ∧ KRep g c starts B h' s k)) (hpc : KPcOk g c starts B s')
    (hreps : ∀ r ∈ repsOf h', r ∈ repsOf h ∨ (r.pathLength < B (c.vid r.vertex) ∧
      ∃ v, c.vid v = c.vid r.vertex ∧ KWalk c.next (· ∈ starts) c.vid B r.pathLength v)) :
    KInv g c starts B G h' s' := by
  have hK : ∀ k, KKnown g c starts B s' k ↔ KKnown g c starts B s k := fun k => by unfold KKnown; rw [hd]
  have hC : ∀ k, AClosed g c s k → AClosed g c s' k := fun k => by unfold AClosed; rw [hd]; exact id
  have hE : ∀ k, KEnt g c B s'.heap s k → KEnt g c B s'.heap s' k := fun k => by
    unfold KEnt; rw [hd, hgu]; exact id
  have hR : ∀ k, KRep g c starts B h' s k → KRep g c starts B h' s' k := fun k => by
    unfold KRep; rw [hd]; exact id
  exact {
    sorted := inv.sorted.sublist hsub
    ent := fun hG e he => by rw [hgu]; exact inv.ent hG e (hsub.subset he)
    entR := fun e he => by rw [hd]; exact inv.entR e (hsub.subset he)
    leB := by rw [hd]; exact inv.leB
    walk := fun k hk => by rw [hd]; exact inv.walk k ((hK k).1 hk)
    simple := fun k hk => by rw [hd]; exact inv.simple k ((hK k).1 hk)
    guess := fun hG v hv => by rw [hd, hgu]; exact inv.guess hG v ((hK _).1 hv)
    opened := fun k hk => by
      have hk := (hK k).1 hk
      rcases inv.opened k hk with h1 | h1 | h1
      · rcases hop k hk (.inl h1) with h2 | h2 | h2
        · exact .inl (hE k h2)
        · exact .inr (.inl ⟨h2.1, hR k h2.2⟩)
        · exact .inr (.inr ⟨hC k h2.1, hR k h2.2⟩)
      · rcases hop k hk (.inr h1) with h2 | h2 | h2
        · exact .inl (hE k h2)
        · exact .inr (.inl ⟨h2.1, hR k h2.2⟩)
        · exact .inr (.inr ⟨hC k h2.1, hR k h2.2⟩)
      · exact .inr (.inr ⟨hC k h1.1, hR k (h1.2.mono hs rfl)⟩)
    pcok := hpc
    reps := fun r hr => by
      rcases hreps r hr with h1 | h1
      · exact inv.reps r h1
      · exact h1 }

/-- What is known about an improvement. -/
theorem KInv.improve (inv : KInv g c starts B G h s) (hd : g.dd.Lawful c.inf) (hn : NonNeg c.next)
    {v n : V} {w x : W} {l : L} {ec : Nat} {es : List (V × W × L)} {d : D} (hpc : s.pc = .edges v w ec ((n, x, l) :: es))
    (hlt : x + w < c.inf) (him : g.dd.improve s.dist (c.vid n) (x + w) = some d) :
    x + w < g.dd.get s.dist (c.vid n) ∧ WEdge c.next v n x ∧
    g.dd.get s.dist (c.vid v) = w ∧ c.vid n ≠ c.vid v ∧
    ∀ j, g.dd.get d j = if j = c.vid n then x + w else g.dd.get s.dist j := by
  have hp := inv.pcok
  unfold KPcOk at hp
  rw [hpc] at hp
  obtain ⟨⟨p1, p2⟩, p5, -⟩ := hp
  have hgt : x + w < g.dd.get s.dist (c.vid n) := by
    refine lt_of_not_ge (fun hle => ?_)
    rw [(hd.improve_none _ _ _ hlt).2 hle] at him
    simp at him
  have hedge : WEdge c.next v n x := ⟨l, p5 _ List.mem_cons_self⟩
  have hx := hn _ _ _ hedge
  refine ⟨hgt, hedge, p2, fun heq => ?_, hd.improve_some _ _ _ _ hlt him⟩
  rw [heq, p2] at hgt
  exact absurd hgt (not_lt_of_ge (le_add_of_nonneg_left hx))

/-- What an accepted entry means for the openness of ids. -/
theorem k_pop {h h' : List (Ev (AStarReport V W M ML D))}
    {e : HEntry W (V × Nat)} {rest : List (HEntry W (V × Nat))}
    (hpc : s.pc = .loop) (hheap : s.heap = e :: rest) (w : W)
    (hrep : (g.dd.get s.dist (c.vid e.item.1) < B (c.vid e.item.1) → 0 < e.item.2) →
      KRep g c starts B h' s (c.vid e.item.1))
    (k : K) (hor : KEnt g c B s.heap s k ∨ (APcIs c s.pc k ∧ KRep g c starts B h s k)) :
    KEnt g c B rest s k ∨ (APcIs c (.expand (L := L) e.item.1 w e.item.2) k ∧ KRep g c starts B h' s k) ∨
      (AClosed g c s k ∧ KRep g c starts B h' s k) := by
  rcases hor with ⟨f, hf, h1, h2, h3⟩ | h1
  · rw [hheap] at hf
    rcases List.mem_cons.1 hf with rfl | hf
    · subst h1
      exact .inr (.inl ⟨rfl, hrep h3⟩)
    · exact .inl ⟨f, hf, h1, h2, h3⟩
  · rw [hpc] at h1; exact absurd h1.1 id

theorem k_inv_step (ht : c.isTree = false) (hd : g.dd.Lawful c.inf) (hn : NonNeg c.next) (hc : WCompat c.next c.vid)
    (hh : G → HeurCompat c.heur c.vid) (inv : KInv g c starts B G h s) :
    match aStep g c s with
    | .stop s' => s' = s ∧ s.pc = .loop ∧ s.heap = []
    | .fail e => e = .overflowError
    | .tau s' => KInv g c starts B G h s'
    | .emit r s' => KInv g c starts B G (h ++ [.rep r]) s'
    | .expand s' => KInv g c starts B G (h ++ [.exp]) s' := by
  apply aStep_cases (P := fun st => match st with
    | .stop s' => s' = s ∧ s.pc = .loop ∧ s.heap = []
    | .fail e => e = .overflowError
    | .tau s' => KInv g c starts B G h s'
    | .emit r s' => KInv g c starts B G (h ++ [.rep r]) s'
    | .expand s' => KInv g c starts B G (h ++ [.exp]) s') ht s
  · intro h1 h2; exact ⟨rfl, h1, h2⟩
  · intro e rest hpc hheap hst
    refine inv.frame rfl rfl (fun _ h => h) (by rw [hheap]; exact List.sublist_cons_self _ _) ?_ ?_ (fun _ h => .inl h)
    · intro k hk hor
      rcases hor with ⟨f, hf, h1, h2⟩ | h1
      · rw [hheap] at hf
        rcases List.mem_cons.1 hf with rfl | hf
        · rw [h1, ← h2.1] at hst; exact absurd hst (lt_irrefl _)
        · exact .inl ⟨f, hf, h1, h2⟩
      · exact .inr (.inl h1)
    · unfold KPcOk; rw [hpc]; trivial
  · intro e rest hpc hheap hst h0
    have he : e ∈ s.heap := by rw [hheap]; exact List.mem_cons_self
    refine inv.frame rfl rfl (fun _ h => h) (by rw [hheap]; exact List.sublist_cons_self _ _) ?_ ?_ (fun _ h => .inl h)
    · intro k hk hor
      refine k_pop hpc hheap _ (fun hlt => .inl ⟨List.mem_map_of_mem ((inv.entR e he).1 h0), ?_⟩) k hor
      refine le_antisymm (inv.leB _) (le_of_not_gt fun hl => ?_)
      have := hlt hl
      omega
    · exact ⟨inv.known_ent he, rfl⟩
  · intro e rest hpc hheap hst h0
    have he : e ∈ s.heap := by rw [hheap]; exact List.mem_cons_self
    refine inv.frame rfl rfl (fun r h => by simp [h]) (by rw [hheap]; exact List.sublist_cons_self _ _) ?_ ?_ ?_
    · intro k hk hor
      exact k_pop hpc hheap _ (fun _ => .inr ⟨_, by simp; exact .inr rfl, rfl, rfl⟩) k hor
    · exact ⟨inv.known_ent he, rfl⟩
    · intro r hr
      simp only [repsOf_append, List.mem_append] at hr
      rcases hr with hr | hr
      · exact .inl hr
      · right
        simp at hr
        subst hr
        exact ⟨(inv.entR e he).2 h0, inv.walk _ (inv.known_ent he)⟩
  · intro v w ec hpc
    have hp := inv.pcok
    unfold KPcOk at hp
    rw [hpc] at hp
    refine inv.frame rfl rfl (fun r h => by simp [h]) (List.Sublist.refl _) ?_ ?_ (fun r h => .inl (by simpa using h))
    · intro k hk hor
      rcases hor with h1 | h1
      · exact .inl h1
      · rw [hpc] at h1; exact .inr (.inl ⟨h1.1, h1.2.mono (fun r h => by simp [h]) rfl⟩)
    · exact ⟨hp, fun _ h => h, fun n x hx => .inl hx⟩
  · intro v w ec hpc
    have hp := inv.pcok
    unfold KPcOk at hp
    rw [hpc] at hp
    refine inv.frame rfl rfl (fun r h => h) (List.Sublist.refl _) ?_ trivial (fun _ h => .inl h)
    intro k hk hor
    rcases hor with h1 | ⟨h1, h2⟩
    · exact .inl h1
    · rw [hpc] at h1
      have h1 : c.vid v = k := h1
      subst h1
      refine .inr (.inr ⟨fun u n x hu hx => ?_, h2⟩)
      obtain ⟨n', hn', hid⟩ := hc u v n x hu hx
      rcases hp.2.2 n' x hn' with ⟨l, hl⟩ | h2
      · simp at hl
      · rw [hp.1.2, ← hid]; exact h2
  · intro v w ec n x l es hpc hi; rfl
  · intro v w ec n x l es hpc hlt him
    have hp := inv.pcok
    unfold KPcOk at hp
    rw [hpc] at hp
    refine inv.frame rfl rfl (fun r h => h) (List.Sublist.refl _) ?_ ?_ (fun _ h => .inl h)
    · intro k hk hor
      rcases hor with h1 | h1
      · exact .inl h1
      · rw [hpc] at h1; exact .inr (.inl h1)
    · refine ⟨hp.1, fun e he => hp.2.1 e (List.mem_cons_of_mem _ he), fun n' x' hx' => ?_⟩
      rcases hp.2.2 n' x' hx' with ⟨l', hl'⟩ | h2
      · rcases List.mem_cons.1 hl' with heq | hl'
        · simp only [Prod.mk.injEq] at heq
          obtain ⟨rfl, rfl, -⟩ := heq
          right
          rw [add_comm w x']
          exact ⟨hlt, (hd.improve_none _ _ _ hlt).1 him⟩
        · exact .inl ⟨l', hl'⟩
      · exact .inr h2
  · intro v w ec n x l es d hpc hlt him h1 h2; rfl
  · intro v w ec n x l es d hpc hlt him hfin
    obtain ⟨hgt, hedge, hdv, hne, hget⟩ := inv.improve hd hn hpc hlt him
    have hp := inv.pcok
    unfold KPcOk at hp
    rw [hpc] at hp
    have hgetn : g.dd.get d (c.vid n) = x + w := by rw [hget, if_pos rfl]
    have hle : ∀ j, g.dd.get d j ≤ g.dd.get s.dist j := fun j => by
      rw [hget]
      split
      · rename_i hj; rw [hj]; exact hgt.le
      · exact le_refl _
    have hguess : ∀ j, g.dd.get (g.dd.set s.guesses (c.vid n) (aGuess c.inf (x + w) (c.heur n))) j =
        if j = c.vid n then aGuess c.inf (x + w) (c.heur n) else g.dd.get s.guesses j := fun j => hd.get_set _ _ _ _
    have hltB : x + w < B (c.vid n) := lt_of_lt_of_le hgt (inv.leB _)
    obtain ⟨v', hv', hwalk⟩ := inv.walk _ hp.1.1
    obtain ⟨n', hn', hnid⟩ := hc v v' n x hv'.symm hedge
    have hwalkn : ∃ u, c.vid u = c.vid n ∧ KWalk c.next (· ∈ starts) c.vid B (x + w) u := by
      refine ⟨n', hnid, ?_⟩
      rw [add_comm]
      rw [hdv] at hwalk
      exact .step hwalk hn' (by rw [hnid, add_comm]; exact hltB)
    have hKn : ∀ k, k ≠ c.vid n → k ∈ starts.map c.vid ∨ g.dd.get d k < B k → KKnown g c starts B s k := by
      intro k hk hkn
      rcases hkn with h1 | h1
      · exact .inl h1
      · rw [hget, if_neg hk] at h1; exact .inr h1
    have hKv : ∀ k, KKnown g c starts B s k → k ∈ starts.map c.vid ∨ g.dd.get d k < B k := by
      intro k hk
      rcases hk with h1 | h1
      · exact .inl h1
      · exact .inr (lt_of_le_of_lt (hle k) h1)
    exact {
      sorted := heapPush_sorted _ inv.sorted
      ent := fun hG e he => by
        rcases mem_heapPush.1 he with rfl | he
        · simp only [hguess, if_true]; exact le_refl _
        · simp only [hguess]
          split
          · rename_i hj
            refine le_trans ?_ (inv.ent hG e he)
            rw [inv.guess hG _ (inv.known_ent he), hj, hh hG _ _ hj]
            exact aGuess_mono hgt.le
          · exact inv.ent hG e he
      entR := fun e he => by
        rcases mem_heapPush.1 he with rfl | he
        · exact ⟨fun h0 => by simp at h0, fun _ => by simp only [hgetn]; exact hltB⟩
        · exact ⟨(inv.entR e he).1, fun h0 => lt_of_le_of_lt (hle _) ((inv.entR e he).2 h0)⟩
      leB := fun k => (hle k).trans (inv.leB k)
      walk := fun k hk => by
        by_cases hj : k = c.vid n
        · subst hj; simp only [hgetn]; exact hwalkn
        · simp only [hget, if_neg hj]; exact inv.walk k (hKn k hj hk)
      simple := fun k hk => by
        by_cases hj : k = c.vid n
        · subst hj
          obtain ⟨ks, u, hu, hsw, hks⟩ := inv.simple _ hp.1.1
          obtain ⟨m, hm, hmid⟩ := hc v u n x hu.symm hedge
          rw [hdv] at hsw hks
          have hww : w ≤ x + w := le_add_of_nonneg_left (hn _ _ _ hedge)
          have hnotin : c.vid m ∉ ks := fun hin => by
            rw [hmid] at hin
            exact absurd (lt_of_le_of_lt hww hgt) (not_lt_of_ge (hks _ hin))
          refine ⟨c.vid m :: ks, m, hmid, ?_, fun j hj => ?_⟩
          · simp only [hgetn]
            rw [add_comm]
            exact .step hsw hm hnotin
          · simp only [hgetn]
            rcases List.mem_cons.1 hj with rfl | hj
            · rw [hmid, hgetn]
            · exact (hle j).trans ((hks j hj).trans hww)
        · obtain ⟨ks, u, hu, hsw, hks⟩ := inv.simple _ (hKn k hj hk)
          refine ⟨ks, u, hu, ?_, fun j hj' => ?_⟩
          · simp only [hget, if_neg hj]; exact hsw
          · simp only [hget k, if_neg hj]
            exact (hle j).trans (hks j hj')
      guess := fun hG u hu => by
        by_cases hj : c.vid u = c.vid n
        · simp only [hj, hgetn, hguess, if_true, hh hG _ _ hj]
        · simp only [hguess, hget, if_neg hj]
          exact inv.guess hG u (hKn _ hj hu)
      opened := fun k hk => by
        by_cases hj : k = c.vid n
        · subst hj
          refine .inl ⟨_, mem_heapPush.2 (.inl rfl), rfl, ?_, fun _ => Nat.succ_pos _⟩
          simp only [hguess, if_true]
        · have hdk : g.dd.get d k = g.dd.get s.dist k := by rw [hget, if_neg hj]
          rcases inv.opened k (hKn k hj hk) with ⟨e, he, h1, h2, h3⟩ | ⟨h1, h2⟩ | ⟨h1, h2⟩
          · refine .inl ⟨e, mem_heapPush.2 (.inr he), h1, ?_, ?_⟩
            · simp only [hguess, if_neg hj]; exact h2
            · simp only [hdk]; exact h3
          · rw [hpc] at h1; exact .inr (.inl ⟨h1, h2.mono (fun _ h => h) hdk⟩)
          · refine .inr (.inr ⟨fun u m y hu hy => ?_, h2.mono (fun _ h => h) hdk⟩)
            obtain ⟨q1, q2⟩ := h1 u m y hu hy
            simp only [hget k, if_neg hj]
            exact ⟨q1, (hle _).trans q2⟩
      pcok := by
        refine ⟨⟨hKv _ hp.1.1, ?_⟩, fun e he => hp.2.1 e (List.mem_cons_of_mem _ he), fun m y hy => ?_⟩
        · simp only [hget, if_neg hne.symm]; exact hdv
        · rcases hp.2.2 m y hy with ⟨l', hl'⟩ | h2
          · rcases List.mem_cons.1 hl' with heq | hl'
            · simp only [Prod.mk.injEq] at heq
              obtain ⟨rfl, rfl, -⟩ := heq
              right
              rw [add_comm w y]
              exact ⟨hlt, hgetn.le⟩
            · exact .inl ⟨l', hl'⟩
          · exact .inr ⟨h2.1, (hle _).trans h2.2⟩
      reps := inv.reps }

/-! ## Start -/

theorem k_inv_init {known knownGuesses : Option D}
    (hB : ∀ k, g.dd.get (aDistances g c known starts) k = B k)
    (hG : G → HeurCompat c.heur c.vid ∧ ∀ v ∈ starts, g.dd.get (aGuesses g c knownGuesses (aDistances g c known starts) starts) (c.vid v) =
      aGuess c.inf (B (c.vid v)) (c.heur v)) :
    KInv g c starts B G [] (aInit g c known knownGuesses starts) := by
  have hK : ∀ k, KKnown g c starts B (aInit g c known knownGuesses starts) k → k ∈ starts.map c.vid := by
    intro k hk
    rcases hk with h | h
    · exact h
    · simp only [aInit, hB] at h
      exact absurd h (lt_irrefl _)
  refine { sorted := heapify_sorted _, ent := ?_, entR := ?_, leB := fun k => (hB k).le, walk := ?_,
           simple := ?_, guess := ?_, opened := ?_, pcok := trivial, reps := by simp }
  · intro _ e he
    obtain ⟨h1, h2, h3⟩ := aStartEntries_mem (mem_heapify.1 he)
    rw [h3]; exact le_refl _
  · intro e he
    obtain ⟨h1, h2, -⟩ := aStartEntries_mem (mem_heapify.1 he)
    exact ⟨fun _ => h1, fun h => by omega⟩
  · intro k hk
    obtain ⟨v, hv, rfl⟩ := List.mem_map.1 (hK k hk)
    refine ⟨v, rfl, ?_⟩
    simp only [aInit, hB]
    exact .start hv
  · intro k hk
    obtain ⟨v, hv, rfl⟩ := List.mem_map.1 (hK k hk)
    refine ⟨[c.vid v], v, rfl, ?_, fun j hj => ?_⟩
    · simp only [aInit, hB]; exact .start hv
    · rw [List.mem_singleton.1 hj]
  · intro hg v hv
    obtain ⟨u, hu, he⟩ := List.mem_map.1 (hK _ hv)
    have := (hG hg).2 u hu
    simp only [aInit, hB]
    rw [← he, ← (hG hg).1 _ _ he]
    exact this
  · intro k hk
    obtain ⟨v, hv, rfl⟩ := List.mem_map.1 (hK k hk)
    obtain ⟨e, h1, h2, h3⟩ := aStartEntries_ex (g := g) (c := c)
      (gu := aGuesses g c knownGuesses (aDistances g c known starts) starts) (no := 256) hv
    refine .inl ⟨e, mem_heapify.2 h1, by rw [h2], h3, fun hlt => ?_⟩
    simp only [aInit, hB] at hlt
    exact absurd hlt (lt_irrefl _)

theorem k_inv (ht : c.isTree = false) (hd : g.dd.Lawful c.inf) (hn : NonNeg c.next) (hc : WCompat c.next c.vid)
    {known knownGuesses : Option D}
    (hB : ∀ k, g.dd.get (aDistances g c known starts) k = B k)
    (hG : G → HeurCompat c.heur c.vid ∧ ∀ v ∈ starts,
      g.dd.get (aGuesses g c knownGuesses (aDistances g c known starts) starts) (c.vid v) =
      aGuess c.inf (B (c.vid v)) (c.heur v))
    {h : List (Ev (AStarReport V W M ML D))} {s : AStarState V L W M ML D}
    (hr : Reaches (aStep g c) (aInit g c known knownGuesses starts) h s) : KInv g c starts B G h s := by
  refine Reaches.invariant (KInv g c starts B G) (k_inv_init hB hG) ?_ ?_ ?_ hr
  · intro h s s' inv e
    have := k_inv_step ht hd hn hc (fun x => (hG x).1) inv
    rw [e] at this; exact this
  · intro h s r s' inv e
    have := k_inv_step ht hd hn hc (fun x => (hG x).1) inv
    rw [e] at this; exact this
  · intro h s s' inv e
    have := k_inv_step ht hd hn hc (fun x => (hG x).1) inv
    rw [e] at this; exact this

/-! ## Frontier -/

/-- A walk that respects the known distances leads to an id with processed edges, or leaves the processed part of the
graph at an open vertex with a current heap entry. -/
theorem KInv.frontier (inv : KInv g c starts B G h s) (hloop : s.pc = .loop) {w : W} {v : V}
    (hw : KWalk c.next (· ∈ starts) c.vid B w v) :
    (KKnown g c starts B s (c.vid v) ∧ g.dd.get s.dist (c.vid v) ≤ w ∧ AClosed g c s (c.vid v) ∧
      KRep g c starts B h s (c.vid v)) ∨
    ∃ e ∈ s.heap, ∃ u w1 w2, c.vid e.item.1 = c.vid u ∧ e.key = g.dd.get s.guesses (c.vid u) ∧
      g.dd.get s.dist (c.vid u) ≤ w1 ∧ KKnown g c starts B s (c.vid u) ∧ WalkW c.next (· = u) w2 v ∧ w1 + w2 = w := by
  have key : ∀ (u : V) (w : W), KKnown g c starts B s (c.vid u) → g.dd.get s.dist (c.vid u) ≤ w →
      (KKnown g c starts B s (c.vid u) ∧ g.dd.get s.dist (c.vid u) ≤ w ∧ AClosed g c s (c.vid u) ∧
        KRep g c starts B h s (c.vid u)) ∨
      ∃ e ∈ s.heap, ∃ u' w1 w2, c.vid e.item.1 = c.vid u' ∧ e.key = g.dd.get s.guesses (c.vid u') ∧
        g.dd.get s.dist (c.vid u') ≤ w1 ∧ KKnown g c starts B s (c.vid u') ∧ WalkW c.next (· = u') w2 u ∧
        w1 + w2 = w := by
    intro u w hk hle
    rcases inv.opened _ hk with ⟨e, he, h1, h2, -⟩ | h1 | ⟨h1, h2⟩
    · exact .inr ⟨e, he, u, w, 0, h1, h2, hle, hk, .start rfl, add_zero w⟩
    · rw [hloop] at h1; exact absurd h1.1 id
    · exact .inl ⟨hk, hle, h1, h2⟩
  induction hw with
  | start hs => exact key _ _ (.inl (List.mem_map_of_mem hs)) (inv.leB _)
  | @step w u v x hw he hlt ih =>
    rcases ih with ⟨hk, hle, hcl, -⟩ | ⟨e, he', u', w1, w2, h1, h2, h3, h4, h5, h6⟩
    · obtain ⟨q1, q2⟩ := hcl u v x rfl he
      have h7 := q2.trans (add_le_add_left hle x)
      exact key _ _ (.inr (lt_of_le_of_lt h7 hlt)) h7
    · exact .inr ⟨e, he', u', w1, w2 + x, h1, h2, h3, h4, .step h5 he, by rw [← add_assoc, h6]⟩

theorem Spec.KWalk.pos {w : W} {v : V} (hn : NonNeg c.next) (h0 : ∀ v ∈ starts, 0 ≤ B (c.vid v))
    (hw : KWalk c.next (· ∈ starts) c.vid B w v) : 0 ≤ w := by
  induction hw with
  | start hs => exact h0 _ hs
  | step _ he _ ih => exact add_nonneg ih (hn _ _ _ he)

/-- An accepted heap entry has the minimal path length. -/
theorem KInv.accept_min (inv : KInv g c starts B G h s) (hG : G) (hn : NonNeg c.next)
    (h0 : ∀ v ∈ starts, 0 ≤ B (c.vid v)) (hh : HeurCompat c.heur c.vid)
    (hloop : s.pc = .loop) {e : HEntry W (V × Nat)} {rest : List (HEntry W (V × Nat))} (hheap : s.heap = e :: rest)
    (hok : ¬ g.dd.get s.guesses (c.vid e.item.1) < e.key) (hfin : c.heur e.item.1 ≠ c.inf)
    (htow : TowardsOk c (c.vid e.item.1)) :
    ∀ w v, KWalk c.next (· ∈ starts) c.vid B w v → c.vid v = c.vid e.item.1 →
      g.dd.get s.dist (c.vid e.item.1) ≤ w := by
  have he : e ∈ s.heap := by rw [hheap]; exact List.mem_cons_self
  intro w v hw hid
  have hkey : e.key = g.dd.get s.guesses (c.vid e.item.1) := le_antisymm (le_of_not_gt hok) (inv.ent hG e he)
  rcases inv.frontier hloop hw with h1 | ⟨f, hf, u, w1, w2, h1, h2, h3, h4, h5, h6⟩
  · rw [← hid]; exact h1.2.1
  · have hle : e.key ≤ f.key := by
      rw [hheap] at hf
      rcases List.mem_cons.1 hf with rfl | hf
      · exact le_refl _
      · have := inv.sorted
        rw [hheap] at this
        exact ((List.pairwise_cons.1 this).1 f hf).key_le
    have hb := htow u w2 v h5 hid
    have hw1 : 0 ≤ w1 := by
      obtain ⟨v', -, hw'⟩ := inv.walk _ h4
      exact (Spec.KWalk.pos hn h0 hw').trans h3
    have hbound : e.key ≤ w + c.heur v := by
      refine hle.trans ?_
      rw [h2, inv.guess hG u h4]
      unfold aGuess
      split
      · rename_i hinf
        rw [hinf] at hb
        rw [← h6, add_assoc]
        exact hb.trans (le_add_of_nonneg_left hw1)
      · rw [← h6, add_assoc]
        exact add_le_add h3 hb
    rw [hkey, inv.guess hG _ (inv.known_ent he), aGuess_fin hfin, hh v e.item.1 hid] at hbound
    exact le_of_add_le_add_right hbound

/-! ## Termination -/

theorem k_terminates (ht : c.isTree = false) (hd : g.dd.Lawful c.inf) (hn : NonNeg c.next) (hc : WCompat c.next c.vid)
    {known knownGuesses : Option D} {ids : List K} (hids : ∀ w v, WalkW c.next (· ∈ starts) w v → c.vid v ∈ ids) :
    ∃ N, ∀ fuel, N ≤ fuel → ∀ lim,
      (runMachine (aStep g c) fuel lim (aInit g c known knownGuesses starts)).ending ≠ .outOfFuel := by
  let B : K → W := fun k => g.dd.get (aDistances g c known starts) k
  let Y := starts.flatMap (fun t => (weightSums (edgeWeights c.next c.vid ids) ids.length).map (B (c.vid t) + ·))
  let μ : AStarState V L W M ML D → Nat × Nat × Nat × Nat := fun s =>
    (improvable Y ids (fun k => g.dd.get s.dist k), s.heap.length,
      match s.pc with | .loop => 0 | .edges _ _ _ _ => 1 | .expand _ _ _ => 2,
      match s.pc with | .edges _ _ _ es => es.length | _ => 0)
  refine run_terminates_reach (aStep g c) lex4 lex4_wf μ _ ?_
  intro h s s' hr
  have inv := k_inv (B := B) (G := False) ht hd hn hc (fun _ => rfl) (fun h => h.elim) hr
  apply aStep_cases (P := fun st => st.next? = some s' → lex4 (μ s') (μ s)) ht s
  · intro _ _ h; simp [Step.next?] at h
  · intro e rest hpc hheap hst heq
    simp only [Step.next?, Option.some.injEq] at heq
    subst heq
    exact (lex4_iff _ _ _ _ _ _ _ _).2 (.inr ⟨rfl, .inl (by simp [hheap])⟩)
  · intro e rest hpc hheap hst h0 heq
    simp only [Step.next?, Option.some.injEq] at heq
    subst heq
    exact (lex4_iff _ _ _ _ _ _ _ _).2 (.inr ⟨rfl, .inl (by simp [hheap])⟩)
  · intro e rest hpc hheap hst h0 heq
    simp only [Step.next?, Option.some.injEq] at heq
    subst heq
    exact (lex4_iff _ _ _ _ _ _ _ _).2 (.inr ⟨rfl, .inl (by simp [hheap])⟩)
  · intro v w ec hpc heq
    simp only [Step.next?, Option.some.injEq] at heq
    subst heq
    exact (lex4_iff _ _ _ _ _ _ _ _).2 (.inr ⟨rfl, .inr ⟨rfl, .inl (by simp [hpc])⟩⟩)
  · intro v w ec hpc heq
    simp only [Step.next?, Option.some.injEq] at heq
    subst heq
    exact (lex4_iff _ _ _ _ _ _ _ _).2 (.inr ⟨rfl, .inr ⟨rfl, .inl (by simp [hpc])⟩⟩)
  · intro v w ec n x l es hpc hi heq; simp [Step.next?] at heq
  · intro v w ec n x l es hpc hlt him heq
    simp only [Step.next?, Option.some.injEq] at heq
    subst heq
    exact (lex4_iff _ _ _ _ _ _ _ _).2 (.inr ⟨rfl, .inr ⟨rfl, .inr ⟨by simp [hpc], by simp [hpc]⟩⟩⟩)
  · intro v w ec n x l es d hpc hlt him h1 h2 heq; simp [Step.next?] at heq
  · intro v w ec n x l es d hpc hlt him hfin heq
    obtain ⟨hgt, hedge, hdv, hne, hget⟩ := inv.improve hd hn hpc hlt him
    have hp := inv.pcok
    unfold KPcOk at hp
    rw [hpc] at hp
    simp only [Step.next?, Option.some.injEq] at heq
    subst heq
    have hgetn : g.dd.get d (c.vid n) = x + w := by rw [hget, if_pos rfl]
    obtain ⟨ks, u, hu, hsw, hks⟩ := inv.simple _ hp.1.1
    obtain ⟨m, hm, hmid⟩ := hc v u n x hu.symm hedge
    rw [hdv] at hsw hks
    have hww : w ≤ x + w := le_add_of_nonneg_left (hn _ _ _ hedge)
    have hnotin : c.vid m ∉ ks := fun hin => by
      rw [hmid] at hin
      exact absurd (lt_of_le_of_lt hww hgt) (not_lt_of_ge (hks _ hin))
    obtain ⟨t, w', ht', hw', hsim⟩ := (KSimple.step hsw hm hnotin).plain
    have hY : x + w ∈ Y := by
      rw [add_comm, hw']
      exact List.mem_flatMap.2 ⟨t, ht', List.mem_map.2 ⟨w', hsim.mem_all hc hids, rfl⟩⟩
    have := improvable_lt Y ids (d := fun k => g.dd.get s.dist k) (d' := fun k => g.dd.get d k) (k := c.vid n)
      (hmid ▸ hids _ _ hsim.walk) (by simp only [hgetn]; exact hgt) (by simp only [hgetn]; exact hY)
      (fun j hj => by simp only [hget, if_neg hj])
    simp only [μ, lex4_iff]
    exact .inl this

/-! ## Known guesses -/

/-- The guesses that are given for other vertices than the start vertices play no role. -/
theorem guesses_sim (hd : g.dd.Lawful c.inf) {s s' : AStarState V L W M ML D}
    (hr : s'.pc = s.pc ∧ s'.heap = s.heap ∧ s'.no = s.no ∧ s'.dist = s.dist ∧ s'.preds = s.preds ∧
      s'.labels = s.labels ∧ (c.isTree = false → ∀ e ∈ s.heap, g.dd.get s'.guesses (c.vid e.item.1) = g.dd.get s.guesses (c.vid e.item.1))) :
    StepRel (fun s s' : AStarState V L W M ML D => s'.pc = s.pc ∧ s'.heap = s.heap ∧ s'.no = s.no ∧ s'.dist = s.dist ∧
      s'.preds = s.preds ∧ s'.labels = s.labels ∧
      (c.isTree = false → ∀ e ∈ s.heap, g.dd.get s'.guesses (c.vid e.item.1) = g.dd.get s.guesses (c.vid e.item.1)))
      (fun s s' => s'.dist = s.dist ∧ s'.preds = s.preds ∧ s'.labels = s.labels) (fun r r' => r' = r)
      (aStep g c s) (aStep g c s') := by
  obtain ⟨pc, heap, no, d, gu, pr, la⟩ := s
  obtain ⟨pc', heap', no', d', gu', pr', la'⟩ := s'
  obtain ⟨h1, h2, h3, h4, h5, h6, h7⟩ := hr
  simp only at h1 h2 h3 h4 h5 h6 h7
  subst h1 h2 h3 h4 h5 h6
  cases pc' with
  | loop =>
    cases heap' with
    | nil => exact .stop ⟨rfl, rfl, rfl⟩
    | cons e rest =>
      have hrest : c.isTree = false → ∀ f ∈ rest, g.dd.get gu' (c.vid f.item.1) = g.dd.get gu (c.vid f.item.1) :=
        fun ht f hf => h7 ht f (List.mem_cons_of_mem _ hf)
      have hcond : (!c.isTree && decide (g.dd.get gu' (c.vid e.item.1) < e.key)) =
          (!c.isTree && decide (g.dd.get gu (c.vid e.item.1) < e.key)) := by
        cases ht : c.isTree with
        | true => rfl
        | false => rw [h7 ht e List.mem_cons_self]
      simp only [aStep, hcond]
      split
      · exact .tau ⟨rfl, rfl, rfl, rfl, rfl, rfl, hrest⟩
      · split
        · exact .emit rfl ⟨rfl, rfl, rfl, rfl, rfl, rfl, hrest⟩
        · exact .tau ⟨rfl, rfl, rfl, rfl, rfl, rfl, hrest⟩
  | expand v w ec => exact .expand ⟨rfl, rfl, rfl, rfl, rfl, rfl, h7⟩
  | edges v w ec es =>
    cases es with
    | nil => exact .tau ⟨rfl, rfl, rfl, rfl, rfl, rfl, h7⟩
    | cons a es =>
      obtain ⟨n, x, l⟩ := a
      simp only [aStep]
      split
      · exact .fail
      · cases aImprove g c d' (c.vid n) (x + w) with
        | none => exact .tau ⟨rfl, rfl, rfl, rfl, rfl, rfl, h7⟩
        | some d =>
          dsimp only
          split
          · exact .fail
          · refine .tau ⟨rfl, rfl, rfl, rfl, rfl, rfl, fun ht e he => ?_⟩
            simp only [ht, Bool.false_eq_true, if_false, hd.get_set]
            rcases mem_heapPush.1 he with rfl | he
            · rw [if_pos rfl, if_pos rfl]
            · rw [h7 ht e he]

end NoGraphs
