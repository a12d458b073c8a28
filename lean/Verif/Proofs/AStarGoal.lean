import Verif.Proofs.AStar

/-! A*: minimal path lengths, and vertices that are reported once. -/

set_option linter.unusedSectionVars false

namespace NoGraphs

open Spec

variable {V K L W M ML D : Type} [DecidableEq V] [DecidableEq K]
variable [AddCommMonoid W] [LinearOrder W] [IsOrderedCancelAddMonoid W]
variable {g : WGear V K L W M ML D} {c : AStarCfg V K L W} {starts : List V}
variable {h : List (Ev (AStarReport V W M ML D))} {s : AStarState V L W M ML D}

/-- The estimates of vertices, compared with the estimate of a target vertex, do not exceed the weights of the walks
to it. -/
def TowardsOk (c : AStarCfg V K L W) (k : K) : Prop :=
  ∀ u w v, WalkW c.next (· = u) w v → c.vid v = k → c.heur u ≤ w + c.heur v

/-- What an accepted heap entry tells about walks. -/
theorem AInv.accept (inv : AInv g c starts h s) (hn : NonNeg c.next)
    (hloop : s.pc = .loop) {e : HEntry W (V × Nat)} {rest : List (HEntry W (V × Nat))} (hheap : s.heap = e :: rest)
    (hok : ¬ g.dd.get s.guesses (c.vid e.item.1) < e.key) (hfin : c.heur e.item.1 ≠ c.inf) :
    e.key = g.dd.get s.dist (c.vid e.item.1) + c.heur e.item.1 ∧
    ∀ w v, WalkW c.next (· ∈ starts) w v → TowardsOk c (c.vid v) →
      (g.dd.get s.dist (c.vid v) ≤ w ∧ ARep c starts h (c.vid v)) ∨ e.key ≤ w + c.heur v := by
  have he : e ∈ s.heap := by rw [hheap]; exact List.mem_cons_self
  have hkey : e.key = g.dd.get s.guesses (c.vid e.item.1) := le_antisymm (le_of_not_gt hok) (inv.guess_le he)
  refine ⟨by rw [hkey, inv.guess _ (inv.known_ent he), aGuess_fin hfin], fun w v hw htow => ?_⟩
  rcases inv.frontier hloop hw with h1 | ⟨f, hf, u, w1, w2, h1, h2, h3, h4, h5, h6⟩
  · exact .inl ⟨h1.2.1, h1.2.2.2⟩
  · right
    have hle : e.key ≤ f.key := by
      rw [hheap] at hf
      rcases List.mem_cons.1 hf with rfl | hf
      · exact le_refl _
      · have := inv.sorted
        rw [hheap] at this
        exact ((List.pairwise_cons.1 this).1 f hf).key_le
    refine hle.trans ?_
    rw [h2, inv.guess u h4]
    have hb := htow u w2 v h5 rfl
    have h0 : 0 ≤ g.dd.get s.dist (c.vid u) := inv.nonneg hn h4
    unfold aGuess
    split
    · rename_i hinf
      rw [hinf] at hb
      rw [← h6, add_assoc]
      exact hb.trans (le_add_of_nonneg_left (h0.trans h3))
    · rw [← h6, add_assoc]
      exact add_le_add h3 hb

/-- An accepted heap entry has the minimal path length. -/
theorem AInv.accept_min (inv : AInv g c starts h s) (hn : NonNeg c.next)
    (hh : HeurCompat c.heur c.vid)
    (hloop : s.pc = .loop) {e : HEntry W (V × Nat)} {rest : List (HEntry W (V × Nat))} (hheap : s.heap = e :: rest)
    (hok : ¬ g.dd.get s.guesses (c.vid e.item.1) < e.key) (hfin : c.heur e.item.1 ≠ c.inf)
    (htow : TowardsOk c (c.vid e.item.1)) :
    IsIdDist c.next (· ∈ starts) c.vid (c.vid e.item.1) (g.dd.get s.dist (c.vid e.item.1)) := by
  have he : e ∈ s.heap := by rw [hheap]; exact List.mem_cons_self
  refine ⟨inv.walk _ (inv.known_ent he), fun w v hw hid => ?_⟩
  obtain ⟨hkey, hall⟩ := inv.accept hn hloop hheap hok hfin
  rcases hall w v hw (hid ▸ htow) with h1 | h1
  · rw [← hid]; exact h1.1
  · rw [hkey, hh v e.item.1 hid] at h1
    exact le_of_add_le_add_right h1

/-! ## Reported once -/

variable (g c starts) in
/-- Invariant for an id with minimal path length when it is reported. -/
structure AOnce (k : K) (h : List (Ev (AStarReport V W M ML D))) (s : AStarState V L W M ML D) : Prop where
  uniq : s.heap.Pairwise (fun e f => c.vid e.item.1 = k → c.vid f.item.1 = k → 0 < e.item.2 → 0 < f.item.2 →
    e.key ≠ f.key)
  fin : (∃ r ∈ repsOf h, c.vid r.vertex = k) →
    IsIdDist c.next (· ∈ starts) c.vid k (g.dd.get s.dist k) ∧ ∀ e ∈ s.heap, c.vid e.item.1 = k →
      g.dd.get s.guesses k < e.key
  once : (repsOf h).Pairwise (fun a b => ¬ (c.vid a.vertex = k ∧ c.vid b.vertex = k))
  reps : ∀ r ∈ repsOf h, c.vid r.vertex = k → r.pathLength = g.dd.get s.dist k ∧
    IsIdDist c.next (· ∈ starts) c.vid k r.pathLength

theorem AOnce.frame {k : K} (o : AOnce g c starts k h s) {h' : List (Ev (AStarReport V W M ML D))}
    {s' : AStarState V L W M ML D} (hd : s'.dist = s.dist) (hg : s'.guesses = s.guesses)
    (hsub : s'.heap.Sublist s.heap) (hh : repsOf h' = repsOf h) : AOnce g c starts k h' s' where
  uniq := o.uniq.sublist hsub
  fin hex := by
    rw [hh] at hex
    rw [hd, hg]
    obtain ⟨h1, h2⟩ := o.fin hex
    exact ⟨h1, fun e he => h2 e (hsub.subset he)⟩
  once := by rw [hh]; exact o.once
  reps := by rw [hh, hd]; exact o.reps

theorem a_once_step (ht : c.isTree = false) (hd : g.dd.Lawful c.inf) (hn : NonNeg c.next) (hc : WCompat c.next c.vid)
    (hh : HeurCompat c.heur c.vid) {k : K} (hfin : ∀ v, c.vid v = k → c.heur v ≠ c.inf) (htow : TowardsOk c k)
    (inv : AInv g c starts h s) (o : AOnce g c starts k h s) :
    match aStep g c s with
    | .stop _ => True
    | .fail _ => True
    | .tau s' => AOnce g c starts k h s'
    | .emit r s' => AOnce g c starts k (h ++ [.rep r]) s'
    | .expand s' => AOnce g c starts k (h ++ [.exp]) s' := by
  apply aStep_cases (P := fun st => match st with
    | .stop _ => True
    | .fail _ => True
    | .tau s' => AOnce g c starts k h s'
    | .emit r s' => AOnce g c starts k (h ++ [.rep r]) s'
    | .expand s' => AOnce g c starts k (h ++ [.exp]) s') ht s
  · intro _ _; trivial
  · intro e rest hpc hheap hst
    exact o.frame rfl rfl (by rw [hheap]; exact List.sublist_cons_self _ _) rfl
  · intro e rest hpc hheap hst h0
    exact o.frame rfl rfl (by rw [hheap]; exact List.sublist_cons_self _ _) rfl
  · intro e rest hpc hheap hst h0
    have he : e ∈ s.heap := by rw [hheap]; exact List.mem_cons_self
    have hsub : rest.Sublist s.heap := by rw [hheap]; exact List.sublist_cons_self _ _
    by_cases hk : c.vid e.item.1 = k
    · have hkey : e.key = g.dd.get s.guesses (c.vid e.item.1) := le_antisymm (le_of_not_gt hst) (inv.guess_le he)
      have hmin := inv.accept_min hn hh hpc hheap hst (hfin _ hk) (hk ▸ htow)
      have hnone : ¬ ∃ r ∈ repsOf h, c.vid r.vertex = k := fun hex => by
        have := (o.fin hex).2 e he hk
        rw [hkey, hk] at this
        exact lt_irrefl _ this
      have hpos : ∀ f ∈ s.heap, c.vid f.item.1 = k → 0 < f.item.2 := fun f hf hfk => by
        rcases Nat.eq_zero_or_pos f.item.2 with hz | hz
        · have := List.mem_map_of_mem (f := c.vid) ((inv.entR f hf).2.1 hz)
          rw [hfk, ← hk] at this
          exact absurd this ((inv.entR e he).2.2 h0)
        · exact hz
      refine { uniq := o.uniq.sublist hsub, fin := fun _ => ⟨hk ▸ hmin, fun f hf hfk => ?_⟩, once := ?_, reps := ?_ }
      · have hf' := hsub.subset hf
        refine lt_of_le_of_ne (hfk ▸ inv.guess_le hf') (fun heq => ?_)
        have := o.uniq
        rw [hheap] at this
        refine (List.pairwise_cons.1 this).1 f hf hk hfk h0 (hpos f hf' hfk) ?_
        rw [hkey, hk]; exact heq
      · rw [repsOf_append, repsOf_rep]
        refine List.pairwise_append.2 ⟨o.once, List.pairwise_singleton _ _, fun a ha b hb hab => ?_⟩
        exact hnone ⟨a, ha, hab.1⟩
      · intro r hr hrk
        rw [repsOf_append, repsOf_rep] at hr
        rcases List.mem_append.1 hr with hr | hr
        · exact absurd ⟨r, hr, hrk⟩ hnone
        · rw [List.mem_singleton.1 hr]
          exact ⟨by simp only [hk], hk ▸ hmin⟩
    · refine { uniq := o.uniq.sublist hsub, fin := fun hex => ?_, once := ?_, reps := ?_ }
      · have : ∃ r ∈ repsOf h, c.vid r.vertex = k := by
          obtain ⟨r, hr, hrk⟩ := hex
          rw [repsOf_append, repsOf_rep] at hr
          rcases List.mem_append.1 hr with hr | hr
          · exact ⟨r, hr, hrk⟩
          · rw [List.mem_singleton.1 hr] at hrk; exact absurd hrk hk
        obtain ⟨h1, h2⟩ := o.fin this
        exact ⟨h1, fun f hf => h2 f (hsub.subset hf)⟩
      · rw [repsOf_append, repsOf_rep]
        refine List.pairwise_append.2 ⟨o.once, List.pairwise_singleton _ _, fun a ha b hb hab => ?_⟩
        rw [List.mem_singleton.1 hb] at hab
        exact hk hab.2
      · intro r hr hrk
        rw [repsOf_append, repsOf_rep] at hr
        rcases List.mem_append.1 hr with hr | hr
        · exact o.reps r hr hrk
        · rw [List.mem_singleton.1 hr] at hrk; exact absurd hrk hk
  · intro v w ec hpc
    exact o.frame rfl rfl (List.Sublist.refl _) (by simp)
  · intro v w ec hpc
    exact o.frame rfl rfl (List.Sublist.refl _) rfl
  · intro v w ec n x l es hpc hi; trivial
  · intro v w ec n x l es hpc hlt him
    exact o.frame rfl rfl (List.Sublist.refl _) rfl
  · intro v w ec n x l es d hpc hlt him h1 h2; trivial
  · intro v w ec n x l es d hpc hlt him hfin'
    obtain ⟨hgt, hns, hedge, hww, hdv, hne, hget⟩ := inv.improve hd hn hpc hlt him
    have hguess : ∀ j, g.dd.get (g.dd.set s.guesses (c.vid n) (aGuess c.inf (x + w) (c.heur n))) j =
        if j = c.vid n then aGuess c.inf (x + w) (c.heur n) else g.dd.get s.guesses j := fun j => hd.get_set _ _ _ _
    have hp := inv.pcok
    unfold APcOk at hp
    rw [hpc] at hp
    have hnot : (∃ r ∈ repsOf h, c.vid r.vertex = k) → k ≠ c.vid n := fun hex hkn => by
      obtain ⟨⟨-, hmin⟩, -⟩ := o.fin hex
      obtain ⟨v', hv', hwalk⟩ := inv.walk _ hp.1.1
      obtain ⟨n', hn', hnid⟩ := hc v v' n x hv'.symm hedge
      rw [hdv] at hwalk
      have := hmin _ n' (.step hwalk hn') (hnid.trans hkn.symm)
      rw [hkn, add_comm] at this
      exact absurd hgt (not_lt_of_ge this)
    refine { uniq := ?_, fin := fun hex => ?_, once := o.once, reps := ?_ }
    · refine ((heapPush_perm _ _).pairwise_iff ?_).2 (List.pairwise_cons.2 ⟨fun f hf h1 h2 h3 h4 => ?_, o.uniq⟩)
      · intro a b hab h1 h2 h3 h4 heq
        exact hab h2 h1 h4 h3 heq.symm
      · have hkn := inv.known_ent hf
        have hle := inv.guess_le hf
        rw [inv.guess _ hkn] at hle
        refine ne_of_lt (lt_of_lt_of_le ?_ hle)
        have hid : c.vid f.item.1 = c.vid n := h2.trans h1.symm
        rw [hh _ _ hid, hid]
        exact aGuess_strict (hfin n h1) hgt
    · have hkn := hnot hex
      obtain ⟨h1, h2⟩ := o.fin hex
      simp only [hget, hguess, if_neg hkn]
      refine ⟨h1, fun f hf hfk => ?_⟩
      rcases mem_heapPush.1 hf with rfl | hf
      · exact absurd hfk.symm hkn
      · exact h2 f hf hfk
    · intro r hr hrk
      have hkn := hnot ⟨r, hr, hrk⟩
      simp only [hget, if_neg hkn]
      exact o.reps r hr hrk

theorem a_once (ht : c.isTree = false) (hd : g.dd.Lawful c.inf) (hn : NonNeg c.next) (hc : WCompat c.next c.vid)
    (hh : HeurCompat c.heur c.vid) {k : K} (hfin : ∀ v, c.vid v = k → c.heur v ≠ c.inf) (htow : TowardsOk c k)
    (hr : Reaches (aStep g c) (aInit g c none none starts) h s) : AOnce g c starts k h s := by
  refine Reaches.invariant' (AOnce g c starts k) ?_ ?_ ?_ ?_ hr
  · refine { uniq := ?_, fin := fun hex => by simp at hex, once := by simp, reps := by simp }
    have : ∀ l : List (HEntry W (V × Nat)), (∀ e ∈ l, e.item.2 = 0) →
        l.Pairwise (fun e f => c.vid e.item.1 = k → c.vid f.item.1 = k → 0 < e.item.2 → 0 < f.item.2 →
          e.key ≠ f.key) := by
      intro l hl
      refine List.Pairwise.imp_of_mem (R := fun _ _ => True) ?_ (List.pairwise_of_forall (fun _ _ => trivial))
      intro a b ha _ _ _ _ h3
      have := hl a ha
      omega
    exact this _ (fun e he => (aStartEntries_mem (mem_heapify.1 he)).2.1)
  · intro h s s' hr o e
    have := a_once_step ht hd hn hc hh hfin htow (a_inv ht hd hn hc hh hr) o
    rw [e] at this; exact this
  · intro h s r s' hr o e
    have := a_once_step ht hd hn hc hh hfin htow (a_inv ht hd hn hc hh hr) o
    rw [e] at this; exact this
  · intro h s s' hr o e
    have := a_once_step ht hd hn hc hh hfin htow (a_inv ht hd hn hc hh hr) o
    rw [e] at this; exact this

/-- Facts about an emission. -/
theorem a_emit (ht : c.isTree = false) {r : AStarReport V W M ML D} {s' : AStarState V L W M ML D}
    (he : aStep g c s = .emit r s') :
    ∃ e rest, s.pc = .loop ∧ s.heap = e :: rest ∧ ¬ g.dd.get s.guesses (c.vid e.item.1) < e.key ∧ 0 < e.item.2 ∧
      r = ⟨e.item.1, g.dd.get s.dist (c.vid e.item.1), e.item.2, s.dist, s.preds, s.labels⟩ ∧
      s' = { s with heap := rest, pc := .expand e.item.1 (g.dd.get s.dist (c.vid e.item.1)) e.item.2 } := by
  revert he
  apply aStep_cases (P := fun st => st = .emit r s' → ∃ e rest, s.pc = .loop ∧ s.heap = e :: rest ∧
    ¬ g.dd.get s.guesses (c.vid e.item.1) < e.key ∧ 0 < e.item.2 ∧
      r = ⟨e.item.1, g.dd.get s.dist (c.vid e.item.1), e.item.2, s.dist, s.preds, s.labels⟩ ∧
      s' = { s with heap := rest, pc := .expand e.item.1 (g.dd.get s.dist (c.vid e.item.1)) e.item.2 }) ht s
  case hemit =>
    intro e rest h1 h2 h3 h4 heq
    simp only [Step.emit.injEq] at heq
    exact ⟨e, rest, h1, h2, h3, h4, heq.1.symm, heq.2.symm⟩
  all_goals (intros; simp_all)

/-- The traversal only stops with an empty heap. -/
theorem a_stop (ht : c.isTree = false) {s' : AStarState V L W M ML D} (he : aStep g c s = .stop s') :
    s' = s ∧ s.pc = .loop ∧ s.heap = [] := by
  revert he
  apply aStep_cases (P := fun st => st = .stop s' → s' = s ∧ s.pc = .loop ∧ s.heap = []) ht s
  case hstop =>
    intro h1 h2 heq
    simp only [Step.stop.injEq] at heq
    exact ⟨heq.symm, h1, h2⟩
  all_goals (intros; simp_all)

/-- When the traversal fails. -/
theorem a_fail (ht : c.isTree = false) (inv : AInv g c starts h s) (hc : WCompat c.next c.vid) {e : PyErr}
    (he : aStep g c s = .fail e) :
    e = .overflowError ∧ ∃ ks w u v x, SimpleWalkW c.next (· ∈ starts) c.vid ks w u ∧ WEdge c.next u v x ∧
      (c.inf ≤ w + x ∨ (∃ v', c.vid v' = c.vid v ∧ c.heur v' ≠ c.inf ∧ c.inf ≤ w + x + c.heur v')) := by
  have key : ∀ v w ec n x l es, s.pc = .edges v w ec ((n, x, l) :: es) →
      ∃ ks u n', SimpleWalkW c.next (· ∈ starts) c.vid ks w u ∧ WEdge c.next u n' x ∧ c.vid n' = c.vid n := by
    intro v w ec n x l es hpc
    have hp := inv.pcok
    unfold APcOk at hp
    rw [hpc] at hp
    obtain ⟨⟨p1, p2, -, -⟩, p5, -⟩ := hp
    obtain ⟨ks, u, hu, hw, -⟩ := inv.simple _ p1
    obtain ⟨n', hn', hid⟩ := hc v u n x hu.symm ⟨l, p5 _ List.mem_cons_self⟩
    rw [p2] at hw
    exact ⟨ks, u, n', hw, hn', hid⟩
  revert he
  apply aStep_cases (P := fun st => st = .fail e → e = .overflowError ∧ ∃ ks w u v x,
    SimpleWalkW c.next (· ∈ starts) c.vid ks w u ∧ WEdge c.next u v x ∧
      (c.inf ≤ w + x ∨ (∃ v', c.vid v' = c.vid v ∧ c.heur v' ≠ c.inf ∧ c.inf ≤ w + x + c.heur v'))) ht s
  case hover =>
    intro v w ec n x l es hpc hi heq
    simp only [Step.fail.injEq] at heq
    obtain ⟨ks, u, n', h1, h2, h3⟩ := key v w ec n x l es hpc
    exact ⟨heq.symm, ks, w, u, n', x, h1, h2, .inl (by rw [add_comm]; exact hi)⟩
  case hover2 =>
    intro v w ec n x l es d hpc hlt him hne hi heq
    simp only [Step.fail.injEq] at heq
    obtain ⟨ks, u, n', h1, h2, h3⟩ := key v w ec n x l es hpc
    rw [aGuess_fin hne] at hi
    exact ⟨heq.symm, ks, w, u, n', x, h1, h2, .inr ⟨n, h3.symm, hne, by rw [add_comm w]; exact hi⟩⟩
  all_goals (intros; simp_all)

/-! ## Order of reports for consistent heuristics -/

variable (g c) in
/-- The keys of the heap are not smaller than the last processed one. -/
structure AOrder (h : List (Ev (AStarReport V W M ML D))) (s : AStarState V L W M ML D) (cur : W) : Prop where
  lower : ∀ e ∈ s.heap, cur ≤ e.key
  pcs : match s.pc with
    | .loop => True
    | .expand v w _ => cur ≤ w + c.heur v
    | .edges v w _ _ => cur ≤ w + c.heur v
  reps : ∀ r ∈ repsOf h, r.pathLength + c.heur r.vertex ≤ cur
  ordered : (repsOf h).Pairwise (fun a b => a.pathLength + c.heur a.vertex ≤ b.pathLength + c.heur b.vertex)

theorem a_order_step (ht : c.isTree = false) (hd : g.dd.Lawful c.inf) (hn : NonNeg c.next)
    (hfin : ∀ v, c.heur v ≠ c.inf) (hcons : Consistent c.next c.heur)
    (inv : AInv g c starts h s) {cur : W} (o : AOrder c h s cur) :
    match aStep g c s with
    | .stop _ => True
    | .fail _ => True
    | .tau s' => ∃ cur, AOrder c h s' cur
    | .emit r s' => ∃ cur, AOrder c (h ++ [.rep r]) s' cur
    | .expand s' => ∃ cur, AOrder c (h ++ [.exp]) s' cur := by
  have pop : ∀ e rest, s.pc = .loop → s.heap = e :: rest → ¬ g.dd.get s.guesses (c.vid e.item.1) < e.key →
      (∀ f ∈ rest, e.key ≤ f.key) ∧ cur ≤ e.key ∧ e.key = g.dd.get s.dist (c.vid e.item.1) + c.heur e.item.1 := by
    intro e rest hpc hheap hst
    have hs := inv.sorted
    rw [hheap] at hs
    exact ⟨fun f hf => ((List.pairwise_cons.1 hs).1 f hf).key_le, o.lower e (by rw [hheap]; exact List.mem_cons_self),
      (inv.accept hn hpc hheap hst (hfin _)).1⟩
  apply aStep_cases (P := fun st => match st with
    | .stop _ => True
    | .fail _ => True
    | .tau s' => ∃ cur, AOrder c h s' cur
    | .emit r s' => ∃ cur, AOrder c (h ++ [.rep r]) s' cur
    | .expand s' => ∃ cur, AOrder c (h ++ [.exp]) s' cur) ht s
  · intro _ _; trivial
  · intro e rest hpc hheap hst
    exact ⟨cur, fun f hf => o.lower f (by rw [hheap]; exact List.mem_cons_of_mem _ hf), by simp only [hpc], o.reps,
      o.ordered⟩
  · intro e rest hpc hheap hst h0
    obtain ⟨h1, h2, h3⟩ := pop e rest hpc hheap hst
    exact ⟨e.key, h1, h3.le, fun r hr => (o.reps r hr).trans h2, o.ordered⟩
  · intro e rest hpc hheap hst h0
    obtain ⟨h1, h2, h3⟩ := pop e rest hpc hheap hst
    refine ⟨e.key, h1, h3.le, fun r hr => ?_, ?_⟩
    · rw [repsOf_append, repsOf_rep] at hr
      rcases List.mem_append.1 hr with hr | hr
      · exact (o.reps r hr).trans h2
      · rw [List.mem_singleton.1 hr]; exact h3.ge
    · rw [repsOf_append, repsOf_rep]
      refine List.pairwise_append.2 ⟨o.ordered, List.pairwise_singleton _ _, fun a ha b hb => ?_⟩
      rw [List.mem_singleton.1 hb]
      exact ((o.reps a ha).trans h2).trans h3.le
  · intro v w ec hpc
    have hp := o.pcs
    rw [hpc] at hp
    exact ⟨cur, o.lower, hp, by simpa using o.reps, by simpa using o.ordered⟩
  · intro v w ec hpc
    exact ⟨cur, o.lower, trivial, o.reps, o.ordered⟩
  · intro v w ec n x l es hpc hi; trivial
  · intro v w ec n x l es hpc hlt him
    have hp := o.pcs
    rw [hpc] at hp
    exact ⟨cur, o.lower, hp, o.reps, o.ordered⟩
  · intro v w ec n x l es d hpc hlt him h1 h2; trivial
  · intro v w ec n x l es d hpc hlt him hfin'
    obtain ⟨hgt, hns, hedge, hww, hdv, hne, hget⟩ := inv.improve hd hn hpc hlt him
    have hp := o.pcs
    rw [hpc] at hp
    refine ⟨cur, fun f hf => ?_, hp, o.reps, o.ordered⟩
    rcases mem_heapPush.1 hf with rfl | hf
    · simp only [aGuess_fin (hfin n)]
      refine le_trans hp ?_
      rw [add_comm x w, add_assoc]
      exact add_le_add_right (hcons v n x hedge) w
    · exact o.lower f hf

theorem a_order (ht : c.isTree = false) (hd : g.dd.Lawful c.inf) (hn : NonNeg c.next) (hc : WCompat c.next c.vid)
    (hh : HeurCompat c.heur c.vid) (hfin : ∀ v, c.heur v ≠ c.inf) (hcons : Consistent c.next c.heur)
    (hr : Reaches (aStep g c) (aInit g c none none starts) h s) : ∃ cur, AOrder c h s cur := by
  refine Reaches.invariant' (fun h s => ∃ cur, AOrder c h s cur) ?_ ?_ ?_ ?_ hr
  · have : ∀ l : List (HEntry W (V × Nat)), l.Pairwise HEntry.le → ∃ cur, ∀ e ∈ l, cur ≤ e.key := by
      intro l hl
      cases l with
      | nil => exact ⟨0, by simp⟩
      | cons a l =>
        refine ⟨a.key, fun e he => ?_⟩
        rcases List.mem_cons.1 he with rfl | he
        · exact le_refl _
        · exact ((List.pairwise_cons.1 hl).1 e he).key_le
    obtain ⟨cur, hcur⟩ := this _ (heapify_sorted (aStartEntries g c
      (aGuesses g c none (aDistances g c none starts) starts) starts 256))
    exact ⟨cur, hcur, trivial, by simp, by simp⟩
  · rintro h s s' hr ⟨cur, o⟩ e
    have := a_order_step ht hd hn hfin hcons (a_inv ht hd hn hc hh hr) o
    rw [e] at this; exact this
  · rintro h s r s' hr ⟨cur, o⟩ e
    have := a_order_step ht hd hn hfin hcons (a_inv ht hd hn hc hh hr) o
    rw [e] at this; exact this
  · rintro h s s' hr ⟨cur, o⟩ e
    have := a_order_step ht hd hn hfin hcons (a_inv ht hd hn hc hh hr) o
    rw [e] at this; exact this

/-- Consistent estimates fulfil the condition for each vertex. -/
theorem towardsOk_of_consistent (hcons : Consistent c.next c.heur) (k : K) : TowardsOk c k := by
  intro u w v hw hk
  clear hk
  induction hw with
  | start h => rw [h, zero_add]
  | @step w a b x _ he ih =>
    rw [add_assoc]
    exact ih.trans (add_le_add_right (hcons a b x he) w)

end NoGraphs
