import Mathlib.Data.List.Perm.Subperm
import Mathlib.Data.List.Nodup
import Verif.Proofs.AStarGoal

/-! A*: termination. -/

set_option linter.unusedSectionVars false

namespace NoGraphs

open Spec

variable {V K L W M ML D : Type} [DecidableEq V] [DecidableEq K]
variable [AddCommMonoid W] [LinearOrder W] [IsOrderedCancelAddMonoid W]
variable {g : WGear V K L W M ML D} {c : AStarCfg V K L W} {starts : List V}

theorem Spec.SimpleWalkW.walk {next : V → List (V × W × L)} {S : V → Prop} {vid : V → K} {ks : List K} {w : W} {v : V}
    (h : SimpleWalkW next S vid ks w v) : WalkW next S w v := by
  induction h with
  | start hs => exact .start hs
  | step _ he _ ih => exact .step ih he

theorem Spec.SimpleWalkW.nodup {next : V → List (V × W × L)} {S : V → Prop} {vid : V → K} {ks : List K} {w : W} {v : V}
    (h : SimpleWalkW next S vid ks w v) : ks.Nodup := by
  induction h with
  | start hs => exact List.nodup_singleton _
  | step _ _ hn ih => exact List.nodup_cons.2 ⟨hn, ih⟩

theorem Spec.SimpleWalkW.sub {next : V → List (V × W × L)} {S : V → Prop} {vid : V → K} {ks : List K} {w : W} {v : V}
    (h : SimpleWalkW next S vid ks w v) {ids : List K} (hids : ∀ w v, WalkW next S w v → vid v ∈ ids) : ks ⊆ ids := by
  induction h with
  | start hs => intro k hk; rw [List.mem_singleton.1 hk]; exact hids _ _ (.start hs)
  | step hw he _ ih =>
    intro k hk
    rcases List.mem_cons.1 hk with rfl | hk
    · exact hids _ _ (.step hw.walk he)
    · exact ih hk

open Classical in
/-- The weights of edges from vertices with ids in the list. -/
noncomputable def edgeWeights (next : V → List (V × W × L)) (vid : V → K) (ids : List K) : List W :=
  ids.flatMap (fun k => if h : ∃ u, vid u = k then (next h.choose).map (fun e => e.2.1) else [])

theorem mem_edgeWeights {next : V → List (V × W × L)} {vid : V → K} (hc : WCompat next vid) {ids : List K} {u v : V}
    {x : W} (he : WEdge next u v x) (hu : vid u ∈ ids) : x ∈ edgeWeights next vid ids := by
  unfold edgeWeights
  refine List.mem_flatMap.2 ⟨vid u, hu, ?_⟩
  have h : ∃ u', vid u' = vid u := ⟨u, rfl⟩
  rw [dif_pos h]
  obtain ⟨v', ⟨l, hl⟩, -⟩ := hc u h.choose v x h.choose_spec.symm he
  exact List.mem_map.2 ⟨_, hl, rfl⟩

/-- Sums of at most `n` weights. -/
def weightSums (X : List W) : Nat → List W
  | 0 => [0]
  | n + 1 => weightSums X n ++ (weightSums X n).flatMap (fun y => X.map (y + ·))

theorem weightSums_mono (X : List W) {n m : Nat} (h : n ≤ m) : weightSums X n ⊆ weightSums X m := by
  induction h with
  | refl => exact fun _ h => h
  | step _ ih => exact fun y hy => List.mem_append_left _ (ih hy)

theorem Spec.SimpleWalkW.mem_sums {next : V → List (V × W × L)} {S : V → Prop} {vid : V → K} {ks : List K} {w : W}
    {v : V} (h : SimpleWalkW next S vid ks w v) (hc : WCompat next vid) {ids : List K}
    (hids : ∀ w v, WalkW next S w v → vid v ∈ ids) : w ∈ weightSums (edgeWeights next vid ids) ks.length := by
  induction h with
  | start hs => exact weightSums_mono _ (Nat.zero_le _) (List.mem_singleton.2 rfl)
  | step hw he _ ih =>
    refine List.mem_append_right _ (List.mem_flatMap.2 ⟨_, ih, List.mem_map.2 ⟨_, ?_, rfl⟩⟩)
    exact mem_edgeWeights hc he (hids _ _ hw.walk)

theorem Spec.SimpleWalkW.mem_all {next : V → List (V × W × L)} {S : V → Prop} {vid : V → K} {ks : List K} {w : W}
    {v : V} (h : SimpleWalkW next S vid ks w v) (hc : WCompat next vid) {ids : List K}
    (hids : ∀ w v, WalkW next S w v → vid v ∈ ids) : w ∈ weightSums (edgeWeights next vid ids) ids.length :=
  weightSums_mono _ (h.nodup.subperm (h.sub hids)).length_le (h.mem_sums hc hids)

/-- Number of possible smaller distances. -/
def improvable (Y : List W) (ids : List K) (dist : K → W) : Nat :=
  (ids.map (fun k => (Y.filter (fun y => decide (y < dist k))).length)).sum

theorem filter_lt_le (Y : List W) {a b : W} (h : a ≤ b) :
    (Y.filter (fun y => decide (y < a))).length ≤ (Y.filter (fun y => decide (y < b))).length := by
  refine (List.monotone_filter_right Y ?_).length_le
  intro y hy
  simp only [decide_eq_true_eq] at hy ⊢
  exact lt_of_lt_of_le hy h

theorem filter_lt_lt (Y : List W) {a b : W} (h : a < b) (hm : a ∈ Y) :
    (Y.filter (fun y => decide (y < a))).length < (Y.filter (fun y => decide (y < b))).length := by
  induction Y with
  | nil => simp at hm
  | cons z Y ih =>
    by_cases hz : z = a
    · subst hz
      rw [List.filter_cons, List.filter_cons, if_neg (by simp), if_pos (by simpa using h)]
      exact Nat.lt_succ_of_le (filter_lt_le Y h.le)
    · have hm' : a ∈ Y := by
        rcases List.mem_cons.1 hm with h1 | h1
        · exact absurd h1.symm hz
        · exact h1
      have := ih hm'
      rw [List.filter_cons, List.filter_cons]
      by_cases h1 : z < a
      · rw [if_pos (by simpa using h1), if_pos (by simpa using h1.trans h)]
        simpa using this
      · rw [if_neg (by simpa using h1)]
        split
        · simp only [List.length_cons]; omega
        · exact this

theorem improvable_lt (Y : List W) (ids : List K) {d d' : K → W} {k : K} (hk : k ∈ ids) (hlt : d' k < d k) (hm : d' k ∈ Y)
    (ho : ∀ j, j ≠ k → d' j = d j) : improvable Y ids d' < improvable Y ids d := by
  have hle : ∀ l : List K, improvable Y l d' ≤ improvable Y l d := by
    intro l
    induction l with
    | nil => exact le_refl _
    | cons a l ih =>
      have : d' a ≤ d a := by
        by_cases ha : a = k
        · rw [ha]; exact hlt.le
        · rw [ho a ha]
      have h1 := filter_lt_le Y this
      simp only [improvable, List.map_cons, List.sum_cons] at ih ⊢
      omega
  induction ids with
  | nil => simp at hk
  | cons a l ih =>
    have hl := hle l
    simp only [improvable, List.map_cons, List.sum_cons] at hl ih ⊢
    by_cases ha : a = k
    · have := filter_lt_lt Y hlt hm
      rw [ha]; omega
    · have hk' : k ∈ l := by
        rcases List.mem_cons.1 hk with h1 | h1
        · exact absurd h1.symm ha
        · exact h1
      have := ih hk'
      rw [ho a ha]; omega

theorem heapPush_length (heap : List (HEntry W (V × Nat))) (e : HEntry W (V × Nat)) :
    (heapPush heap e).length = heap.length + 1 := by
  rw [(heapPush_perm _ _).length_eq]; rfl

theorem a_terminates (ht : c.isTree = false) (hd : g.dd.Lawful c.inf) (hn : NonNeg c.next) (hc : WCompat c.next c.vid)
    (hh : HeurCompat c.heur c.vid) {ids : List K} (hids : ∀ w v, WalkW c.next (· ∈ starts) w v → c.vid v ∈ ids) :
    ∃ N, ∀ fuel, N ≤ fuel → ∀ lim,
      (runMachine (aStep g c) fuel lim (aInit g c none none starts)).ending ≠ .outOfFuel := by
  let Y := weightSums (edgeWeights c.next c.vid ids) ids.length
  let μ : AStarState V L W M ML D → Nat × Nat × Nat × Nat := fun s =>
    (improvable Y ids (fun k => g.dd.get s.dist k), s.heap.length,
      match s.pc with | .loop => 0 | .edges _ _ _ _ => 1 | .expand _ _ _ => 2,
      match s.pc with | .edges _ _ _ es => es.length | _ => 0)
  refine run_terminates_reach (aStep g c) lex4 lex4_wf μ _ ?_
  intro h s s' hr
  have inv := a_inv ht hd hn hc hh hr
  apply aStep_cases (P := fun st => st.next? = some s' → lex4 (μ s') (μ s)) ht s
  · intro _ _ h; simp [Step.next?] at h
  · intro e rest hpc hheap hst heq
    simp only [Step.next?, Option.some.injEq] at heq
    subst heq
    exact (lex4_iff _ _ _ _ _ _ _ _).2 (.inr ⟨rfl, .inl (by simp [hheap])⟩)
  · intro e rest hpc hheap hst h0 heq
    simp only [Step.next?, Option.some.injEq] at heq
    subst heq
    exact (lex4_iff _ _ _ _ _ _ _ _).2 (.inr ⟨rfl, .inl (by simp [hheap])⟩)
  · intro e rest hpc hheap hst h0 heq
    simp only [Step.next?, Option.some.injEq] at heq
    subst heq
    exact (lex4_iff _ _ _ _ _ _ _ _).2 (.inr ⟨rfl, .inl (by simp [hheap])⟩)
  · intro v w ec hpc heq
    simp only [Step.next?, Option.some.injEq] at heq
    subst heq
    exact (lex4_iff _ _ _ _ _ _ _ _).2 (.inr ⟨rfl, .inr ⟨rfl, .inl (by simp [hpc])⟩⟩)
  · intro v w ec hpc heq
    simp only [Step.next?, Option.some.injEq] at heq
    subst heq
    exact (lex4_iff _ _ _ _ _ _ _ _).2 (.inr ⟨rfl, .inr ⟨rfl, .inl (by simp [hpc])⟩⟩)
  · intro v w ec n x l es hpc hi heq; simp [Step.next?] at heq
  · intro v w ec n x l es hpc hlt him heq
    simp only [Step.next?, Option.some.injEq] at heq
    subst heq
    exact (lex4_iff _ _ _ _ _ _ _ _).2 (.inr ⟨rfl, .inr ⟨rfl, .inr ⟨by simp [hpc], by simp [hpc]⟩⟩⟩)
  · intro v w ec n x l es d hpc hlt him h1 h2 heq; simp [Step.next?] at heq
  · intro v w ec n x l es d hpc hlt him hfin heq
    obtain ⟨hgt, hns, hedge, hww, hdv, hne, hget⟩ := inv.improve hd hn hpc hlt him
    have hp := inv.pcok
    unfold APcOk at hp
    rw [hpc] at hp
    simp only [Step.next?, Option.some.injEq] at heq
    subst heq
    have hgetn : g.dd.get d (c.vid n) = x + w := by rw [hget, if_pos rfl]
    obtain ⟨ks, u, hu, hsw, hks⟩ := inv.simple _ hp.1.1
    obtain ⟨m, hm, hmid⟩ := hc v u n x hu.symm hedge
    rw [hdv] at hsw hks
    have hnotin : c.vid m ∉ ks := fun hin => by
      rw [hmid] at hin
      exact absurd (lt_of_le_of_lt hww hgt) (not_lt_of_ge (hks _ hin))
    have hsim := SimpleWalkW.step hsw hm hnotin
    have hY : x + w ∈ Y := by rw [add_comm]; exact hsim.mem_all hc hids
    have := improvable_lt Y ids (d := fun k => g.dd.get s.dist k) (d' := fun k => g.dd.get d k) (k := c.vid n)
      (hmid ▸ hids _ _ hsim.walk) (by simp only [hgetn]; exact hgt) (by simp only [hgetn]; exact hY)
      (fun j hj => by simp only [hget, if_neg hj])
    simp only [μ, lex4_iff]
    exact .inl this

end NoGraphs
