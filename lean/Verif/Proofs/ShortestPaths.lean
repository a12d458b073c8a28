import Mathlib.Algebra.Order.Monoid.Unbundled.Basic
import Verif.Model.ShortestPaths
import Verif.Spec.Weighted
import Verif.Proofs.Machine
import Verif.Proofs.Gear
import Verif.Proofs.Heap
import Verif.Proofs.WeightLaws

/-! Invariant of the shortest paths traversal. -/

set_option linter.unusedSectionVars false

namespace NoGraphs

open Spec

variable {V K L W M ML D : Type} [DecidableEq V] [DecidableEq K]
variable [Add W] [Zero W] [LinearOrder W] [WeightLaws W]

attribute [local instance] wAddCommMagma wAddZeroClass wAddRightMono wAddLeftMono

section

variable (c : WCfg V K L W) (starts : List V) (B : K → W)

/-- Walks that respect the initial distances `B`. -/
abbrev AW (w : W) (v : V) : Prop := KWalk c.next (· ∈ starts) c.vid B w v

/-- The edge has still to be processed. -/
def SpPending (pc : SpPc V L W) (u v : V) (x : W) : Prop :=
  match pc with
  | .loop => False
  | .expand u' _ _ => u' = u
  | .edges u' _ _ es => u' = u ∧ ∃ l, (v, x, l) ∈ es

/-- The best known distance for id `k` is at most `y`. -/
def SpBest (F : K → Option W) (d : K → W) (k : K) (y : W) : Prop :=
  match F k with
  | some w => w ≤ y
  | none => d k ≤ y

/-- What holds for the current vertex. -/
def SpPcOk (F : K → Option W) (cur : W) (pc : SpPc V L W) : Prop :=
  match pc with
  | .loop => True
  | .expand u w _ => F (c.vid u) = some w ∧ cur = w ∧ AW c starts B w u
  | .edges u w _ es => F (c.vid u) = some w ∧ cur = w ∧ AW c starts B w u ∧ ∀ e ∈ es, e ∈ c.next u

/-- Invariant; `F` gives the ids that are finished, with their distances; `cur` is the largest
distance of a finished vertex. -/
structure SpInv (g : WGear V K L W M ML D) (h : List (Ev (SpReport V W M ML D))) (s : SpState V L W M ML D)
    (F : K → Option W) (cur : W) : Prop where
  sorted : s.heap.Pairwise HEntry.le
  uniq : s.heap.Pairwise (fun e f => c.vid e.item.1 = c.vid f.item.1 → e.key = f.key →
    e.item.2 = 0 ∧ f.item.2 = 0)
  cur0 : 0 ≤ cur
  lower : ∀ e ∈ s.heap, cur ≤ e.key
  walk : ∀ e ∈ s.heap, AW c starts B e.key e.item.1
  ent0 : ∀ e ∈ s.heap, e.item.2 = 0 → e.item.1 ∈ starts ∧ e.key = B (c.vid e.item.1)
  entS : ∀ e ∈ s.heap, 0 < e.item.2 → e.key < B (c.vid e.item.1) ∧ e.key < c.inf
  entU : ∀ e ∈ s.heap, F (c.vid e.item.1) = none → g.dd.get s.dist (c.vid e.item.1) ≤ e.key
  entD : ∀ e ∈ s.heap, ∀ w, F (c.vid e.item.1) = some w → w ≤ e.key ∧ (0 < e.item.2 → w < e.key)
  donev : ∀ k w, F k = some w → 0 ≤ w ∧ w ≤ cur ∧ w ≤ B k ∧
    g.dd.get s.dist k = (if c.keepDistances then w else 0) ∧
    ∀ w' v', AW c starts B w' v' → c.vid v' = k → w ≤ w'
  undone : ∀ k, F k = none → g.dd.get s.dist k ≤ B k ∧
    ((g.dd.get s.dist k = B k ∧ k ∉ starts.map c.vid) ∨
      ∃ e ∈ s.heap, c.vid e.item.1 = k ∧ e.key = g.dd.get s.dist k)
  relaxed : ∀ k w, F k = some w → ∃ u, c.vid u = k ∧ AW c starts B w u ∧ ∀ v x, WEdge c.next u v x →
    SpPending s.pc u v x ∨ (w + x < c.inf ∧ SpBest F (g.dd.get s.dist) (c.vid v) (w + x))
  pcok : SpPcOk c starts B F cur s.pc
  reps : ∀ r ∈ repsOf h, F (c.vid r.vertex) = some r.distance ∧ AW c starts B r.distance r.vertex ∧
    r.distance < B (c.vid r.vertex) ∧ r.distance < c.inf ∧ 0 < r.depth
  nodup : ((repsOf h).map (fun r => c.vid r.vertex)).Nodup
  ordered : ((repsOf h).map (fun r => r.distance)).Pairwise (· ≤ ·)
  doneRep : ∀ k w, F k = some w → k ∈ starts.map c.vid ∨ ∃ r ∈ repsOf h, c.vid r.vertex = k

/-- The new finished ids after a vertex has been taken from the heap. -/
def spFin (F : K → Option W) (k : K) (w : W) : K → Option W := fun j => if j = k then some w else F j

variable {c starts B} {g : WGear V K L W M ML D}

/-- Every walk ends at a finished vertex, or it leads through a vertex on the heap. -/
theorem SpInv.frontier {h : List (Ev (SpReport V W M ML D))} {s : SpState V L W M ML D} {F : K → Option W}
    {cur : W} (inv : SpInv c starts B g h s F cur) (hpc : s.pc = .loop) (hn : NonNeg c.next)
    (hc : WCompat c.next c.vid) {w : W} {v : V} (hw : AW c starts B w v) :
    (∃ w', F (c.vid v) = some w' ∧ w' ≤ w) ∨ ∃ e ∈ s.heap, e.key ≤ w := by
  induction hw with
  | @start v hs =>
    cases hF : F (c.vid v) with
    | some w' => exact .inl ⟨w', rfl, (inv.donev _ _ hF).2.2.1⟩
    | none =>
      right
      obtain ⟨h1, ⟨-, h2⟩ | ⟨e, he, -, h2⟩⟩ := inv.undone _ hF
      · exact absurd (List.mem_map.2 ⟨v, hs, rfl⟩) h2
      · exact ⟨e, he, h2 ▸ h1⟩
  | @step w u v x _ he hlt ih =>
    rcases ih with ⟨w', hF, hle⟩ | ⟨e, he', hle⟩
    · obtain ⟨u', hu', -, hr⟩ := inv.relaxed _ _ hF
      obtain ⟨v', hv', hid⟩ := hc u u' v x hu'.symm he
      rcases hr v' x hv' with hp | ⟨-, hb⟩
      · rw [hpc] at hp; exact absurd hp id
      · rw [hid] at hb
        have hle' : w' + x ≤ w + x := add_le_add_left hle x
        unfold SpBest at hb
        cases hFv : F (c.vid v) with
        | some w2 =>
          rw [hFv] at hb
          exact .inl ⟨w2, rfl, hb.trans hle'⟩
        | none =>
          rw [hFv] at hb
          right
          obtain ⟨_, ⟨h2, -⟩ | ⟨e, he, -, h2⟩⟩ := inv.undone _ hFv
          · simp only at hb
            rw [h2] at hb
            exact absurd (lt_of_lt_of_le hlt (hb.trans hle')) (lt_irrefl _)
          · exact ⟨e, he, h2 ▸ hb.trans hle'⟩
    · exact .inr ⟨e, he', hle.trans (le_add_of_nonneg_right (hn _ _ _ he))⟩


variable {h : List (Ev (SpReport V W M ML D))} {s : SpState V L W M ML D} {F : K → Option W} {cur : W}

theorem SpInv.popStale (inv : SpInv c starts B g h s F cur) {e : HEntry W (V × Nat)}
    {rest : List (HEntry W (V × Nat))} (hh : s.heap = e :: rest)
    (hst : g.dd.get s.dist (c.vid e.item.1) < e.key) :
    SpInv c starts B g h { s with heap := rest } F cur := by
  have hsub : ∀ f ∈ rest, f ∈ s.heap := fun f hf => by rw [hh]; exact List.mem_cons_of_mem _ hf
  have hs := inv.sorted
  have hu := inv.uniq
  rw [hh] at hs hu
  exact {
    sorted := (List.pairwise_cons.1 hs).2
    uniq := (List.pairwise_cons.1 hu).2
    cur0 := inv.cur0
    lower := fun f hf => inv.lower f (hsub f hf)
    walk := fun f hf => inv.walk f (hsub f hf)
    ent0 := fun f hf => inv.ent0 f (hsub f hf)
    entS := fun f hf => inv.entS f (hsub f hf)
    entU := fun f hf => inv.entU f (hsub f hf)
    entD := fun f hf => inv.entD f (hsub f hf)
    donev := inv.donev
    undone := fun k hk => by
      obtain ⟨h1, h2 | ⟨f, hf, h2, h3⟩⟩ := inv.undone k hk
      · exact ⟨h1, .inl h2⟩
      · refine ⟨h1, .inr ⟨f, ?_, h2, h3⟩⟩
        rw [hh] at hf
        rcases List.mem_cons.1 hf with rfl | hf
        · rw [h2, ← h3] at hst; exact absurd hst (lt_irrefl _)
        · exact hf
    relaxed := inv.relaxed
    pcok := inv.pcok
    reps := inv.reps
    nodup := inv.nodup
    ordered := inv.ordered
    doneRep := inv.doneRep }

/-- A non-stale entry of an id that is already finished belongs to a repeated start vertex. -/
theorem SpInv.dup (inv : SpInv c starts B g h s F cur) {e : HEntry W (V × Nat)} (he : e ∈ s.heap)
    (hst : ¬ g.dd.get s.dist (c.vid e.item.1) < e.key) {w : W} (hF : F (c.vid e.item.1) = some w) :
    w = e.key ∧ e.item.2 = 0 ∧ cur = e.key := by
  obtain ⟨d0, d1, -, d2, -⟩ := inv.donev _ _ hF
  obtain ⟨h1, h2⟩ := inv.entD e he w hF
  have hcur := inv.lower e he
  have hle : e.key ≤ g.dd.get s.dist (c.vid e.item.1) := le_of_not_gt hst
  rw [d2] at hle
  have hw : w = e.key := by
    refine le_antisymm h1 ?_
    split at hle
    · exact hle
    · exact hle.trans d0
  refine ⟨hw, ?_, le_antisymm hcur (hw ▸ d1)⟩
  rcases Nat.eq_zero_or_pos e.item.2 with h0 | h0
  · exact h0
  · exact absurd (hw ▸ h2 h0) (lt_irrefl _)

theorem SpInv.popDup (inv : SpInv c starts B g h s F cur) (hd : g.dd.Lawful c.inf)
    (hpc : s.pc = .loop) {e : HEntry W (V × Nat)}
    {rest : List (HEntry W (V × Nat))} (hh : s.heap = e :: rest)
    (hst : ¬ g.dd.get s.dist (c.vid e.item.1) < e.key) {w : W} (hF : F (c.vid e.item.1) = some w) :
    SpInv c starts B g h { s with
      heap := rest
      dist := if !c.keepDistances then g.dd.set s.dist (c.vid e.item.1) 0 else s.dist
      pc := .expand e.item.1 e.key e.item.2 } F cur := by
  have hsub : ∀ f ∈ rest, f ∈ s.heap := fun f hf => by rw [hh]; exact List.mem_cons_of_mem _ hf
  have he : e ∈ s.heap := by rw [hh]; exact List.mem_cons_self
  obtain ⟨hw, h0, hc⟩ := inv.dup he hst hF
  have hs := inv.sorted
  have hu := inv.uniq
  rw [hh] at hs hu
  have hget : ∀ j, g.dd.get (if !c.keepDistances then g.dd.set s.dist (c.vid e.item.1) 0 else s.dist) j =
      g.dd.get s.dist j := by
    intro j
    by_cases hk : c.keepDistances = true
    · simp [hk]
    · simp only [hk, Bool.not_false, if_true, hd.get_set]
      split
      · rename_i hj
        have := (inv.donev _ _ hF).2.2.2.1
        simp only [hk] at this
        rw [hj, this]; simp
      · rfl
  refine {
    sorted := (List.pairwise_cons.1 hs).2
    uniq := (List.pairwise_cons.1 hu).2
    cur0 := inv.cur0
    lower := fun f hf => inv.lower f (hsub f hf)
    walk := fun f hf => inv.walk f (hsub f hf)
    ent0 := fun f hf => inv.ent0 f (hsub f hf)
    entS := fun f hf => inv.entS f (hsub f hf)
    entU := fun f hf hn => by simp only [hget]; exact inv.entU f (hsub f hf) hn
    entD := fun f hf => inv.entD f (hsub f hf)
    donev := fun k w hk => by simp only [hget]; exact inv.donev k w hk
    undone := fun k hk => by
      simp only [hget]
      obtain ⟨h1, h2 | ⟨f, hf, h2, h3⟩⟩ := inv.undone k hk
      · exact ⟨h1, .inl h2⟩
      · refine ⟨h1, .inr ⟨f, ?_, h2, h3⟩⟩
        rw [hh] at hf
        rcases List.mem_cons.1 hf with rfl | hf
        · rw [h2, hk] at hF; simp at hF
        · exact hf
    relaxed := fun k w hk => by
      obtain ⟨u, h1, h2, h3⟩ := inv.relaxed k w hk
      refine ⟨u, h1, h2, fun v x hx => ?_⟩
      rcases h3 v x hx with h4 | h4
      · rw [hpc] at h4; exact absurd h4 id
      · right
        refine ⟨h4.1, ?_⟩
        have := h4.2
        unfold SpBest at this ⊢
        simp only [hget]; exact this
    pcok := ⟨hw ▸ hF, hc, inv.walk e he⟩
    reps := inv.reps
    nodup := inv.nodup
    ordered := inv.ordered
    doneRep := inv.doneRep }

theorem SpBest.fin {d d' : K → W} {k : K} {w : W} (hF : F k = none) (hk : d k = w)
    (hd : ∀ j, j ≠ k → d' j = d j) {j : K} {y : W} (h : SpBest F d j y) : SpBest (spFin F k w) d' j y := by
  unfold SpBest spFin at *
  by_cases hj : j = k
  · subst hj
    rw [hF] at h
    simp only [if_true]
    exact hk ▸ h
  · rw [if_neg hj]
    cases hFj : F j with
    | some w' => rw [hFj] at h; exact h
    | none => rw [hFj] at h; simp only [hd j hj]; exact h

/-- The invariant after taking a vertex from the heap that has not been finished before, without the
statements about reports. -/
theorem SpInv.popFresh (inv : SpInv c starts B g h s F cur) (hd : g.dd.Lawful c.inf) (hn : NonNeg c.next)
    (hc : WCompat c.next c.vid) (hpc : s.pc = .loop) {e : HEntry W (V × Nat)}
    {rest : List (HEntry W (V × Nat))} (hh : s.heap = e :: rest)
    (hst : ¬ g.dd.get s.dist (c.vid e.item.1) < e.key) (hF : F (c.vid e.item.1) = none)
    (h' : List (Ev (SpReport V W M ML D)))
    (hreps : ∀ r ∈ repsOf h', (r ∈ repsOf h ∨ (r.vertex = e.item.1 ∧ r.distance = e.key ∧ r.depth = e.item.2 ∧
      0 < e.item.2)))
    (hnodup : ((repsOf h').map (fun r => c.vid r.vertex)).Nodup)
    (hord : ((repsOf h').map (fun r => r.distance)).Pairwise (· ≤ ·))
    (hold : ∀ r ∈ repsOf h, r ∈ repsOf h')
    (hnew : e.item.1 ∈ starts ∨ ∃ r ∈ repsOf h', c.vid r.vertex = c.vid e.item.1) :
    SpInv c starts B g h' { s with
      heap := rest
      dist := if !c.keepDistances then g.dd.set s.dist (c.vid e.item.1) 0 else s.dist
      pc := .expand e.item.1 e.key e.item.2 } (spFin F (c.vid e.item.1) e.key) e.key := by
  have hsub : ∀ f ∈ rest, f ∈ s.heap := fun f hf => by rw [hh]; exact List.mem_cons_of_mem _ hf
  have he : e ∈ s.heap := by rw [hh]; exact List.mem_cons_self
  have hs := inv.sorted
  have hu := inv.uniq
  rw [hh] at hs hu
  rw [List.pairwise_cons] at hs hu
  have hkey : g.dd.get s.dist (c.vid e.item.1) = e.key :=
    le_antisymm (inv.entU e he hF) (le_of_not_gt hst)
  have hcur := inv.lower e he
  have hmin : ∀ w' v', AW c starts B w' v' → c.vid v' = c.vid e.item.1 → e.key ≤ w' := by
    intro w' v' hw hv
    rcases inv.frontier hpc hn hc hw with ⟨w2, h1, -⟩ | ⟨f, hf, hle⟩
    · rw [hv, hF] at h1; simp at h1
    · rw [hh] at hf
      rcases List.mem_cons.1 hf with rfl | hf
      · exact hle
      · exact (hs.1 f hf).key_le.trans hle
  have hget : ∀ j, j ≠ c.vid e.item.1 →
      g.dd.get (if !c.keepDistances then g.dd.set s.dist (c.vid e.item.1) 0 else s.dist) j =
      g.dd.get s.dist j := by
    intro j hj
    split
    · rw [hd.get_set, if_neg hj]
    · rfl
  have hgetk : g.dd.get (if !c.keepDistances then g.dd.set s.dist (c.vid e.item.1) 0 else s.dist)
      (c.vid e.item.1) = (if c.keepDistances then e.key else 0) := by
    by_cases hk : c.keepDistances = true
    · simp [hk, hkey]
    · simp only [hk, Bool.not_false, if_true, hd.get_set]; simp
  have hfin : ∀ j, j ≠ c.vid e.item.1 → spFin F (c.vid e.item.1) e.key j = F j :=
    fun j hj => if_neg hj
  have hfink : spFin F (c.vid e.item.1) e.key (c.vid e.item.1) = some e.key := if_pos rfl
  exact {
    sorted := hs.2
    uniq := hu.2
    cur0 := inv.cur0.trans hcur
    lower := fun f hf => (hs.1 f hf).key_le
    walk := fun f hf => inv.walk f (hsub f hf)
    ent0 := fun f hf => inv.ent0 f (hsub f hf)
    entS := fun f hf => inv.entS f (hsub f hf)
    entU := fun f hf hnone => by
      by_cases hj : c.vid f.item.1 = c.vid e.item.1
      · rw [hj, hfink] at hnone; simp at hnone
      · rw [hfin _ hj] at hnone
        simp only [hget _ hj]
        exact inv.entU f (hsub f hf) hnone
    entD := fun f hf w hw => by
      by_cases hj : c.vid f.item.1 = c.vid e.item.1
      · rw [hj, hfink] at hw
        simp only [Option.some.injEq] at hw
        subst hw
        have hle := (hs.1 f hf).key_le
        refine ⟨hle, fun hpos => lt_of_le_of_ne hle (fun heq => ?_)⟩
        have := (hu.1 f hf hj.symm heq).2
        omega
      · rw [hfin _ hj] at hw
        exact inv.entD f (hsub f hf) w hw
    donev := fun k w hk => by
      by_cases hj : k = c.vid e.item.1
      · subst hj
        rw [hfink] at hk
        simp only [Option.some.injEq] at hk
        subst hk
        refine ⟨inv.cur0.trans hcur, le_refl _, ?_, hgetk, hmin⟩
        have := (inv.undone _ hF).1
        rw [hkey] at this; exact this
      · rw [hfin _ hj] at hk
        obtain ⟨h0, h1, h2, h3, h4⟩ := inv.donev k w hk
        simp only [hget _ hj]
        exact ⟨h0, h1.trans hcur, h2, h3, h4⟩
    undone := fun k hk => by
      have hj : k ≠ c.vid e.item.1 := by
        intro hj; rw [hj, hfink] at hk; simp at hk
      rw [hfin _ hj] at hk
      simp only [hget _ hj]
      obtain ⟨h1, h2 | ⟨f, hf, h2, h3⟩⟩ := inv.undone k hk
      · exact ⟨h1, .inl h2⟩
      · refine ⟨h1, .inr ⟨f, ?_, h2, h3⟩⟩
        rw [hh] at hf
        rcases List.mem_cons.1 hf with rfl | hf
        · exact absurd h2.symm hj
        · exact hf
    relaxed := fun k w hk => by
      by_cases hj : k = c.vid e.item.1
      · subst hj
        rw [hfink] at hk
        simp only [Option.some.injEq] at hk
        subst hk
        exact ⟨e.item.1, rfl, inv.walk e he, fun v x _ => .inl rfl⟩
      · rw [hfin _ hj] at hk
        obtain ⟨u, h1, h2, h3⟩ := inv.relaxed k w hk
        refine ⟨u, h1, h2, fun v x hx => ?_⟩
        rcases h3 v x hx with h4 | h4
        · rw [hpc] at h4; exact absurd h4 id
        · exact .inr ⟨h4.1, h4.2.fin hF hkey hget⟩
    pcok := ⟨hfink, rfl, inv.walk e he⟩
    reps := fun r hr => by
      rcases hreps r hr with hr | ⟨e1, e2, e3, e4⟩
      · obtain ⟨h1, h2⟩ := inv.reps r hr
        refine ⟨?_, h2⟩
        have hj : c.vid r.vertex ≠ c.vid e.item.1 := by
          intro hj; rw [hj, hF] at h1; simp at h1
        rw [hfin _ hj]; exact h1
      · rw [e1, e2, e3]
        exact ⟨hfink, inv.walk e he, (inv.entS e he e4).1, (inv.entS e he e4).2, e4⟩
    nodup := hnodup
    ordered := hord
    doneRep := fun k w hk => by
      by_cases hj : k = c.vid e.item.1
      · subst hj
        rcases hnew with h | h
        · exact .inl (List.mem_map.2 ⟨_, h, rfl⟩)
        · exact .inr h
      · rw [hfin _ hj] at hk
        rcases inv.doneRep k w hk with h | ⟨r, hr, h⟩
        · exact .inl h
        · exact .inr ⟨r, hold r hr, h⟩ }

theorem SpInv.expand (inv : SpInv c starts B g h s F cur) {v : V} {w : W} {ec : Nat}
    (hpc : s.pc = .expand v w ec) :
    SpInv c starts B g (h ++ [.exp]) { s with pc := .edges v w ec (c.next v) } F cur := by
  have hrep : repsOf (h ++ [Ev.exp]) = repsOf h := by simp
  have hp := inv.pcok
  rw [hpc] at hp
  exact { inv with
    relaxed := fun k w' hk => by
      obtain ⟨u, h1, h2, h3⟩ := inv.relaxed k w' hk
      refine ⟨u, h1, h2, fun v' x hx => ?_⟩
      rcases h3 v' x hx with h4 | h4
      · rw [hpc] at h4
        have h4 : v = u := h4
        subst h4
        exact .inl ⟨rfl, hx⟩
      · exact .inr h4
    pcok := ⟨hp.1, hp.2.1, hp.2.2, fun _ h => h⟩
    reps := by rw [hrep]; exact inv.reps
    nodup := by rw [hrep]; exact inv.nodup
    ordered := by rw [hrep]; exact inv.ordered
    doneRep := by rw [hrep]; exact inv.doneRep }

theorem SpInv.edgesEnd (inv : SpInv c starts B g h s F cur) {v : V} {w : W} {ec : Nat}
    (hpc : s.pc = .edges v w ec []) : SpInv c starts B g h { s with pc := .loop } F cur :=
  { inv with
    relaxed := fun k w' hk => by
      obtain ⟨u, h1, h2, h3⟩ := inv.relaxed k w' hk
      refine ⟨u, h1, h2, fun v' x hx => ?_⟩
      rcases h3 v' x hx with h4 | h4
      · rw [hpc] at h4
        obtain ⟨_, l, hl⟩ := h4
        simp at hl
      · exact .inr h4
    pcok := trivial }

/-- Finished ids have distances that do not exceed a new one. -/
theorem SpInv.best_of_done (inv : SpInv c starts B g h s F cur) (hn : NonNeg c.next) {v n : V} {w x : W}
    (hcur : cur = w) (he : WEdge c.next v n x) {w' : W} (hF : F (c.vid n) = some w') :
    w' ≤ w + x ∧ g.dd.get s.dist (c.vid n) ≤ w + x := by
  obtain ⟨h0, h1, _, h2, _⟩ := inv.donev _ _ hF
  have hx := hn _ _ _ he
  have hw : w ≤ w + x := le_add_of_nonneg_right hx
  refine ⟨(hcur ▸ h1).trans hw, ?_⟩
  rw [h2]
  split
  · exact (hcur ▸ h1).trans hw
  · exact (h0.trans (hcur ▸ h1)).trans hw

theorem SpInv.edgeSkip (inv : SpInv c starts B g h s F cur) (hd : g.dd.Lawful c.inf) (hn : NonNeg c.next)
    {v n : V} {w x : W} {l : L} {ec : Nat} {es : List (V × W × L)}
    (hpc : s.pc = .edges v w ec ((n, x, l) :: es)) (hinf : ¬ c.inf ≤ x + w)
    (himp : g.dd.improve s.dist (c.vid n) (x + w) = none) :
    SpInv c starts B g h { s with pc := .edges v w ec es } F cur := by
  have hp := inv.pcok
  rw [hpc] at hp
  obtain ⟨p1, p2, p3, p4⟩ := hp
  have hlt : x + w < c.inf := lt_of_not_ge hinf
  have hle : g.dd.get s.dist (c.vid n) ≤ x + w := (hd.improve_none _ _ _ hlt).1 himp
  have hedge : WEdge c.next v n x := ⟨l, p4 _ List.mem_cons_self⟩
  exact { inv with
    relaxed := fun k w' hk => by
      obtain ⟨u, h1, h2, h3⟩ := inv.relaxed k w' hk
      refine ⟨u, h1, h2, fun v' x' hx => ?_⟩
      rcases h3 v' x' hx with h4 | h4
      · rw [hpc] at h4
        obtain ⟨rfl, l', hl'⟩ := h4
        rcases List.mem_cons.1 hl' with heq | hl'
        · right
          simp only [Prod.mk.injEq] at heq
          obtain ⟨rfl, rfl, -⟩ := heq
          have hww : w' = w := by rw [← h1, p1] at hk; simpa using hk.symm
          subst hww
          refine ⟨by rw [add_comm]; exact hlt, ?_⟩
          unfold SpBest
          cases hF : F (c.vid v') with
          | some w2 => exact (inv.best_of_done hn p2 hedge hF).1
          | none => rw [add_comm w' x']; exact hle
        · exact .inl ⟨rfl, l', hl'⟩
      · exact .inr h4
    pcok := ⟨p1, p2, p3, fun e he => p4 e (List.mem_cons_of_mem _ he)⟩ }

theorem SpInv.push_undone (inv : SpInv c starts B g h s F cur) (hd : g.dd.Lawful c.inf) (hn : NonNeg c.next)
    {v n : V} {w x : W} {l : L} {ec : Nat} {es : List (V × W × L)} {d : D}
    (hpc : s.pc = .edges v w ec ((n, x, l) :: es)) (hinf : ¬ c.inf ≤ x + w)
    (himp : g.dd.improve s.dist (c.vid n) (x + w) = some d) :
    F (c.vid n) = none ∧ x + w < g.dd.get s.dist (c.vid n) ∧ AW c starts B (x + w) n ∧
    x + w < B (c.vid n) ∧ cur ≤ x + w := by
  have hp := inv.pcok
  rw [hpc] at hp
  obtain ⟨p1, p2, p3, p4⟩ := hp
  have hlt : x + w < c.inf := lt_of_not_ge hinf
  have hgt : x + w < g.dd.get s.dist (c.vid n) := by
    refine lt_of_not_ge (fun hle => ?_)
    rw [(hd.improve_none _ _ _ hlt).2 hle] at himp
    simp at himp
  have hedge : WEdge c.next v n x := ⟨l, p4 _ List.mem_cons_self⟩
  have hF : F (c.vid n) = none := by
    cases hF : F (c.vid n) with
    | none => rfl
    | some w2 =>
      have := (inv.best_of_done hn p2 hedge hF).2
      rw [add_comm] at this
      exact absurd (lt_of_lt_of_le hgt this) (lt_irrefl _)
  have hB : x + w < B (c.vid n) := lt_of_lt_of_le hgt (inv.undone _ hF).1
  refine ⟨hF, hgt, ?_, hB, ?_⟩
  · rw [add_comm] at hB ⊢; exact .step p3 hedge hB
  · rw [p2]; exact le_add_of_nonneg_left (hn _ _ _ hedge)

theorem SpInv.edgePush (inv : SpInv c starts B g h s F cur) (hd : g.dd.Lawful c.inf) (hn : NonNeg c.next)
    {v n : V} {w x : W} {l : L} {ec : Nat} {es : List (V × W × L)} {d : D} {no : Int} {pr : M} {la : ML}
    (hpc : s.pc = .edges v w ec ((n, x, l) :: es)) (hinf : ¬ c.inf ≤ x + w)
    (himp : g.dd.improve s.dist (c.vid n) (x + w) = some d) :
    SpInv c starts B g h
      ⟨.edges v w ec es, heapPush s.heap ⟨x + w, s.no, (n, ec + 1)⟩, no, d, pr, la⟩ F cur := by
  obtain ⟨hF, hgt, hwalk, hB, hcur⟩ := inv.push_undone hd hn hpc hinf himp
  have hp := inv.pcok
  rw [hpc] at hp
  obtain ⟨p1, p2, p3, p4⟩ := hp
  have hlt : x + w < c.inf := lt_of_not_ge hinf
  have hget := hd.improve_some _ _ _ _ hlt himp
  have hgetn : g.dd.get d (c.vid n) = x + w := by rw [hget, if_pos rfl]
  have hbest : ∀ j y, SpBest F (g.dd.get s.dist) j y → SpBest F (g.dd.get d) j y := by
    intro j y hb
    unfold SpBest at *
    cases hFj : F j with
    | some w2 => rw [hFj] at hb; exact hb
    | none =>
      rw [hFj] at hb
      simp only [hget]
      split
      · rename_i hj; subst hj; exact hgt.le.trans hb
      · exact hb
  exact {
    sorted := heapPush_sorted _ inv.sorted
    uniq := by
      refine ((heapPush_perm _ _).pairwise_iff (fun {a b} hab h1 h2 => (hab h1.symm h2.symm).symm)).2 ?_
      refine List.pairwise_cons.2 ⟨fun f hf hid hkey => ?_, inv.uniq⟩
      exfalso
      simp only at hid hkey
      have := inv.entU f hf (hid ▸ hF)
      rw [← hid, ← hkey] at this
      exact absurd (lt_of_lt_of_le hgt this) (lt_irrefl _)
    cur0 := inv.cur0
    lower := fun f hf => by
      rcases mem_heapPush.1 hf with rfl | hf
      · exact hcur
      · exact inv.lower f hf
    walk := fun f hf => by
      rcases mem_heapPush.1 hf with rfl | hf
      · exact hwalk
      · exact inv.walk f hf
    ent0 := fun f hf h0 => by
      rcases mem_heapPush.1 hf with rfl | hf
      · simp at h0
      · exact inv.ent0 f hf h0
    entS := fun f hf h0 => by
      rcases mem_heapPush.1 hf with rfl | hf
      · exact ⟨hB, hlt⟩
      · exact inv.entS f hf h0
    entU := fun f hf hnone => by
      rcases mem_heapPush.1 hf with rfl | hf
      · exact hgetn.le
      · have := inv.entU f hf hnone
        simp only [hget]
        split
        · rename_i hj; rw [hj] at this; exact hgt.le.trans this
        · exact this
    entD := fun f hf w' hw' => by
      rcases mem_heapPush.1 hf with rfl | hf
      · simp only at hw'; rw [hF] at hw'; simp at hw'
      · exact inv.entD f hf w' hw'
    donev := fun k w' hk => by
      have hj : k ≠ c.vid n := by intro hj; rw [hj, hF] at hk; simp at hk
      simp only [hget, if_neg hj]
      exact inv.donev k w' hk
    undone := fun k hk => by
      by_cases hj : k = c.vid n
      · subst hj
        simp only [hgetn]
        exact ⟨hB.le, .inr ⟨_, mem_heapPush.2 (.inl rfl), rfl, rfl⟩⟩
      · simp only [hget, if_neg hj]
        obtain ⟨h1, h2 | ⟨f, hf, h2⟩⟩ := inv.undone k hk
        · exact ⟨h1, .inl h2⟩
        · exact ⟨h1, .inr ⟨f, mem_heapPush.2 (.inr hf), h2⟩⟩
    relaxed := fun k w' hk => by
      obtain ⟨u, h1, h2, h3⟩ := inv.relaxed k w' hk
      refine ⟨u, h1, h2, fun v' x' hx => ?_⟩
      rcases h3 v' x' hx with h4 | h4
      · rw [hpc] at h4
        obtain ⟨rfl, l', hl'⟩ := h4
        rcases List.mem_cons.1 hl' with heq | hl'
        · right
          simp only [Prod.mk.injEq] at heq
          obtain ⟨rfl, rfl, -⟩ := heq
          have hww : w' = w := by rw [← h1, p1] at hk; simpa using hk.symm
          subst hww
          refine ⟨by rw [add_comm]; exact hlt, ?_⟩
          unfold SpBest
          simp only [hF, hgetn]
          exact (add_comm _ _).le
        · exact .inl ⟨rfl, l', hl'⟩
      · exact .inr ⟨h4.1, hbest _ _ h4.2⟩
    pcok := ⟨p1, p2, p3, fun e he => p4 e (List.mem_cons_of_mem _ he)⟩
    reps := inv.reps
    nodup := inv.nodup
    ordered := inv.ordered
    doneRep := inv.doneRep }

end

end NoGraphs
