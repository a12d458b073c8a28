import Verif.Model.BiBfs
import Verif.Proofs.BfsPaths

/-! Invariants of bidirectional breadth-first search. -/

set_option linter.unusedSectionVars false

namespace NoGraphs

open Spec

variable {V K L S M ML : Type} [DecidableEq V] [DecidableEq K]

section Walks

/-- A walk splits at each position. -/
theorem Spec.WalkN.split {E : V → V → Prop} {P : V → Prop} {n : Nat} {v : V} (h : WalkN E P n v) :
    ∀ a, a ≤ n → ∃ y, WalkN E P a y ∧ WalkN E (· = y) (n - a) v := by
  induction h with
  | start hs =>
    intro a ha
    have : a = 0 := by omega
    subst this
    exact ⟨_, .start hs, .start rfl⟩
  | @step n u v hu he ih =>
    intro a ha
    by_cases h : a = n + 1
    · subst h
      exact ⟨v, .step hu he, by simpa using WalkN.start (E := E) (S := (· = v)) rfl⟩
    · obtain ⟨y, h1, h2⟩ := ih a (by omega)
      refine ⟨y, h1, ?_⟩
      have : n + 1 - a = (n - a) + 1 := by omega
      rw [this]
      exact .step h2 he

theorem Spec.WalkN.append {E : V → V → Prop} {P : V → Prop} {a b : Nat} {y v : V} (h1 : WalkN E P a y)
    (h2 : WalkN E (· = y) b v) : WalkN E P (a + b) v := by
  induction h2 with
  | start hs => simpa [hs] using h1
  | step _ he ih => exact .step ih he

theorem Spec.WalkN.cons {E : V → V → Prop} {b : Nat} {x y v : V} (h1 : E x y)
    (h2 : WalkN E (· = y) b v) : WalkN E (· = x) (b + 1) v := by
  have := WalkN.append (WalkN.step (.start (E := E) (S := (· = x)) rfl) h1) h2
  rw [Nat.add_comm]
  simpa using this

theorem Spec.WalkN.rev {E E' : V → V → Prop} (hop : ∀ u v, E u v → E' v u) {b : Nat} {y v : V}
    (h : WalkN E (· = y) b v) : WalkN E' (· = v) b y := by
  induction h with
  | start hs => subst hs; exact .start rfl
  | step _ he ih => exact WalkN.cons (hop _ _ he) ih

/-- From a vertex with the same id, a walk can be followed, up to ids. -/
theorem Spec.WalkN.transport {E : V → V → Prop} {vid : V → K} (hc : Compat E vid) {b : Nat} {x x' y : V}
    (hx : vid x = vid x') (h : WalkN E (· = x) b y) : ∃ y', vid y' = vid y ∧ WalkN E (· = x') b y' := by
  induction h with
  | start hs => subst hs; exact ⟨x', hx.symm, .start rfl⟩
  | @step n u v _ he ih =>
    obtain ⟨u', h1, h2⟩ := ih
    obtain ⟨v', h3, h4⟩ := hc u u' v h1.symm he
    exact ⟨v', h4, .step h2 h3⟩

theorem Spec.WalkN.of_start {E : V → V → Prop} {P : V → Prop} {b : Nat} {y v : V} (hy : P y)
    (h : WalkN E (· = y) b v) : WalkN E P b v := by
  simpa using WalkN.append (WalkN.start (E := E) hy) h

theorem Spec.WalkN.from_start {E : V → V → Prop} {P : V → Prop} {b : Nat} {v : V}
    (h : WalkN E P b v) : ∃ y, P y ∧ WalkN E (· = y) b v := by
  obtain ⟨y, h1, h2⟩ := h.split 0 (Nat.zero_le _)
  cases h1 with
  | start hs => exact ⟨y, hs, by simpa using h2⟩

/-- A walk of a start-goal connection, seen from both ends. -/
theorem Spec.Connects.meet {E E' : V → V → Prop} {vid : V → K} {starts goals : List V} {n : Nat}
    (hop : ∀ u v, E u v → E' v u) (hc : Compat E' vid) (h : Connects E vid starts goals n) :
    ∀ a, a ≤ n → ∃ y y', vid y = vid y' ∧ WalkN E (· ∈ starts) a y ∧ WalkN E' (· ∈ goals) (n - a) y' := by
  intro a ha
  obtain ⟨v, t, ht, hv, hw⟩ := h
  obtain ⟨y, h1, h2⟩ := hw.split a ha
  obtain ⟨y', h3, h4⟩ := (h2.rev hop).transport hc hv
  exact ⟨y, y', h3.symm, h1, h4.of_start ht⟩

/-- Walks from both ends that meet. -/
theorem Spec.Connects.of_meet {E E' : V → V → Prop} {vid : V → K} {starts goals : List V} {a b : Nat}
    (hop : ∀ u v, E' u v → E v u) (hc : Compat E vid) {y y' : V} (hy : vid y = vid y')
    (h1 : WalkN E (· ∈ starts) a y) (h2 : WalkN E' (· ∈ goals) b y') : Connects E vid starts goals (a + b) := by
  obtain ⟨t, ht, h3⟩ := h2.from_start
  obtain ⟨t', h4, h5⟩ := (h3.rev hop).transport hc hy.symm
  exact ⟨t', t, ht, h4, h1.append h5⟩

end Walks

section Steps

variable {g : TravGear V K L S M ML} {c : TravCfg V K L} {already : S} {starts : List V}

theorem bfs_rdi_tau {s t : BfsState V L S M ML} (h : bfsStep g c true s = .tau t) :
    bfsStep g c false s = .tau t := by
  rw [← h]
  unfold bfsStep
  split
  · rfl
  · split
    · rfl
    · rename_i h1 _ h2
      have h' := h
      simp only [bfsStep, h1, h2] at h'
      cases hl : s.nextToExpand.getLast? with
      | none => rfl
      | some x => rw [hl] at h'; simp at h'
  · rfl
  · rfl
  · rfl

theorem bfs_rdi_expand {s t : BfsState V L S M ML} (h : bfsStep g c true s = .expand t) :
    bfsStep g c false s = .expand t := by
  rw [← h]
  unfold bfsStep
  split
  · rfl
  · split
    · rfl
    · rename_i h1 _ h2
      have h' := h
      simp only [bfsStep, h1, h2] at h'
      split at h' <;> simp at h'
  · rfl
  · rfl
  · rfl

theorem bfs_rdi_stop {s t : BfsState V L S M ML} (h : bfsStep g c true s = .stop t) :
    bfsStep g c false s = .stop t := by
  rw [← h]
  unfold bfsStep
  split
  · rfl
  · split
    · rfl
    · rename_i h1 _ h2
      have h' := h
      simp only [bfsStep, h1, h2] at h'
      split at h' <;> simp at h'
  · rfl
  · rfl
  · rfl

theorem bfs_rdi_emit {s t : BfsState V L S M ML} {r : BfsReport V S M ML}
    (h : bfsStep g c true s = .emit r t) :
    bfsStep g c false s = .emit r t ∨
    (s.pc = .loop ∧ s.toExpand = [] ∧ s.nextToExpand.getLast? = some r.vertex ∧
      t = { s with pc := .levelEnd } ∧ bfsStep g c false s = .tau t) := by
  unfold bfsStep at h
  split at h
  · split at h <;> simp at h
  · split at h
    · simp at h
    · rename_i h1 _ h2
      split at h
      · rename_i h3
        simp only [Step.emit.injEq] at h
        obtain ⟨rfl, rfl⟩ := h
        refine .inr ⟨h1, h2, h3, rfl, ?_⟩
        simp [bfsStep, h1, h2]
      · simp at h
  · simp at h
  · left
    rename_i h1
    simp only [bfsStep, h1]
    exact h
  · simp at h

/-- Internal steps of a traversal that reports the increase of depth. -/
theorem bfs_tau_frame {s t : BfsState V L S M ML} (h : bfsStep g c true s = .tau t) :
    t.visited = s.visited ∧
    ((s.pc = .levelEnd ∧ t.pc ≠ .levelEnd ∧ t.nextToExpand = []) ∨
     (s.pc ≠ .levelEnd ∧ t.nextToExpand = s.nextToExpand ∧
       (t.pc = .levelEnd → s.nextToExpand.getLast? = none))) := by
  unfold bfsStep at h
  split at h
  · rename_i hp
    split at h
    · simp at h
    · simp only [Step.tau.injEq] at h
      subst h
      exact ⟨rfl, .inr ⟨by simp [hp], rfl, by simp⟩⟩
  · rename_i hp
    split at h
    · simp at h
    · split at h
      · simp at h
      · rename_i hne
        simp only [Step.tau.injEq] at h
        subst h
        refine ⟨rfl, .inr ⟨by simp [hp], rfl, fun _ => ?_⟩⟩
        cases hl : s.nextToExpand.getLast? with
        | none => rfl
        | some x => exact (hne x rfl hl).elim
  · rename_i hp
    simp only [Step.tau.injEq] at h
    subst h
    exact ⟨rfl, .inr ⟨by simp [hp], rfl, by simp⟩⟩
  · rename_i hp
    split at h
    · simp only [Step.tau.injEq] at h
      subst h
      exact ⟨rfl, .inr ⟨by simp [hp], rfl, by simp⟩⟩
    · simp at h
  · rename_i hp
    simp only [Step.tau.injEq] at h
    subst h
    exact ⟨rfl, .inl ⟨hp, by simp, rfl⟩⟩

theorem bfs_expand_frame {s t : BfsState V L S M ML} (h : bfsStep g c true s = .expand t) :
    t.visited = s.visited ∧ s.pc ≠ .levelEnd ∧ t.pc ≠ .levelEnd ∧ t.nextToExpand = s.nextToExpand := by
  unfold bfsStep at h
  split at h
  · split at h <;> simp at h
  · rename_i hp
    split at h
    · simp only [Step.expand.injEq] at h
      subst h
      exact ⟨rfl, by simp [hp], by simp, rfl⟩
    · split at h <;> simp at h
  · simp at h
  · split at h <;> simp at h
  · simp at h

/-- What a (proper) report means. -/
theorem bfs_emit_frame (hg : g.so.Lawful) (ht : c.isTree = false) (hc : Compat (Edge c.next) c.vid)
    {h : List (Ev (BfsReport V S M ML))} {s t : BfsState V L S M ML} {r : BfsReport V S M ML}
    (hr : Reaches (bfsStep g c false) (bfsInit g c already starts) h s)
    (he : bfsStep g c false s = .emit r t) :
    ∃ n : Nat, s.depth = n + 1 ∧ t.depth = s.depth ∧ r.depth = s.depth ∧
      IsDepth (bfsE g c already) (· ∈ starts) c.vid r.vertex (n + 1) ∧
      (∀ m v, m ≤ n → WalkN (bfsE g c already) (· ∈ starts) m v →
        g.so.contains s.visited (c.vid v) = true) ∧
      g.so.contains s.visited (c.vid r.vertex) = false ∧
      (∀ k, g.so.contains t.visited k = (decide (k = c.vid r.vertex) || g.so.contains s.visited k)) ∧
      t.nextToExpand = s.nextToExpand ++ [r.vertex] ∧ s.pc ≠ .levelEnd ∧ t.pc ≠ .levelEnd ∧
      r.visited = t.visited ∧ r.preds = t.preds ∧ r.labels = t.labels := by
  obtain ⟨n, inv⟩ := bfs_inv hg ht hc hr
  obtain ⟨n', inv'⟩ := bfs_inv hg ht hc (.emit hr he)
  unfold bfsStep at he
  split at he
  · split at he <;> simp at he
  · split at he
    · simp at he
    · split at he
      · contradiction
      · simp at he
  · simp at he
  · rename_i u e es hp
    split at he
    · simp at he
    · rename_i vis pr la hv
      rw [ht] at hv
      obtain ⟨hnew, hvis', -⟩ := bfsVisit_some hg hv
      simp only [Step.emit.injEq] at he
      obtain ⟨rfl, rfl⟩ := he
      refine ⟨n, inv.depth, rfl, rfl, ?_, ?_, hnew, hvis', rfl, by simp [hp], by simp, rfl, rfl, rfl⟩
      · have h1 := inv'.depth
        simp only [inv.depth] at h1
        have : n' = n := by omega
        subst this
        exact inv'.nxt e.1 (by simp)
      · intro m v hm hw
        exact (inv.vis _).2 (.inr (.inl ⟨m, v, hm, hw, rfl⟩))
  · simp at he

end Steps

variable (g : TravGear V K L S M ML) (c : BiCfg V K L) (starts goals : List V)

/-- The traversal of one direction. -/
def BiState.get (s : BiState V L S M ML) (b : Bool) : BiSide V L S M ML := if b then s.bw else s.fw

/-- The vertices that a direction starts at. -/
def biEnds (b : Bool) : List V := if b then goals else starts

/-- The invariant. -/
structure BiInv (s : BiState V L S M ML) : Prop where
  reach : ∀ b, ∃ h, Reaches (bfsStep g (c.side b) false)
    (bfsInit g (c.side b) g.so.empty (biEnds starts goals b)) h (s.get b).st
  disj : ∀ k, g.so.contains s.fw.st.visited k = true → g.so.contains s.bw.st.visited k = true → False
  prevEnd : (s.get s.back).st.pc = .levelEnd → s.prev = none
  prevLast : (s.get s.back).st.pc ≠ .levelEnd → s.prev = (s.get s.back).st.nextToExpand.getLast?
  init : ∀ b, (s.get b).started = false →
    (s.get b).st = bfsInit g (c.side b) g.so.empty (biEnds starts goals b)
  paused : (s.get (!s.back)).started = true → (s.get (!s.back)).st.pc = .levelEnd
  result : s.result = none

variable {g c starts goals}

theorem biE (hg : g.so.Lawful) (b : Bool) :
    bfsE g (c.side b) g.so.empty = Edge (c.side b).next := by
  funext u v
  simp [bfsE, Allowed, hg.contains_empty]

theorem BiState.get_setCur_same (s : BiState V L S M ML) (x : BiSide V L S M ML) :
    (s.setCur x).get s.back = x := by
  cases hb : s.back <;> simp [BiState.get, BiState.setCur, hb]

theorem BiState.get_setCur_other (s : BiState V L S M ML) (x : BiSide V L S M ML) :
    (s.setCur x).get (!s.back) = s.get (!s.back) := by
  cases hb : s.back <;> simp [BiState.get, BiState.setCur, hb]

theorem BiState.setCur_back (s : BiState V L S M ML) (x : BiSide V L S M ML) :
    (s.setCur x).back = s.back ∧ (s.setCur x).prev = s.prev ∧ (s.setCur x).result = s.result := by
  cases hb : s.back <;> simp [BiState.setCur, hb]

theorem BiState.cur_eq (s : BiState V L S M ML) : s.cur = s.get s.back := rfl

theorem BiState.other_eq (s : BiState V L S M ML) : s.other = s.get (!s.back) := by
  cases hb : s.back <;> simp [BiState.get, BiState.other, hb]

/-- Disjointness, independent of the direction. -/
theorem disj_iff (s : BiState V L S M ML) (b : Bool) :
    (∀ k, g.so.contains s.fw.st.visited k = true → g.so.contains s.bw.st.visited k = true → False) ↔
    ∀ k, g.so.contains (s.get b).st.visited k = true → g.so.contains (s.get (!b)).st.visited k = true → False := by
  cases b
  · rfl
  · simp only [BiState.get, Bool.not_true]
    exact ⟨fun h k h1 h2 => h k h2 h1, fun h k h1 h2 => h k h2 h1⟩

/-- Construct the invariant for a state where only the iterated traversal has changed. -/
theorem BiInv.mk' {s s' : BiState V L S M ML} (inv : BiInv g c starts goals s)
    (hback : s'.back = s.back) (hoth : s'.get (!s.back) = s.get (!s.back)) (hres : s'.result = none)
    (hr : ∃ h, Reaches (bfsStep g (c.side s.back) false)
      (bfsInit g (c.side s.back) g.so.empty (biEnds starts goals s.back)) h (s'.get s.back).st)
    (hdisj : ∀ k, g.so.contains (s'.get s.back).st.visited k = true →
      g.so.contains (s.get (!s.back)).st.visited k = true → False)
    (hp1 : (s'.get s.back).st.pc = .levelEnd → s'.prev = none)
    (hp2 : (s'.get s.back).st.pc ≠ .levelEnd → s'.prev = (s'.get s.back).st.nextToExpand.getLast?)
    (hst : (s'.get s.back).started = true) : BiInv g c starts goals s' := by
  have hb : ∀ b, b = s.back ∨ b = !s.back := by
    intro b; cases b <;> cases s.back <;> simp
  refine ⟨fun b => ?_, ?_, ?_, ?_, fun b => ?_, ?_, hres⟩
  · rcases hb b with rfl | rfl
    · exact hr
    · rw [hoth]; exact inv.reach _
  · rw [disj_iff s' s.back, hoth]; exact hdisj
  · rw [hback]; exact hp1
  · rw [hback]; exact hp2
  · rcases hb b with rfl | rfl
    · intro h; rw [hst] at h; simp at h
    · rw [hoth]; exact inv.init _
  · rw [hback, hoth]; exact inv.paused

variable (g c starts goals) in
/-- Assumptions of the search. -/
structure BiOk : Prop where
  lawful : g.so.Lawful
  compatF : Compat (Edge c.nextF) c.vid
  compatB : Compat (Edge c.nextB) c.vid

theorem BiOk.compat (hok : BiOk g c) (b : Bool) : Compat (Edge (c.side b).next) (c.side b).vid := by
  cases b
  · exact hok.compatF
  · exact hok.compatB

theorem BiInv.init0 (hok : BiOk g c) (limit : Option Int)
    (hno : ∀ s ∈ starts, ∀ t ∈ goals, c.vid s ≠ c.vid t) :
    BiInv g c starts goals (biInit g c starts goals limit : BiState V L S M ML) := by
  refine ⟨fun b => ⟨[], ?_⟩, ?_, ?_, ?_, fun b => ?_, ?_, rfl⟩
  · cases b <;> exact .refl
  · intro k h1 h2
    simp only [biInit, bfsInit, BiCfg.side, Bool.false_eq_true, if_false, hok.lawful.contains_addAll,
      hok.lawful.contains_empty, Bool.or_false, decide_eq_true_eq, List.mem_map] at h1 h2
    obtain ⟨s, hs, rfl⟩ := h1
    obtain ⟨t, ht, he⟩ := h2
    exact hno s hs t ht he.symm
  · intro h; simp [biInit, BiState.get, bfsInit] at h
  · intro _; simp [biInit, BiState.get, bfsInit]
  · intro _; cases b <;> rfl
  · intro h; simp [biInit, BiState.get] at h

/-- A finished level of the paused traversal. -/
theorem BiInv.level (hok : BiOk g c) {s : BiState V L S M ML} (inv : BiInv g c starts goals s) :
    ∃ n : Nat, (s.get (!s.back)).depth = n ∧ ∀ k,
      g.so.contains (s.get (!s.back)).st.visited k = true ↔
      ∃ m v, m ≤ n ∧ WalkN (Edge (c.side (!s.back)).next) (· ∈ biEnds starts goals (!s.back)) m v ∧ c.vid v = k := by
  set b := !s.back with hb
  have hgb : g.so.Lawful := hok.lawful
  cases hst : (s.get b).started with
  | false =>
    have hi := inv.init b hst
    refine ⟨0, by simp [BiSide.depth, hst], fun k => ?_⟩
    have h0 := (BfsInv.init (g := g) (c := c.side b) (already := g.so.empty) (starts := biEnds starts goals b)
      hgb rfl : BfsInv g (c.side b) g.so.empty _ [] (bfsInit g (c.side b) g.so.empty _ : BfsState V L S M ML) 0).vis k
    rw [hi, h0, biE hgb]
    simp only [hgb.contains_empty, bfsInit, List.not_mem_nil, false_and, exists_false, or_false,
      Bool.false_eq_true, false_or]
    rfl
  | true =>
    have hp : (s.get b).st.pc = .levelEnd := inv.paused hst
    obtain ⟨h, hr⟩ := inv.reach b
    have hstep : bfsStep g (c.side b) false (s.get b).st =
        .tau { (s.get b).st with
          pc := .check, toExpand := (s.get b).st.nextToExpand, nextToExpand := []
          depth := (s.get b).st.depth + 1 } := by
      simp [bfsStep, hp]
    obtain ⟨n, binv⟩ := bfs_inv hgb rfl (hok.compat b) (.tau hr hstep)
    have hd := binv.depth
    simp only at hd
    refine ⟨n, by simp [BiSide.depth, hst]; omega, fun k => ?_⟩
    have := binv.vis k
    simp only [hgb.contains_empty, List.not_mem_nil, false_and, exists_false, or_false,
      Bool.false_eq_true, false_or] at this
    rw [this, biE hgb]
    rfl

theorem BiInv.step_tau (hok : BiOk g c) {s t : BiState V L S M ML} (inv : BiInv g c starts goals s)
    (hs : biStep g c s = .tau t) : BiInv g c starts goals t := by
  unfold biStep at hs
  rw [BiState.cur_eq] at hs
  obtain ⟨h, hr⟩ := inv.reach s.back
  split at hs
  · simp at hs
  · simp at hs
  · rename_i x hx
    simp only [Step.tau.injEq] at hs
    subst hs
    obtain ⟨hv, hpc⟩ := bfs_tau_frame hx
    obtain ⟨hb1, hb2, hb3⟩ := s.setCur_back { s.get s.back with st := x, started := true }
    refine inv.mk' hb1 (BiState.get_setCur_other s _) (by rw [hb3, inv.result]) ?_ ?_ ?_ ?_ ?_
    · rw [BiState.get_setCur_same]
      exact ⟨h, .tau hr (bfs_rdi_tau hx)⟩
    · rw [BiState.get_setCur_same]
      simp only [hv]
      exact (disj_iff s s.back).1 inv.disj
    · rw [BiState.get_setCur_same, hb2]
      intro hp
      rcases hpc with ⟨_, h2, _⟩ | ⟨h1, _, h3⟩
      · exact absurd hp h2
      · rw [inv.prevLast h1, h3 hp]
    · rw [BiState.get_setCur_same, hb2]
      intro hp
      rcases hpc with ⟨h1, _, h3⟩ | ⟨h1, h2, _⟩
      · simp only [h3]; exact inv.prevEnd h1
      · simp only [h2]; exact inv.prevLast h1
    · rw [BiState.get_setCur_same]
  · split at hs <;> simp at hs
  · rename_i r x hx
    obtain ⟨hb1, hb2, hb3⟩ := s.setCur_back { s.get s.back with st := x, started := true }
    rcases bfs_rdi_emit hx with he | ⟨h1, h2, h3, h4, h5⟩
    · obtain ⟨n, -, -, -, -, -, hnew, hvis, hnx, hp1, hp2, -⟩ :=
        bfs_emit_frame hok.lawful rfl (hok.compat s.back) hr he
      have hprev : s.prev ≠ some r.vertex := by
        rw [inv.prevLast hp1]
        intro hl
        have hm := List.mem_of_getLast? hl
        obtain ⟨n', binv⟩ := bfs_inv hok.lawful rfl (hok.compat s.back) hr
        have := (binv.vis ((c.side s.back).vid r.vertex)).2 (.inr (.inr ⟨r.vertex, hm, rfl⟩))
        rw [hnew] at this; simp at this
      simp only [if_neg hprev] at hs
      split at hs
      · simp at hs
      · rename_i hno
        simp only [Step.tau.injEq] at hs
        subst hs
        refine inv.mk' hb1 (BiState.get_setCur_other s _) (by simp only [hb3, inv.result]) ?_ ?_ ?_ ?_ ?_
        · refine ⟨_, .emit hr (r := r) ?_⟩
          rw [he]; congr 1
          exact (congrArg BiSide.st (BiState.get_setCur_same s { s.get s.back with st := x, started := true })).symm
        · intro k hk hk'
          have hk2 : g.so.contains x.visited k = true := by
            have := BiState.get_setCur_same s { s.get s.back with st := x, started := true }
            rw [← congrArg (fun y => y.st.visited) this]; exact hk
          rw [hvis] at hk2
          simp only [Bool.or_eq_true, decide_eq_true_eq] at hk2
          rcases hk2 with rfl | hk2
          · rw [BiState.other_eq] at hno
            exact hno hk'
          · exact (disj_iff s s.back).1 inv.disj k hk2 hk'
        · intro hp
          have := BiState.get_setCur_same s { s.get s.back with st := x, started := true }
          exact absurd ((congrArg (fun y => y.st.pc) this).symm.trans hp) hp2
        · intro _
          have := BiState.get_setCur_same s { s.get s.back with st := x, started := true }
          have h' := congrArg (fun y => y.st.nextToExpand.getLast?) this
          simp only at h' ⊢
          refine Eq.trans ?_ h'.symm
          simp [hnx]
        · exact congrArg (fun y => y.started) (BiState.get_setCur_same s { s.get s.back with st := x, started := true })
    · have hpl : (s.get s.back).st.pc ≠ .levelEnd := by rw [h1]; simp
      have hprev : s.prev = some r.vertex := by rw [inv.prevLast hpl, h3]
      simp only [if_pos hprev, Step.tau.injEq] at hs
      subst hs
      set y : BiSide V L S M ML := { s.get s.back with st := x, started := true } with hy
      have hsame := BiState.get_setCur_same s y
      have hoth := BiState.get_setCur_other s y
      have hget : ∀ b, ({ s.setCur y with back := !s.back, prev := none } : BiState V L S M ML).get b =
          (s.setCur y).get b := fun b => rfl
      have hbb : ∀ b, b = s.back ∨ b = !s.back := by
        intro b; cases b <;> cases s.back <;> simp
      refine ⟨fun b => ?_, ?_, ?_, ?_, fun b => ?_, ?_, ?_⟩
      · rw [hget]
        rcases hbb b with rfl | rfl
        · rw [hsame]; exact ⟨h, .tau hr h5⟩
        · rw [hoth]; exact inv.reach _
      · rw [disj_iff _ s.back]
        simp only [hget]
        rw [hsame, hoth]
        have : y.st.visited = (s.get s.back).st.visited := by simp [hy, h4]
        rw [this]
        exact (disj_iff s s.back).1 inv.disj
      · intro _; rfl
      · rw [hget]
        simp only
        rw [hoth]
        intro hp
        cases hstt : (s.get (!s.back)).started with
        | true => exact absurd (inv.paused hstt) hp
        | false => rw [inv.init _ hstt]; rfl
      · rw [hget]
        rcases hbb b with rfl | rfl
        · rw [hsame]; intro hf; simp [hy] at hf
        · rw [hoth]; exact inv.init _
      · rw [hget]
        simp only [Bool.not_not]
        rw [hsame]
        intro _; simp [hy, h4]
      · simp only [hb3, inv.result]

theorem BiInv.step_expand (hok : BiOk g c) {s t : BiState V L S M ML} (inv : BiInv g c starts goals s)
    (hs : biStep g c s = .expand t) : BiInv g c starts goals t := by
  unfold biStep at hs
  rw [BiState.cur_eq] at hs
  obtain ⟨h, hr⟩ := inv.reach s.back
  split at hs
  · simp at hs
  · simp at hs
  · simp at hs
  · rename_i x hx
    split at hs
    · simp at hs
    · rename_i l hl
      simp only [Step.expand.injEq] at hs
      subst hs
      obtain ⟨hv, hp1, hp2, hn⟩ := bfs_expand_frame hx
      obtain ⟨hb1, hb2, hb3⟩ := s.setCur_back (⟨x, true, l⟩ : BiSide V L S M ML)
      refine inv.mk' hb1 (BiState.get_setCur_other s _) (by rw [hb3, inv.result]) ?_ ?_ ?_ ?_ ?_
      · rw [BiState.get_setCur_same]
        exact ⟨_, .expand hr (bfs_rdi_expand hx)⟩
      · rw [BiState.get_setCur_same]
        simp only [hv]
        exact (disj_iff s s.back).1 inv.disj
      · rw [BiState.get_setCur_same, hb2]
        intro hp; exact absurd hp hp2
      · rw [BiState.get_setCur_same, hb2]
        intro _
        simp only [hn]; exact inv.prevLast hp1
      · rw [BiState.get_setCur_same]
  · split at hs
    · simp at hs
    · split at hs <;> simp at hs

theorem biStep_no_emit (s t : BiState V L S M ML) (r : Unit) : biStep g c s ≠ .emit r t := by
  unfold biStep
  split
  · simp
  · simp
  · simp
  · split <;> simp
  · simp only; split
    · simp
    · split <;> simp

theorem bi_inv (hok : BiOk g c) (limit : Option Int) (hno : ∀ s ∈ starts, ∀ t ∈ goals, c.vid s ≠ c.vid t)
    {h : List (Ev Unit)} {s : BiState V L S M ML}
    (hr : Reaches (biStep g c) (biInit g c starts goals limit) h s) : BiInv g c starts goals s := by
  refine Reaches.invariant (fun _ s => BiInv g c starts goals s) (.init0 hok limit hno) ?_ ?_ ?_ hr
  · intro _ s t inv hs; exact inv.step_tau hok hs
  · intro _ s r t _ hs; exact absurd hs (biStep_no_emit s t r)
  · intro _ s t inv hs; exact inv.step_expand hok hs

end NoGraphs
