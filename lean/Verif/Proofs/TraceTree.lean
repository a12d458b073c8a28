import Verif.Proofs.DfsSim
import Verif.Model.DepthFirstTrace
import Mathlib.Tactic.SplitIfs

/-! Depth-first search with trace: on a forest, tree mode makes the same steps as the general mode. -/

set_option linter.unusedSectionVars false

namespace NoGraphs

open Spec

variable {V K L S M ML : Type} [DecidableEq V] [DecidableEq K]
variable {g : TravGear V K L S M ML} {c : TraceCfg V K L} {starts : List V} {m : DfsMode}

/-- The vertices that are still to be handled. -/
def trTodo (c : TraceCfg V K L) (s : TraceState V K L S M ML) : List V :=
  (match s.pc with
   | .entered v _ => (c.next v).map (·.1)
   | .edges _ es => es.map (·.1)
   | _ => []) ++ s.toVisit ++ s.starts

/-- Invariant of the general mode on a forest. `F`: the ids of the vertices that have been entered. -/
structure TrTreeInv (g : TravGear V K L S M ML) (c : TraceCfg V K L) (starts : List V) (F : K → Prop)
    (s : TraceState V K L S M ML) : Prop where
  vis : ∀ k, g.so.contains s.visited k = true → F k
  ont : ∀ k, g.so.contains s.onTrace k = true → F k
  nd : ((trTodo c s).map c.vid).Nodup
  todo : ∀ v ∈ trTodo c s, Reachable (Edge c.next) (· ∈ starts) v ∧ ¬ F (c.vid v)
  fresh : ∀ u, Reachable (Edge c.next) (· ∈ starts) u → ¬ F (c.vid u) →
    ∀ w, Edge c.next u w → c.vid w ∉ (trTodo c s).map c.vid ∧ ¬ F (c.vid w)
  tnd : (s.trace.map c.vid).Nodup
  tF : ∀ u ∈ s.trace, F (c.vid u)
  ton : c.computeOnTrace = true → ∀ u ∈ s.trace, g.so.contains s.onTrace (c.vid u) = true
  lv : ∀ v l nl, s.pc = .leave v l nl → ∃ t, s.trace = v :: t
  pcs : s.pc ≠ .startShown ∧ s.pc ≠ .edgeShown

/-- Steps that do not enter or leave a vertex. -/
theorem TrTreeInv.keep {F : K → Prop} {s s' : TraceState V K L S M ML} (h : TrTreeInv g c starts F s)
    (hv : s'.visited = s.visited) (ho : s'.onTrace = s.onTrace) (ht : s'.trace = s.trace)
    (hsub : ∃ l, (trTodo c s').Perm l ∧ l.Sublist (trTodo c s))
    (hlv : ∀ v l nl, s'.pc = .leave v l nl → ∃ t, s'.trace = v :: t)
    (hpcs : s'.pc ≠ .startShown ∧ s'.pc ≠ .edgeShown) : TrTreeInv g c starts F s' := by
  obtain ⟨l, hp, hs⟩ := hsub
  have hmem : ∀ v ∈ trTodo c s', v ∈ trTodo c s := fun v hv => hs.subset (hp.subset hv)
  refine ⟨by rw [hv]; exact h.vis, by rw [ho]; exact h.ont, (hp.map _).nodup_iff.2 (h.nd.sublist (hs.map _)),
    fun v hm => h.todo v (hmem v hm), fun u hu hn w hw => ?_, by rw [ht]; exact h.tnd, by rw [ht]; exact h.tF,
    by rw [ht, ho]; exact h.ton, hlv, hpcs⟩
  obtain ⟨h1, h2⟩ := h.fresh u hu hn w hw
  refine ⟨fun hm => h1 ?_, h2⟩
  obtain ⟨x, hx, e⟩ := List.mem_map.1 hm
  exact List.mem_map.2 ⟨x, hmem x hx, e⟩

/-- Entering a vertex. -/
theorem TrTreeInv.enter (hf : IsForest c.next c.vid starts) {F : K → Prop}
    {s s' : TraceState V K L S M ML} (h : TrTreeInv g c starts F s) {v : V} {rest : List V}
    (htodo : trTodo c s = v :: (rest ++ s.starts))
    (h1 : ∀ k, g.so.contains s'.visited k = true → k = c.vid v ∨ g.so.contains s.visited k = true)
    (h1' : ∀ k, g.so.contains s'.onTrace k = true → k = c.vid v ∨ g.so.contains s.onTrace k = true)
    (h1'' : c.computeOnTrace = true → ∀ k, k = c.vid v ∨ g.so.contains s.onTrace k = true →
      g.so.contains s'.onTrace k = true)
    (h2 : s'.toVisit = rest) (h3 : s'.starts = s.starts) (h5 : s'.trace = v :: s.trace)
    {r : Bool} (h4 : s'.pc = .entered v r) : TrTreeInv g c starts (fun k => k = c.vid v ∨ F k) s' := by
  have e1 := htodo
  have e2 : trTodo c s' = (c.next v).map (·.1) ++ (rest ++ s.starts) := by simp [trTodo, h4, h2, h3]
  obtain ⟨hrv, hnv⟩ := h.todo v (by rw [e1]; exact List.mem_cons_self)
  have hnd := h.nd
  rw [e1, List.map_cons, List.nodup_cons] at hnd
  have hch : ∀ w, Edge c.next v w → c.vid w ∉ c.vid v :: (rest ++ s.starts).map c.vid ∧ ¬ F (c.vid w) := by
    intro w hw
    have := h.fresh v hrv hnv w hw
    rwa [e1, List.map_cons] at this
  refine ⟨?_, ?_, ?_, ?_, ?_, ?_, ?_, ?_, ?_, ?_⟩
  · intro k hk; exact (h1 k hk).imp_right (h.vis k)
  · intro k hk; exact (h1' k hk).imp_right (h.ont k)
  · rw [e2, List.map_append, List.nodup_append]
    refine ⟨?_, hnd.2, ?_⟩
    · have := hf.children_nodup v hrv
      rwa [List.map_map]
    · intro a ha b hb e
      subst e
      simp only [List.mem_map, exists_exists_and_eq_and] at ha
      obtain ⟨e, he, rfl⟩ := ha
      exact (hch e.1 ⟨e.2, he⟩).1 (List.mem_cons_of_mem _ hb)
  · intro x hx
    rw [e2] at hx
    rcases List.mem_append.1 hx with hx | hx
    · obtain ⟨e, he, rfl⟩ := List.mem_map.1 hx
      have hh := hch e.1 ⟨e.2, he⟩
      rw [List.mem_cons, not_or] at hh
      exact ⟨hrv.step ⟨e.2, he⟩, fun hor => hor.elim hh.1.1 hh.2⟩
    · have hh := h.todo x (by rw [e1]; exact List.mem_cons_of_mem _ hx)
      exact ⟨hh.1, fun hor => hor.elim (fun e => hnd.1 (e ▸ List.mem_map_of_mem hx)) hh.2⟩
  · intro u hu hn w hw
    rw [not_or] at hn
    obtain ⟨q1, q2⟩ := h.fresh u hu hn.2 w hw
    rw [e1, List.map_cons, List.mem_cons, not_or] at q1
    refine ⟨?_, fun hor => hor.elim q1.1 q2⟩
    rw [e2, List.map_append, List.mem_append, not_or]
    refine ⟨?_, q1.2⟩
    intro hm
    simp only [List.mem_map, exists_exists_and_eq_and] at hm
    obtain ⟨e, he, e3⟩ := hm
    have := hf.one_parent u v w e.1 hu hrv hw ⟨e.2, he⟩ e3.symm
    exact hn.1 (by rw [this])
  · rw [h5, List.map_cons, List.nodup_cons]
    refine ⟨fun hm => ?_, h.tnd⟩
    obtain ⟨x, hx, e⟩ := List.mem_map.1 hm
    exact hnv (e ▸ h.tF x hx)
  · rw [h5]
    intro u hu
    rcases List.mem_cons.1 hu with rfl | hu
    · exact .inl rfl
    · exact .inr (h.tF u hu)
  · intro hc u hu
    rw [h5] at hu
    rcases List.mem_cons.1 hu with rfl | hu
    · exact h1'' hc _ (.inl rfl)
    · exact h1'' hc _ (.inr (h.ton hc u hu))
  · intro a b d hp; rw [h4] at hp; simp at hp
  · rw [h4]; simp

/-- The configuration with tree mode. (The option to compute the vertices on the trace is not allowed then, and the mode has no meaning.) -/
def TraceCfg.asTree (c : TraceCfg V K L) (m : DfsMode) : TraceCfg V K L :=
  { c with isTree := true, computeOnTrace := false, mode := m }

/-- Relation of the states: equal up to the attributes that are not maintained in tree mode. -/
def TrTreeRel (g : TravGear V K L S M ML) (c : TraceCfg V K L) (starts : List V) (s' s : TraceState V K L S M ML) : Prop :=
  (∃ F, TrTreeInv g c starts F s) ∧ s' = { s with visited := s'.visited, onTrace := s'.onTrace }

/-- Relation of the reports. -/
def TrTreeRep (r' r : TraceReport V K L S M ML) : Prop :=
  r' = { r with visited := r'.visited, onTrace := r'.onTrace }

theorem trEnter_tree (hf : IsForest c.next c.vid starts) {F : K → Prop}
    {s t : TraceState V K L S M ML} (h : TrTreeInv g c starts F s) {v : V} {rest : List V}
    (htodo : trTodo c s = v :: (rest ++ s.starts))
    (h1 : ∀ k, g.so.contains t.visited k = true → k = c.vid v ∨ g.so.contains s.visited k = true)
    (h1' : ∀ k, g.so.contains t.onTrace k = true → k = c.vid v ∨ g.so.contains s.onTrace k = true)
    (h1'' : c.computeOnTrace = true → ∀ k, k = c.vid v ∨ g.so.contains s.onTrace k = true →
      g.so.contains t.onTrace k = true)
    (h2 : t.toVisit = rest) (h3 : t.starts = s.starts) (h5 : t.trace = s.trace) (vs os : S) :
    StepRel (TrTreeRel g c starts) (fun _ _ => True) TrTreeRep
      (trEnter g (c.asTree m) { t with visited := vs, onTrace := os } v) (trEnter g c t v) := by
  unfold trEnter
  simp only [TraceCfg.asTree]
  by_cases hfl : (c.labeled && !t.trace.isEmpty && t.lab.isNone) = true
  · simp only [hfl, if_true]
    exact .fail
  simp only [hfl]
  generalize hev : (if some v = t.cur then DfsEvent.enteringStart else .enteringSuccessor) = ev
  by_cases hre : c.report ev = true
  · simp only [hre, if_true]
    exact .emit rfl ⟨⟨_, h.enter (s' := _) hf htodo h1 h1' h1'' h2 h3 (by simp [h5]) rfl⟩, rfl⟩
  · simp only [hre]
    exact .tau ⟨⟨_, h.enter (s' := _) hf htodo h1 h1' h1'' h2 h3 (by simp [h5]) rfl⟩, rfl⟩

theorem trTry_tree (hg : g.so.Lawful) (ht : c.isTree = false) (hm : c.mode = .allWalks → c.computeOnTrace = false)
    (hf : IsForest c.next c.vid starts)
    {F : K → Prop} {s t : TraceState V K L S M ML} (h : TrTreeInv g c starts F s) {v : V} {rest : List V}
    (htodo : trTodo c s = v :: (rest ++ s.starts))
    (h1 : t.visited = s.visited) (h1' : t.onTrace = s.onTrace)
    (h2 : t.toVisit = rest) (h3 : t.starts = s.starts) (h5 : t.trace = s.trace) (vs os : S) :
    StepRel (TrTreeRel g c starts) (fun _ _ => True) TrTreeRep
      (trTry g (c.asTree m) { t with visited := vs, onTrace := os } v) (trTry g c t v) := by
  have hnF := (h.todo v (by rw [htodo]; exact List.mem_cons_self)).2
  have hv : g.so.contains s.visited (c.vid v) = false := by
    cases hb : g.so.contains s.visited (c.vid v) with
    | false => rfl
    | true => exact absurd (h.vis _ hb) hnF
  have ho : g.so.contains s.onTrace (c.vid v) = false := by
    cases hb : g.so.contains s.onTrace (c.vid v) with
    | false => rfl
    | true => exact absurd (h.ont _ hb) hnF
  have e1 : ∀ t' : TraceState V K L S M ML, trTry g (c.asTree m) t' v = trEnter g (c.asTree m) t' v := by
    intro t'; simp [trTry, TraceCfg.asTree]
  rw [e1]
  unfold trTry
  rw [ht, if_neg (by simp)]
  cases hmode : c.mode with
  | allWalks =>
    dsimp only
    exact trEnter_tree hf h htodo (by rw [h1]; exact fun k hk => .inr hk) (by rw [h1']; exact fun k hk => .inr hk)
      (fun hc => by rw [hm hmode] at hc; simp at hc) h2 h3 h5 vs os
  | dfsTree =>
    dsimp only
    rw [hg.checkAdd_fst, h1, hv, if_neg (by simp)]
    refine trEnter_tree (t := { t with visited := (g.so.checkAdd s.visited (c.vid v)).2, onTrace := if c.computeOnTrace then g.so.add t.onTrace (c.vid v) else t.onTrace }) hf h htodo ?_ ?_ ?_ h2 h3 h5 vs os
    · intro k hk; rw [hg.contains_checkAdd] at hk; simpa using hk
    · intro k hk
      dsimp only at hk
      split at hk
      · rw [hg.contains_add, h1'] at hk; simpa using hk
      · rw [h1'] at hk; exact .inr hk
    · intro hc k hk
      dsimp only
      rw [if_pos hc, hg.contains_add, h1']; simpa using hk
  | allPaths =>
    dsimp only
    rw [hg.checkAdd_fst, h1', ho, if_neg (by simp)]
    refine trEnter_tree (t := { t with onTrace := if c.computeOnTrace then g.so.add (g.so.checkAdd s.onTrace (c.vid v)).2 (c.vid v) else (g.so.checkAdd s.onTrace (c.vid v)).2 }) hf h htodo ?_ ?_ ?_ h2 h3 h5 vs os
    · intro k hk; dsimp only at hk; rw [h1] at hk; exact .inr hk
    · intro k hk
      dsimp only at hk
      split at hk
      · rw [hg.contains_add, hg.contains_checkAdd] at hk
        simp only [Bool.or_eq_true, decide_eq_true_eq] at hk
        rcases hk with hk | hk | hk
        · exact .inl hk
        · exact .inl hk
        · exact .inr hk
      · rw [hg.contains_checkAdd] at hk; simpa using hk
    · intro hc k hk
      dsimp only
      rw [if_pos hc, hg.contains_add, hg.contains_checkAdd]
      rcases hk with hk | hk <;> simp [hk]

/-- One step. -/
theorem tr_tree_step (hg : g.so.Lawful) (ht : c.isTree = false) (hm : c.mode = .allWalks → c.computeOnTrace = false)
    (hf : IsForest c.next c.vid starts) (s' s : TraceState V K L S M ML) (hr : TrTreeRel g c starts s' s) :
    StepRel (TrTreeRel g c starts) (fun _ _ => True) TrTreeRep (trStep g (c.asTree m) s') (trStep g c s) := by
  obtain ⟨⟨F, inv⟩, e⟩ := hr
  obtain ⟨vs, os, rfl⟩ : ∃ vs os, s' = { s with visited := vs, onTrace := os } := ⟨_, _, e⟩
  clear e
  cases hpc : s.pc with
  | start =>
    cases hs : s.starts with
    | nil => simp only [trStep, hpc, hs]; exact .stop trivial
    | cons v rest =>
      simp only [trStep, hpc, hs]
      refine .tau ⟨⟨F, inv.keep rfl rfl rfl ⟨_, ?_, List.Sublist.refl _⟩ (by simp) (by simp)⟩, rfl⟩
      simp only [trTodo, hpc, hs, List.nil_append]
      exact List.perm_middle.symm
  | startShown => exact absurd hpc inv.pcs.1
  | edgeShown => exact absurd hpc inv.pcs.2
  | loop nl =>
    cases hms : s.markers with
    | nil =>
      simp only [trStep, hpc, hms]
      refine .tau ⟨⟨F, inv.keep rfl rfl rfl ⟨_, ?_, List.Sublist.refl _⟩ (by simp) (by simp)⟩, rfl⟩
      simp only [trTodo, hpc]
      exact List.Perm.refl _
    | cons mk ms =>
      cases mk with
      | false =>
        simp only [trStep, hpc, hms, trPop]
        cases htv : s.toVisit with
        | nil => exact .fail
        | cons v tv =>
          have htodo : trTodo c s = v :: (tv ++ s.starts) := by simp [trTodo, hpc, htv]
          dsimp only
          have hl : (c.asTree m).labeled = c.labeled := rfl
          rw [hl]
          split_ifs
          · cases htl : s.toLabels with
            | nil => exact .fail
            | cons l tl =>
              exact trTry_tree (t := { s with markers := ms, toVisit := tv, lab := some l, toLabels := tl })
                hg ht hm hf inv htodo rfl rfl rfl rfl rfl vs os
          · exact trTry_tree (t := { s with markers := ms, toVisit := tv })
              hg ht hm hf inv htodo rfl rfl rfl rfl rfl vs os
      | true =>
        simp only [trStep, hpc, hms, TraceCfg.asTree]
        cases htr : s.trace with
        | nil => exact .fail
        | cons v t =>
          dsimp only
          have hk : ∀ (x : TraceState V K L S M ML) (l b : Bool), x.visited = s.visited → x.onTrace = s.onTrace →
              x.trace = s.trace → x.toVisit = s.toVisit → x.starts = s.starts → x.pc = .leave v l b →
              TrTreeInv g c starts F x := by
            intro x l b q1 q2 q3 q4 q5 q6
            refine inv.keep q1 q2 q3 ⟨_, ?_, List.Sublist.refl _⟩ ?_ (by rw [q6]; simp)
            · unfold trTodo; rw [q6, hpc, q4, q5]
            · intro a b' d hp
              rw [q6] at hp
              simp only [TracePc.leave.injEq] at hp
              exact ⟨t, by rw [q3, htr, hp.1]⟩
          by_cases hms2 : (!ms.isEmpty) = true
          · simp only [hms2, if_true]
            by_cases hre : c.report .leavingSuccessor = true
            · simp only [hre, if_true]
              exact .emit rfl ⟨⟨F, hk _ _ _ rfl rfl htr.symm rfl rfl rfl⟩, rfl⟩
            · simp only [hre]
              exact .tau ⟨⟨F, hk _ _ _ rfl rfl htr.symm rfl rfl rfl⟩, rfl⟩
          · simp only [hms2]
            by_cases hre : c.report .leavingStart = true
            · simp only [hre, if_true]
              exact .emit rfl ⟨⟨F, hk _ _ _ rfl rfl htr.symm rfl rfl rfl⟩, rfl⟩
            · simp only [hre]
              exact .tau ⟨⟨F, hk _ _ _ rfl rfl htr.symm rfl rfl rfl⟩, rfl⟩
  | leave v last nl =>
    simp only [trStep, hpc, TraceCfg.asTree]
    by_cases hfl : (c.labeled && !last && s.traceLabels.isEmpty) = true
    · simp only [hfl, if_true]
      exact .fail
    · simp only [hfl]
      obtain ⟨t, htr⟩ := inv.lv v last nl hpc
      have hdrop : ∃ o, (if c.computeOnTrace then g.so.drop s.onTrace (c.vid v) else .ok s.onTrace) = .ok o ∧
          (∀ k, g.so.contains o k = true → g.so.contains s.onTrace k = true) ∧
          (c.computeOnTrace = true → ∀ k, k ≠ c.vid v → g.so.contains s.onTrace k = true →
            g.so.contains o k = true) := by
        by_cases hc : c.computeOnTrace = true
        · rw [if_pos hc]
          obtain ⟨o, h1, h2⟩ := hg.drop_ok s.onTrace (c.vid v) (inv.ton hc v (by rw [htr]; exact List.mem_cons_self))
          refine ⟨o, h1, fun k hk => ?_, fun _ k hne hk => ?_⟩
          · rw [h2] at hk; simp at hk; exact hk.2
          · rw [h2]; simp [hne, hk]
        · rw [if_neg hc]
          exact ⟨_, rfl, fun k h => h, fun h => absurd h hc⟩
      obtain ⟨o, ho, ho1, ho2⟩ := hdrop
      rw [ho]
      have hnd := inv.tnd
      rw [htr, List.map_cons, List.nodup_cons] at hnd
      refine .tau ⟨⟨F, ⟨inv.vis, fun k hk => inv.ont k (ho1 k hk), ?_, ?_, ?_, ?_, ?_, ?_, by simp, by simp⟩⟩, rfl⟩
      · simpa [trTodo, hpc] using inv.nd
      · simpa [trTodo, hpc] using inv.todo
      · simpa [trTodo, hpc] using inv.fresh
      · simp only [htr, List.tail_cons]; exact hnd.2
      · simp only [htr, List.tail_cons]; exact fun u hu => inv.tF u (by rw [htr]; exact List.mem_cons_of_mem _ hu)
      · simp only [htr, List.tail_cons]
        exact fun hc u hu => ho2 hc _ (fun e => hnd.1 (e ▸ List.mem_map_of_mem hu))
          (inv.ton hc u (by rw [htr]; exact List.mem_cons_of_mem _ hu))
  | entered v rep =>
    simp only [trStep, hpc, TraceCfg.asTree]
    by_cases hsk : (rep && c.skip s.n) = true
    · simp only [hsk, if_true]
      refine .tau ⟨⟨F, inv.keep rfl rfl rfl ⟨_, List.Perm.refl _, ?_⟩ (by simp) (by simp)⟩, rfl⟩
      simp only [trTodo, hpc, List.append_assoc, List.nil_append]
      exact List.sublist_append_right _ _
    · simp only [hsk]
      refine .expand ⟨⟨F, inv.keep rfl rfl rfl ⟨_, ?_, List.Sublist.refl _⟩ (by simp) (by simp)⟩, rfl⟩
      simp [trTodo, hpc]
  | edges v es =>
    cases es with
    | nil =>
      simp only [trStep, hpc]
      refine .tau ⟨⟨F, inv.keep rfl rfl rfl ⟨_, ?_, List.Sublist.refl _⟩ (by simp) (by simp)⟩, rfl⟩
      simp [trTodo, hpc]
    | cons e es =>
      simp only [trStep, hpc, TraceCfg.asTree]
      refine .tau ⟨⟨F, inv.keep rfl rfl rfl ⟨_, ?_, List.Sublist.refl _⟩ (by simp) (by simp)⟩, rfl⟩
      simp only [trTodo, hpc, List.map_cons, List.append_assoc, List.cons_append]
      exact List.perm_middle

/-- On a forest, tree mode makes the same steps as the general mode. -/
theorem tr_tree_sim (hg : g.so.Lawful) (ht : c.isTree = false) (hm : c.mode = .allWalks → c.computeOnTrace = false)
    (hf : IsForest c.next c.vid starts) (fuel : Nat) (lim : Option Int) :
    let rt := runMachine (trStep g (c.asTree m)) fuel lim (trInit g g.so.empty starts)
    let rn := runMachine (trStep g c) fuel lim (trInit g g.so.empty starts)
    List.Forall₂ (EvRel TrTreeRep) rt.events rn.events ∧ rt.ending = rn.ending := by
  intro rt rn
  have := run_sim (m := trStep g (c.asTree m)) (R := TrTreeRel g c starts) (F := fun _ _ => True) (Q := TrTreeRep)
    (fun s' s hr => tr_tree_step hg ht hm hf s' s hr) fuel lim (trInit g g.so.empty starts)
    (trInit g g.so.empty starts) ?_
  · exact ⟨this.1, this.2.1⟩
  · refine ⟨⟨fun _ => False, ?_⟩, rfl⟩
    have e : trTodo c (trInit g g.so.empty starts) = starts := by simp [trTodo, trInit]
    refine ⟨fun k h => ?_, fun k h => ?_, ?_, ?_, ?_, by simp [trInit], by simp [trInit], by simp [trInit],
      by simp [trInit], by simp [trInit]⟩
    · rw [show (trInit g g.so.empty starts).visited = g.so.empty from rfl, hg.contains_empty] at h; simp at h
    · rw [show (trInit g g.so.empty starts).onTrace = g.so.empty from rfl, hg.contains_empty] at h; simp at h
    · rw [e]; exact hf.starts_nodup
    · rw [e]; exact fun v hv => ⟨.start hv, id⟩
    · rw [e]
      intro u hu _ w hw
      refine ⟨fun hmem => ?_, id⟩
      exact hf.no_edge_to_start u w hu hw hmem

end NoGraphs
