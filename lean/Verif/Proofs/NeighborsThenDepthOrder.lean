import Verif.Proofs.NeighborsThenDepth
import Verif.Spec.NeighborsThenDepth

/-! The order of the reports of the traversal "neighbors, then depth". -/

set_option linter.unusedSectionVars false

namespace NoGraphs

open Spec

variable {V K L S M ML : Type} [DecidableEq V] [DecidableEq K]

/-- The order with an explicit stack of vertices and their depths; `n` counts expansions. -/
inductive NtdStack (nb : V → List V) (vid : V → K) :
    Nat → Bool → List (V × Nat) → List K → List (V × Nat) → Prop
  | done {seen} : NtdStack nb vid 0 true [] seen []
  | cut {n G seen} : NtdStack nb vid n false G seen []
  | pre {n v d G seen R} : R <+: (newOnes vid seen (nb v)).map (fun w => (w, d + 1)) →
      NtdStack nb vid n false ((v, d) :: G) seen R
  | step {n b v d G seen R} :
      NtdStack nb vid n b ((newOnes vid seen (nb v)).reverse.map (fun w => (w, d + 1)) ++ G)
        ((newOnes vid seen (nb v)).map vid ++ seen) R →
      NtdStack nb vid (n + 1) b ((v, d) :: G) seen ((newOnes vid seen (nb v)).map (fun w => (w, d + 1)) ++ R)

theorem NtdStack.split {nb : V → List V} {vid : V → K} :
    ∀ n b (A : List V) (d : Nat) G seen R, NtdStack nb vid n b (A.map (fun w => (w, d)) ++ G) seen R →
    (b = false ∧ A ≠ [] ∧ ∃ seen', NeighborsThenDepth nb vid false d seen A R seen') ∨
    ∃ m R1 R2 seen1, m ≤ n ∧ R = R1 ++ R2 ∧ NeighborsThenDepth nb vid true d seen A R1 seen1 ∧
      NtdStack nb vid m b G seen1 R2 := by
  intro n
  induction n using Nat.strongRecOn with
  | ind n ih =>
    intro b A d G seen R h
    cases A with
    | nil => exact .inr ⟨n, [], R, seen, Nat.le_refl _, rfl, .nothing, h⟩
    | cons v A =>
      simp only [List.map_cons, List.cons_append] at h
      cases h with
      | cut => exact .inl ⟨rfl, by simp, _, .stoppedInNeighbors (List.nil_prefix)⟩
      | pre hp => exact .inl ⟨rfl, by simp, _, .stoppedInNeighbors hp⟩
      | @step n _ _ _ _ _ R hs =>
        rcases ih n (Nat.lt_succ_self _) b _ (d + 1) _ _ _ hs with ⟨rfl, -, s', h1⟩ | ⟨m, R1, R2, s1, hm, rfl, h1, h2⟩
        · exact .inl ⟨rfl, by simp, _, .stoppedInDepth h1⟩
        · rcases ih m (by omega) b A d G _ _ h2 with ⟨rfl, -, s', h3⟩ | ⟨m', R3, R4, s2, hm', rfl, h3, h4⟩
          · refine .inl ⟨rfl, by simp, s', ?_⟩
            rw [← List.append_assoc]
            exact .explore h1 h3
          · refine .inr ⟨m', _, R4, s2, by omega, ?_, .explore h1 h3, h4⟩
            simp

/-- A complete exploration of something is also one that may have been stopped. -/
theorem Spec.NeighborsThenDepth.cut {nb : V → List V} {vid : V → K} {b : Bool} {d : Nat} {seen : List K} {vs : List V}
    {R : List (V × Nat)} {seen' : List K} (h : NeighborsThenDepth nb vid b d seen vs R seen') (hne : vs ≠ []) :
    NeighborsThenDepth nb vid false d seen vs R seen' := by
  induction h with
  | nothing => exact absurd rfl hne
  | stoppedInNeighbors h => exact .stoppedInNeighbors h
  | stoppedInDepth h _ => exact .stoppedInDepth h
  | @explore b d seen seen1 seen2 v vs sub rest h1 h2 ih1 ih2 =>
    cases vs with
    | cons w vs => exact .explore h1 (ih2 (by simp))
    | nil =>
      have key : NeighborsThenDepth nb vid false d seen [v]
          ((newOnes vid seen (nb v)).map (fun w => (w, d + 1)) ++ sub) seen1 := by
        by_cases hch : newOnes vid seen (nb v) = []
        · rw [hch] at h1 ⊢
          simp only [List.reverse_nil, List.map_nil, List.nil_append] at h1 ⊢
          cases h1
          exact .stoppedInNeighbors List.nil_prefix
        · exact .stoppedInDepth (ih1 (by simpa using hch))
      cases h2
      rw [List.append_nil]
      exact key

section

variable {g : TravGear V K L S M ML} {c : NtdCfg V K L} {already : S} {starts : List V}

/-- The neighbors of a vertex. -/
def NtdCfg.nb (c : NtdCfg V K L) (v : V) : List V := (c.next v).map Prod.fst

/-- The invariant: what is still to be done, in terms of the order with stack, continues the reports. -/
structure NtdOrderInv (g : TravGear V K L S M ML) (c : NtdCfg V K L) (G0 : List (V × Nat)) (seen0 : List K)
    (h : List (Ev (NtdReport V S M ML))) (s : NtdState V L S M ML) (G : List (V × Nat)) (seen : List K)
    (rs : List (V × Nat)) : Prop where
  stack : s.toExpand = G.map Prod.fst
  marks : c.computeDepth = true → MarkOk s.depth s.markers (G.map Prod.snd)
  seens : ∀ k, g.so.contains s.visited k = true ↔ k ∈ seen
  verts : (repsOf h).map (fun r => r.vertex) = rs.map Prod.fst
  depths : c.computeDepth = true → (repsOf h).map (fun r => r.depth) = rs.map (fun p => (p.2 : Int))
  cont : match s.pc with
    | .loop => ∀ n b R, NtdStack c.nb c.vid n b G seen R → ∃ n', NtdStack c.nb c.vid n' b G0 seen0 (rs ++ R)
    | .edges _ es => ∃ d : Nat, (c.computeDepth = true → s.depth = d ∧ s.selfDepth = d + 1) ∧
      (∀ n b R, NtdStack c.nb c.vid n b
        ((newOnes c.vid seen (es.map Prod.fst)).reverse.map (fun w => (w, d + 1)) ++ G)
        ((newOnes c.vid seen (es.map Prod.fst)).map c.vid ++ seen) R →
        ∃ n', NtdStack c.nb c.vid n' b G0 seen0
          (rs ++ (newOnes c.vid seen (es.map Prod.fst)).map (fun w => (w, d + 1)) ++ R)) ∧
      ∀ P, P <+: (newOnes c.vid seen (es.map Prod.fst)).map (fun w => (w, d + 1)) →
        ∃ n', NtdStack c.nb c.vid n' false G0 seen0 (rs ++ P)

/-- `NtdStack` depends on the content of `seen` only. -/
theorem newOnes_congr (vid : V → K) {seen seen' : List K} (h : ∀ k, k ∈ seen ↔ k ∈ seen') (vs : List V) :
    newOnes vid seen vs = newOnes vid seen' vs := by
  induction vs generalizing seen seen' with
  | nil => rfl
  | cons v vs ih =>
    simp only [newOnes, h]
    rw [ih h, ih (seen := vid v :: seen) (seen' := vid v :: seen') (fun k => by simp [h])]

theorem NtdStack.congr {nb : V → List V} {vid : V → K} {n : Nat} {b : Bool} {G : List (V × Nat)} {seen : List K}
    {R : List (V × Nat)} (h : NtdStack nb vid n b G seen R) :
    ∀ {seen' : List K}, (∀ k, k ∈ seen ↔ k ∈ seen') → NtdStack nb vid n b G seen' R := by
  induction h with
  | done => intro _ _; exact .done
  | cut => intro _ _; exact .cut
  | pre hp => intro _ hs; exact .pre (by rw [← newOnes_congr vid hs]; exact hp)
  | @step n b v d G seen R _ ih =>
    intro seen' hs
    have := ih (seen' := (newOnes vid seen' (nb v)).map vid ++ seen') (fun k => by
      rw [newOnes_congr vid hs, List.mem_append, List.mem_append, hs])
    rw [newOnes_congr vid hs] at this ⊢
    exact .step this

theorem ntd_order_step (hg : g.so.Lawful) (ht : c.isTree = false) {G0 : List (V × Nat)} {seen0 : List K}
    {h : List (Ev (NtdReport V S M ML))} {s : NtdState V L S M ML} {G : List (V × Nat)} {seen : List K}
    {rs : List (V × Nat)} (inv : NtdOrderInv g c G0 seen0 h s G seen rs) :
    match ntdStep g c s with
    | .stop s' => s' = s ∧ ∃ n, NtdStack c.nb c.vid n true G0 seen0 rs
    | .fail _ => True
    | .tau s' => NtdOrderInv g c G0 seen0 h s' G seen rs
    | .emit r s' => ∃ G' seen' rs', NtdOrderInv g c G0 seen0 (h ++ [.rep r]) s' G' seen' rs'
    | .expand s' => ∃ G', NtdOrderInv g c G0 seen0 (h ++ [.exp]) s' G' seen rs := by
  have hcont := inv.cont
  cases hs : s.pc with
  | loop =>
    rw [hs] at hcont
    cases hte : s.toExpand with
    | nil =>
      simp only [ntdStep, hs, hte]
      refine ⟨trivial, ?_⟩
      have hG : G = [] := by
        have := inv.stack
        rw [hte] at this
        exact List.map_eq_nil_iff.1 this.symm
      subst hG
      have := hcont 0 true [] .done
      simpa using this
    | cons v rest =>
      obtain ⟨d, G', rfl, hG'⟩ : ∃ n G', G = (v, n) :: G' ∧ rest = G'.map Prod.fst := by
        have := inv.stack
        rw [hte] at this
        cases G with
        | nil => simp at this
        | cons a G' => exact ⟨a.2, G', by simp at this; rw [this.1], by simpa using (by simpa using this : _ ∧ _).2⟩
      have key : (∀ n b R, NtdStack c.nb c.vid n b
          ((newOnes c.vid seen ((c.next v).map Prod.fst)).reverse.map (fun w => (w, d + 1)) ++ G')
          ((newOnes c.vid seen ((c.next v).map Prod.fst)).map c.vid ++ seen) R →
          ∃ n', NtdStack c.nb c.vid n' b G0 seen0
            (rs ++ (newOnes c.vid seen ((c.next v).map Prod.fst)).map (fun w => (w, d + 1)) ++ R)) ∧
        ∀ P, P <+: (newOnes c.vid seen ((c.next v).map Prod.fst)).map (fun w => (w, d + 1)) →
          ∃ n', NtdStack c.nb c.vid n' false G0 seen0 (rs ++ P) := by
        refine ⟨fun n b R hR => ?_, fun P hP => ?_⟩
        · obtain ⟨n', h'⟩ := hcont (n + 1) b _ (.step (v := v) (d := d) hR)
          exact ⟨n', by rw [List.append_assoc]; exact h'⟩
        · exact hcont 0 false P (.pre hP)
      by_cases hd : c.computeDepth = true
      · obtain ⟨ms', h1, h2⟩ := (inv.marks hd).pop
        simp only [ntdStep, hs, hte, hd, if_true, h1]
        exact ⟨G', ⟨hG', fun _ => h2, inv.seens, by simpa using inv.verts, by simpa using inv.depths,
          d, fun _ => ⟨rfl, rfl⟩, key.1, key.2⟩⟩
      · simp only [ntdStep, hs, hte, hd]
        exact ⟨G', ⟨hG', fun h => absurd h hd, inv.seens, by simpa using inv.verts, by simpa using inv.depths,
          d, fun h => absurd h hd, key.1, key.2⟩⟩
  | edges u es =>
    rw [hs] at hcont
    obtain ⟨d, hdep, hcon, hpre⟩ := hcont
    cases es with
    | nil =>
      simp only [ntdStep, hs]
      refine { inv with cont := fun n b R hR => ?_ }
      have := hcon n b R (by simpa [newOnes] using hR)
      simpa [newOnes] using this
    | cons e es =>
      cases hv : bfsVisit g c.isTree c.buildPaths c.vid s.visited s.preds s.labels u e with
      | none =>
        simp only [ntdStep, hs, hv]
        rw [ht] at hv
        have hin := (inv.seens _).1 (bfsVisit_none hg hv)
        have hno : newOnes c.vid seen ((e :: es).map Prod.fst) = newOnes c.vid seen (es.map Prod.fst) := by
          simp [newOnes, hin]
        rw [hno] at hcon hpre
        exact { inv with cont := ⟨d, hdep, hcon, hpre⟩ }
      | some t =>
        obtain ⟨vis, pr, la⟩ := t
        simp only [ntdStep, hs, hv]
        rw [ht] at hv
        obtain ⟨hnew, hvis', -⟩ := bfsVisit_some hg hv
        have hnin : c.vid e.1 ∉ seen := fun hh => by
          rw [(inv.seens _).2 hh] at hnew; simp at hnew
        have hno : newOnes c.vid seen ((e :: es).map Prod.fst) =
            e.1 :: newOnes c.vid (c.vid e.1 :: seen) (es.map Prod.fst) := by
          simp [newOnes, hnin]
        rw [hno] at hcon hpre
        refine ⟨(e.1, d + 1) :: G, c.vid e.1 :: seen, rs ++ [(e.1, d + 1)], {
          stack := by simp [inv.stack], marks := fun hd => ?_, seens := fun k => ?_, verts := ?_,
          depths := fun hd => ?_, cont := ⟨d, hdep, fun n b R hR => ?_, fun P hP => ?_⟩ }⟩
        · simp only [hd, if_true, List.map_cons]
          refine ⟨?_, inv.marks hd⟩
          simp only [(hdep hd).1]
          push_cast; rfl
        · rw [hvis']
          simp [inv.seens k]
        · simp [inv.verts]
        · simp [inv.depths hd, (hdep hd).2]
        · have := hcon n b R (by
            refine NtdStack.congr (seen := (newOnes c.vid (c.vid e.1 :: seen) (es.map Prod.fst)).map c.vid ++
              c.vid e.1 :: seen) ?_ (fun k => ?_)
            · simpa using hR
            · simp only [List.map_cons, List.mem_append, List.mem_cons, List.cons_append]; exact or_left_comm)
          simpa using this
        · have := hpre ((e.1, d + 1) :: P) (by
            simp only [List.map_cons]
            exact List.cons_prefix_cons.2 ⟨rfl, hP⟩)
          simpa using this

theorem ntd_order_init (hg : g.so.Lawful) (ht : c.isTree = false) (ks : List K)
    (hks : ∀ k, g.so.contains already k = true ↔ k ∈ ks) :
    NtdOrderInv g c (starts.reverse.map (fun v => (v, 0))) (starts.map c.vid ++ ks) []
      (ntdInit g c already starts : NtdState V L S M ML) (starts.reverse.map (fun v => (v, 0)))
      (starts.map c.vid ++ ks) [] where
  stack := by simp [ntdInit, Function.comp_def]
  marks hd := by
    simp only [ntdInit, hd, if_true]
    have : (starts.reverse.map (fun v => (v, 0))).map Prod.snd = List.replicate starts.length 0 := by
      simp [Function.comp_def]
    rw [this]
    exact markOk_init _
  seens k := by
    simp only [ntdInit, ht, Bool.false_eq_true, if_false, hg.contains_addAll]
    simp only [Bool.or_eq_true, decide_eq_true_eq, hks]
    simp
  verts := by simp
  depths := by simp
  cont := fun n b R hR => ⟨n, by simpa using hR⟩

theorem ntd_order (hg : g.so.Lawful) (ht : c.isTree = false) (ks : List K)
    (hks : ∀ k, g.so.contains already k = true ↔ k ∈ ks) {h : List (Ev (NtdReport V S M ML))}
    {s : NtdState V L S M ML} (hr : Reaches (ntdStep g c) (ntdInit g c already starts) h s) :
    ∃ G seen rs, NtdOrderInv g c (starts.reverse.map (fun v => (v, 0))) (starts.map c.vid ++ ks) h s G seen rs := by
  refine Reaches.invariant (fun h s => ∃ G seen rs,
    NtdOrderInv g c (starts.reverse.map (fun v => (v, 0))) (starts.map c.vid ++ ks) h s G seen rs)
    ⟨_, _, _, ntd_order_init hg ht ks hks⟩ ?_ ?_ ?_ hr
  · rintro h s s' ⟨G, seen, rs, inv⟩ hs
    have := ntd_order_step hg ht inv
    rw [hs] at this
    exact ⟨G, seen, rs, this⟩
  · rintro h s r s' ⟨G, seen, rs, inv⟩ hs
    have := ntd_order_step hg ht inv
    rwa [hs] at this
  · rintro h s s' ⟨G, seen, rs, inv⟩ hs
    have := ntd_order_step hg ht inv
    rw [hs] at this
    obtain ⟨G', h'⟩ := this
    exact ⟨G', seen, rs, h'⟩

end

end NoGraphs
