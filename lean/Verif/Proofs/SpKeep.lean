import Verif.Proofs.SpPlain

/-! Shortest paths: the option to keep distances does not change reports. -/

set_option linter.unusedSectionVars false

namespace NoGraphs

open Spec

variable {V K L W M ML D : Type} [DecidableEq V] [DecidableEq K]
variable [Add W] [Zero W] [LinearOrder W] [WeightLaws W]

attribute [local instance] wAddCommMagma wAddZeroClass wAddRightMono wAddLeftMono
variable {c : WCfg V K L W} {starts : List V} {g : WGear V K L W M ML D}
variable {h : List (Ev (SpReport V W M ML D))} {s : SpState V L W M ML D} {F : K → Option W} {cur : W}

theorem SpInv.stale_iff (inv : SpInv c starts (spB c starts) g h s F cur) {e : HEntry W (V × Nat)}
    (he : e ∈ s.heap) : g.dd.get s.dist (c.vid e.item.1) < e.key ↔
      (match F (c.vid e.item.1) with
        | none => g.dd.get s.dist (c.vid e.item.1) < e.key
        | some w => w < e.key) := by
  cases hF : F (c.vid e.item.1) with
  | none => exact Iff.rfl
  | some w =>
    obtain ⟨h1, -, h3, h4, -⟩ := inv.donev _ _ hF
    rw [h4]
    split
    · exact Iff.rfl
    · rcases Nat.eq_zero_or_pos e.item.2 with h0 | h0
      · obtain ⟨hs, hk⟩ := inv.ent0 e he h0
        rw [spB_start _ hs] at hk
        rw [hk]
        exact ⟨fun h => absurd h (lt_irrefl _), fun h => absurd h (not_lt_of_ge h1)⟩
      · have := (inv.entD e he w hF).2 h0
        exact ⟨fun _ => this, fun _ => lt_of_le_of_lt h1 this⟩

theorem SpInv.improve_done (inv : SpInv c starts (spB c starts) g h s F cur) (hd : g.dd.Lawful c.inf)
    (hn : NonNeg c.next) {v n : V} {w x w' : W} {l : L} {ec : Nat} {es : List (V × W × L)}
    (hpc : s.pc = .edges v w ec ((n, x, l) :: es)) (hinf : ¬ c.inf ≤ x + w) (hF : F (c.vid n) = some w') :
    g.dd.improve s.dist (c.vid n) (x + w) = none := by
  cases himp : g.dd.improve s.dist (c.vid n) (x + w) with
  | none => rfl
  | some d =>
    have := (inv.push_undone hd hn hpc hinf himp).1
    rw [hF] at this; simp at this

theorem spStartEntries_congr {c c' : WCfg V K L W} (h : c.vid = c'.vid) (d : D) (vs : List V) (no : Int) :
    spStartEntries g c d vs no = spStartEntries g c' d vs no := by
  induction vs generalizing no with
  | nil => rfl
  | cons v vs ih => simp only [spStartEntries, ih, h]

theorem sp_keep_sim (b : Bool) (ht : c.isTree = false) (hd : g.dd.Lawful c.inf) (hn : NonNeg c.next)
    (hc : WCompat c.next c.vid) (fuel : Nat) (lim : Option Int) :
    let r1 := runMachine (spStep g c) fuel lim (spInit g c none starts)
    let r2 := runMachine (spStep g { c with keepDistances := b }) fuel lim
      (spInit g { c with keepDistances := b } none starts)
    List.Forall₂ (EvRel (fun (r r' : SpReport V W M ML D) => r.vertex = r'.vertex ∧ r.distance = r'.distance ∧
      r.depth = r'.depth ∧ r.preds = r'.preds ∧ r.labels = r'.labels)) r1.events r2.events ∧
    r1.ending = r2.ending := by
  intro r1 r2
  set c' : WCfg V K L W := { c with keepDistances := b } with hc'
  have ht' : c'.isTree = false := ht
  have := run_sim (m := spStep g c) (m' := spStep g c')
    (fun s s' => s.pc = s'.pc ∧ s.heap = s'.heap ∧ s.no = s'.no ∧ s.preds = s'.preds ∧ s.labels = s'.labels ∧
      ∃ F, (∃ h cur, SpAll c starts (spB c starts) g h s F cur) ∧
        (∃ h cur, SpAll c' starts (spB c' starts) g h s' F cur) ∧
        ∀ k, F k = none → g.dd.get s.dist k = g.dd.get s'.dist k)
    (fun _ _ => True)
    (fun (r r' : SpReport V W M ML D) => r.vertex = r'.vertex ∧ r.distance = r'.distance ∧
      r.depth = r'.depth ∧ r.preds = r'.preds ∧ r.labels = r'.labels)
    ?_ fuel lim (spInit g c none starts) (spInit g c' none starts) ?_
  · exact ⟨this.1, this.2.1⟩
  · rintro ⟨pc, heap, no, d, pr, la⟩ ⟨pc', heap', no', d', pr', la'⟩ ⟨h1, h2, h3, h4, h5, F, ⟨h, cur, ok⟩,
      ⟨h', cur', ok'⟩, hget⟩
    simp only at h1 h2 h3 h4 h5 hget
    subst h1 h2 h3 h4 h5
    have st := sp_step ht hd hn hc ok
    have st' := sp_step (c := c') ht' hd hn hc ok'
    cases pc with
    | loop =>
      cases heap with
      | nil => exact .stop trivial
      | cons e rest =>
        have i1 := ok.1.stale_iff (e := e) List.mem_cons_self
        have i2 := ok'.1.stale_iff (e := e) List.mem_cons_self
        have hvid : c'.vid = c.vid := rfl
        simp only [hvid] at i1 i2
        have hsame : g.dd.get d (c.vid e.item.1) < e.key ↔ g.dd.get d' (c.vid e.item.1) < e.key := by
          rw [i1, i2]
          cases hF : F (c.vid e.item.1) with
          | none => simp only; rw [hget _ hF]
          | some w => exact Iff.rfl
        by_cases hst : g.dd.get d (c.vid e.item.1) < e.key
        · have hst' := hsame.1 hst
          have e1 : spStep g c ⟨.loop, e :: rest, no, d, pr, la⟩ = .tau ⟨.loop, rest, no, d, pr, la⟩ := by
            simp [spStep, ht, hst]
          have e2 : spStep g c' ⟨.loop, e :: rest, no, d', pr, la⟩ = .tau ⟨.loop, rest, no, d', pr, la⟩ := by
            simp [spStep, ht', hvid, hst']
          rw [e1] at st ⊢
          rw [e2] at st' ⊢
          obtain ⟨F1, cu1, ⟨q1, -⟩, a1, -⟩ := st
          obtain ⟨F2, cu2, ⟨q2, -⟩, a2, -⟩ := st'
          have hF1 : F1 = F := by rw [q1]; simp [spNextF, hst]
          have hF2 : F2 = F := by rw [q2]; simp [spNextF, hvid, hst']
          subst hF1 hF2
          exact .tau ⟨rfl, rfl, rfl, rfl, rfl, _, ⟨_, _, a1⟩, ⟨_, _, a2⟩, hget⟩
        · have hst' : ¬ g.dd.get d' (c.vid e.item.1) < e.key := fun h => hst (hsame.2 h)
          have hfin : spNextF c g ⟨.loop, e :: rest, no, d, pr, la⟩ F =
              spNextF c' g ⟨.loop, e :: rest, no, d', pr, la⟩ F := by
            simp [spNextF, hst, hvid, hst']
          have hget' : ∀ k, spNextF c g ⟨.loop, e :: rest, no, d, pr, la⟩ F k = none →
              g.dd.get (if !c.keepDistances then g.dd.set d (c.vid e.item.1) 0 else d) k =
              g.dd.get (if !c'.keepDistances then g.dd.set d' (c.vid e.item.1) 0 else d') k := by
            intro k hk
            have hkF : F k = none ∧ k ≠ c.vid e.item.1 := by
              simp only [spNextF, hst, false_or] at hk
              split at hk
              · rename_i hs
                refine ⟨hk, fun h => ?_⟩
                rw [← h, hk] at hs; simp at hs
              · unfold spFin at hk
                split at hk
                · simp at hk
                · exact ⟨hk, by assumption⟩
            have a : g.dd.get (if !c.keepDistances then g.dd.set d (c.vid e.item.1) 0 else d) k = g.dd.get d k := by
              split
              · rw [hd.get_set, if_neg hkF.2]
              · rfl
            have b : g.dd.get (if !c'.keepDistances then g.dd.set d' (c.vid e.item.1) 0 else d') k = g.dd.get d' k := by
              split
              · rw [hd.get_set, if_neg hkF.2]
              · rfl
            rw [a, b]; exact hget k hkF.1
          by_cases hec : e.item.2 > 0
          · have e1 : spStep g c ⟨.loop, e :: rest, no, d, pr, la⟩ = .emit
                ⟨e.item.1, e.key, e.item.2, if !c.keepDistances then g.dd.set d (c.vid e.item.1) 0 else d, pr, la⟩
                ⟨.expand e.item.1 e.key e.item.2, rest, no,
                  if !c.keepDistances then g.dd.set d (c.vid e.item.1) 0 else d, pr, la⟩ := by
              simp [spStep, ht, hst, hec]
            have e2 : spStep g c' ⟨.loop, e :: rest, no, d', pr, la⟩ = .emit
                ⟨e.item.1, e.key, e.item.2, if !c'.keepDistances then g.dd.set d' (c.vid e.item.1) 0 else d', pr, la⟩
                ⟨.expand e.item.1 e.key e.item.2, rest, no,
                  if !c'.keepDistances then g.dd.set d' (c.vid e.item.1) 0 else d', pr, la⟩ := by
              simp [spStep, ht', hvid, hst', hec]
            rw [e1] at st ⊢
            rw [e2] at st' ⊢
            obtain ⟨F1, cu1, ⟨q1, -⟩, a1, -⟩ := st
            obtain ⟨F2, cu2, ⟨q2, -⟩, a2, -⟩ := st'
            have : F2 = F1 := by rw [q1, q2, hfin]
            subst this
            exact .emit ⟨rfl, rfl, rfl, rfl, rfl⟩
              ⟨rfl, rfl, rfl, rfl, rfl, _, ⟨_, _, a1⟩, ⟨_, _, a2⟩, fun k hk => hget' k (q1 ▸ hk)⟩
          · have e1 : spStep g c ⟨.loop, e :: rest, no, d, pr, la⟩ = .tau
                ⟨.expand e.item.1 e.key e.item.2, rest, no,
                  if !c.keepDistances then g.dd.set d (c.vid e.item.1) 0 else d, pr, la⟩ := by
              simp [spStep, ht, hst, hec]
            have e2 : spStep g c' ⟨.loop, e :: rest, no, d', pr, la⟩ = .tau
                ⟨.expand e.item.1 e.key e.item.2, rest, no,
                  if !c'.keepDistances then g.dd.set d' (c.vid e.item.1) 0 else d', pr, la⟩ := by
              simp [spStep, ht', hvid, hst', hec]
            rw [e1] at st ⊢
            rw [e2] at st' ⊢
            obtain ⟨F1, cu1, ⟨q1, -⟩, a1, -⟩ := st
            obtain ⟨F2, cu2, ⟨q2, -⟩, a2, -⟩ := st'
            have : F2 = F1 := by rw [q1, q2, hfin]
            subst this
            exact .tau ⟨rfl, rfl, rfl, rfl, rfl, _, ⟨_, _, a1⟩, ⟨_, _, a2⟩, fun k hk => hget' k (q1 ▸ hk)⟩
    | expand v w ec =>
      obtain ⟨F1, cu1, ⟨q1, -⟩, a1, -⟩ := st
      obtain ⟨F2, cu2, ⟨q2, -⟩, a2, -⟩ := st'
      simp only [spNextF] at q1 q2
      subst q1 q2
      exact .expand ⟨rfl, rfl, rfl, rfl, rfl, _, ⟨_, _, a1⟩, ⟨_, _, a2⟩, hget⟩
    | edges v w ec es =>
      cases es with
      | nil =>
        obtain ⟨F1, cu1, ⟨q1, -⟩, a1, -⟩ := st
        obtain ⟨F2, cu2, ⟨q2, -⟩, a2, -⟩ := st'
        simp only [spNextF] at q1 q2
        subst q1 q2
        exact .tau ⟨rfl, rfl, rfl, rfl, rfl, _, ⟨_, _, a1⟩, ⟨_, _, a2⟩, hget⟩
      | cons e es =>
        obtain ⟨n, x, l⟩ := e
        by_cases hinf : c.inf ≤ x + w
        · have e1 : spStep g c ⟨.edges v w ec ((n, x, l) :: es), heap, no, d, pr, la⟩ = .fail .overflowError := by
            simp [spStep, hinf]
          have e2 : spStep g c' ⟨.edges v w ec ((n, x, l) :: es), heap, no, d', pr, la⟩ = .fail .overflowError := by
            have : c'.inf ≤ x + w := hinf
            simp [spStep, this]
          rw [e1, e2]; exact .fail
        · have hinf' : ¬ c'.inf ≤ x + w := hinf
          have both : (g.dd.improve d (c.vid n) (x + w) = none ∧ g.dd.improve d' (c.vid n) (x + w) = none) ∨
              (F (c.vid n) = none ∧ ∃ a a', g.dd.improve d (c.vid n) (x + w) = some a ∧
                g.dd.improve d' (c.vid n) (x + w) = some a') := by
            cases hF : F (c.vid n) with
            | some w' =>
              exact .inl ⟨ok.1.improve_done hd hn rfl hinf hF, ok'.1.improve_done (c := c') hd hn rfl hinf hF⟩
            | none =>
              have j1 := hd.improve_none d (c.vid n) (x + w) (lt_of_not_ge hinf)
              have j2 := hd.improve_none d' (c.vid n) (x + w) (lt_of_not_ge hinf)
              rw [← hget _ hF] at j2
              cases ha : g.dd.improve d (c.vid n) (x + w) with
              | none => exact .inl ⟨rfl, j2.2 (j1.1 ha)⟩
              | some a =>
                cases ha' : g.dd.improve d' (c.vid n) (x + w) with
                | none => rw [j1.2 (j2.1 ha')] at ha; simp at ha
                | some a' => exact .inr ⟨rfl, _, _, rfl, rfl⟩
          rcases both with ⟨m1, m2⟩ | ⟨hF, a, a', m1, m2⟩
          · have e1 : spStep g c ⟨.edges v w ec ((n, x, l) :: es), heap, no, d, pr, la⟩ =
                .tau ⟨.edges v w ec es, heap, no, d, pr, la⟩ := by
              simp [spStep, hinf, spImprove, ht, m1]
            have e2 : spStep g c' ⟨.edges v w ec ((n, x, l) :: es), heap, no, d', pr, la⟩ =
                .tau ⟨.edges v w ec es, heap, no, d', pr, la⟩ := by
              have hvid : c'.vid = c.vid := rfl
              simp [spStep, hinf', spImprove, ht', hvid, m2]
            rw [e1] at st ⊢
            rw [e2] at st' ⊢
            obtain ⟨F1, cu1, ⟨q1, -⟩, a1, -⟩ := st
            obtain ⟨F2, cu2, ⟨q2, -⟩, a2, -⟩ := st'
            simp only [spNextF] at q1 q2
            subst q1 q2
            exact .tau ⟨rfl, rfl, rfl, rfl, rfl, _, ⟨_, _, a1⟩, ⟨_, _, a2⟩, hget⟩
          · have e1 : spStep g c ⟨.edges v w ec ((n, x, l) :: es), heap, no, d, pr, la⟩ =
                .tau ⟨.edges v w ec es, heapPush heap ⟨x + w, no, (n, ec + 1)⟩, no - 1, a,
                  if c.buildPaths then g.mo.set pr (c.vid n) v else pr,
                  if c.buildPaths then g.lo.set la (c.vid n) l else la⟩ := by
              simp [spStep, hinf, spImprove, ht, m1]
            have e2 : spStep g c' ⟨.edges v w ec ((n, x, l) :: es), heap, no, d', pr, la⟩ =
                .tau ⟨.edges v w ec es, heapPush heap ⟨x + w, no, (n, ec + 1)⟩, no - 1, a',
                  if c.buildPaths then g.mo.set pr (c.vid n) v else pr,
                  if c.buildPaths then g.lo.set la (c.vid n) l else la⟩ := by
              have hvid : c'.vid = c.vid := rfl
              have hbp : c'.buildPaths = c.buildPaths := rfl
              simp [spStep, hinf', spImprove, ht', hvid, m2, hbp]
            rw [e1] at st ⊢
            rw [e2] at st' ⊢
            obtain ⟨F1, cu1, ⟨q1, -⟩, a1, -⟩ := st
            obtain ⟨F2, cu2, ⟨q2, -⟩, a2, -⟩ := st'
            simp only [spNextF] at q1 q2
            subst q1 q2
            refine .tau ⟨rfl, rfl, rfl, rfl, rfl, _, ⟨_, _, a1⟩, ⟨_, _, a2⟩, fun k hk => ?_⟩
            simp only [hd.improve_some _ _ _ _ (lt_of_not_ge hinf) m1,
              hd.improve_some _ _ _ _ (lt_of_not_ge hinf) m2]
            split
            · rfl
            · exact hget k hk
  · refine ⟨rfl, congrArg heapify (spStartEntries_congr (c := c) (c' := c') rfl _ _ _), rfl, rfl, rfl, fun _ => none, ?_, ?_,
      fun _ _ => rfl⟩
    · exact ⟨_, _, sp_init0 hn (fun k => spDistances_none hd k) spB_start_nonneg⟩
    · exact ⟨_, _, sp_init0 (c := c') hn (fun k => spDistances_none (c := c') hd k)
        (spB_start_nonneg (c := c'))⟩

end NoGraphs
