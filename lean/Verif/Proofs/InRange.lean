import Verif.Model.GearTypes
import Verif.Model.AStar
import Verif.Model.BiDijkstra
import Verif.Proofs.Gear
import Verif.Proofs.Heap
import Verif.Proofs.Machine
import Verif.Spec.Weighted

/-! # Values that are stored in distance collections -/

set_option linter.unusedSectionVars false

namespace NoGraphs

open Spec

section
variable {σ ρ : Type}

/-- The step leads to a state with `P`. -/
def Step.Post (P : σ → Prop) : Step σ ρ → Prop
  | .stop s | .tau s | .emit _ s | .expand s => P s
  | .fail _ => True

/-- The final state of a run, also of an unfinished one. -/
theorem run_final {m : σ → Step σ ρ} (P : σ → Prop)
    (hs : ∀ s, P s → (m s).Post P) (fuel : Nat) (lim : Option Int) (s : σ) (h : P s) : P (runMachine m fuel lim s).final := by
  induction fuel generalizing lim s with
  | zero => exact h
  | succ n ih =>
    have := hs s h
    unfold runMachine
    split <;> rename_i heq <;> rw [heq] at this
    · exact this
    · exact h
    · exact ih _ _ this
    · exact ih _ _ this
    · split
      · exact h
      · exact ih _ _ this

end

/-- The operations keep `I` as long as the values that are written have `P`. -/
structure DistOps.Keeps {D K W : Type} (o : DistOps D K W) (I : D → Prop) (P : W → Prop) : Prop where
  empty : I o.empty
  get : ∀ m k, I m → P (o.get m k)
  set : ∀ m k w, I m → P w → I (o.set m k w)
  improve : ∀ m k w m', I m → P w → o.improve m k w = some m' → I m'

theorem DistOps.Keeps.setAll {D K W : Type} {o : DistOps D K W} {I : D → Prop} {P : W → Prop} (h : o.Keeps I P)
    (kvs : List (K × W)) (hw : ∀ p ∈ kvs, P p.2) (m : D) (hm : I m) : I (o.setAll m kvs) := by
  induction kvs generalizing m with
  | nil => exact hm
  | cons p kvs ih =>
    exact ih (fun q hq => hw q (List.mem_cons_of_mem _ hq)) _ (h.set m p.1 p.2 hm (hw p List.mem_cons_self))

section
variable {α : Type} {P : α → Prop}

theorem all_set {l : List α} (h : ∀ x ∈ l, P x) (k : Nat) {v : α} (hv : P v) : ∀ x ∈ l.set k v, P x := by
  intro x hx
  rcases List.mem_or_eq_of_mem_set hx with h1 | rfl
  exacts [h x h1, hv]

theorem all_extendLoop {t : List α} (ht : ∀ x ∈ t, P x) (fuel target : Nat) {l : List α} (h : ∀ x ∈ l, P x) :
    ∀ x ∈ extendLoop t fuel target l, P x := by
  induction fuel generalizing l with
  | zero => exact h
  | succ n ih =>
    unfold extendLoop
    split
    · apply ih
      intro x hx
      rcases List.mem_append.1 hx with h1 | h1
      exacts [h x h1, ht x h1]
    · exact h

theorem all_extendAndSet {p : SeqParams α} (hp : P p.default) {l : List α} (h : ∀ x ∈ l, P x) (k : Nat) {v : α}
    (hv : P v) : ∀ x ∈ extendAndSet p l k v, P x := by
  have hr : ∀ n, ∀ x ∈ List.replicate n p.default, P x := by
    intro n x hx
    rw [(List.mem_replicate.1 hx).2]; exact hp
  unfold extendAndSet
  apply all_set _ _ hv
  split
  · exact all_extendLoop (hr _) _ _ h
  · intro x hx
    rcases List.mem_append.1 hx with h1 | h1
    exacts [h x h1, hr _ x h1]

theorem all_seqSet {l l' : List α} (h : ∀ x ∈ l, P x) {k : Nat} {v : α} (hv : P v) (he : seqSet l k v = some l') :
    ∀ x ∈ l', P x := by
  unfold seqSet at he
  split at he
  · cases he; exact all_set h k hv
  · cases he

theorem seqDist_keeps {W : Type} [LinearOrder W] {P : W → Prop} (p : SeqParams W) (hp : P p.default) (pre : Nat) :
    (seqDist p pre).Keeps (fun m => ∀ x ∈ m, P x) P where
  empty x hx := by rw [(List.mem_replicate.1 hx).2]; exact hp
  get m k h := by
    simp only [seqDist, seqGet]
    cases hg : m[k]? with
    | none => exact hp
    | some v => exact h v (List.mem_of_getElem? hg)
  set m k w h hw := by
    simp only [seqDist, setOrExtend]
    split
    · rename_i he; exact all_seqSet h hw he
    · exact all_extendAndSet hp h k hw
  improve m k w m' h hw he := by
    simp only [seqDist] at he
    split at he
    · split at he
      · cases he
      · exact all_seqSet h hw he
    · cases he; exact all_extendAndSet hp h k hw

end

variable {V K L W M ML D : Type} [DecidableEq V] [DecidableEq K]
variable [AddCommMonoid W] [LinearOrder W] [IsOrderedAddMonoid W]
variable {I : D → Prop}

/-- The weight in the local variables is not negative. -/
def SpPc.NonNegW : SpPc V L W → Prop
  | .loop => True
  | .expand _ w _ => 0 ≤ w
  | .edges _ w _ es => 0 ≤ w ∧ ∀ e ∈ es, 0 ≤ e.2.1

/-- All that is stored is in range. -/
def SpRange (I : D → Prop) (s : SpState V L W M ML D) : Prop :=
  I s.dist ∧ (∀ e ∈ s.heap, 0 ≤ e.key) ∧ s.pc.NonNegW

theorem nonNeg_next {next : V → List (V × W × L)} (hn : NonNeg next) (v : V) : ∀ e ∈ next v, 0 ≤ e.2.1 :=
  fun e he => hn v e.1 e.2.1 ⟨e.2.2, he⟩

theorem sp_range (g : WGear V K L W M ML D) (c : WCfg V K L W) (hk : g.dd.Keeps I (fun w => 0 ≤ w ∧ w ≤ c.inf))
    (h0 : 0 ≤ c.inf) (hn : NonNeg c.next) (s : SpState V L W M ML D) (h : SpRange I s) :
    (spStep g c s).Post (SpRange I) := by
  obtain ⟨pc, heap, no, dist, preds, labels⟩ := s
  obtain ⟨h1, h2, h3⟩ := h
  simp only at h1 h2 h3
  cases pc with
  | loop =>
    cases heap with
    | nil => exact ⟨h1, h2, h3⟩
    | cons e rest =>
      have hr : ∀ e ∈ rest, 0 ≤ e.key := fun e he => h2 e (List.mem_cons_of_mem _ he)
      have he : 0 ≤ e.key := h2 e List.mem_cons_self
      have hd : I (if !c.isTree && !c.keepDistances then g.dd.set dist (c.vid e.item.1) 0 else dist) := by
        split
        · exact hk.set _ _ _ h1 ⟨le_refl _, h0⟩
        · exact h1
      simp only [spStep]
      by_cases hc : (!c.isTree && decide (g.dd.get dist (c.vid e.item.1) < e.key)) = true
      · rw [if_pos hc]; exact ⟨h1, hr, h3⟩
      · rw [if_neg hc]
        by_cases hec : e.item.2 > 0
        · rw [if_pos hec]; exact ⟨hd, hr, he⟩
        · rw [if_neg hec]; exact ⟨hd, hr, he⟩
  | expand v w ec => exact ⟨h1, h2, h3, nonNeg_next hn v⟩
  | edges v w ec es =>
    cases es with
    | nil => exact ⟨h1, h2, trivial⟩
    | cons e es =>
      obtain ⟨n, x, l⟩ := e
      have hx : 0 ≤ x := h3.2 (n, x, l) List.mem_cons_self
      have hpc : (SpPc.edges v w ec es : SpPc V L W).NonNegW :=
        ⟨h3.1, fun e he => h3.2 e (List.mem_cons_of_mem _ he)⟩
      have hnw : 0 ≤ x + w := add_nonneg hx h3.1
      simp only [spStep]
      by_cases ho : c.inf ≤ x + w
      · rw [if_pos ho]; trivial
      · rw [if_neg ho]
        have hP : 0 ≤ x + w ∧ x + w ≤ c.inf := ⟨hnw, le_of_not_ge ho⟩
        cases hi : spImprove g c dist (c.vid n) (x + w) with
        | none => exact ⟨h1, h2, hpc⟩
        | some d =>
          refine ⟨?_, ?_, hpc⟩
          · unfold spImprove at hi
            split at hi
            · cases hi; exact h1
            · exact hk.improve _ _ _ _ h1 hP hi
          · intro e he
            rcases mem_heapPush.1 he with h | h
            · subst h; exact hnw
            · exact h2 e h

theorem sp_range_init (g : WGear V K L W M ML D) (c : WCfg V K L W) (hk : g.dd.Keeps I (fun w => 0 ≤ w ∧ w ≤ c.inf))
    (h0 : 0 ≤ c.inf) (starts : List V) : SpRange I (spInit g c none starts) := by
  have hd : I (spDistances g c none starts) := by
    apply hk.setAll _ _ _ hk.empty
    intro p hp
    obtain ⟨v, -, rfl⟩ := List.mem_map.1 hp
    exact ⟨le_refl _, h0⟩
  refine ⟨hd, ?_, trivial⟩
  intro e he
  have he : e ∈ spStartEntries g c (spDistances g c none starts) starts 256 := (mem_heapify).1 he
  have : ∀ (vs : List V) (no : Int), ∀ e ∈ spStartEntries g c (spDistances g c none starts) vs no, 0 ≤ e.key := by
    intro vs
    induction vs with
    | nil => intro no e he; simp [spStartEntries] at he
    | cons v vs ih =>
      intro no e he
      rcases List.mem_cons.1 he with rfl | he
      · exact (hk.get _ _ hd).1
      · exact ih _ e he
  exact this _ _ e he

/-- All that is stored is in range. -/
def ARange (I : D → Prop) (s : AStarState V L W M ML D) : Prop :=
  I s.dist ∧ I s.guesses ∧ s.pc.NonNegW

theorem a_range (g : WGear V K L W M ML D) (c : AStarCfg V K L W) (hk : g.dd.Keeps I (fun w => 0 ≤ w ∧ w ≤ c.inf))
    (h0 : 0 ≤ c.inf) (hn : NonNeg c.next) (hh : ∀ v, 0 ≤ c.heur v)
    (s : AStarState V L W M ML D) (h : ARange I s) :
    (aStep g c s).Post (ARange I) := by
  obtain ⟨pc, heap, no, dist, guesses, preds, labels⟩ := s
  obtain ⟨h1, h2, h3⟩ := h
  simp only at h1 h2 h3
  cases pc with
  | loop =>
    cases heap with
    | nil => exact ⟨h1, h2, h3⟩
    | cons e rest =>
      simp only [aStep]
      by_cases hc : (!c.isTree && decide (g.dd.get guesses (c.vid e.item.1) < e.key)) = true
      · rw [if_pos hc]; exact ⟨h1, h2, h3⟩
      · rw [if_neg hc]
        by_cases hec : e.item.2 > 0
        · rw [if_pos hec]; exact ⟨h1, h2, (hk.get _ _ h1).1⟩
        · rw [if_neg hec]; exact ⟨h1, h2, (hk.get _ _ h1).1⟩
  | expand v w ec => exact ⟨h1, h2, h3, nonNeg_next hn v⟩
  | edges v w ec es =>
    cases es with
    | nil => exact ⟨h1, h2, trivial⟩
    | cons e es =>
      obtain ⟨n, x, l⟩ := e
      have hx : 0 ≤ x := h3.2 (n, x, l) List.mem_cons_self
      have hpc : (SpPc.edges v w ec es : SpPc V L W).NonNegW :=
        ⟨h3.1, fun e he => h3.2 e (List.mem_cons_of_mem _ he)⟩
      have hnw : 0 ≤ x + w := add_nonneg hx h3.1
      simp only [aStep]
      by_cases ho : c.inf ≤ x + w
      · rw [if_pos ho]; trivial
      · rw [if_neg ho]
        have hP : 0 ≤ x + w ∧ x + w ≤ c.inf := ⟨hnw, le_of_not_ge ho⟩
        cases hi : aImprove g c dist (c.vid n) (x + w) with
        | none => exact ⟨h1, h2, hpc⟩
        | some d =>
          have hd : I d := by
            unfold aImprove at hi
            split at hi
            · cases hi; exact hk.set _ _ _ h1 hP
            · exact hk.improve _ _ _ _ h1 hP hi
          simp only
          by_cases hf : c.heur n ≠ c.inf ∧ c.inf ≤ aGuess c.inf (x + w) (c.heur n)
          · rw [if_pos hf]; trivial
          · rw [if_neg hf]
            have hG : 0 ≤ aGuess c.inf (x + w) (c.heur n) ∧ aGuess c.inf (x + w) (c.heur n) ≤ c.inf := by
              unfold aGuess at hf ⊢
              split
              · exact ⟨h0, le_refl _⟩
              · rename_i hne
                rw [if_neg hne] at hf
                exact ⟨add_nonneg hnw (hh n), le_of_not_ge fun hle => hf ⟨hne, hle⟩⟩
            refine ⟨hd, ?_, hpc⟩
            dsimp only
            split
            · exact h2
            · exact hk.set _ _ _ h2 hG

theorem a_range_init (g : WGear V K L W M ML D) (c : AStarCfg V K L W) (hd : g.dd.Lawful c.inf)
    (hk : g.dd.Keeps I (fun w => 0 ≤ w ∧ w ≤ c.inf))
    (h0 : 0 ≤ c.inf) (starts : List V) (hh : ∀ v ∈ starts, 0 ≤ c.heur v ∧ c.heur v ≤ c.inf) :
    ARange I (aInit g c none none starts) := by
  have hdist : I (aDistances g c none starts) := by
    apply hk.setAll _ _ _ hk.empty
    intro p hp
    obtain ⟨v, -, rfl⟩ := List.mem_map.1 hp
    exact ⟨le_refl _, h0⟩
  refine ⟨hdist, ?_, trivial⟩
  apply hk.setAll _ _ _ hk.empty
  intro p hp
  obtain ⟨v, hv, rfl⟩ := List.mem_map.1 hp
  have hz : g.dd.get (aDistances g c none starts) (c.vid v) = 0 := by
    simp only [aDistances]
    have : ∀ (vs : List V) (m : D), (v ∈ vs ∨ g.dd.get m (c.vid v) = 0) →
        g.dd.get (g.dd.setAll m (vs.map (fun v => (c.vid v, (0 : W))))) (c.vid v) = 0 := by
      intro vs
      induction vs with
      | nil => intro m h; simpa [DistOps.setAll] using h
      | cons u vs ih =>
        intro m h
        simp only [DistOps.setAll, List.map_cons, List.foldl_cons] at ih ⊢
        apply ih
        rw [hd.get_set]
        rcases h with h | h
        · rcases List.mem_cons.1 h with rfl | h
          · right; simp
          · exact .inl h
        · right
          split
          · rfl
          · exact h
    exact this _ _ (.inl hv)
  simp only [hz, zero_add]
  exact hh v hv

/-- All that is stored is in range. -/
def BdSideRange (I : D → Prop) (x : BdSide V W M ML D) : Prop := I x.dist ∧ ∀ e ∈ x.heap, 0 ≤ e.key

/-- The weights in the local variables are not negative. -/
def BdPc.NonNegW : BdPc V L W → Prop
  | .loop => True
  | .edges _ w es => 0 ≤ w ∧ ∀ e ∈ es, 0 ≤ e.2.1

/-- All that is stored is in range. -/
def BdRange (I : D → Prop) (s : BdState V L W M ML D) : Prop := BdSideRange I s.fw ∧ BdSideRange I s.bw ∧ s.pc.NonNegW

theorem BdRange.get {s : BdState V L W M ML D} (h : BdRange I s) (b : Bool) : BdSideRange I (s.get b) := by
  cases b
  exacts [h.1, h.2.1]

theorem BdRange.setCur {s : BdState V L W M ML D} (h : BdRange I s) {x : BdSide V W M ML D} (hx : BdSideRange I x)
    {pc : BdPc V L W} (hpc : pc.NonNegW) (b f : Bool) (be o : W) (n : V) :
    BdRange I ⟨pc, (s.setCur x).fw, (s.setCur x).bw, b, be, n, o, f⟩ := by
  unfold BdState.setCur
  split
  · exact ⟨h.1, hx, hpc⟩
  · exact ⟨hx, h.2.1, hpc⟩

theorem setCur_pc (s : BdState V L W M ML D) (x : BdSide V W M ML D) : (s.setCur x).pc = s.pc := by
  unfold BdState.setCur; split <;> rfl

theorem bd_range (g : WGear V K L W M ML D) (c : BdCfg V K L W) (hk : g.dd.Keeps I (fun w => 0 ≤ w ∧ w ≤ c.inf))
    (hnF : NonNeg c.nextF) (hnB : NonNeg c.nextB) (s : BdState V L W M ML D) (h : BdRange I s) :
    (bdStep g c s).Post (BdRange I) := by
  have hme := h.get s.back
  have hnx : ∀ v, ∀ e ∈ c.next s.back v, 0 ≤ e.2.1 := by
    intro v
    unfold BdCfg.next
    split
    exacts [nonNeg_next hnB v, nonNeg_next hnF v]
  unfold bdStep
  cases hp : s.pc with
  | loop =>
    dsimp only
    cases hh : (s.get s.back).heap with
    | nil => exact h
    | cons e rest =>
      have hr : ∀ e ∈ rest, 0 ≤ e.key := fun e he => hme.2 e (by rw [hh]; exact List.mem_cons_of_mem _ he)
      have he : 0 ≤ e.key := hme.2 e (by rw [hh]; exact List.mem_cons_self)
      dsimp only
      by_cases hc : g.dd.get (s.get s.back).dist (c.vid e.item) < e.key
      · rw [if_pos hc]
        exact h.setCur (x := { s.get s.back with heap := rest }) ⟨hme.1, hr⟩
          (by rw [setCur_pc, hp]; trivial) _ _ _ _ _
      · rw [if_neg hc]
        by_cases hb : c.inf ≠ s.best ∧ s.best ≤ e.key + s.others
        · rw [if_pos hb]
          exact ⟨h.1, h.2.1, trivial⟩
        · rw [if_neg hb]
          cases checkLimit (s.get s.back).lim with
          | none => trivial
          | some lim =>
            exact h.setCur (x := { s.get s.back with heap := rest, lim := lim }) ⟨hme.1, hr⟩
              (pc := .edges e.item e.key (c.next s.back e.item)) ⟨he, hnx _⟩ _ _ _ _ _
  | edges v w es =>
    have h3 : (BdPc.edges v w es : BdPc V L W).NonNegW := by rw [← hp]; exact h.2.2
    cases es with
    | nil => exact ⟨h.1, h.2.1, trivial⟩
    | cons e es =>
      obtain ⟨n, x, l⟩ := e
      have hx : 0 ≤ x := h3.2 (n, x, l) List.mem_cons_self
      have hpc : (BdPc.edges v w es : BdPc V L W).NonNegW :=
        ⟨h3.1, fun e he => h3.2 e (List.mem_cons_of_mem _ he)⟩
      have hnw : 0 ≤ x + w := add_nonneg hx h3.1
      dsimp only
      by_cases ho : c.inf ≤ x + w
      · rw [if_pos ho]; trivial
      · rw [if_neg ho]
        have hP : 0 ≤ x + w ∧ x + w ≤ c.inf := ⟨hnw, le_of_not_ge ho⟩
        cases hi : g.dd.improve (s.get s.back).dist (c.vid n) (x + w) with
        | none => exact ⟨h.1, h.2.1, hpc⟩
        | some d =>
          have hx' : BdSideRange I ({ s.get s.back with
              heap := heapPush (s.get s.back).heap ⟨x + w, (s.get s.back).no, n⟩
              no := (s.get s.back).no - 1
              dist := d
              preds := if c.buildPath then g.mo.set (s.get s.back).preds (c.vid n) v else (s.get s.back).preds
              labels := if c.buildPath then g.lo.set (s.get s.back).labels (c.vid n) l
                else (s.get s.back).labels } : BdSide V W M ML D) := by
            refine ⟨hk.improve _ _ _ _ hme.1 hP hi, ?_⟩
            intro e he
            rcases mem_heapPush.1 he with h' | h'
            · subst h'; exact hnw
            · exact hme.2 e h'
          dsimp only
          by_cases hb : s.best ≤ x + w + g.dd.get (s.get (!s.back)).dist (c.vid n)
          · rw [if_pos hb]; exact h.setCur hx' hpc _ _ _ _ _
          · rw [if_neg hb]; exact h.setCur hx' hpc _ _ _ _ _

theorem bd_range_init (g : WGear V K L W M ML D) (c : BdCfg V K L W) (hk : g.dd.Keeps I (fun w => 0 ≤ w ∧ w ≤ c.inf))
    (h0 : 0 ≤ c.inf) (start : V) (starts goals : List V) (limit : Option Int) :
    BdRange I (bdInit g c start starts goals limit) := by
  have : ∀ vs, BdSideRange I (bdInitSide g c vs limit) := by
    intro vs
    have hd : I (bdDistances g c vs) := by
      apply hk.setAll _ _ _ hk.empty
      intro p hp
      obtain ⟨v, -, rfl⟩ := List.mem_map.1 hp
      exact ⟨le_refl _, h0⟩
    refine ⟨hd, ?_⟩
    intro e he
    have he : e ∈ bdStartEntries g c (bdDistances g c vs) vs 256 := (mem_heapify).1 he
    have : ∀ (us : List V) (no : Int), ∀ e ∈ bdStartEntries g c (bdDistances g c vs) us no, 0 ≤ e.key := by
      intro us
      induction us with
      | nil => intro no e he; simp [bdStartEntries] at he
      | cons v us ih =>
        intro no e he
        rcases List.mem_cons.1 he with rfl | he
        · exact (hk.get _ _ hd).1
        · exact ih _ e he
    exact this _ _ e he
  exact ⟨this _, this _, trivial⟩

end NoGraphs
