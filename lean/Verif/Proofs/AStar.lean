import Mathlib.Algebra.Order.Monoid.Unbundled.Basic
import Verif.Model.AStar
import Verif.Proofs.SpPlain

/-! Invariant of the A* traversal. -/

set_option linter.unusedSectionVars false

namespace NoGraphs

open Spec

variable {V K L W M ML D : Type} [DecidableEq V] [DecidableEq K]
variable [AddCommMonoid W] [LinearOrder W] [IsOrderedCancelAddMonoid W]

theorem aGuess_mono {inf w w' h : W} (hw : w ≤ w') : aGuess inf w h ≤ aGuess inf w' h := by
  unfold aGuess
  split
  · exact le_refl _
  · exact add_le_add_left hw h

theorem aGuess_strict {inf w w' h : W} (hh : h ≠ inf) (hw : w < w') : aGuess inf w h < aGuess inf w' h := by
  unfold aGuess
  rw [if_neg hh, if_neg hh]
  exact add_lt_add_left hw h

theorem aGuess_inj {inf w w' h : W} (hh : h ≠ inf) (he : aGuess inf w h = aGuess inf w' h) : w = w' := by
  unfold aGuess at he
  rw [if_neg hh, if_neg hh] at he
  exact add_right_cancel he

theorem aGuess_fin {inf w h : W} (hh : h ≠ inf) : aGuess inf w h = w + h := if_neg hh

variable {g : WGear V K L W M ML D} {c : AStarCfg V K L W} {starts : List V}

/-- The possible steps, without tree mode. -/
theorem aStep_cases (ht : c.isTree = false) {P : Step (AStarState V L W M ML D) (AStarReport V W M ML D) → Prop}
    (s : AStarState V L W M ML D)
    (hstop : s.pc = .loop → s.heap = [] → P (.stop s))
    (hstale : ∀ e rest, s.pc = .loop → s.heap = e :: rest → g.dd.get s.guesses (c.vid e.item.1) < e.key →
      P (.tau { s with heap := rest }))
    (hstart : ∀ e rest, s.pc = .loop → s.heap = e :: rest → ¬ g.dd.get s.guesses (c.vid e.item.1) < e.key →
      e.item.2 = 0 → P (.tau { s with heap := rest, pc := .expand e.item.1 (g.dd.get s.dist (c.vid e.item.1)) e.item.2 }))
    (hemit : ∀ e rest, s.pc = .loop → s.heap = e :: rest → ¬ g.dd.get s.guesses (c.vid e.item.1) < e.key →
      0 < e.item.2 → P (.emit ⟨e.item.1, g.dd.get s.dist (c.vid e.item.1), e.item.2, s.dist, s.preds, s.labels⟩
        { s with heap := rest, pc := .expand e.item.1 (g.dd.get s.dist (c.vid e.item.1)) e.item.2 }))
    (hexp : ∀ v w ec, s.pc = .expand v w ec → P (.expand { s with pc := .edges v w ec (c.next v) }))
    (hend : ∀ v w ec, s.pc = .edges v w ec [] → P (.tau { s with pc := .loop }))
    (hover : ∀ v w ec n x l es, s.pc = .edges v w ec ((n, x, l) :: es) → c.inf ≤ x + w → P (.fail .overflowError))
    (hskip : ∀ v w ec n x l es, s.pc = .edges v w ec ((n, x, l) :: es) → x + w < c.inf →
      g.dd.improve s.dist (c.vid n) (x + w) = none → P (.tau { s with pc := .edges v w ec es }))
    (hover2 : ∀ v w ec n x l es d, s.pc = .edges v w ec ((n, x, l) :: es) → x + w < c.inf →
      g.dd.improve s.dist (c.vid n) (x + w) = some d → c.heur n ≠ c.inf → c.inf ≤ aGuess c.inf (x + w) (c.heur n) →
      P (.fail .overflowError))
    (hpush : ∀ v w ec n x l es d, s.pc = .edges v w ec ((n, x, l) :: es) → x + w < c.inf →
      g.dd.improve s.dist (c.vid n) (x + w) = some d →
      (c.heur n ≠ c.inf → aGuess c.inf (x + w) (c.heur n) < c.inf) →
      P (.tau { pc := .edges v w ec es
                heap := heapPush s.heap ⟨aGuess c.inf (x + w) (c.heur n), s.no, (n, ec + 1)⟩
                no := s.no - 1
                dist := d
                guesses := g.dd.set s.guesses (c.vid n) (aGuess c.inf (x + w) (c.heur n))
                preds := if c.buildPaths then g.mo.set s.preds (c.vid n) v else s.preds
                labels := if c.buildPaths then g.lo.set s.labels (c.vid n) l else s.labels })) :
    P (aStep g c s) := by
  unfold aStep
  cases hpc : s.pc with
  | loop =>
    dsimp only
    cases hh : s.heap with
    | nil => exact hstop hpc hh
    | cons e rest =>
      dsimp only
      by_cases hst : g.dd.get s.guesses (c.vid e.item.1) < e.key
      · simp only [ht, hst, Bool.not_false, decide_true, Bool.and_self, ↓reduceIte]
        have := hstale e rest hpc hh hst
        rw [hpc] at this
        exact this
      · simp only [ht, hst, Bool.not_false, decide_false, Bool.and_false, Bool.false_eq_true, ↓reduceIte]
        rcases Nat.eq_zero_or_pos e.item.2 with h0 | h0
        · rw [if_neg (by omega)]; exact hstart e rest hpc hh hst h0
        · rw [if_pos h0]; exact hemit e rest hpc hh hst h0
  | expand v w ec => exact hexp v w ec hpc
  | edges v w ec es =>
    cases es with
    | nil => exact hend v w ec hpc
    | cons a es =>
      obtain ⟨n, x, l⟩ := a
      dsimp only
      by_cases hi : c.inf ≤ x + w
      · rw [if_pos hi]; exact hover v w ec n x l es hpc hi
      · rw [if_neg hi]
        have hlt := lt_of_not_ge hi
        simp only [aImprove, ht, Bool.false_eq_true, ↓reduceIte]
        cases him : g.dd.improve s.dist (c.vid n) (x + w) with
        | none => exact hskip v w ec n x l es hpc hlt him
        | some d =>
          dsimp only
          by_cases h2 : c.heur n ≠ c.inf ∧ c.inf ≤ aGuess c.inf (x + w) (c.heur n)
          · rw [if_pos h2]; exact hover2 v w ec n x l es d hpc hlt him h2.1 h2.2
          · rw [if_neg h2]
            exact hpush v w ec n x l es d hpc hlt him (fun hne => lt_of_not_ge (fun hle => h2 ⟨hne, hle⟩))

section

variable (g c starts)

/-- A distance has been found for this id. -/
def AKnown (s : AStarState V L W M ML D) (k : K) : Prop := k ∈ starts.map c.vid ∨ g.dd.get s.dist k < c.inf

/-- The edges of the vertices with this id have been processed with the current distance. -/
def AClosed (s : AStarState V L W M ML D) (k : K) : Prop :=
  ∀ u n x, c.vid u = k → WEdge c.next u n x →
    g.dd.get s.dist k + x < c.inf ∧ g.dd.get s.dist (c.vid n) ≤ g.dd.get s.dist k + x

/-- The vertex is a start vertex, or it has been reported. -/
def ARep (h : List (Ev (AStarReport V W M ML D))) (k : K) : Prop :=
  k ∈ starts.map c.vid ∨ ∃ r ∈ repsOf h, c.vid r.vertex = k

/-- The id of the vertex that is expanded. -/
def APcIs (pc : SpPc V L W) (k : K) : Prop :=
  match pc with
  | .loop => False
  | .expand v _ _ => c.vid v = k
  | .edges v _ _ _ => c.vid v = k

/-- What holds for the vertex that is expanded. -/
def APcOk (h : List (Ev (AStarReport V W M ML D))) (s : AStarState V L W M ML D) : Prop :=
  match s.pc with
  | .loop => True
  | .expand v w _ => AKnown g c starts s (c.vid v) ∧ g.dd.get s.dist (c.vid v) = w ∧
      (∃ w', WalkW c.next (· ∈ starts) w' v) ∧ ARep c starts h (c.vid v)
  | .edges v w _ es => (AKnown g c starts s (c.vid v) ∧ g.dd.get s.dist (c.vid v) = w ∧
      (∃ w', WalkW c.next (· ∈ starts) w' v) ∧ ARep c starts h (c.vid v)) ∧ (∀ e ∈ es, e ∈ c.next v) ∧
      ∀ n x, WEdge c.next v n x → (∃ l, (n, x, l) ∈ es) ∨
        (w + x < c.inf ∧ g.dd.get s.dist (c.vid n) ≤ w + x)

/-- Invariant of the traversal. -/
structure AInv (h : List (Ev (AStarReport V W M ML D))) (s : AStarState V L W M ML D) : Prop where
  sorted : s.heap.Pairwise HEntry.le
  ent : ∀ e ∈ s.heap, ∃ w, (∃ v, c.vid v = c.vid e.item.1 ∧ WalkW c.next (· ∈ starts) w v) ∧
    e.key = aGuess c.inf w (c.heur e.item.1) ∧ g.dd.get s.dist (c.vid e.item.1) ≤ w ∧ (0 < e.item.2 → w < c.inf)
  entR : ∀ e ∈ s.heap, (∃ w', WalkW c.next (· ∈ starts) w' e.item.1) ∧ (e.item.2 = 0 → e.item.1 ∈ starts) ∧
    (0 < e.item.2 → c.vid e.item.1 ∉ starts.map c.vid)
  start0 : ∀ v ∈ starts, g.dd.get s.dist (c.vid v) = 0
  leInf : ∀ k, k ∉ starts.map c.vid → g.dd.get s.dist k ≤ c.inf
  walk : ∀ k, AKnown g c starts s k → ∃ v, c.vid v = k ∧ WalkW c.next (· ∈ starts) (g.dd.get s.dist k) v
  simple : ∀ k, AKnown g c starts s k → ∃ ks v, c.vid v = k ∧
    SimpleWalkW c.next (· ∈ starts) c.vid ks (g.dd.get s.dist k) v ∧ ∀ j ∈ ks, g.dd.get s.dist j ≤ g.dd.get s.dist k
  guess : ∀ v, AKnown g c starts s (c.vid v) →
    g.dd.get s.guesses (c.vid v) = aGuess c.inf (g.dd.get s.dist (c.vid v)) (c.heur v)
  opened : ∀ k, AKnown g c starts s k → (∃ e ∈ s.heap, c.vid e.item.1 = k ∧ e.key = g.dd.get s.guesses k) ∨
    APcIs c s.pc k ∨ (AClosed g c s k ∧ ARep c starts h k)
  pcok : APcOk g c starts h s

end

variable {h : List (Ev (AStarReport V W M ML D))} {s : AStarState V L W M ML D}

theorem AInv.known_ent (inv : AInv g c starts h s) {e : HEntry W (V × Nat)} (he : e ∈ s.heap) :
    AKnown g c starts s (c.vid e.item.1) := by
  obtain ⟨w, -, -, h1, h2⟩ := inv.ent e he
  rcases Nat.eq_zero_or_pos e.item.2 with h0 | h0
  · exact .inl (List.mem_map_of_mem ((inv.entR e he).2.1 h0))
  · exact .inr (lt_of_le_of_lt h1 (h2 h0))

/-- Heap entries are not better than the current estimate. -/
theorem AInv.guess_le (inv : AInv g c starts h s) {e : HEntry W (V × Nat)} (he : e ∈ s.heap) :
    g.dd.get s.guesses (c.vid e.item.1) ≤ e.key := by
  obtain ⟨w, -, h2, h1, -⟩ := inv.ent e he
  rw [inv.guess _ (inv.known_ent he), h2]
  exact aGuess_mono h1

theorem AInv.nonneg (inv : AInv g c starts h s) (hn : NonNeg c.next) {k : K} (hk : AKnown g c starts s k) :
    0 ≤ g.dd.get s.dist k := by
  obtain ⟨v, -, hw⟩ := inv.walk k hk
  exact hw.nonneg hn

theorem ARep.mono {h h' : List (Ev (AStarReport V W M ML D))} {k : K} (hr : ARep c starts h k)
    (hs : ∀ r ∈ repsOf h, r ∈ repsOf h') : ARep c starts h' k := by
  rcases hr with h | ⟨r, h1, h2⟩
  · exact .inl h
  · exact .inr ⟨r, hs r h1, h2⟩

/-- Steps that do not change the distances and estimates. -/
theorem AInv.frame {h' : List (Ev (AStarReport V W M ML D))} {s' : AStarState V L W M ML D} (inv : AInv g c starts h s)
    (hd : s'.dist = s.dist) (hgu : s'.guesses = s.guesses) (hs : ∀ r ∈ repsOf h, r ∈ repsOf h')
    (hsub : s'.heap.Sublist s.heap)
    (hop : ∀ k, AKnown g c starts s k → (∃ e ∈ s.heap, c.vid e.item.1 = k ∧ e.key = g.dd.get s.guesses k) ∨
      APcIs c s.pc k → (∃ e ∈ s'.heap, c.vid e.item.1 = k ∧ e.key = g.dd.get s.guesses k) ∨ APcIs c s'.pc k ∨
      (AClosed g c s k ∧ ARep c starts h' k)) (hpc : APcOk g c starts h' s') : AInv g c starts h' s' := by
  have hK : ∀ k, AKnown g c starts s' k ↔ AKnown g c starts s k := fun k => by unfold AKnown; rw [hd]
  have hC : ∀ k, AClosed g c s k → AClosed g c s' k := fun k => by unfold AClosed; rw [hd]; exact id
  exact {
    sorted := inv.sorted.sublist hsub
    ent := fun e he => by rw [hd]; exact inv.ent e (hsub.subset he)
    entR := fun e he => inv.entR e (hsub.subset he)
    start0 := by rw [hd]; exact inv.start0
    leInf := by rw [hd]; exact inv.leInf
    walk := fun k hk => by rw [hd]; exact inv.walk k ((hK k).1 hk)
    simple := fun k hk => by rw [hd]; exact inv.simple k ((hK k).1 hk)
    guess := fun v hv => by rw [hd, hgu]; exact inv.guess v ((hK _).1 hv)
    opened := fun k hk => by
      have hk := (hK k).1 hk
      rw [hgu]
      rcases inv.opened k hk with h1 | h1 | h1
      · rcases hop k hk (.inl h1) with h2 | h2 | h2
        · exact .inl h2
        · exact .inr (.inl h2)
        · exact .inr (.inr ⟨hC k h2.1, h2.2⟩)
      · rcases hop k hk (.inr h1) with h2 | h2 | h2
        · exact .inl h2
        · exact .inr (.inl h2)
        · exact .inr (.inr ⟨hC k h2.1, h2.2⟩)
      · exact .inr (.inr ⟨hC k h1.1, h1.2.mono hs⟩)
    pcok := hpc }

/-- What is known about an improvement. -/
theorem AInv.improve (inv : AInv g c starts h s) (hd : g.dd.Lawful c.inf) (hn : NonNeg c.next)
    {v n : V} {w x : W} {l : L} {ec : Nat} {es : List (V × W × L)} {d : D} (hpc : s.pc = .edges v w ec ((n, x, l) :: es))
    (hlt : x + w < c.inf) (him : g.dd.improve s.dist (c.vid n) (x + w) = some d) :
    x + w < g.dd.get s.dist (c.vid n) ∧ c.vid n ∉ starts.map c.vid ∧ WEdge c.next v n x ∧ w ≤ x + w ∧
    g.dd.get s.dist (c.vid v) = w ∧ c.vid n ≠ c.vid v ∧
    ∀ j, g.dd.get d j = if j = c.vid n then x + w else g.dd.get s.dist j := by
  have hp := inv.pcok
  unfold APcOk at hp
  rw [hpc] at hp
  obtain ⟨⟨p1, p2, -, -⟩, p5, -⟩ := hp
  have hgt : x + w < g.dd.get s.dist (c.vid n) := by
    refine lt_of_not_ge (fun hle => ?_)
    rw [(hd.improve_none _ _ _ hlt).2 hle] at him
    simp at him
  have hedge : WEdge c.next v n x := ⟨l, p5 _ List.mem_cons_self⟩
  have hx := hn _ _ _ hedge
  have hw0 : 0 ≤ w := p2 ▸ inv.nonneg hn p1
  refine ⟨hgt, fun hm => ?_, hedge, le_add_of_nonneg_left hx, p2, fun heq => ?_, hd.improve_some _ _ _ _ hlt him⟩
  · obtain ⟨t, ht, he⟩ := List.mem_map.1 hm
    rw [← he, inv.start0 t ht] at hgt
    exact absurd hgt (not_lt_of_ge (add_nonneg hx hw0))
  · rw [heq, p2] at hgt
    exact absurd hgt (not_lt_of_ge (le_add_of_nonneg_left hx))

theorem a_inv_step (ht : c.isTree = false) (hd : g.dd.Lawful c.inf) (hn : NonNeg c.next) (hc : WCompat c.next c.vid)
    (hh : HeurCompat c.heur c.vid) (inv : AInv g c starts h s) :
    match aStep g c s with
    | .stop s' => s' = s ∧ s.pc = .loop ∧ s.heap = []
    | .fail e => e = .overflowError
    | .tau s' => AInv g c starts h s'
    | .emit r s' => AInv g c starts (h ++ [.rep r]) s'
    | .expand s' => AInv g c starts (h ++ [.exp]) s' := by
  apply aStep_cases (P := fun st => match st with
    | .stop s' => s' = s ∧ s.pc = .loop ∧ s.heap = []
    | .fail e => e = .overflowError
    | .tau s' => AInv g c starts h s'
    | .emit r s' => AInv g c starts (h ++ [.rep r]) s'
    | .expand s' => AInv g c starts (h ++ [.exp]) s') ht s
  · intro h1 h2; exact ⟨rfl, h1, h2⟩
  · intro e rest hpc hheap hst
    refine inv.frame rfl rfl (fun _ h => h) (by rw [hheap]; exact List.sublist_cons_self _ _) ?_ ?_
    · intro k hk hor
      rcases hor with ⟨f, hf, h1, h2⟩ | h1
      · rw [hheap] at hf
        rcases List.mem_cons.1 hf with rfl | hf
        · rw [h1, ← h2] at hst; exact absurd hst (lt_irrefl _)
        · exact .inl ⟨f, hf, h1, h2⟩
      · exact .inr (.inl h1)
    · unfold APcOk; rw [hpc]; trivial
  · intro e rest hpc hheap hst h0
    have he : e ∈ s.heap := by rw [hheap]; exact List.mem_cons_self
    refine inv.frame rfl rfl (fun _ h => h) (by rw [hheap]; exact List.sublist_cons_self _ _) ?_ ?_
    · intro k hk hor
      rcases hor with ⟨f, hf, h1, h2⟩ | h1
      · rw [hheap] at hf
        rcases List.mem_cons.1 hf with rfl | hf
        · exact .inr (.inl h1)
        · exact .inl ⟨f, hf, h1, h2⟩
      · rw [hpc] at h1; exact absurd h1 id
    · exact ⟨inv.known_ent he, rfl, (inv.entR e he).1, .inl (List.mem_map_of_mem ((inv.entR e he).2.1 h0))⟩
  · intro e rest hpc hheap hst h0
    have he : e ∈ s.heap := by rw [hheap]; exact List.mem_cons_self
    refine inv.frame rfl rfl (fun r h => by simp [h]) (by rw [hheap]; exact List.sublist_cons_self _ _) ?_ ?_
    · intro k hk hor
      rcases hor with ⟨f, hf, h1, h2⟩ | h1
      · rw [hheap] at hf
        rcases List.mem_cons.1 hf with rfl | hf
        · exact .inr (.inl h1)
        · exact .inl ⟨f, hf, h1, h2⟩
      · rw [hpc] at h1; exact absurd h1 id
    · exact ⟨inv.known_ent he, rfl, (inv.entR e he).1, .inr ⟨_, by simp; exact .inr rfl, rfl⟩⟩
  · intro v w ec hpc
    have hp := inv.pcok
    unfold APcOk at hp
    rw [hpc] at hp
    refine inv.frame rfl rfl (fun r h => by simp [h]) (List.Sublist.refl _) ?_ ?_
    · intro k hk hor
      rcases hor with h1 | h1
      · exact .inl h1
      · rw [hpc] at h1; exact .inr (.inl h1)
    · exact ⟨⟨hp.1, hp.2.1, hp.2.2.1, hp.2.2.2.mono (fun r h => by simp [h])⟩, fun _ h => h, fun n x hx => .inl hx⟩
  · intro v w ec hpc
    have hp := inv.pcok
    unfold APcOk at hp
    rw [hpc] at hp
    refine inv.frame rfl rfl (fun r h => h) (List.Sublist.refl _) ?_ trivial
    intro k hk hor
    rcases hor with h1 | h1
    · exact .inl h1
    · rw [hpc] at h1
      have h1 : c.vid v = k := h1
      subst h1
      refine .inr (.inr ⟨fun u n x hu hx => ?_, hp.1.2.2.2⟩)
      obtain ⟨n', hn', hid⟩ := hc u v n x hu hx
      rcases hp.2.2 n' x hn' with ⟨l, hl⟩ | h2
      · simp at hl
      · rw [hp.1.2.1, ← hid]; exact h2
  · intro v w ec n x l es hpc hi; rfl
  · intro v w ec n x l es hpc hlt him
    have hp := inv.pcok
    unfold APcOk at hp
    rw [hpc] at hp
    refine inv.frame rfl rfl (fun r h => h) (List.Sublist.refl _) ?_ ?_
    · intro k hk hor
      rcases hor with h1 | h1
      · exact .inl h1
      · rw [hpc] at h1; exact .inr (.inl h1)
    · refine ⟨hp.1, fun e he => hp.2.1 e (List.mem_cons_of_mem _ he), fun n' x' hx' => ?_⟩
      rcases hp.2.2 n' x' hx' with ⟨l', hl'⟩ | h2
      · rcases List.mem_cons.1 hl' with heq | hl'
        · simp only [Prod.mk.injEq] at heq
          obtain ⟨rfl, rfl, -⟩ := heq
          right
          rw [add_comm w x']
          exact ⟨hlt, (hd.improve_none _ _ _ hlt).1 him⟩
        · exact .inl ⟨l', hl'⟩
      · exact .inr h2
  · intro v w ec n x l es d hpc hlt him h1 h2; rfl
  · intro v w ec n x l es d hpc hlt him hfin
    obtain ⟨hgt, hns, hedge, hww, hdv, hne, hget⟩ := inv.improve hd hn hpc hlt him
    have hp := inv.pcok
    unfold APcOk at hp
    rw [hpc] at hp
    have hgetn : g.dd.get d (c.vid n) = x + w := by rw [hget, if_pos rfl]
    have hle : ∀ j, g.dd.get d j ≤ g.dd.get s.dist j := fun j => by
      rw [hget]
      split
      · rename_i hj; rw [hj]; exact hgt.le
      · exact le_refl _
    have hguess : ∀ j, g.dd.get (g.dd.set s.guesses (c.vid n) (aGuess c.inf (x + w) (c.heur n))) j =
        if j = c.vid n then aGuess c.inf (x + w) (c.heur n) else g.dd.get s.guesses j := fun j => hd.get_set _ _ _ _
    obtain ⟨v', hv', hwalk⟩ := inv.walk _ hp.1.1
    obtain ⟨n', hn', hnid⟩ := hc v v' n x hv'.symm hedge
    have hwalkn : ∃ u, c.vid u = c.vid n ∧ WalkW c.next (· ∈ starts) (x + w) u := by
      refine ⟨n', hnid, ?_⟩
      rw [add_comm]
      rw [hdv] at hwalk
      exact .step hwalk hn'
    have hreach : ∃ w', WalkW c.next (· ∈ starts) w' n := by
      obtain ⟨w', hw'⟩ := hp.1.2.2.1
      exact ⟨_, .step hw' hedge⟩
    have hKn : ∀ k, k ≠ c.vid n → k ∈ starts.map c.vid ∨ g.dd.get d k < c.inf → AKnown g c starts s k := by
      intro k hk hkn
      rcases hkn with h1 | h1
      · exact .inl h1
      · rw [hget, if_neg hk] at h1; exact .inr h1
    exact {
      sorted := heapPush_sorted _ inv.sorted
      ent := fun e he => by
        rcases mem_heapPush.1 he with rfl | he
        · exact ⟨x + w, hwalkn, rfl, hgetn.le, fun _ => hlt⟩
        · obtain ⟨w', h1, h2, h3, h4⟩ := inv.ent e he
          exact ⟨w', h1, h2, (hle _).trans h3, h4⟩
      entR := fun e he => by
        rcases mem_heapPush.1 he with rfl | he
        · exact ⟨hreach, fun h0 => by simp at h0, fun _ => hns⟩
        · exact inv.entR e he
      start0 := fun t ht' => by
        have : c.vid t ≠ c.vid n := fun e => hns (e ▸ List.mem_map_of_mem ht')
        simp only [hget, if_neg this]
        exact inv.start0 t ht'
      leInf := fun k hk => (hle k).trans (inv.leInf k hk)
      walk := fun k hk => by
        by_cases hj : k = c.vid n
        · subst hj; simp only [hgetn]; exact hwalkn
        · simp only [hget, if_neg hj]; exact inv.walk k (hKn k hj hk)
      simple := fun k hk => by
        by_cases hj : k = c.vid n
        · subst hj
          obtain ⟨ks, u, hu, hsw, hks⟩ := inv.simple _ hp.1.1
          obtain ⟨m, hm, hmid⟩ := hc v u n x hu.symm hedge
          rw [hdv] at hsw hks
          have hnotin : c.vid m ∉ ks := fun hin => by
            rw [hmid] at hin
            exact absurd (lt_of_le_of_lt hww hgt) (not_lt_of_ge (hks _ hin))
          refine ⟨c.vid m :: ks, m, hmid, ?_, fun j hj => ?_⟩
          · simp only [hgetn]
            rw [add_comm]
            exact .step hsw hm hnotin
          · simp only [hgetn]
            rcases List.mem_cons.1 hj with rfl | hj
            · rw [hmid, hgetn]
            · exact (hle j).trans ((hks j hj).trans hww)
        · obtain ⟨ks, u, hu, hsw, hks⟩ := inv.simple _ (hKn k hj hk)
          refine ⟨ks, u, hu, ?_, fun j hj' => ?_⟩
          · simp only [hget, if_neg hj]; exact hsw
          · simp only [hget k, if_neg hj]
            exact (hle j).trans (hks j hj')
      guess := fun u hu => by
        by_cases hj : c.vid u = c.vid n
        · simp only [hj, hgetn, hguess, if_true, hh _ _ hj]
        · simp only [hguess, hget, if_neg hj]
          exact inv.guess u (hKn _ hj hu)
      opened := fun k hk => by
        by_cases hj : k = c.vid n
        · subst hj
          refine .inl ⟨_, mem_heapPush.2 (.inl rfl), rfl, ?_⟩
          simp only [hguess, if_true]
        · rcases inv.opened k (hKn k hj hk) with ⟨e, he, h1, h2⟩ | h1 | ⟨h1, h2⟩
          · refine .inl ⟨e, mem_heapPush.2 (.inr he), h1, ?_⟩
            simp only [hguess, if_neg hj]; exact h2
          · rw [hpc] at h1; exact .inr (.inl h1)
          · refine .inr (.inr ⟨fun u m y hu hy => ?_, h2⟩)
            obtain ⟨q1, q2⟩ := h1 u m y hu hy
            simp only [hget k, if_neg hj]
            exact ⟨q1, (hle _).trans q2⟩
      pcok := by
        refine ⟨⟨?_, ?_, hp.1.2.2⟩, fun e he => hp.2.1 e (List.mem_cons_of_mem _ he), fun m y hy => ?_⟩
        · rcases hp.1.1 with h1 | h1
          · exact .inl h1
          · exact .inr (lt_of_le_of_lt (hle _) h1)
        · simp only [hget, if_neg hne.symm]; exact hdv
        · rcases hp.2.2 m y hy with ⟨l', hl'⟩ | h2
          · rcases List.mem_cons.1 hl' with heq | hl'
            · simp only [Prod.mk.injEq] at heq
              obtain ⟨rfl, rfl, -⟩ := heq
              right
              rw [add_comm w y]
              exact ⟨hlt, hgetn.le⟩
            · exact .inl ⟨l', hl'⟩
          · exact .inr ⟨h2.1, (hle _).trans h2.2⟩ }

/-! ## Start -/

omit [IsOrderedCancelAddMonoid W] in
theorem aStartEntries_mem {gu : D} {vs : List V} {no : Int} {e : HEntry W (V × Nat)}
    (h : e ∈ aStartEntries g c gu vs no) :
    e.item.1 ∈ vs ∧ e.item.2 = 0 ∧ e.key = g.dd.get gu (c.vid e.item.1) := by
  induction vs generalizing no with
  | nil => simp [aStartEntries] at h
  | cons v vs ih =>
    simp only [aStartEntries, List.mem_cons] at h
    rcases h with rfl | h
    · exact ⟨List.mem_cons_self, rfl, rfl⟩
    · obtain ⟨h1, h2⟩ := ih h
      exact ⟨List.mem_cons_of_mem _ h1, h2⟩

omit [IsOrderedCancelAddMonoid W] in
theorem aStartEntries_ex {gu : D} {vs : List V} {no : Int} {v : V} (h : v ∈ vs) :
    ∃ e ∈ aStartEntries g c gu vs no, e.item = (v, 0) ∧ e.key = g.dd.get gu (c.vid v) := by
  induction vs generalizing no with
  | nil => simp at h
  | cons u vs ih =>
    rcases List.mem_cons.1 h with rfl | h
    · exact ⟨_, List.mem_cons_self, rfl, rfl⟩
    · obtain ⟨e, h1, h2⟩ := ih (no := no - 1) h
      exact ⟨e, List.mem_cons_of_mem _ h1, h2⟩

omit [IsOrderedCancelAddMonoid W] in
/-- Setting a value that depends on the id only. -/
theorem dist_setAll (hd : g.dd.Lawful c.inf) (f : K → W) (vs : List V) (m : D) (k : K) :
    g.dd.get (g.dd.setAll m (vs.map (fun v => (c.vid v, f (c.vid v))))) k =
      if k ∈ vs.map c.vid then f k else g.dd.get m k := by
  induction vs generalizing m with
  | nil => simp [DistOps.setAll]
  | cons v vs ih =>
    have := ih (g.dd.set m (c.vid v) (f (c.vid v)))
    simp only [DistOps.setAll, List.map_cons, List.foldl_cons] at this ⊢
    rw [this, hd.get_set]
    by_cases h1 : k ∈ vs.map c.vid
    · rw [if_pos h1, if_pos (List.mem_cons_of_mem _ h1)]
    · rw [if_neg h1]
      by_cases h2 : k = c.vid v
      · rw [if_pos h2, if_pos (by rw [h2]; exact List.mem_cons_self), h2]
      · rw [if_neg h2, if_neg]
        intro h3
        rcases List.mem_cons.1 h3 with h3 | h3
        · exact h2 h3
        · exact h1 h3

theorem aDistances_none (hd : g.dd.Lawful c.inf) (k : K) :
    g.dd.get (aDistances g c none starts) k = if k ∈ starts.map c.vid then 0 else c.inf := by
  have := dist_setAll (g := g) (c := c) hd (fun _ => 0) starts g.dd.empty k
  rw [hd.get_empty] at this
  exact this

theorem aGuesses_none (hd : g.dd.Lawful c.inf) (hh : HeurCompat c.heur c.vid) {v : V} (hv : v ∈ starts) :
    g.dd.get (aGuesses g c none (aDistances g c none starts) starts) (c.vid v) = aGuess c.inf 0 (c.heur v) := by
  classical
  let f : K → W := fun k => if h : ∃ u, c.vid u = k then c.heur h.choose else 0
  have hf : ∀ u, f (c.vid u) = c.heur u := fun u => by
    have h : ∃ u', c.vid u' = c.vid u := ⟨u, rfl⟩
    simp only [f, dif_pos h]
    exact hh _ _ h.choose_spec
  have heq : starts.map (fun v => (c.vid v, g.dd.get (aDistances g c none starts) (c.vid v) + c.heur v)) =
      starts.map (fun v => (c.vid v, f (c.vid v))) := by
    apply List.map_congr_left
    intro u hu
    rw [aDistances_none hd, if_pos (List.mem_map_of_mem hu), zero_add, hf]
  have := dist_setAll (g := g) (c := c) hd f starts g.dd.empty (c.vid v)
  rw [if_pos (List.mem_map_of_mem hv), hf] at this
  simp only [aGuesses, heq, this, aGuess, zero_add]
  split
  · assumption
  · rfl

theorem a_inv_init (hd : g.dd.Lawful c.inf) (hh : HeurCompat c.heur c.vid) :
    AInv g c starts [] (aInit g c none none starts) := by
  have hK : ∀ k, AKnown g c starts (aInit g c none none starts) k → k ∈ starts.map c.vid := by
    intro k hk
    rcases hk with h | h
    · exact h
    · simp only [aInit, aDistances_none hd] at h
      by_contra hne
      rw [if_neg hne] at h
      exact lt_irrefl _ h
  have hdist : ∀ v ∈ starts, g.dd.get (aInit g c none none starts).dist (c.vid v) = 0 := fun v hv => by
    simp only [aInit, aDistances_none hd, if_pos (List.mem_map_of_mem hv)]
  refine { sorted := heapify_sorted _, ent := ?_, entR := ?_, start0 := hdist, leInf := ?_, walk := ?_,
           simple := ?_, guess := ?_,
           opened := ?_, pcok := trivial }
  · intro e he
    obtain ⟨h1, h2, h3⟩ := aStartEntries_mem (mem_heapify.1 he)
    refine ⟨0, ⟨e.item.1, rfl, .start h1⟩, ?_, (hdist _ h1).le, fun h => by omega⟩
    rw [h3]; exact aGuesses_none hd hh h1
  · intro e he
    obtain ⟨h1, h2, -⟩ := aStartEntries_mem (mem_heapify.1 he)
    exact ⟨⟨0, .start h1⟩, fun _ => h1, fun h => by omega⟩
  · intro k hk
    simp only [aInit, aDistances_none hd, if_neg hk]; exact le_refl _
  · intro k hk
    obtain ⟨v, hv, rfl⟩ := List.mem_map.1 (hK k hk)
    rw [hdist v hv]
    exact ⟨v, rfl, .start hv⟩
  · intro k hk
    obtain ⟨v, hv, rfl⟩ := List.mem_map.1 (hK k hk)
    rw [hdist v hv]
    refine ⟨[c.vid v], v, rfl, .start hv, fun j hj => ?_⟩
    rw [List.mem_singleton.1 hj, hdist v hv]
  · intro v hv
    obtain ⟨u, hu, he⟩ := List.mem_map.1 (hK _ hv)
    rw [← he, hdist u hu, ← hh _ _ he]
    exact aGuesses_none hd hh hu
  · intro k hk
    obtain ⟨v, hv, rfl⟩ := List.mem_map.1 (hK k hk)
    obtain ⟨e, h1, h2, h3⟩ := aStartEntries_ex (g := g) (c := c)
      (gu := aGuesses g c none (aDistances g c none starts) starts) (no := 256) hv
    exact .inl ⟨e, mem_heapify.2 h1, by rw [h2], h3⟩

theorem a_inv (ht : c.isTree = false) (hd : g.dd.Lawful c.inf) (hn : NonNeg c.next) (hc : WCompat c.next c.vid)
    (hh : HeurCompat c.heur c.vid) {h : List (Ev (AStarReport V W M ML D))} {s : AStarState V L W M ML D}
    (hr : Reaches (aStep g c) (aInit g c none none starts) h s) : AInv g c starts h s := by
  refine Reaches.invariant (AInv g c starts) (a_inv_init hd hh) ?_ ?_ ?_ hr
  · intro h s s' inv e
    have := a_inv_step ht hd hn hc hh inv
    rw [e] at this; exact this
  · intro h s r s' inv e
    have := a_inv_step ht hd hn hc hh inv
    rw [e] at this; exact this
  · intro h s s' inv e
    have := a_inv_step ht hd hn hc hh inv
    rw [e] at this; exact this

/-! ## Frontier -/

/-- Walks can be composed. -/
theorem Spec.WalkW.trans {next : V → List (V × W × L)} {S : V → Prop} {w1 w2 : W} {u v : V} (h1 : WalkW next S w1 u)
    (h2 : WalkW next (· = u) w2 v) : WalkW next S (w1 + w2) v := by
  induction h2 with
  | start h => subst h; rw [add_zero]; exact h1
  | step _ he ih => rw [← add_assoc]; exact .step ih he

/-- A walk leads to an id with processed edges, or leaves the processed part of the graph at an open vertex with a
current heap entry. -/
theorem AInv.frontier (inv : AInv g c starts h s) (hloop : s.pc = .loop) {w : W} {v : V} (hw : WalkW c.next (· ∈ starts) w v) :
    (AKnown g c starts s (c.vid v) ∧ g.dd.get s.dist (c.vid v) ≤ w ∧ AClosed g c s (c.vid v) ∧ ARep c starts h (c.vid v)) ∨
    ∃ e ∈ s.heap, ∃ u w1 w2, c.vid e.item.1 = c.vid u ∧ e.key = g.dd.get s.guesses (c.vid u) ∧
      g.dd.get s.dist (c.vid u) ≤ w1 ∧ AKnown g c starts s (c.vid u) ∧ WalkW c.next (· = u) w2 v ∧ w1 + w2 = w := by
  have key : ∀ (u : V) (w : W), AKnown g c starts s (c.vid u) → g.dd.get s.dist (c.vid u) ≤ w →
      (AKnown g c starts s (c.vid u) ∧ g.dd.get s.dist (c.vid u) ≤ w ∧ AClosed g c s (c.vid u) ∧
        ARep c starts h (c.vid u)) ∨
      ∃ e ∈ s.heap, ∃ u' w1 w2, c.vid e.item.1 = c.vid u' ∧ e.key = g.dd.get s.guesses (c.vid u') ∧
        g.dd.get s.dist (c.vid u') ≤ w1 ∧ AKnown g c starts s (c.vid u') ∧ WalkW c.next (· = u') w2 u ∧ w1 + w2 = w := by
    intro u w hk hle
    rcases inv.opened _ hk with ⟨e, he, h1, h2⟩ | h1 | ⟨h1, h2⟩
    · exact .inr ⟨e, he, u, w, 0, h1, h2, hle, hk, .start rfl, add_zero w⟩
    · rw [hloop] at h1; exact absurd h1 id
    · exact .inl ⟨hk, hle, h1, h2⟩
  induction hw with
  | start hs => exact key _ _ (.inl (List.mem_map_of_mem hs)) (inv.start0 _ hs).le
  | @step w u v x hw he ih =>
    rcases ih with ⟨hk, hle, hcl, -⟩ | ⟨e, he', u', w1, w2, h1, h2, h3, h4, h5, h6⟩
    · obtain ⟨q1, q2⟩ := hcl u v x rfl he
      exact key _ _ (.inr (lt_of_le_of_lt q2 q1)) (q2.trans (add_le_add_left hle x))
    · exact .inr ⟨e, he', u', w1, w2 + x, h1, h2, h3, h4, .step h5 he, by rw [← add_assoc, h6]⟩

/-- All reachable vertices have been processed when the traversal ends. -/
theorem AInv.all_done (inv : AInv g c starts h s) (hloop : s.pc = .loop) (hempty : s.heap = []) {w : W} {v : V} (hw : WalkW c.next (· ∈ starts) w v) :
    g.dd.get s.dist (c.vid v) ≤ w ∧ ARep c starts h (c.vid v) := by
  rcases inv.frontier hloop hw with h1 | ⟨e, he, -⟩
  · exact ⟨h1.2.1, h1.2.2.2⟩
  · rw [hempty] at he; simp at he

end NoGraphs
