import Mathlib.Data.Prod.Lex
import Verif.Proofs.HeapArray
import Verif.Proofs.Machine
import Verif.Spec.PriorityQueue
import Verif.Props.ShortestPaths
import Verif.Props.BiDijkstra

/-!
# C80: the binary heap behind the weighted strategies

The strategies that work with weights keep their candidates in a binary heap (Python's `heapq`), with tuples
`(weight, unique number, vertex, ...)`. Vertices need not be comparable. Whatever happens, the heap gives the candidate of
lowest weight, ties are decided by the number, and vertices are never compared.
-/

set_option linter.unusedSectionVars false

namespace NoGraphs

open Spec

/-! ## The heap itself -/

section
variable {W X : Type} [LinearOrder W]

/-- The tuple for an element of a priority queue with priority (weight, number). -/
def hqEntry (p : W ×ₗ Int) (x : X) : HEntry W X := ⟨(ofLex p).1, (ofLex p).2, x⟩

/-- A program that calls `heappush` and `heappop` on the list `h`: what it gets from `heappop`. -/
def hqOps : List (HEntry W X) → List (PqOp (W ×ₗ Int) X) → Except PyErr (List ((W ×ₗ Int) × X))
  | _, [] => .ok []
  | h, .put p x :: ops =>
    match hqPush h (hqEntry p x) with
    | .error e => .error e
    | .ok h' => hqOps h' ops
  | h, .take :: ops =>
    match hqPop h with
    | .error e => .error e
    | .ok (t, h') =>
      match hqOps h' ops with
      | .error e => .error e
      | .ok out => .ok ((toLex (t.key, t.no), t.item) :: out)

/-- A program that calls `heapify` on a list of tuples, and then `heappush` and `heappop`. -/
def hqProgram (init : List ((W ×ₗ Int) × X)) (ops : List (PqOp (W ×ₗ Int) X)) : Except PyErr (List ((W ×ₗ Int) × X)) :=
  match hqHeapify (init.map (fun q => hqEntry q.1 q.2)) with
  | .error e => .error e
  | .ok h => hqOps h ops

theorem hqEntry_no (p : W ×ₗ Int) (x : X) : (hqEntry p x).no = (ofLex p).2 := rfl

theorem hqEntry_le {p q : W ×ₗ Int} {x y : X} : (hqEntry p x).le (hqEntry q y) ↔ p ≤ q := by
  rw [Prod.Lex.le_iff]; rfl

theorem hqOps_serves (ops : List (PqOp (W ×ₗ Int) X)) : ∀ (bag : List ((W ×ₗ Int) × X)) (h l : List (HEntry W X)), HqRel h l →
    l.Perm (bag.map (fun q => hqEntry q.1 q.2)) → NeverEmpty bag.length ops →
    (bag.map (fun q => (ofLex q.1).2) ++ (prioritiesPut ops).map (fun p => (ofLex p).2)).Nodup →
    ∃ out, hqOps h ops = .ok out ∧ Serves bag ops out := by
  induction ops with
  | nil => intro bag h l _ _ _ _; exact ⟨[], rfl, .done⟩
  | cons op ops ih =>
    intro bag h l hr hp hne hd
    cases op with
    | put p x =>
      simp only [prioritiesPut, List.map_cons] at hd
      have hfresh : ∀ f ∈ l, f.no ≠ (hqEntry p x).no := by
        intro f hf he
        obtain ⟨q, hq, rfl⟩ := List.mem_map.1 (hp.mem_iff.1 hf)
        exact (List.disjoint_of_nodup_append hd) (List.mem_map.2 ⟨q, hq, he⟩) List.mem_cons_self
      obtain ⟨h', e1, e2⟩ := hqPush_rel hr hfresh
      obtain ⟨out, f1, f2⟩ := ih ((p, x) :: bag) h' _ e2 ((heapPush_perm l _).trans (hp.cons _)) hne
        ((List.perm_middle.nodup_iff).1 hd)
      exact ⟨out, by unfold hqOps; simp only [e1]; exact f1, .put f2⟩
    | take =>
      rcases hl : l with _ | ⟨e, r⟩
      · subst hl
        have : bag = [] := List.eq_nil_of_length_eq_zero (by simpa using hp.length_eq.symm)
        subst this
        exact absurd hne (by simp [NeverEmpty])
      · subst hl
        obtain ⟨q, hq, hqe⟩ := List.mem_map.1 (hp.mem_iff.1 List.mem_cons_self)
        obtain ⟨b1, b2, hb⟩ := List.append_of_mem hq
        have hbp : bag.Perm (q :: (b1 ++ b2)) := by rw [hb]; exact List.perm_middle
        have hp' : r.Perm ((b1 ++ b2).map (fun q => hqEntry q.1 q.2)) := by
          have := hp.trans (hbp.map _)
          rw [List.map_cons, hqe] at this
          exact (List.perm_cons _).1 this
        obtain ⟨h', e1, e2⟩ := hqPop_rel hr
        have hlen : bag.length = (b1 ++ b2).length + 1 := by rw [hbp.length_eq]; rfl
        rw [hlen] at hne
        have hd' : ((b1 ++ b2).map (fun q => (ofLex q.1).2) ++ (prioritiesPut ops).map (fun p => (ofLex p).2)).Nodup := by
          have hd1 := ((hbp.map (fun q => (ofLex q.1).2)).append_right
            ((prioritiesPut ops).map (fun p => (ofLex p).2))).nodup_iff.1 hd
          exact (List.nodup_cons.1 hd1).2
        obtain ⟨out, f1, f2⟩ := ih (b1 ++ b2) h' r e2 hp' hne hd'
        have he : ((toLex (e.key, e.no) : W ×ₗ Int), e.item) = (q.1, q.2) := by rw [← hqe]; rfl
        refine ⟨(q.1, q.2) :: out, ?_, .take (rest := b1 ++ b2) hbp ?_ f2⟩
        · unfold hqOps
          simp only [e1, f1, he]
        · intro q' hq'
          have hle : e.le (hqEntry q'.1 q'.2) :=
            (List.pairwise_cons.1 hr.sorted).1 _ (hp'.mem_iff.2 (List.mem_map_of_mem (f := fun q => hqEntry q.1 q.2) hq'))
          rw [← hqe, hqEntry_le] at hle
          refine lt_of_le_of_ne hle ?_
          intro heq
          have hd1 := ((hbp.map (fun q => (ofLex q.1).2)).append_right
            ((prioritiesPut ops).map (fun p => (ofLex p).2))).nodup_iff.1 hd
          refine (List.nodup_cons.1 hd1).1 (List.mem_append_left _ (List.mem_map.2 ⟨q', hq', ?_⟩))
          simp only [heq]

/-- **C80.** A program that makes a heap from a list of tuples `(weight, number, ...)` and then puts tuples in and takes
tuples out in any order: if all the numbers are different, no tuples are ever compared beyond the number (this would raise
`TypeError`), and each time, the smallest tuple in the heap is taken out, as from a priority queue. -/
theorem C80_heapq_serves (init : List ((W ×ₗ Int) × X)) (ops : List (PqOp (W ×ₗ Int) X))
    (hne : NeverEmpty init.length ops)
    (hd : (init.map (fun q => (ofLex q.1).2) ++ (prioritiesPut ops).map (fun p => (ofLex p).2)).Nodup) :
    ∃ out, hqProgram init ops = .ok out ∧ Serves init ops out := by
  have hn : ((init.map (fun q => hqEntry q.1 q.2)).map HEntry.no).Nodup := by
    rw [List.map_map]
    exact (List.nodup_append.1 hd).1
  obtain ⟨h, e1, e2⟩ := hqHeapify_rel hn
  obtain ⟨out, f1, f2⟩ := hqOps_serves ops init h _ e2 (heapify_perm _) hne hd
  exact ⟨out, by unfold hqProgram; simp only [e1]; exact f1, f2⟩

end

/-- The hypotheses are met: five tuples, two with the same weight; then puts and takes. -/
example : NeverEmpty 3 ([.take, .put (toLex (4, 1)) 'd', .put (toLex (2, 0)) 'e', .take, .take, .take] :
      List (PqOp (Nat ×ₗ Int) Char)) ∧
    (([(toLex (5, 4), 'a'), (toLex (2, 3), 'b'), (toLex (7, 2), 'c')] : List ((Nat ×ₗ Int) × Char)).map
      (fun q => (ofLex q.1).2) ++ (prioritiesPut ([.take, .put (toLex (4, 1)) 'd', .put (toLex (2, 0)) 'e', .take, .take, .take] :
      List (PqOp (Nat ×ₗ Int) Char))).map (fun p => (ofLex p).2)).Nodup := by
  refine ⟨by simp [NeverEmpty], by simp [prioritiesPut]⟩

/-- What this program gets. -/
example : (hqProgram [(toLex ((5 : Nat), (4 : Int)), 'a'), (toLex (2, 3), 'b'), (toLex (7, 2), 'c')]
      [.take, .put (toLex (4, 1)) 'd', .put (toLex (2, 0)) 'e', .take, .take, .take]).map (fun l => l.map (·.2)) =
    .ok ['b', 'e', 'd', 'a'] := by decide +kernel

/-- The layout that `heapify` makes. -/
example : (hqHeapify [(⟨5, 4, 'a'⟩ : HEntry Nat Char), ⟨2, 3, 'b'⟩, ⟨7, 2, 'c'⟩, ⟨2, 1, 'd'⟩, ⟨9, 0, 'e'⟩]).map
    (fun l => l.map (·.item)) = .ok ['d', 'b', 'c', 'a', 'e'] := by decide +kernel

/-- Without different numbers, vertices are compared. -/
theorem C80_same_number_compared :
    hqProgram [(toLex ((3 : Nat), (1 : Int)), 'a'), (toLex (3, 1), 'b')] [] = .error .typeError := by
  simp [hqProgram, hqHeapify, hqHeapifyLoop, siftup, siftupLoop, smallerChild, siftdown, siftdownLoop, hqEntry, tupleLt]

/-! ## The strategies on the heap -/

theorem evRel_eq {ρ : Type} {l l' : List (Ev ρ)} (h : List.Forall₂ (EvRel (fun r r' => r = r')) l l') : l = l' := by
  induction h with
  | nil => rfl
  | @cons a b l l' hab _ ih => cases a <;> cases b <;> simp_all [EvRel]

section
variable {V K L W M ML D : Type} [Add W] [Zero W] [LinearOrder W] {g : WGear V K L W M ML D} {c : WCfg V K L W}

/-- The same variables, with the binary heap and the sorted list. -/
def SpHq (s s' : SpState V L W M ML D) : Prop :=
  ∃ h, s = { s' with heap := h } ∧ HqRel h s'.heap ∧ ∀ e ∈ s'.heap, s'.no < e.no

theorem sp_hq_step (s s' : SpState V L W M ML D) (h : SpHq s s') :
    StepRel SpHq (fun _ _ => True) (fun r r' => r = r') (spStepHq g c s) (spStep g c s') := by
  obtain ⟨hp, rfl, hr, hno⟩ := h
  unfold spStepHq spStep
  rcases hpc : s'.pc with _ | ⟨v, w, ec⟩ | ⟨v, w, ec, _ | ⟨⟨n, x, l⟩, es⟩⟩ <;> simp only
  · rcases hx : s'.heap with _ | ⟨e, rest⟩
    · rw [hx] at hr
      have := hr.nil_right
      subst this
      simp only [if_true]
      exact .stop trivial
    · rw [hx] at hr hno
      have hne : hp ≠ [] := by rintro rfl; exact absurd hr.nil_left (by simp)
      obtain ⟨h', e1, e2⟩ := hqPop_rel hr
      have hno' : ∀ f ∈ rest, s'.no < f.no := fun f hf => hno f (List.mem_cons_of_mem _ hf)
      simp only [if_neg hne, e1]
      by_cases hc : (!c.isTree && decide (g.dd.get s'.dist (c.vid e.item.1) < e.key)) = true
      · simp only [if_pos hc]
        exact .tau ⟨h', rfl, e2, hno'⟩
      · simp only [if_neg hc]
        by_cases he : e.item.2 > 0
        · simp only [if_pos he]
          exact .emit rfl ⟨h', rfl, e2, hno'⟩
        · simp only [if_neg he]
          exact .tau ⟨h', rfl, e2, hno'⟩
  · exact .expand ⟨hp, rfl, hr, hno⟩
  · exact .tau ⟨hp, rfl, hr, hno⟩
  · by_cases hi : c.inf ≤ x + w
    · simp only [if_pos hi]
      exact .fail
    · simp only [if_neg hi]
      rcases spImprove g c s'.dist (c.vid n) (x + w) with _ | d
      · exact .tau ⟨hp, rfl, hr, hno⟩
      · obtain ⟨h', e1, e2⟩ := hqPush_rel hr (e := ⟨x + w, s'.no, (n, ec + 1)⟩) (fun f hf => by
          have := hno f hf; simp only; omega)
        simp only [e1]
        refine .tau ⟨h', rfl, e2, ?_⟩
        intro f hf
        rcases mem_heapPush.1 hf with rfl | hf
        · simp only; omega
        · have := hno f hf; simp only; omega

theorem spStartEntries_no (d : D) (vs : List V) (no : Int) : ∀ e ∈ spStartEntries g c d vs no, no - vs.length < e.no ∧ e.no ≤ no := by
  induction vs generalizing no with
  | nil => simp [spStartEntries]
  | cons v vs ih =>
    intro e he
    rcases List.mem_cons.1 he with rfl | he
    · simp only [List.length_cons]; omega
    · have := ih _ e he
      simp only [List.length_cons]; omega

theorem spStartEntries_nodup (d : D) (vs : List V) (no : Int) : ((spStartEntries g c d vs no).map HEntry.no).Nodup := by
  induction vs generalizing no with
  | nil => simp [spStartEntries]
  | cons v vs ih =>
    simp only [spStartEntries, List.map_cons, List.nodup_cons]
    refine ⟨fun hm => ?_, ih _⟩
    obtain ⟨e, he, heq⟩ := List.mem_map.1 hm
    have := spStartEntries_no d vs (no - 1) e he
    omega

theorem sp_hq_init (known : Option D) (starts : List V) :
    ∃ s, spInitHq g c known starts = .ok s ∧ SpHq s (spInit g c known starts) := by
  obtain ⟨h, e1, e2⟩ := hqHeapify_rel (spStartEntries_nodup (g := g) (c := c) (spDistances g c known starts) starts 256)
  refine ⟨{ spInit g c known starts with heap := h }, ?_, h, rfl, e2, ?_⟩
  · unfold spInitHq
    simp only [e1]
    rfl
  · intro e he
    have := spStartEntries_no _ _ _ e (mem_heapify.1 he)
    simp only [spInit]; omega

/-- **C80** for the shortest paths traversal: on the binary heap of `heapq`, with vertices that cannot be compared, it
does what it does in the model with a sorted list (for which C18–C23 and others are proved): the same reports with the same
attributes, the same reads of edges, the same end. In particular, no comparison fails. -/
theorem C80_sp (known : Option D) (starts : List V) (limit : Option Int) (fuel : Nat) :
    spRunHq g c known starts limit fuel =
      ((spRun g c known starts limit fuel).events, (spRun g c known starts limit fuel).ending) := by
  obtain ⟨s, e1, e2⟩ := sp_hq_init (g := g) (c := c) known starts
  obtain ⟨h1, h2, _⟩ := run_sim SpHq (fun _ _ => True) (fun r r' => r = r') (sp_hq_step (g := g) (c := c)) fuel
    (prepareLimit limit) s _ e2
  unfold spRunHq spRun
  simp only [e1, evRel_eq h1, h2]

end

/-- A traversal on the binary heap, with ties. -/
example : (repsOf (spRunHq exWArr (exWCfg false) none [0] none 60).1).map (fun r => (r.vertex, r.distance)) =
    [(2, 1), (4, 1), (1, 3), (3, 4)] ∧ (spRunHq exWArr (exWCfg false) none [0] none 60).2 = .done := by
  refine ⟨?_, ?_⟩ <;> decide +kernel

section
variable {V K L W M ML D : Type} [AddCommMonoid W] [LinearOrder W] {g : WGear V K L W M ML D} {c : AStarCfg V K L W}

/-- The same variables, with the binary heap and the sorted list. -/
def AHq (s s' : AStarState V L W M ML D) : Prop :=
  ∃ h, s = { s' with heap := h } ∧ HqRel h s'.heap ∧ ∀ e ∈ s'.heap, s'.no < e.no

theorem a_hq_step (s s' : AStarState V L W M ML D) (h : AHq s s') :
    StepRel AHq (fun _ _ => True) (fun r r' => r = r') (aStepHq g c s) (aStep g c s') := by
  obtain ⟨hp, rfl, hr, hno⟩ := h
  unfold aStepHq aStep
  rcases hpc : s'.pc with _ | ⟨v, w, ec⟩ | ⟨v, w, ec, _ | ⟨⟨n, x, l⟩, es⟩⟩ <;> simp only
  · rcases hx : s'.heap with _ | ⟨e, rest⟩
    · rw [hx] at hr
      have := hr.nil_right
      subst this
      simp only [if_true]
      exact .stop trivial
    · rw [hx] at hr hno
      have hne : hp ≠ [] := by rintro rfl; exact absurd hr.nil_left (by simp)
      obtain ⟨h', e1, e2⟩ := hqPop_rel hr
      have hno' : ∀ f ∈ rest, s'.no < f.no := fun f hf => hno f (List.mem_cons_of_mem _ hf)
      simp only [if_neg hne, e1]
      by_cases hc : (!c.isTree && decide (g.dd.get s'.guesses (c.vid e.item.1) < e.key)) = true
      · simp only [if_pos hc]
        exact .tau ⟨h', rfl, e2, hno'⟩
      · simp only [if_neg hc]
        by_cases he : e.item.2 > 0
        · simp only [if_pos he]
          exact .emit rfl ⟨h', rfl, e2, hno'⟩
        · simp only [if_neg he]
          exact .tau ⟨h', rfl, e2, hno'⟩
  · exact .expand ⟨hp, rfl, hr, hno⟩
  · exact .tau ⟨hp, rfl, hr, hno⟩
  · by_cases hi : c.inf ≤ x + w
    · simp only [if_pos hi]
      exact .fail
    · simp only [if_neg hi]
      rcases aImprove g c s'.dist (c.vid n) (x + w) with _ | d
      · exact .tau ⟨hp, rfl, hr, hno⟩
      · by_cases ho : c.heur n ≠ c.inf ∧ c.inf ≤ aGuess c.inf (x + w) (c.heur n)
        · simp only [if_pos ho]
          exact .fail
        · simp only [if_neg ho]
          obtain ⟨h', e1, e2⟩ := hqPush_rel hr (e := ⟨aGuess c.inf (x + w) (c.heur n), s'.no, (n, ec + 1)⟩) (fun f hf => by
            have := hno f hf; simp only; omega)
          simp only [e1]
          refine .tau ⟨h', rfl, e2, ?_⟩
          intro f hf
          rcases mem_heapPush.1 hf with rfl | hf
          · simp only; omega
          · have := hno f hf; simp only; omega

theorem aStartEntries_no (d : D) (vs : List V) (no : Int) : ∀ e ∈ aStartEntries g c d vs no, no - vs.length < e.no ∧ e.no ≤ no := by
  induction vs generalizing no with
  | nil => simp [aStartEntries]
  | cons v vs ih =>
    intro e he
    rcases List.mem_cons.1 he with rfl | he
    · simp only [List.length_cons]; omega
    · have := ih _ e he
      simp only [List.length_cons]; omega

theorem aStartEntries_nodup (d : D) (vs : List V) (no : Int) : ((aStartEntries g c d vs no).map HEntry.no).Nodup := by
  induction vs generalizing no with
  | nil => simp [aStartEntries]
  | cons v vs ih =>
    simp only [aStartEntries, List.map_cons, List.nodup_cons]
    refine ⟨fun hm => ?_, ih _⟩
    obtain ⟨e, he, heq⟩ := List.mem_map.1 hm
    have := aStartEntries_no d vs (no - 1) e he
    omega

/-- **C80** for A*. -/
theorem C80_astar (known knownGuesses : Option D) (starts : List V) (limit : Option Int) (fuel : Nat) :
    aRunHq g c known knownGuesses starts limit fuel =
      ((aRun g c known knownGuesses starts limit fuel).events, (aRun g c known knownGuesses starts limit fuel).ending) := by
  obtain ⟨h, e1, e2⟩ := hqHeapify_rel (aStartEntries_nodup (g := g) (c := c)
    (aGuesses g c knownGuesses (aDistances g c known starts) starts) starts 256)
  have hrel : AHq { aInit g c known knownGuesses starts with heap := h } (aInit g c known knownGuesses starts) := by
    refine ⟨h, rfl, e2, ?_⟩
    intro e he
    have := aStartEntries_no _ _ _ e (mem_heapify.1 he)
    simp only [aInit]; omega
  obtain ⟨h1, h2, _⟩ := run_sim AHq (fun _ _ => True) (fun r r' => r = r') (a_hq_step (g := g) (c := c)) fuel
    (prepareLimit limit) _ _ hrel
  have hi : aInitHq g c known knownGuesses starts = .ok { aInit g c known knownGuesses starts with heap := h } := by
    unfold aInitHq
    simp only [e1]
    rfl
  unfold aRunHq aRun
  simp only [hi, evRel_eq h1, h2]

end

section
variable {V K L W S M ML : Type} [LinearOrder W] {g : TravGear V K L S M ML} {c : MstCfg V K L W}

/-- The same variables, with the binary heap and the sorted list. While the edges of start vertices are collected, the
list is not a heap yet. -/
def MstHq (s s' : MstState V L W S M ML) : Prop :=
  match s'.pc with
  | .starts _ => s = s' ∧ (s'.heap.map HEntry.no).Nodup ∧ ∀ e ∈ s'.heap, e.no < s'.no
  | _ => ∃ h, s = { s' with heap := h } ∧ HqRel h s'.heap ∧ ∀ e ∈ s'.heap, e.no < s'.no

theorem mstEntries_no (v : V) (es : List (V × W × L)) (no : Int) : ∀ e ∈ mstEntries v es no, no ≤ e.no ∧ e.no < no + es.length := by
  induction es generalizing no with
  | nil => simp [mstEntries]
  | cons x es ih =>
    intro e he
    rcases List.mem_cons.1 he with rfl | he
    · simp only [List.length_cons]; omega
    · have := ih _ e he
      simp only [List.length_cons]; omega

theorem mstEntries_nodup (v : V) (es : List (V × W × L)) (no : Int) : ((mstEntries v es no).map HEntry.no).Nodup := by
  induction es generalizing no with
  | nil => simp [mstEntries]
  | cons x es ih =>
    simp only [mstEntries, List.map_cons, List.nodup_cons]
    refine ⟨fun hm => ?_, ih _⟩
    obtain ⟨e, he, heq⟩ := List.mem_map.1 hm
    have := mstEntries_no v es (no + 1) e he
    omega

theorem mst_hq_step (s s' : MstState V L W S M ML) (h : MstHq s s') :
    StepRel MstHq (fun _ _ => True) (fun r r' => r = r') (mstStepHq g c s) (mstStep g c s') := by
  unfold MstHq at h
  rcases hpc : s'.pc with (_ | ⟨v, vs⟩) | _ | v | ⟨v, _ | ⟨e, es⟩⟩ <;> simp only [hpc] at h
  · obtain ⟨rfl, hn, hno⟩ := h
    obtain ⟨h', e1, e2⟩ := hqHeapify_rel hn
    unfold mstStepHq mstStep
    simp only [hpc, e1]
    exact .tau ⟨h', rfl, e2, fun e he => hno e (mem_heapify.1 he)⟩
  · obtain ⟨rfl, hn, hno⟩ := h
    unfold mstStepHq mstStep
    simp only [hpc]
    refine .expand ⟨rfl, ?_, ?_⟩
    · simp only [List.map_append]
      refine List.nodup_append.2 ⟨hn, mstEntries_nodup _ _ _, ?_⟩
      intro a ha b hb hab
      obtain ⟨e, he, rfl⟩ := List.mem_map.1 ha
      obtain ⟨f, hf, rfl⟩ := List.mem_map.1 hb
      have h1 := hno e he
      have h2 := mstEntries_no _ _ _ f hf
      omega
    · intro e he
      rcases List.mem_append.1 he with he | he
      · have := hno e he; simp only; omega
      · have := mstEntries_no _ _ _ e he; simp only; omega
  · obtain ⟨hp, rfl, hr, hno⟩ := h
    unfold mstStepHq mstStep
    simp only [hpc]
    rcases hx : s'.heap with _ | ⟨e, rest⟩
    · rw [hx] at hr
      have := hr.nil_right
      subst this
      simp only [if_true]
      exact .stop trivial
    · rw [hx] at hr hno
      have hne : hp ≠ [] := by rintro rfl; exact absurd hr.nil_left (by simp)
      obtain ⟨h', e1, e2⟩ := hqPop_rel hr
      have hno' : ∀ f ∈ rest, f.no < s'.no := fun f hf => hno f (List.mem_cons_of_mem _ hf)
      simp only [if_neg hne, e1]
      by_cases hc : (g.so.checkAdd s'.visited (c.vid e.item.2.1)).1 = true
      · simp only [if_pos hc]
        refine .tau ?_
        simp only [MstHq, hpc]
        exact ⟨h', rfl, e2, hno'⟩
      · simp only [if_neg hc]
        exact .emit rfl ⟨h', rfl, e2, hno'⟩
  · obtain ⟨hp, rfl, hr, hno⟩ := h
    unfold mstStepHq mstStep
    simp only [hpc]
    exact .expand ⟨hp, rfl, hr, hno⟩
  · obtain ⟨hp, rfl, hr, hno⟩ := h
    unfold mstStepHq mstStep
    simp only [hpc]
    exact .tau ⟨hp, rfl, hr, hno⟩
  · obtain ⟨hp, rfl, hr, hno⟩ := h
    unfold mstStepHq mstStep
    simp only [hpc]
    by_cases hc : g.so.contains s'.visited (c.vid e.1) = true
    · simp only [if_pos hc]
      exact .tau ⟨hp, rfl, hr, hno⟩
    · simp only [if_neg hc]
      obtain ⟨h', e1, e2⟩ := hqPush_rel hr (e := ⟨e.2.1, s'.no, (v, e)⟩) (fun f hf => by
        have := hno f hf; simp only; omega)
      simp only [e1]
      refine .tau ⟨h', rfl, e2, ?_⟩
      intro f hf
      rcases mem_heapPush.1 hf with rfl | hf
      · simp only; omega
      · have := hno f hf; simp only; omega

/-- **C80** for the minimum spanning tree traversal. -/
theorem C80_mst (starts : List V) (limit : Option Int) (fuel : Nat) :
    mstRunHq g c starts limit fuel =
      ((mstRun g c starts limit fuel).events, (mstRun g c starts limit fuel).ending) := by
  have hrel : MstHq (mstInit g c starts) (mstInit g c starts) := ⟨rfl, by simp [mstInit], by simp [mstInit]⟩
  obtain ⟨h1, h2, _⟩ := run_sim MstHq (fun _ _ => True) (fun r r' => r = r') (mst_hq_step (g := g) (c := c)) fuel
    (prepareLimit limit) _ _ hrel
  unfold mstRunHq mstRun
  split
  · rfl
  · simp only [evRel_eq h1, h2]

end

section
variable {V K L W M ML D : Type} [DecidableEq V] [DecidableEq K]
variable [AddCommMonoid W] [LinearOrder W] {g : WGear V K L W M ML D} {c : BdCfg V K L W}

/-- The same variables of one direction, with the binary heap and the sorted list. -/
def BdSideHq (s s' : BdSide V W M ML D) : Prop :=
  ∃ h, s = { s' with heap := h } ∧ HqRel h s'.heap ∧ ∀ e ∈ s'.heap, s'.no < e.no

/-- The same variables, with binary heaps and sorted lists. -/
def BdHq (s s' : BdState V L W M ML D) : Prop :=
  ∃ fw bw, s = { s' with fw := fw, bw := bw } ∧ BdSideHq fw s'.fw ∧ BdSideHq bw s'.bw

/-- The same results. -/
def BdHqEnd (s s' : BdState V L W M ML D) : Prop :=
  s.found = s'.found ∧ s.best = s'.best ∧ ∀ k, bdPath g c s k = bdPath g c s' k

theorem BdHq.get {s s' : BdState V L W M ML D} (h : BdHq s s') (b : Bool) : BdSideHq (s.get b) (s'.get b) := by
  obtain ⟨fw, bw, rfl, h1, h2⟩ := h
  cases b
  · exact h1
  · exact h2

theorem BdHq.setCur {s s' : BdState V L W M ML D} (h : BdHq s s') {x x' : BdSide V W M ML D} (hx : BdSideHq x x') :
    BdHq (s.setCur x) (s'.setCur x') := by
  obtain ⟨fw, bw, rfl, h1, h2⟩ := h
  unfold BdState.setCur
  cases hb : s'.back <;> simp only [if_true, Bool.false_eq_true, if_false]
  · exact ⟨x, bw, rfl, hx, h2⟩
  · exact ⟨fw, x, rfl, h1, hx⟩

theorem bd_hq_step (s s' : BdState V L W M ML D) (h : BdHq s s') :
    StepRel BdHq (BdHqEnd (g := g) (c := c)) (fun r r' => r = r') (bdStepHq g c s) (bdStep g c s') := by
  have hback : s.back = s'.back := by obtain ⟨_, _, rfl, _⟩ := h; rfl
  have hbest : s.best = s'.best := by obtain ⟨_, _, rfl, _⟩ := h; rfl
  have hoth : s.others = s'.others := by obtain ⟨_, _, rfl, _⟩ := h; rfl
  have hpc' : s.pc = s'.pc := by obtain ⟨_, _, rfl, _⟩ := h; rfl
  have hot : (s.get (!s.back)).dist = (s'.get (!s'.back)).dist := by
    rw [hback]
    obtain ⟨_, h1, _⟩ := h.get (!s'.back)
    rw [h1]
  obtain ⟨hp, hme, hr, hno⟩ := h.get s'.back
  unfold bdStepHq bdStep
  simp only [hback, hbest, hoth, hpc']
  rw [hback] at hot
  simp only [hot]
  generalize hm : s'.get s'.back = me at *
  simp only [hme]
  rcases hpc : s'.pc with _ | ⟨v, w, _ | ⟨⟨n, x, l⟩, es⟩⟩ <;> simp only
  · rcases hx : me.heap with _ | ⟨e, rest⟩
    · rw [hx] at hr
      have := hr.nil_right
      subst this
      simp only [if_true]
      refine .stop ?_
      obtain ⟨_, _, rfl, ⟨_, h1, _⟩, ⟨_, h2, _⟩⟩ := h
      subst h1 h2
      exact ⟨rfl, rfl, fun _ => rfl⟩
    · rw [hx] at hr hno
      have hne : hp ≠ [] := by rintro rfl; exact absurd hr.nil_left (by simp)
      obtain ⟨h', e1, e2⟩ := hqPop_rel hr
      have hno' : ∀ f ∈ rest, me.no < f.no := fun f hf => hno f (List.mem_cons_of_mem _ hf)
      simp only [if_neg hne, e1]
      by_cases hc : g.dd.get me.dist (c.vid e.item) < e.key
      · simp only [if_pos hc]
        have := (h.setCur (x := { me with heap := h' }) (x' := { me with heap := rest }) ⟨h', rfl, e2, hno'⟩)
        refine .tau ?_
        obtain ⟨fw, bw, e, h1, h2⟩ := this
        exact ⟨fw, bw, by rw [e], h1, h2⟩
      · simp only [if_neg hc]
        by_cases hs : c.inf ≠ s'.best ∧ s'.best ≤ e.key + s'.others
        · simp only [if_pos hs]
          refine .stop ?_
          obtain ⟨_, _, rfl, ⟨_, h1, _⟩, ⟨_, h2, _⟩⟩ := h
          subst h1 h2
          exact ⟨rfl, rfl, fun _ => rfl⟩
        · simp only [if_neg hs]
          rcases checkLimit me.lim with _ | lim
          · exact .fail
          · have := (h.setCur (x := { me with heap := h', lim := lim }) (x' := { me with heap := rest, lim := lim })
              ⟨h', rfl, e2, hno'⟩)
            refine .expand ?_
            obtain ⟨fw, bw, e, h1, h2⟩ := this
            exact ⟨fw, bw, by rw [e], h1, h2⟩
  · refine .tau ?_
    obtain ⟨fw, bw, rfl, h1, h2⟩ := h
    exact ⟨fw, bw, rfl, h1, h2⟩
  · by_cases hi : c.inf ≤ x + w
    · simp only [if_pos hi]
      exact .fail
    · simp only [if_neg hi]
      rcases g.dd.improve me.dist (c.vid n) (x + w) with _ | d
      · refine .tau ?_
        obtain ⟨fw, bw, rfl, h1, h2⟩ := h
        exact ⟨fw, bw, rfl, h1, h2⟩
      · obtain ⟨h', e1, e2⟩ := hqPush_rel hr (e := ⟨x + w, me.no, n⟩) (fun f hf => by
          have := hno f hf; simp only; omega)
        simp only [e1]
        have hsc := h.setCur (x := { me with
            heap := h', no := me.no - 1, dist := d
            preds := if c.buildPath then g.mo.set me.preds (c.vid n) v else me.preds
            labels := if c.buildPath then g.lo.set me.labels (c.vid n) l else me.labels })
          (x' := { me with
            heap := heapPush me.heap ⟨x + w, me.no, n⟩, no := me.no - 1, dist := d
            preds := if c.buildPath then g.mo.set me.preds (c.vid n) v else me.preds
            labels := if c.buildPath then g.lo.set me.labels (c.vid n) l else me.labels })
          ⟨h', rfl, e2, by
            intro f hf
            rcases mem_heapPush.1 hf with rfl | hf
            · simp only; omega
            · have := hno f hf; simp only; omega⟩
        by_cases hb : s'.best ≤ x + w + g.dd.get (s'.get (!s'.back)).dist (c.vid n)
        · simp only [if_pos hb]
          refine .tau ?_
          obtain ⟨fw, bw, e, h1, h2⟩ := hsc
          exact ⟨fw, bw, by rw [e], h1, h2⟩
        · simp only [if_neg hb]
          refine .tau ?_
          obtain ⟨fw, bw, e, h1, h2⟩ := hsc
          exact ⟨fw, bw, by rw [e], h1, h2⟩

theorem bdStartEntries_no (d : D) (vs : List V) (no : Int) : ∀ e ∈ bdStartEntries g c d vs no, no - vs.length < e.no ∧ e.no ≤ no := by
  induction vs generalizing no with
  | nil => simp [bdStartEntries]
  | cons v vs ih =>
    intro e he
    rcases List.mem_cons.1 he with rfl | he
    · simp only [List.length_cons]; omega
    · have := ih _ e he
      simp only [List.length_cons]; omega

theorem bdStartEntries_nodup (d : D) (vs : List V) (no : Int) : ((bdStartEntries g c d vs no).map HEntry.no).Nodup := by
  induction vs generalizing no with
  | nil => simp [bdStartEntries]
  | cons v vs ih =>
    simp only [bdStartEntries, List.map_cons, List.nodup_cons]
    refine ⟨fun hm => ?_, ih _⟩
    obtain ⟨e, he, heq⟩ := List.mem_map.1 hm
    have := bdStartEntries_no d vs (no - 1) e he
    omega

theorem bd_hq_init (starts : List V) (limit : Option Int) :
    ∃ s, bdInitSideHq g c starts limit = .ok s ∧ BdSideHq s (bdInitSide g c starts limit) := by
  obtain ⟨h, e1, e2⟩ := hqHeapify_rel (bdStartEntries_nodup (g := g) (c := c) (bdDistances g c starts) starts 256)
  refine ⟨{ bdInitSide g c starts limit with heap := h }, ?_, h, rfl, e2, ?_⟩
  · unfold bdInitSideHq
    simp only [e1]
    rfl
  · intro e he
    have := bdStartEntries_no _ _ _ e (mem_heapify.1 he)
    simp only [bdInitSide]; omega

/-- **C80** for the bidirectional search for a shortest path: the same result. -/
theorem C80_bidirectional (starts goals : List V) (limit : Option Int) (fuel pathFuel : Nat) :
    bdSearchHq g c starts goals limit fuel pathFuel = bdSearch g c starts goals limit fuel pathFuel := by
  unfold bdSearchHq bdSearch
  rcases starts with _ | ⟨a, as⟩
  · rfl
  · rcases goals with _ | ⟨b, bs⟩
    · rfl
    · simp only
      rcases biCommon c.vid (a :: as) (b :: bs) true true with _ | v
      · obtain ⟨fw, f1, f2⟩ := bd_hq_init (g := g) (c := c) (a :: as) limit
        obtain ⟨bw, g1, g2⟩ := bd_hq_init (g := g) (c := c) (b :: bs) limit
        simp only [f1, g1]
        obtain ⟨_, h2, h3⟩ := run_sim BdHq (BdHqEnd (g := g) (c := c)) (fun r r' => r = r') (bd_hq_step (g := g) (c := c)) fuel none
          { pc := .loop, fw := fw, bw := bw, back := false, best := c.inf, node := a, others := 0, found := false }
          (bdInit g c a (a :: as) (b :: bs) limit) ⟨fw, bw, rfl, f2, g2⟩
        rw [← h2]
        generalize runMachine (bdStepHq g c) fuel none _ = r at *
        generalize runMachine (bdStep g c) fuel none _ = r' at *
        rcases he : r.ending with _ | _ | e <;> simp only
        obtain ⟨p1, p2, p3⟩ := h3 he
        rw [p1, p2, p3]
      · rfl

end

section
variable {V W M ML D Mo Do : Type} [DecidableEq V] [AddCommMonoid W] [LinearOrder W]
variable {g : WGear (V × Nat) (V × Nat) Unit W M ML D} {o : IbGear V W Mo Do} {c : IbCfg V W}

/-- The same variables, with the binary heap and the sorted list. -/
def IbHq (s s' : IbState V W M ML D Mo Do) : Prop := ∃ sp, s = { s' with sp := sp } ∧ SpHq sp s'.sp

theorem ib_hq_step (s s' : IbState V W M ML D Mo Do) (h : IbHq s s') :
    StepRel IbHq (fun _ _ => True) (fun r r' => r = r') (ibStepHq g o c s) (ibStep g o c s') := by
  obtain ⟨sp, rfl, hs⟩ := h
  have hstep := sp_hq_step (g := g) (c := ibInner c) sp s'.sp hs
  have hpc : sp.pc = s'.sp.pc := by obtain ⟨_, rfl, _⟩ := hs; rfl
  have hdist : sp.dist = s'.sp.dist := by obtain ⟨_, rfl, _⟩ := hs; rfl
  have other : StepRel IbHq (fun _ _ => True) (fun r r' => r = r')
      (match spStepHq g (ibInner c) sp with
        | .stop sp => .stop { s' with sp := sp }
        | .fail e => .fail e
        | .tau sp => .tau { s' with sp := sp }
        | .expand sp => .expand { s' with sp := sp }
        | .emit r q =>
          if r.vertex.2 = 0 then
            match ibReport g o c { s' with sp := sp } r with
            | .error e => .fail e
            | .ok r' => .emit r' { s' with sp := q, preds := r'.preds, dist := r'.dist, distance := r'.distance }
          else .tau { s' with sp := q } : Step (IbState V W M ML D Mo Do) (IbReport V W Mo Do))
      (match spStep g (ibInner c) s'.sp with
        | .stop sp => .stop { s' with sp := sp }
        | .fail e => .fail e
        | .tau sp => .tau { s' with sp := sp }
        | .expand sp => .expand { s' with sp := sp }
        | .emit r q =>
          if r.vertex.2 = 0 then
            match ibReport g o c s' r with
            | .error e => .fail e
            | .ok r' => .emit r' { s' with sp := q, preds := r'.preds, dist := r'.dist, distance := r'.distance }
          else .tau { s' with sp := q }) := by
    generalize spStepHq g (ibInner c) sp = x at hstep
    generalize spStep g (ibInner c) s'.sp = y at hstep
    cases hstep with
    | stop _ => exact .stop trivial
    | fail => exact .fail
    | tau hr => exact .tau ⟨_, rfl, hr⟩
    | expand hr => exact .expand ⟨_, rfl, hr⟩
    | @emit r r' a b hq hr =>
      subst hq
      have hrep : ibReport g o c { s' with sp := sp } r = ibReport g o c s' r := rfl
      simp only [hrep]
      by_cases hv : r.vertex.2 = 0
      · simp only [if_pos hv]
        rcases ibReport g o c s' r with e | r'
        · exact .fail
        · exact .emit rfl ⟨_, rfl, hr⟩
      · simp only [if_neg hv]
        exact .tau ⟨_, rfl, hr⟩
  unfold ibStepHq ibStep
  simp only [hpc, hdist]
  rcases hp : s'.sp.pc with _ | ⟨st, w, ec⟩ | ⟨st, w, ec, es⟩
  · exact other
  · simp only
    rcases ibEdges g c s'.sp.dist s'.iters st with e | ⟨es, it⟩
    · exact .fail
    · refine .expand ⟨_, rfl, ?_⟩
      obtain ⟨hh, rfl, h2, h3⟩ := hs
      exact ⟨hh, rfl, h2, h3⟩
  · exact other

/-- **C80** for the shortest paths traversal in infinitely branching graphs. -/
theorem C80_infinite_branching (isCollection : Bool) (starts : List V) (limit : Option Int) (fuel : Nat) :
    ibRunHq g o c isCollection starts limit fuel =
      ((ibRun g o c isCollection starts limit fuel).events, (ibRun g o c isCollection starts limit fuel).ending) := by
  obtain ⟨s, e1, e2⟩ := sp_hq_init (g := g) (c := ibInner c) none ((ibStarts c isCollection starts).map (fun v => (v, 0)))
  obtain ⟨h1, h2, _⟩ := run_sim IbHq (fun _ _ => True) (fun r r' => r = r') (ib_hq_step (g := g) (o := o) (c := c)) fuel
    (prepareLimit limit) { ibInit g o c isCollection starts with sp := s } (ibInit g o c isCollection starts) ⟨s, rfl, e2⟩
  unfold ibRunHq ibRun
  simp only [e1, evRel_eq h1, h2]

end

end NoGraphs
