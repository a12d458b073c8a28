import Mathlib.Algebra.Ring.Rat
import Mathlib.Algebra.Order.Ring.Rat
import Mathlib.Tactic.Linarith
import Mathlib.Tactic.Ring
import Verif.Spec.Units
import Verif.Proofs.Infinity
import Verif.Props.ShortestPaths
import Verif.Props.AStar
import Verif.Props.MinimumSpanningTree
import Verif.Props.BiDijkstra

/-! # Only the proportions of weights matter: C101 -/

set_option linter.unusedSectionVars false

namespace NoGraphs

open Spec

variable {V K L W W' S M ML D D' X : Type} [DecidableEq V] [DecidableEq K]

/-! ## Heaps -/

section heap
variable [LinearOrder W] [LinearOrder W'] {Y : Type} {f : W → W'} (hf : StrictMono f) (h : X → Y)

/-- A heap entry with converted key. -/
def HEntry.conv (f : W → W') (h : X → Y) (e : HEntry W X) : HEntry W' Y := ⟨f e.key, e.no, h e.item⟩

include hf

theorem conv_le (a b : HEntry W X) : (a.conv f h).le (b.conv f h) ↔ a.le b := by
  unfold HEntry.le HEntry.conv
  simp only [hf.lt_iff_lt, hf.injective.eq_iff]

theorem conv_push (l : List (HEntry W X)) (e : HEntry W X) :
    heapPush (l.map (HEntry.conv f h)) (e.conv f h) = (heapPush l e).map (HEntry.conv f h) := by
  induction l with
  | nil => rfl
  | cons a r ih =>
    simp only [List.map_cons, heapPush, conv_le hf]
    split
    · rfl
    · rw [ih]; rfl

theorem conv_heapify (l : List (HEntry W X)) :
    heapify (l.map (HEntry.conv f h)) = (heapify l).map (HEntry.conv f h) := by
  have : ∀ acc : List (HEntry W X), (l.map (HEntry.conv f h)).foldl heapPush (acc.map (HEntry.conv f h)) =
      (l.foldl heapPush acc).map (HEntry.conv f h) := by
    induction l with
    | nil => intro acc; rfl
    | cons a r ih =>
      intro acc
      simp only [List.map_cons, List.foldl_cons, conv_push hf]
      exact ih _
  exact this []

end heap

/-! ## Distances -/

section dist
variable [LinearOrder W] [LinearOrder W'] {f : W → W'} (hf : StrictMono f)
  {dd : DistOps D K W} {dd' : DistOps D' K W'} {inf : W}

/-- All values are converted. -/
def ConvDist (f : W → W') (dd : DistOps D K W) (dd' : DistOps D' K W') (d : D) (d' : D') : Prop :=
  ∀ k, dd'.get d' k = f (dd.get d k)

theorem ConvDist.empty (hd : dd.Lawful inf) (hd' : dd'.Lawful (f inf)) : ConvDist f dd dd' dd.empty dd'.empty :=
  fun k => by rw [hd.get_empty, hd'.get_empty]

theorem ConvDist.set (hd : dd.Lawful inf) (hd' : dd'.Lawful (f inf)) {d : D} {d' : D'} (h : ConvDist f dd dd' d d')
    (k : K) (w : W) : ConvDist f dd dd' (dd.set d k w) (dd'.set d' k (f w)) := by
  intro j
  rw [hd.get_set, hd'.get_set, h]
  split <;> rfl

theorem ConvDist.setAll (hd : dd.Lawful inf) (hd' : dd'.Lawful (f inf)) (kvs : List (K × W)) {d : D} {d' : D'}
    (h : ConvDist f dd dd' d d') :
    ConvDist f dd dd' (dd.setAll d kvs) (dd'.setAll d' (kvs.map (fun p => (p.1, f p.2)))) := by
  induction kvs generalizing d d' with
  | nil => exact h
  | cons p kvs ih =>
    simp only [DistOps.setAll, List.map_cons, List.foldl_cons] at ih ⊢
    exact ih (h.set hd hd' p.1 p.2)

include hf

theorem ConvDist.improve (hd : dd.Lawful inf) (hd' : dd'.Lawful (f inf)) {d : D} {d' : D'}
    (h : ConvDist f dd dd' d d') (k : K) {w : W} (hw : w < inf) :
    (dd.improve d k w = none ∧ dd'.improve d' k (f w) = none) ∨
    ∃ e e', dd.improve d k w = some e ∧ dd'.improve d' k (f w) = some e' ∧ ConvDist f dd dd' e e' := by
  have hw' : f w < f inf := hf hw
  have hiff : dd.get d k ≤ w ↔ dd'.get d' k ≤ f w := by rw [h, hf.le_iff_le]
  rcases h1 : dd.improve d k w with _ | e
  · have := hiff.1 ((hd.improve_none d k w hw).1 h1)
    exact .inl ⟨rfl, (hd'.improve_none d' k _ hw').2 this⟩
  · rcases h2 : dd'.improve d' k (f w) with _ | e'
    · have := (hd.improve_none d k w hw).2 (hiff.2 ((hd'.improve_none d' k _ hw').1 h2))
      rw [h1] at this
      simp at this
    · refine .inr ⟨e, e', rfl, rfl, fun j => ?_⟩
      rw [hd.improve_some d k w e hw h1, hd'.improve_some d' k _ e' hw' h2, h]
      split <;> rfl

end dist

/-- The edges that remain, converted. -/
def convPc (f : W → W') : SpPc V L W → SpPc V L W'
  | .loop => .loop
  | .expand v w ec => .expand v (f w) ec
  | .edges v w ec es => .edges v (f w) ec (es.map (fun e => (e.1, f e.2.1, e.2.2)))

variable [AddCommMonoid W] [LinearOrder W] [AddCommMonoid W'] [LinearOrder W'] {f : W → W'}

/-! ## Shortest paths -/

section sp
variable {g : WGear V K L W M ML D} {dd' : DistOps D' K W'} {c : WCfg V K L W}

theorem conv_spStartEntries {d : D} {d' : D'} (h : ConvDist f g.dd dd' d d') (vs : List V) (no : Int) :
    spStartEntries ⟨g.mo, g.lo, dd'⟩ (c.convert f) d' vs no = (spStartEntries g c d vs no).map (HEntry.conv f id) := by
  induction vs generalizing no with
  | nil => rfl
  | cons v vs ih =>
    simp only [spStartEntries, List.map_cons, ih]
    congr 1
    simp only [HEntry.conv, WCfg.convert, h (c.vid v), id]

/-- **C101 (`TraversalShortestPaths`).** Convert the weights (and the infinity value) to another unit or another type of numbers. Then
the same vertices are reported, in the same order, with the same depths, paths and labels, at the same moments of the reading of
the graph, and with converted distances; and the traversal ends in the same way. -/
theorem C101_sp (hf : Converts f) (hd : g.dd.Lawful c.inf) (hd' : dd'.Lawful (f c.inf)) (starts : List V)
    (limit : Option Int) (fuel : Nat) :
    let run := spRun g c none starts limit fuel
    let run' := spRun ⟨g.mo, g.lo, dd'⟩ (c.convert f) none starts limit fuel
    List.Forall₂ (EvRel fun (r : SpReport V W M ML D) (r' : SpReport V W' M ML D') =>
      r'.vertex = r.vertex ∧ r'.distance = f r.distance ∧ r'.depth = r.depth ∧ r'.preds = r.preds ∧ r'.labels = r.labels ∧
      ∀ k, dd'.get r'.dist k = f (g.dd.get r.dist k)) run.events run'.events ∧
    run.ending = run'.ending := by
  intro run run'
  have hm := hf.strictMono
  have := run_sim (m := spStep g c) (m' := spStep ⟨g.mo, g.lo, dd'⟩ (c.convert f))
    (fun s s' => s'.pc = convPc f s.pc ∧ s'.heap = s.heap.map (HEntry.conv f id) ∧ s'.no = s.no ∧ s'.preds = s.preds ∧
      s'.labels = s.labels ∧ ConvDist f g.dd dd' s.dist s'.dist)
    (fun _ _ => True)
    (fun (r : SpReport V W M ML D) (r' : SpReport V W' M ML D') =>
      r'.vertex = r.vertex ∧ r'.distance = f r.distance ∧ r'.depth = r.depth ∧ r'.preds = r.preds ∧ r'.labels = r.labels ∧
      ∀ k, dd'.get r'.dist k = f (g.dd.get r.dist k))
    ?_ fuel (prepareLimit limit) (spInit g c none starts) (spInit ⟨g.mo, g.lo, dd'⟩ (c.convert f) none starts) ?_
  · exact ⟨this.1, this.2.1⟩
  · rintro ⟨pc, heap, no, d, pr, la⟩ ⟨pc', heap', no', d', pr', la'⟩ ⟨h1, h2, h3, h4, h5, h6⟩
    dsimp only at h1 h2 h3 h4 h5 h6
    subst h1 h2 h3 h4 h5
    cases pc with
    | loop =>
      cases heap with
      | nil => exact .stop trivial
      | cons e rest =>
        have hiff : dd'.get d' (c.vid e.item.1) < f e.key ↔ g.dd.get d (c.vid e.item.1) < e.key := by
          rw [h6, hm.lt_iff_lt]
        simp only [spStep, convPc, List.map_cons, HEntry.conv, id, WCfg.convert, hiff]
        split
        · exact .tau ⟨rfl, rfl, rfl, rfl, rfl, h6⟩
        · have hs : ConvDist f g.dd dd'
              (if !c.isTree && !c.keepDistances then g.dd.set d (c.vid e.item.1) 0 else d)
              (if !c.isTree && !c.keepDistances then dd'.set d' (c.vid e.item.1) 0 else d') := by
            split
            · have := h6.set hd hd' (c.vid e.item.1) 0
              rwa [hf.zero] at this
            · exact h6
          split
          · exact .emit ⟨rfl, rfl, rfl, rfl, rfl, hs⟩ ⟨rfl, rfl, rfl, rfl, rfl, hs⟩
          · exact .tau ⟨rfl, rfl, rfl, rfl, rfl, hs⟩
    | expand v w ec => exact .expand ⟨rfl, rfl, rfl, rfl, rfl, h6⟩
    | edges v w ec es =>
      cases es with
      | nil => exact .tau ⟨rfl, rfl, rfl, rfl, rfl, h6⟩
      | cons x es =>
        obtain ⟨n, x, l⟩ := x
        simp only [spStep, convPc, List.map_cons, ← hf.add]
        by_cases hi : c.inf ≤ x + w
        · rw [if_pos hi, if_pos (show (c.convert f).inf ≤ _ from hm.le_iff_le.2 hi)]
          exact .fail
        · have hlt := not_le.1 hi
          rw [if_neg hi, if_neg (show ¬ (c.convert f).inf ≤ _ from fun h => hi (hm.le_iff_le.1 h))]
          have himp : (spImprove g c d (c.vid n) (x + w) = none ∧
              spImprove ⟨g.mo, g.lo, dd'⟩ (c.convert f) d' (c.vid n) (f (x + w)) = none) ∨
              ∃ e e', spImprove g c d (c.vid n) (x + w) = some e ∧
                spImprove ⟨g.mo, g.lo, dd'⟩ (c.convert f) d' (c.vid n) (f (x + w)) = some e' ∧
                ConvDist f g.dd dd' e e' := by
            rw [show spImprove ⟨g.mo, g.lo, dd'⟩ (c.convert f) d' (c.vid n) (f (x + w)) =
              if c.isTree then some d' else dd'.improve d' (c.vid n) (f (x + w)) from rfl]
            unfold spImprove
            by_cases ht : c.isTree = true
            · simp only [if_pos ht]
              exact .inr ⟨d, d', rfl, rfl, h6⟩
            · simp only [if_neg ht]
              exact h6.improve hm hd hd' _ hlt
          rcases himp with ⟨e1, e2⟩ | ⟨e, e', e1, e2, hs⟩
          · rw [e1, show (c.convert f).vid = c.vid from rfl, e2]
            exact .tau ⟨rfl, rfl, rfl, rfl, rfl, h6⟩
          · rw [e1, show (c.convert f).vid = c.vid from rfl, e2]
            exact .tau ⟨rfl, conv_push hm id heap ⟨x + w, no', (n, ec + 1)⟩, rfl, rfl, rfl, hs⟩
  · have hs : ConvDist f g.dd dd' (spDistances g c none starts)
        (spDistances ⟨g.mo, g.lo, dd'⟩ (c.convert f) none starts) := by
      have := ConvDist.setAll hd hd' (starts.map (fun v => (c.vid v, 0))) (.empty hd hd')
      simp only [List.map_map, Function.comp_def, hf.zero] at this
      exact this
    refine ⟨rfl, ?_, rfl, rfl, rfl, hs⟩
    simp only [spInit, conv_spStartEntries hs, conv_heapify hm]

end sp

/-! ## A* -/

section astar
variable {g : WGear V K L W M ML D} {dd' : DistOps D' K W'} {c : AStarCfg V K L W}

theorem conv_aStartEntries {d : D} {d' : D'} (h : ConvDist f g.dd dd' d d') (vs : List V) (no : Int) :
    aStartEntries ⟨g.mo, g.lo, dd'⟩ (c.convert f) d' vs no = (aStartEntries g c d vs no).map (HEntry.conv f id) := by
  induction vs generalizing no with
  | nil => rfl
  | cons v vs ih =>
    simp only [aStartEntries, List.map_cons, ih]
    congr 1
    simp only [HEntry.conv, AStarCfg.convert, h (c.vid v), id]

theorem conv_aGuess (hf : Converts f) (inf w h : W) : aGuess (f inf) (f w) (f h) = f (aGuess inf w h) := by
  unfold aGuess
  simp only [hf.strictMono.injective.eq_iff]
  split
  · rfl
  · rw [hf.add]

/-- **C101 (`TraversalAStar`).** The same, if the estimates are converted, too. -/
theorem C101_astar (hf : Converts f) (hd : g.dd.Lawful c.inf) (hd' : dd'.Lawful (f c.inf)) (starts : List V)
    (limit : Option Int) (fuel : Nat) :
    let run := aRun g c none none starts limit fuel
    let run' := aRun ⟨g.mo, g.lo, dd'⟩ (c.convert f) none none starts limit fuel
    List.Forall₂ (EvRel fun (r : AStarReport V W M ML D) (r' : AStarReport V W' M ML D') =>
      r'.vertex = r.vertex ∧ r'.pathLength = f r.pathLength ∧ r'.depth = r.depth ∧ r'.preds = r.preds ∧
      r'.labels = r.labels ∧ ∀ k, dd'.get r'.dist k = f (g.dd.get r.dist k)) run.events run'.events ∧
    run.ending = run'.ending := by
  intro run run'
  have hm := hf.strictMono
  have := run_sim (m := aStep g c) (m' := aStep ⟨g.mo, g.lo, dd'⟩ (c.convert f))
    (fun s s' => s'.pc = convPc f s.pc ∧ s'.heap = s.heap.map (HEntry.conv f id) ∧ s'.no = s.no ∧ s'.preds = s.preds ∧
      s'.labels = s.labels ∧ ConvDist f g.dd dd' s.dist s'.dist ∧ ConvDist f g.dd dd' s.guesses s'.guesses)
    (fun _ _ => True)
    (fun (r : AStarReport V W M ML D) (r' : AStarReport V W' M ML D') =>
      r'.vertex = r.vertex ∧ r'.pathLength = f r.pathLength ∧ r'.depth = r.depth ∧ r'.preds = r.preds ∧
      r'.labels = r.labels ∧ ∀ k, dd'.get r'.dist k = f (g.dd.get r.dist k))
    ?_ fuel (prepareLimit limit) (aInit g c none none starts) (aInit ⟨g.mo, g.lo, dd'⟩ (c.convert f) none none starts) ?_
  · exact ⟨this.1, this.2.1⟩
  · rintro ⟨pc, heap, no, d, gu, pr, la⟩ ⟨pc', heap', no', d', gu', pr', la'⟩ ⟨h1, h2, h3, h4, h5, h6, h7⟩
    dsimp only at h1 h2 h3 h4 h5 h6 h7
    subst h1 h2 h3 h4 h5
    cases pc with
    | loop =>
      cases heap with
      | nil => exact .stop trivial
      | cons e rest =>
        have hiff : dd'.get gu' (c.vid e.item.1) < f e.key ↔ g.dd.get gu (c.vid e.item.1) < e.key := by
          rw [h7, hm.lt_iff_lt]
        simp only [aStep, convPc, List.map_cons, HEntry.conv, id, AStarCfg.convert, hiff]
        split
        · exact .tau ⟨rfl, rfl, rfl, rfl, rfl, h6, h7⟩
        · rw [h6]
          split
          · exact .emit ⟨rfl, rfl, rfl, rfl, rfl, h6⟩ ⟨rfl, rfl, rfl, rfl, rfl, h6, h7⟩
          · exact .tau ⟨rfl, rfl, rfl, rfl, rfl, h6, h7⟩
    | expand v w ec => exact .expand ⟨rfl, rfl, rfl, rfl, rfl, h6, h7⟩
    | edges v w ec es =>
      cases es with
      | nil => exact .tau ⟨rfl, rfl, rfl, rfl, rfl, h6, h7⟩
      | cons x es =>
        obtain ⟨n, x, l⟩ := x
        simp only [aStep, convPc, List.map_cons, ← hf.add]
        by_cases hi : c.inf ≤ x + w
        · rw [if_pos hi, if_pos (show (c.convert f).inf ≤ _ from hm.le_iff_le.2 hi)]
          exact .fail
        · have hlt := not_le.1 hi
          rw [if_neg hi, if_neg (show ¬ (c.convert f).inf ≤ _ from fun h => hi (hm.le_iff_le.1 h))]
          have himp : (aImprove g c d (c.vid n) (x + w) = none ∧
              aImprove ⟨g.mo, g.lo, dd'⟩ (c.convert f) d' (c.vid n) (f (x + w)) = none) ∨
              ∃ e e', aImprove g c d (c.vid n) (x + w) = some e ∧
                aImprove ⟨g.mo, g.lo, dd'⟩ (c.convert f) d' (c.vid n) (f (x + w)) = some e' ∧
                ConvDist f g.dd dd' e e' := by
            rw [show aImprove ⟨g.mo, g.lo, dd'⟩ (c.convert f) d' (c.vid n) (f (x + w)) =
              if c.isTree then some (dd'.set d' (c.vid n) (f (x + w))) else dd'.improve d' (c.vid n) (f (x + w)) from rfl]
            unfold aImprove
            by_cases ht : c.isTree = true
            · simp only [if_pos ht]
              exact .inr ⟨_, _, rfl, rfl, h6.set hd hd' _ _⟩
            · simp only [if_neg ht]
              exact h6.improve hm hd hd' _ hlt
          rcases himp with ⟨e1, e2⟩ | ⟨e, e', e1, e2, hs⟩
          · rw [e1, show (c.convert f).vid = c.vid from rfl, e2]
            exact .tau ⟨rfl, rfl, rfl, rfl, rfl, h6, h7⟩
          · rw [e1, show (c.convert f).vid = c.vid from rfl, e2]
            simp only [show (c.convert f).inf = f c.inf from rfl, show (c.convert f).heur n = f (c.heur n) from rfl,
              conv_aGuess hf, hm.le_iff_le, ne_eq, hm.injective.eq_iff]
            split
            · exact .fail
            · refine .tau ⟨rfl, conv_push hm id heap ⟨aGuess c.inf (x + w) (c.heur n), no', (n, ec + 1)⟩, rfl, rfl, rfl,
                hs, ?_⟩
              show ConvDist f g.dd dd' (if c.isTree then gu else _) (if c.isTree then gu' else _)
              split
              · exact h7
              · exact h7.set hd hd' _ _
  · have hs : ConvDist f g.dd dd' (aDistances g c none starts)
        (aDistances ⟨g.mo, g.lo, dd'⟩ (c.convert f) none starts) := by
      have := ConvDist.setAll hd hd' (starts.map (fun v => (c.vid v, 0))) (.empty hd hd')
      simp only [List.map_map, Function.comp_def, hf.zero] at this
      exact this
    have hg : ConvDist f g.dd dd' (aGuesses g c none (aDistances g c none starts) starts)
        (aGuesses ⟨g.mo, g.lo, dd'⟩ (c.convert f) none (aDistances ⟨g.mo, g.lo, dd'⟩ (c.convert f) none starts) starts) := by
      have := ConvDist.setAll hd hd'
        (starts.map (fun v => (c.vid v, g.dd.get (aDistances g c none starts) (c.vid v) + c.heur v))) (.empty hd hd')
      simp only [List.map_map, Function.comp_def, hf.add, ← hs _] at this
      exact this
    refine ⟨rfl, ?_, rfl, rfl, rfl, hs, hg⟩
    simp only [aInit, conv_aStartEntries hg, conv_heapify hm]

end astar

/-! ## Minimum spanning tree -/

section mst
variable {g : TravGear V K L S M ML} {c : MstCfg V K L W}

/-- An edge `(from, to, weight, labels)` with converted weight. -/
def convEdge (f : W → W') (e : V × V × W × L) : V × V × W' × L := (e.1, e.2.1, f e.2.2.1, e.2.2.2)

/-- The edges that remain, converted. -/
def convMstPc (f : W → W') : MstPc V L W → MstPc V L W'
  | .starts vs => .starts vs
  | .loop => .loop
  | .expand v => .expand v
  | .edges v es => .edges v (es.map (fun e => (e.1, f e.2.1, e.2.2)))

theorem conv_mstEntries (f : W → W') (v : V) (es : List (V × W × L)) (no : Int) :
    mstEntries v (es.map (fun e => (e.1, f e.2.1, e.2.2))) no =
      (mstEntries v es no).map (HEntry.conv f (convEdge f)) := by
  induction es generalizing no with
  | nil => rfl
  | cons e es ih => simp only [List.map_cons, mstEntries, ih]; rfl

/-- **C101 (`TraversalMinimumSpanningTree`).** Only the order of the weights matters: if the weights are changed by any
strictly monotone function, the same edges are reported (but with the changed weights), in the same order, with the same paths, at the
same moments of the reading of the graph; and the traversal ends in the same way. -/
theorem C101_mst (hm : StrictMono f) (starts : List V) (limit : Option Int) (fuel : Nat) :
    let run := mstRun g c starts limit fuel
    let run' := mstRun g (c.convert f) starts limit fuel
    List.Forall₂ (EvRel fun (r : MstReport V L W M ML) (r' : MstReport V L W' M ML) =>
      r'.vertex = r.vertex ∧ r'.edge = (r.edge.1, r.edge.2.1, f r.edge.2.2.1, r.edge.2.2.2) ∧ r'.preds = r.preds ∧
      r'.labels = r.labels) run.events run'.events ∧
    run.ending = run'.ending := by
  intro run run'
  simp only [run, run', mstRun]
  split
  · exact ⟨.nil, rfl⟩
  have := run_sim (m := mstStep g c) (m' := mstStep g (c.convert f))
    (fun s s' => s'.pc = convMstPc f s.pc ∧ s'.heap = s.heap.map (HEntry.conv f (convEdge f)) ∧ s'.no = s.no ∧
      s'.visited = s.visited ∧ s'.preds = s.preds ∧ s'.labels = s.labels)
    (fun _ _ => True)
    (fun (r : MstReport V L W M ML) (r' : MstReport V L W' M ML) =>
      r'.vertex = r.vertex ∧ r'.edge = (r.edge.1, r.edge.2.1, f r.edge.2.2.1, r.edge.2.2.2) ∧ r'.preds = r.preds ∧
      r'.labels = r.labels)
    ?_ fuel (prepareLimit limit) (mstInit g c starts) (mstInit g (c.convert f) starts) ?_
  · exact ⟨this.1, this.2.1⟩
  · rintro ⟨pc, heap, no, vis, pr, la⟩ ⟨pc', heap', no', vis', pr', la'⟩ ⟨h1, h2, h3, h4, h5, h6⟩
    dsimp only at h1 h2 h3 h4 h5 h6
    subst h1 h2 h3 h4 h5 h6
    cases pc with
    | starts vs =>
      cases vs with
      | nil => exact .tau ⟨rfl, conv_heapify hm _ heap, rfl, rfl, rfl, rfl⟩
      | cons v vs =>
        refine .expand ⟨rfl, ?_, ?_, rfl, rfl, rfl⟩
        · show _ ++ mstEntries v (convertEdges f c.next v) _ = _
          simp only [convertEdges, conv_mstEntries, List.map_append]
        · show _ + ((convertEdges f c.next v).length : Int) = _
          simp only [convertEdges, List.length_map]
    | loop =>
      cases heap with
      | nil => exact .stop trivial
      | cons e rest =>
        simp only [mstStep, convMstPc, List.map_cons]
        by_cases hc : (g.so.checkAdd vis' (c.vid e.item.2.1)).1 = true
        · rw [if_pos hc, if_pos (show (g.so.checkAdd vis' ((c.convert f).vid (e.conv f (convEdge f)).item.2.1)).1 = true from hc)]
          exact .tau ⟨rfl, rfl, rfl, rfl, rfl, rfl⟩
        · rw [if_neg hc,
            if_neg (show ¬ (g.so.checkAdd vis' ((c.convert f).vid (e.conv f (convEdge f)).item.2.1)).1 = true from hc)]
          exact .emit ⟨rfl, rfl, rfl, rfl⟩ ⟨rfl, rfl, rfl, rfl, rfl, rfl⟩
    | expand v => exact .expand ⟨rfl, rfl, rfl, rfl, rfl, rfl⟩
    | edges v es =>
      cases es with
      | nil => exact .tau ⟨rfl, rfl, rfl, rfl, rfl, rfl⟩
      | cons e es =>
        simp only [mstStep, convMstPc, List.map_cons]
        by_cases hc : g.so.contains vis' (c.vid e.1) = true
        · rw [if_pos hc, if_pos (show g.so.contains vis' ((c.convert f).vid e.1) = true from hc)]
          exact .tau ⟨rfl, rfl, rfl, rfl, rfl, rfl⟩
        · rw [if_neg hc, if_neg (show ¬ g.so.contains vis' ((c.convert f).vid e.1) = true from hc)]
          exact .tau ⟨rfl, conv_push hm (convEdge f) heap ⟨e.2.1, no', (v, e)⟩, rfl, rfl, rfl, rfl⟩
  · exact ⟨rfl, rfl, rfl, rfl, rfl, rfl⟩

end mst

/-! ## Bidirectional shortest path search -/

section bd
variable {g : WGear V K L W M ML D} {dd' : DistOps D' K W'} {c : BdCfg V K L W}

/-- The edges that remain, converted. -/
def convBdPc (f : W → W') : BdPc V L W → BdPc V L W'
  | .loop => .loop
  | .edges v w es => .edges v (f w) (es.map (fun e => (e.1, f e.2.1, e.2.2)))

/-- The variables of one direction. -/
def ConvSide (f : W → W') (dd : DistOps D K W) (dd' : DistOps D' K W') (x : BdSide V W M ML D) (x' : BdSide V W' M ML D') : Prop :=
  x'.heap = x.heap.map (HEntry.conv f id) ∧ x'.no = x.no ∧ x'.preds = x.preds ∧ x'.labels = x.labels ∧ x'.lim = x.lim ∧
  ConvDist f dd dd' x.dist x'.dist

/-- The states of the two searches. -/
def ConvBd (f : W → W') (dd : DistOps D K W) (dd' : DistOps D' K W') (s : BdState V L W M ML D)
    (s' : BdState V L W' M ML D') : Prop :=
  s'.pc = convBdPc f s.pc ∧ ConvSide f dd dd' s.fw s'.fw ∧ ConvSide f dd dd' s.bw s'.bw ∧ s'.back = s.back ∧
  s'.best = f s.best ∧ s'.node = s.node ∧ s'.others = f s.others ∧ s'.found = s.found

theorem ConvBd.get {dd : DistOps D K W} {s : BdState V L W M ML D} {s' : BdState V L W' M ML D'}
    (h : ConvBd f dd dd' s s') (b : Bool) : ConvSide f dd dd' (s.get b) (s'.get b) := by
  cases b
  · exact h.2.1
  · exact h.2.2.1

theorem ConvBd.setCur {dd : DistOps D K W} {s : BdState V L W M ML D} {s' : BdState V L W' M ML D'}
    (h : ConvBd f dd dd' s s') {x : BdSide V W M ML D} {x' : BdSide V W' M ML D'} (hx : ConvSide f dd dd' x x') :
    ConvBd f dd dd' (s.setCur x) (s'.setCur x') := by
  obtain ⟨h1, h2, h3, h4, h5, h6, h7, h8⟩ := h
  unfold BdState.setCur
  rw [h4]
  split
  · exact ⟨h1, h2, hx, rfl, h5, h6, h7, h8⟩
  · exact ⟨h1, hx, h3, rfl, h5, h6, h7, h8⟩

theorem conv_bdStartEntries {d : D} {d' : D'} (h : ConvDist f g.dd dd' d d') (vs : List V) (no : Int) :
    bdStartEntries ⟨g.mo, g.lo, dd'⟩ (c.convert f) d' vs no = (bdStartEntries g c d vs no).map (HEntry.conv f id) := by
  induction vs generalizing no with
  | nil => rfl
  | cons v vs ih =>
    simp only [bdStartEntries, List.map_cons, ih]
    congr 1
    simp only [HEntry.conv, BdCfg.convert, h (c.vid v), id]

theorem conv_bdInitSide (hf : Converts f) (hd : g.dd.Lawful c.inf) (hd' : dd'.Lawful (f c.inf)) (starts : List V)
    (limit : Option Int) : ConvSide f g.dd dd' (bdInitSide g c starts limit)
      (bdInitSide ⟨g.mo, g.lo, dd'⟩ (c.convert f) starts limit) := by
  have hs : ConvDist f g.dd dd' (bdDistances g c starts) (bdDistances ⟨g.mo, g.lo, dd'⟩ (c.convert f) starts) := by
    have := ConvDist.setAll hd hd' (starts.map (fun v => (c.vid v, 0))) (.empty hd hd')
    simp only [List.map_map, Function.comp_def, hf.zero] at this
    exact this
  refine ⟨?_, rfl, rfl, rfl, rfl, hs⟩
  simp only [bdInitSide, conv_bdStartEntries hs, conv_heapify hf.strictMono]

theorem conv_bdStep (hf : Converts f) (hd : g.dd.Lawful c.inf) (hd' : dd'.Lawful (f c.inf))
    (s : BdState V L W M ML D) (s' : BdState V L W' M ML D') (h : ConvBd f g.dd dd' s s') :
    StepRel (ConvBd f g.dd dd') (ConvBd f g.dd dd') (fun _ _ => True) (bdStep g c s)
      (bdStep ⟨g.mo, g.lo, dd'⟩ (c.convert f) s') := by
  have hm := hf.strictMono
  have hme := h.get s.back
  have hot := h.get (!s.back)
  have hb : s'.back = s.back := h.2.2.2.1
  obtain ⟨i1, i2, i3, i4, i5, i6⟩ := hme
  cases hp : s.pc with
  | loop =>
    have hp' : s'.pc = .loop := by rw [h.1, hp]; rfl
    simp only [bdStep, hp, hp', hb]
    cases hh : (s.get s.back).heap with
    | nil =>
      have hh' : (s'.get s.back).heap = [] := by rw [i1, hh]; rfl
      simp only [hh']
      exact .stop h
    | cons e rest =>
      have hh' : (s'.get s.back).heap = e.conv f id :: rest.map (HEntry.conv f id) := by rw [i1, hh]; rfl
      have hv : (c.convert f).vid = c.vid := rfl
      have hiff : dd'.get (s'.get s.back).dist (c.vid (HEntry.conv f id e).item) < (HEntry.conv f id e).key ↔
          g.dd.get (s.get s.back).dist (c.vid e.item) < e.key := by
        show dd'.get _ (c.vid e.item) < f e.key ↔ _
        rw [i6, hm.lt_iff_lt]
      have hiff2 : ((c.convert f).inf ≠ s'.best ∧ s'.best ≤ (HEntry.conv f id e).key + s'.others) ↔
          (c.inf ≠ s.best ∧ s.best ≤ e.key + s.others) := by
        rw [h.2.2.2.2.1, h.2.2.2.2.2.2.1]
        show (f c.inf ≠ f s.best ∧ f s.best ≤ f e.key + f s.others) ↔ _
        rw [← hf.add, hm.le_iff_le, ne_eq, hm.injective.eq_iff]
      simp only [hh', hv, hiff, hiff2, i5]
      have hset : ∀ lim, ConvBd f g.dd dd' (s.setCur { s.get s.back with heap := rest, lim := lim })
          (s'.setCur { s'.get s.back with heap := rest.map (HEntry.conv f id), lim := lim }) :=
        fun lim => h.setCur ⟨rfl, i2, i3, i4, rfl, i6⟩
      split
      · obtain ⟨j1, j2, j3, j4, j5, j6, j7, j8⟩ := hset (s.get s.back).lim
        exact .tau ⟨j1, j2, j3, rfl, j5, j6, j7, j8⟩
      · split
        · obtain ⟨j1, j2, j3, j4, j5, j6, j7, j8⟩ := h
          exact .stop ⟨rfl, j2, j3, rfl, j5, j6, j7, rfl⟩
        · cases hl : checkLimit (s.get s.back).lim with
          | none => exact .fail
          | some lim =>
            obtain ⟨j1, j2, j3, j4, j5, j6, j7, j8⟩ := hset lim
            refine .expand ⟨?_, j2, j3, j4, j5, j6, rfl, j8⟩
            simp only [convBdPc, HEntry.conv, id, BdCfg.next]
            cases s.back <;> rfl
  | edges v w es =>
    have hp' : s'.pc = convBdPc f (.edges v w es) := by rw [h.1, hp]
    obtain ⟨j1, j2, j3, j4, j5, j6, j7, j8⟩ := id h
    cases es with
    | nil =>
      simp only [bdStep, hp, hp', hb, convBdPc, List.map_nil]
      exact .tau ⟨rfl, j2, j3, rfl, j5, j6, j7, j8⟩
    | cons x es =>
      obtain ⟨n, x, l⟩ := x
      have hv : (c.convert f).vid = c.vid := rfl
      simp only [bdStep, hp, hp', hb, convBdPc, List.map_cons, ← hf.add, hv]
      by_cases hi : c.inf ≤ x + w
      · rw [if_pos hi, if_pos (show (c.convert f).inf ≤ _ from hm.le_iff_le.2 hi)]
        exact .fail
      · have hlt := not_le.1 hi
        rw [if_neg hi, if_neg (show ¬ (c.convert f).inf ≤ _ from fun h => hi (hm.le_iff_le.1 h))]
        rcases i6.improve hm hd hd' (c.vid n) hlt with ⟨e1, e2⟩ | ⟨e, e', e1, e2, hs⟩
        · simp only [e1, e2]
          exact .tau ⟨rfl, j2, j3, rfl, j5, j6, j7, j8⟩
        · simp only [e1, e2]
          have hside : ConvSide f g.dd dd'
              { s.get s.back with
                heap := heapPush (s.get s.back).heap ⟨x + w, (s.get s.back).no, n⟩
                no := (s.get s.back).no - 1
                dist := e
                preds := if c.buildPath then g.mo.set (s.get s.back).preds (c.vid n) v else (s.get s.back).preds
                labels := if c.buildPath then g.lo.set (s.get s.back).labels (c.vid n) l else (s.get s.back).labels }
              { s'.get s.back with
                heap := heapPush (s'.get s.back).heap ⟨f (x + w), (s'.get s.back).no, n⟩
                no := (s'.get s.back).no - 1
                dist := e'
                preds := if (c.convert f).buildPath then g.mo.set (s'.get s.back).preds (c.vid n) v else (s'.get s.back).preds
                labels := if (c.convert f).buildPath then g.lo.set (s'.get s.back).labels (c.vid n) l
                  else (s'.get s.back).labels } := by
            refine ⟨?_, by simp only [i2], ?_, ?_, i5, hs⟩
            · simp only [i1, i2]
              exact conv_push hm id _ ⟨x + w, (s.get s.back).no, n⟩
            · simp only [i3]; rfl
            · simp only [i4]; rfl
          obtain ⟨k1, k2, k3, k4, k5, k6, k7, k8⟩ := h.setCur hside
          have htot : f (x + w) + dd'.get (s'.get (!s.back)).dist (c.vid n) =
              f (x + w + g.dd.get (s.get (!s.back)).dist (c.vid n)) := by
            rw [hot.2.2.2.2.2, ← hf.add]
          simp only [htot, j5, hm.le_iff_le]
          split
          · exact .tau ⟨rfl, k2, k3, k4, k5, k6, k7, k8⟩
          · exact .tau ⟨rfl, k2, k3, k4, rfl, rfl, k7, k8⟩

/-- **C101 (`BSearchShortestPath`).** Convert the weights of both graphs (and the infinity value). Then the answer of the search is
the same, with a converted length. -/
theorem C101_bd (hf : Converts f) (hd : g.dd.Lawful c.inf) (hd' : dd'.Lawful (f c.inf)) (starts goals : List V)
    (limit : Option Int) (fuel pathFuel : Nat) :
    bdSearch ⟨g.mo, g.lo, dd'⟩ (c.convert f) starts goals limit fuel pathFuel =
      convertResult f (bdSearch g c starts goals limit fuel pathFuel) := by
  unfold bdSearch
  cases starts with
  | nil => rfl
  | cons start starts =>
    cases goals with
    | nil => rfl
    | cons goal goals =>
      simp only [show (c.convert f).vid = c.vid from rfl]
      cases hb : biCommon c.vid (start :: starts) (goal :: goals) true true with
      | some v => simp only [convertResult, hf.zero]
      | none =>
        have hsim := (run_sim (ConvBd f g.dd dd') (ConvBd f g.dd dd') (fun _ _ => True) (conv_bdStep hf hd hd') fuel none
          (bdInit g c start (start :: starts) (goal :: goals) limit)
          (bdInit ⟨g.mo, g.lo, dd'⟩ (c.convert f) start (start :: starts) (goal :: goals) limit)
          ⟨rfl, conv_bdInitSide hf hd hd' _ _, conv_bdInitSide hf hd hd' _ _, rfl, rfl, rfl, hf.zero.symm, rfl⟩).2
        simp only [← hsim.1]
        cases he : (runMachine (bdStep g c) fuel none (bdInit g c start (start :: starts) (goal :: goals) limit)).ending with
        | done =>
          obtain ⟨j1, j2, j3, j4, j5, j6, j7, j8⟩ := hsim.2 he
          simp only [j8]
          split
          · simp only [convertResult, j5, bdPath, j6, j2.2.2.1, j2.2.2.2.1, j3.2.2.1, j3.2.2.2.1]
            rfl
          · rfl
        | raised e => rfl
        | outOfFuel => rfl

end bd

/-! ## Non-vacuity -/

/-- From integers to fractions, in another unit. -/
def exUnit (w : Nat) : Rat := (w : Rat) / 3

theorem exUnit_converts : Converts exUnit := by
  refine ⟨by simp [exUnit], fun a b => ?_, fun a b h => ?_⟩
  · simp only [exUnit]; push_cast; ring
  · have : (a : Rat) < b := by exact_mod_cast h
    simp only [exUnit]
    linarith

example (starts : List Nat) (limit : Option Int) (fuel : Nat) :=
  C101_sp (g := exWHash) (c := exWCfg true) (dd' := dictDist (exUnit 1000)) exUnit_converts (dictDist_lawful 1000)
    (dictDist_lawful _) starts limit fuel

example : ((spRun exWHash (exWCfg true) none [0] none 100).reports.map (fun r => (r.vertex, r.distance, r.depth)),
      (spRun ⟨dictMap, dictMap, dictDist (exUnit 1000)⟩ ((exWCfg true).convert exUnit) none [0] none 100).reports.map
        (fun r => (r.vertex, r.distance, r.depth))) =
    ([(2, 1, 1), (4, 1, 2), (1, 3, 2), (3, 4, 3)], [(2, 1 / 3, 1), (4, 1 / 3, 2), (1, 1, 2), (3, 4 / 3, 3)]) := by
  decide +kernel

example (starts : List Nat) (limit : Option Int) (fuel : Nat) :=
  C101_astar (g := exWHash) (c := exACfg) (dd' := dictDist (exUnit 1000)) exUnit_converts (dictDist_lawful 1000)
    (dictDist_lawful _) starts limit fuel

example (starts goals : List Nat) (limit : Option Int) (fuel pathFuel : Nat) :=
  C101_bd (g := exBdHash) (c := exBd) (dd' := dictDist (exUnit 1000)) exUnit_converts (dictDist_lawful 1000)
    (dictDist_lawful _) starts goals limit fuel pathFuel

/-- For spanning trees, the function need not respect sums. -/
example : StrictMono (fun w : Int => 2 * w + 1) ∧
    (mstRun exHash exMstCfg [0] none 100).reports.map (fun r => r.edge) =
      [(0, 2, 1, 'b'), (2, 1, 2, 'c'), (1, 3, -5, 'd')] ∧
    (mstRun exHash (exMstCfg.convert (fun w : Int => 2 * w + 1)) [0] none 100).reports.map (fun r => r.edge) =
      [(0, 2, 3, 'b'), (2, 1, 5, 'c'), (1, 3, -9, 'd')] := by
  refine ⟨fun a b h => by simp only; omega, ?_, ?_⟩ <;> decide +kernel

end NoGraphs
