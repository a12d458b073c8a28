import Verif.Proofs.SearchRaising
import Verif.Props.Raising
import Verif.Props.SearchReads

/-!
# Property C102: exceptions of the edges functions in bidirectional searches

`bdRaisingSearch` and `biRaisingSearch` give the list of the calls of edges functions (direction, `true` for incoming edges, and
vertex), and either the exception of one of these calls, or a result.
-/

set_option linter.unusedSectionVars false

namespace NoGraphs

open Spec

variable {V K L S M ML : Type} [DecidableEq V] [DecidableEq K]

/-- The missing edges of both directions. -/
theorem more_both {E : Type} {raises : Bool × V → Bool} {nextF nextB fullF fullB : V → List E}
    (hF : EdgesUntilException (fun v => raises (false, v)) nextF fullF)
    (hB : EdgesUntilException (fun v => raises (true, v)) nextB fullB) :
    ∃ f x : Bool × V → List E, nextF = (fun v => f (false, v)) ∧ nextB = (fun v => f (true, v)) ∧
      fullF = (fun v => f (false, v) ++ x (false, v)) ∧ fullB = (fun v => f (true, v) ++ x (true, v)) ∧
      ∀ p, raises p = false → x p = [] := by
  obtain ⟨x, hx1, hx2⟩ := hF.more
  obtain ⟨y, hy1, hy2⟩ := hB.more
  refine ⟨fun p => if p.1 then nextB p.2 else nextF p.2, fun p => if p.1 then y p.2 else x p.2, rfl, rfl, hx1, hy1, ?_⟩
  rintro ⟨_ | _, v⟩ h
  · exact hx2 v h
  · exact hy2 v h

/-! ## Bidirectional shortest paths search -/

section bd

variable {W D : Type} [AddCommMonoid W] [LinearOrder W] {g : WGear V K L W M ML D}

/-- More edges in the loop. -/
def bdMore (x : Bool × V → List (V × W × L)) (s : BdState V L W M ML D) : BdState V L W M ML D :=
  match s.pc with
  | .edges v w es => { s with pc := .edges v w (es ++ x (s.back, v)) }
  | _ => s

/-- The search with the given edges. -/
abbrev BdCfg.with (c : BdCfg V K L W) (f : Bool × V → List (V × W × L)) : BdCfg V K L W :=
  { c with nextF := fun v => f (false, v), nextB := fun v => f (true, v) }

theorem BdCfg.next_with (c : BdCfg V K L W) (f : Bool × V → List (V × W × L)) (b : Bool) (v : V) :
    (c.with f).next b v = f (b, v) := by cases b <;> rfl

theorem bdStartEntries_with (c : BdCfg V K L W) (f : Bool × V → List (V × W × L)) (d : D) (vs : List V) (no : Int) :
    bdStartEntries g (c.with f) d vs no = bdStartEntries g c d vs no := by
  induction vs generalizing no with
  | nil => rfl
  | cons v vs ih => simp only [bdStartEntries, ih]

theorem bdInitSide_with (c : BdCfg V K L W) (f : Bool × V → List (V × W × L)) (vs : List V) (limit : Option Int) :
    bdInitSide g (c.with f) vs limit = bdInitSide g c vs limit := by
  simp only [bdInitSide, bdStartEntries_with]; rfl

theorem bd_more_step (c : BdCfg V K L W) (f x : Bool × V → List (V × W × L)) (s : BdState V L W M ML D)
    (h : ∀ p, bdOpen s = some (p, []) → x p = []) :
    bdStep g (c.with (fun p => f p ++ x p)) (bdMore x s) = (bdStep g (c.with f) s).mapState (bdMore x) := by
  obtain ⟨pc, fw, bw, back, best, node, others, found⟩ := s
  rcases pc with _ | ⟨v, w, _ | ⟨⟨n, y, l⟩, es⟩⟩
  · simp only [bdMore, bdStep, BdCfg.next_with]
    generalize hme : (BdState.get ⟨.loop, fw, bw, back, best, node, others, found⟩ back : BdSide V W M ML D) = me
    rcases hh : me.heap with _ | ⟨e, rest⟩
    · rfl
    · simp only
      by_cases h1 : g.dd.get me.dist (c.vid e.item) < e.key
      · simp only [if_pos h1]
        cases back <;> rfl
      · simp only [if_neg h1]
        by_cases h2 : c.inf ≠ best ∧ best ≤ e.key + others
        · simp only [if_pos h2]; rfl
        · simp only [if_neg h2]
          cases checkLimit me.lim
          · rfl
          · cases back <;> rfl
  · simp [bdMore, bdStep, Step.mapState, h (back, v) rfl]
  · simp only [bdMore, bdStep, List.cons_append]
    by_cases h1 : c.inf ≤ y + w
    · simp only [if_pos h1]; rfl
    · simp only [if_neg h1]
      have hget : ∀ (es' : List (V × W × L)) (b : Bool), (BdState.get ⟨.edges v w es', fw, bw, back, best, node, others, found⟩ b : BdSide V W M ML D) =
        if b then bw else fw := fun _ _ => rfl
      simp only [hget]
      cases g.dd.improve (if back = true then bw else fw).dist (c.vid n) (y + w) with
      | none => cases back <;> rfl
      | some d =>
        simp only
        by_cases h2 : best ≤ y + w + g.dd.get (if (!back) = true then bw else fw).dist (c.vid n)
        · simp only [if_pos h2]; cases back <;> rfl
        · simp only [if_neg h2]; cases back <;> rfl

theorem bd_more_who (x : Bool × V → List (V × W × L)) (s : BdState V L W M ML D) : bdWho (bdMore x s) = bdWho s := by
  obtain ⟨pc, fw, bw, back, best, node, others, found⟩ := s
  rcases pc with _ | ⟨v, w, es⟩ <;> rfl

theorem bd_search_shape (c : BdCfg V K L W) (f : Bool × V → List (V × W × L)) (s : BdState V L W M ML D) :
    SearchShape f bdWho bdOpen (fun _ => True) s (bdStep g (c.with f) s) := by
  obtain ⟨pc, fw, bw, back, best, node, others, found⟩ := s
  rcases pc with _ | ⟨v, w, _ | ⟨⟨n, y, l⟩, es⟩⟩
  · simp only [bdStep, BdCfg.next_with]
    generalize hme : (BdState.get ⟨.loop, fw, bw, back, best, node, others, found⟩ back : BdSide V W M ML D) = me
    rcases hh : me.heap with _ | ⟨e, rest⟩
    · exact fun _ => rfl
    · simp only
      split
      · cases back <;> rfl
      · split
        · exact fun _ => rfl
        · split
          · trivial
          · refine ⟨rfl, (back, e.item), ?_, ?_⟩
            · simp only [bdWho, hme, hh]
            · cases back <;> rfl
  · rfl
  · simp only [bdStep]
    split
    · trivial
    · split
      · rfl
      · split
        · cases back <;> rfl
        · cases back <;> rfl

/-- **C102 (bidirectional shortest paths search).** `fullF` and `fullB` give all edges, the functions of the search, `c.nextF` and
`c.nextB`, only those before an exception. The calls of edges functions are the first ones of those of the search without
exceptions. The exception of the first vertex with an exception is raised (and if a path is found, or not found, then
no function has been called for such a vertex). And if no exception is raised, the result, and all calls, are those of the
search without exceptions. -/
theorem C102_bd (c : BdCfg V K L W) (raises : Bool × V → Bool) (fullF fullB : V → List (V × W × L))
    (hF : EdgesUntilException (fun v => raises (false, v)) c.nextF fullF)
    (hB : EdgesUntilException (fun v => raises (true, v)) c.nextB fullB)
    (starts goals : List V) (limit : Option Int) (fuel pathFuel : Nat) :
    let full := { c with nextF := fullF, nextB := fullB }
    let r := bdRaisingSearch g c raises starts goals limit fuel pathFuel
    r.1 <+: bdReads g full starts goals limit fuel ∧
    RaisesAtFirst raises r.1 r.exception? (r.2 = .ok .notFound ∨ ∃ n p, r.2 = .ok (.found n p)) ∧
    ∀ a, r.2 = .ok a →
      a = bdSearch g full starts goals limit fuel pathFuel ∧ r.1 = bdReads g full starts goals limit fuel := by
  obtain ⟨f, x, h1, h2, h3, h4, hx⟩ := more_both hF hB
  obtain ⟨nF, nB, vid, bp, inf⟩ := c
  simp only at h1 h2
  subst h1 h2 h3 h4
  generalize hc : (⟨fun v => f (false, v), fun v => f (true, v), vid, bp, inf⟩ : BdCfg V K L W) = c
  have hc1 : c = c.with f := by rw [← hc]
  have hc2 : ({ c with nextF := fun v => f (false, v) ++ x (false, v), nextB := fun v => f (true, v) ++ x (true, v) } :
    BdCfg V K L W) = c.with (fun p => f p ++ x p) := rfl
  simp only [hc2]
  rcases starts with _ | ⟨start, ss⟩
  · exact ⟨List.nil_prefix, .nil, fun a h => ⟨by simpa [bdRaisingSearch, bdSearch] using h.symm, rfl⟩⟩
  rcases goals with _ | ⟨goal, gs⟩
  · exact ⟨List.nil_prefix, .nil, fun a h => ⟨by simpa [bdRaisingSearch, bdSearch] using h.symm, rfl⟩⟩
  simp only [bdRaisingSearch, bdReads, bdSearch]
  have hv : (c.with (fun p => f p ++ x p)).vid = c.vid := rfl
  rw [hv]
  rcases hcom : biCommon c.vid (start :: ss) (goal :: gs) true true with _ | v
  · simp only
    have hinit : bdInit g (c.with (fun p => f p ++ x p)) start (start :: ss) (goal :: gs) limit =
      bdMore x (bdInit g c start (start :: ss) (goal :: gs) limit) := by
      simp only [bdInit, bdInitSide_with]; rfl
    rw [hinit]
    have hA := search_raises_at_first (fun _ => True) (fun _ _ _ _ => trivial) (fun _ _ _ _ => trivial)
      (fun s _ => bd_search_shape (g := g) c f s) raises fuel (bdInit g c start (start :: ss) (goal :: gs) limit) trivial
    have hBg := search_begins (m := fun f => bdStep g (c.with f)) (bd_more_step c) bd_more_who raises f x hx fuel
      (bdInit g c start (start :: ss) (goal :: gs) limit)
    rw [← hc1] at hA hBg
    simp only at hA hBg
    generalize runSearchRaising (bdStep g c) bdWho bdOpen raises fuel (bdInit g c start (start :: ss) (goal :: gs) limit) = r
      at hA hBg
    obtain ⟨reads, ending, final⟩ := r
    obtain ⟨hp, hu⟩ := hBg
    have hpath : ∀ s : BdState V L W M ML D, bdPath g (c.with (fun p => f p ++ x p)) (bdMore x s) pathFuel =
        bdPath g c s pathFuel := by
      intro s
      rw [show (bdPath g (c.with (fun p => f p ++ x p)) (bdMore x s) pathFuel) = bdPath g c (bdMore x s) pathFuel from rfl]
      obtain ⟨pc, fw, bw, back, best, node, others, found⟩ := s
      rcases pc with _ | ⟨v, w, es⟩ <;> rfl
    have hfb : ∀ s : BdState V L W M ML D, (bdMore x s).found = s.found ∧ (bdMore x s).best = s.best := by
      intro s
      obtain ⟨pc, fw, bw, back, best, node, others, found⟩ := s
      rcases pc with _ | ⟨v, w, es⟩ <;> exact ⟨rfl, rfl⟩
    refine ⟨hp, ?_, ?_⟩
    · rcases ending with (_ | _ | e) | p
      · exact ⟨hA.last, hA.raised, fun _ => hA.complete ⟨rfl, trivial⟩⟩
      · exact ⟨hA.last, hA.raised, by simp⟩
      · exact ⟨hA.last, hA.raised, by simp⟩
      · exact ⟨hA.last, hA.raised, by simp⟩
    · rcases ending with e | p
      · intro a ha
        obtain ⟨h1, h2, h3⟩ := hu e rfl
        refine ⟨?_, h1⟩
        simp only at h3
        rw [h2, h3, hpath, (hfb _).1, (hfb _).2]
        rcases e with _ | _ | e <;> simpa using ha.symm
      · simp
  · simp only
    exact ⟨List.nil_prefix, .nil, fun a h => ⟨by simpa using h.symm, trivial⟩⟩

end bd

/-! ## Bidirectional breadth-first search -/

section bi

variable {g : TravGear V K L S M ML}

/-- The search with the given edges. -/
abbrev BiCfg.with (c : BiCfg V K L) (f : Bool × V → List (V × L)) : BiCfg V K L :=
  { c with nextF := fun v => f (false, v), nextB := fun v => f (true, v) }

/-- More edges in the loops. -/
def biMore (x : Bool × V → List (V × L)) (s : BiState V L S M ML) : BiState V L S M ML :=
  { s with
    fw := { s.fw with st := bfsMore (fun v => x (false, v)) s.fw.st }
    bw := { s.bw with st := bfsMore (fun v => x (true, v)) s.bw.st } }

theorem bfsMore_same (x : V → List (V × L)) (s : BfsState V L S M ML) :
    (bfsMore x s).visited = s.visited ∧ (bfsMore x s).preds = s.preds ∧ (bfsMore x s).labels = s.labels ∧
      (bfsMore x s).depth = s.depth ∧ bfsWho (bfsMore x s) = bfsWho s := by
  obtain ⟨pc, te, nte, d, vis, pr, la⟩ := s
  rcases pc with _ | _ | ⟨v, es⟩ | _ <;> exact ⟨rfl, rfl, rfl, rfl, rfl⟩

theorem bfs_more_step (rdi : Bool) (c : TravCfg V K L) (f x : V → List (V × L)) (s : BfsState V L S M ML)
    (h : ∀ v, bfsOpen s = some (v, []) → x v = []) :
    bfsStep g { c with next := fun v => f v ++ x v } rdi (bfsMore x s) =
      (bfsStep g { c with next := f } rdi s).mapState (bfsMore x) := by
  obtain ⟨pc, te, nte, d, vis, pr, la⟩ := s
  rcases pc with _ | _ | ⟨v, _ | ⟨e, es⟩⟩ | _
  · rcases te with _ | ⟨u, te⟩ <;> rfl
  · rcases te with _ | ⟨u, te⟩
    · simp only [bfsMore, bfsStep]
      cases rdi <;> cases nte.getLast? <;> rfl
    · rfl
  · simp [bfsMore, bfsStep, Step.mapState, h v rfl]
  · simp only [bfsMore, bfsStep, List.cons_append]
    rcases bfsVisit g c.isTree c.buildPaths c.vid vis pr la v e with _ | ⟨a, b, l⟩ <;> rfl
  · rfl

theorem biMore_cur (x : Bool × V → List (V × L)) (s : BiState V L S M ML) :
    (biMore x s).cur = { s.cur with st := bfsMore (fun v => x (s.back, v)) s.cur.st } := by
  obtain ⟨fw, bw, back, prev, result⟩ := s
  cases back <;> rfl

theorem biMore_setCur (x : Bool × V → List (V × L)) (s : BiState V L S M ML) (y : BiSide V L S M ML) :
    (biMore x s).setCur { y with st := bfsMore (fun v => x (s.back, v)) y.st } = biMore x (s.setCur y) := by
  obtain ⟨fw, bw, back, prev, result⟩ := s
  cases back <;> rfl

theorem biMore_depth (x : Bool × V → List (V × L)) (s : BiState V L S M ML) :
    (biMore x s).fw.depth = s.fw.depth ∧ (biMore x s).bw.depth = s.bw.depth := by
  simp only [biMore, BiSide.depth, (bfsMore_same _ _).2.2.2.1, and_self]

theorem biPath_more (c : BiCfg V K L) (f x : Bool × V → List (V × L)) (s : BiState V L S M ML) (v : V) :
    biPath g (c.with f) (biMore x s) v = biPath g c s v := by
  have h1 : (biMore x s).fw.st.preds = s.fw.st.preds := (bfsMore_same _ _).2.1
  have h2 : (biMore x s).fw.st.labels = s.fw.st.labels := (bfsMore_same _ _).2.2.1
  have h3 : (biMore x s).bw.st.preds = s.bw.st.preds := (bfsMore_same _ _).2.1
  have h4 : (biMore x s).bw.st.labels = s.bw.st.labels := (bfsMore_same _ _).2.2.1
  simp only [biPath, h1, h2, h3, h4, (biMore_depth x s).1, (biMore_depth x s).2]

theorem BiCfg.side_with (c : BiCfg V K L) (f : Bool × V → List (V × L)) (b : Bool) :
    (c.with f).side b = { c.side b with next := fun v => f (b, v) } := by cases b <;> rfl

theorem bi_more_step (c : BiCfg V K L) (f x : Bool × V → List (V × L)) (s : BiState V L S M ML)
    (h : ∀ p, biOpen s = some (p, []) → x p = []) :
    biStep g (c.with (fun p => f p ++ x p)) (biMore x s) = (biStep g (c.with f) s).mapState (biMore x) := by
  have hst := bfs_more_step (g := g) true (c.side s.back) (fun v => f (s.back, v)) (fun v => x (s.back, v)) s.cur.st
    (by
      intro v hv
      exact h (s.back, v) (by simp only [biOpen, hv, Option.map_some]))
  have hb : (biMore x s).back = s.back := rfl
  have ho : (biMore x s).other.st.visited = s.other.st.visited := by
    simp only [BiState.other, hb]
    cases s.back <;> exact (bfsMore_same _ _).1
  unfold biStep
  rw [BiCfg.side_with, BiCfg.side_with, hb, biMore_cur]
  simp only
  rw [hst]
  cases bfsStep g { c.side s.back with next := fun v => f (s.back, v) } true s.cur.st with
  | stop t => rfl
  | fail e => rfl
  | tau t =>
    exact congrArg Step.tau (biMore_setCur x s { s.cur with st := t, started := true })
  | expand t =>
    simp only [Step.mapState]
    cases checkLimit s.cur.lim with
    | none => rfl
    | some l => exact congrArg Step.expand (biMore_setCur x s { st := t, started := true, lim := l })
  | emit r t =>
    simp only [Step.mapState]
    have hs' := biMore_setCur x s { s.cur with st := t, started := true }
    simp only at hs'
    rw [hs', ho, show (biMore x s).prev = s.prev from rfl]
    split
    · rfl
    · split
      · simp only [biPath_more, (biMore_depth _ _).1, (biMore_depth _ _).2]
        exact congrArg Step.stop (by simp only [biMore]; rfl)
      · rfl

theorem bi_more_who (x : Bool × V → List (V × L)) (s : BiState V L S M ML) : biWho (biMore x s) = biWho s := by
  simp only [biWho, biMore_cur, (bfsMore_same _ _).2.2.2.2]; rfl

/-- The traversal that is not iterated is not in a loop over edges; and the vertices that have been reported are visited. -/
structure BiCalm (g : TravGear V K L S M ML) (c : BiCfg V K L) (s : BiState V L S M ML) : Prop where
  other : bfsOpen s.other.st = none
  found : ∀ u ∈ s.cur.st.nextToExpand, g.so.contains s.cur.st.visited (c.vid u) = true
  foundOther : ∀ u ∈ s.other.st.nextToExpand, g.so.contains s.other.st.visited (c.vid u) = true
  prev : ∀ u, s.prev = some u → g.so.contains s.cur.st.visited (c.vid u) = true

theorem setCur_cur (s : BiState V L S M ML) (y : BiSide V L S M ML) : (s.setCur y).cur = y := by
  obtain ⟨fw, bw, back, prev, result⟩ := s
  cases back <;> rfl

theorem setCur_other (s : BiState V L S M ML) (y : BiSide V L S M ML) : (s.setCur y).other = s.other := by
  obtain ⟨fw, bw, back, prev, result⟩ := s
  cases back <;> rfl

theorem setCur_prev (s : BiState V L S M ML) (y : BiSide V L S M ML) : (s.setCur y).prev = s.prev := by
  obtain ⟨fw, bw, back, prev, result⟩ := s
  cases back <;> rfl

theorem setCur_back' (s : BiState V L S M ML) (y : BiSide V L S M ML) : (s.setCur y).back = s.back := by
  obtain ⟨fw, bw, back, prev, result⟩ := s
  cases back <;> rfl

/-- What a step of one of the traversals does. -/
theorem bfs_step_calm (hg : g.so.Lawful) (c : TravCfg V K L) (ht : c.isTree = false) (s : BfsState V L S M ML)
    (hf : ∀ u ∈ s.nextToExpand, g.so.contains s.visited (c.vid u) = true) :
    match bfsStep g c true s with
    | .stop _ => bfsOpen s = none
    | .fail _ => True
    | .tau t => (match bfsOpen s with
        | some (p, _ :: es) => bfsOpen t = some (p, es)
        | _ => bfsOpen t = none) ∧ t.visited = s.visited ∧ (∀ u ∈ t.nextToExpand, g.so.contains t.visited (c.vid u) = true)
    | .expand t => bfsOpen s = none ∧ t.visited = s.visited ∧ t.nextToExpand = s.nextToExpand ∧
        ∃ v, bfsWho s = some v ∧ bfsOpen t = some (v, c.next v)
    | .emit r t => (∀ k, g.so.contains s.visited k = true → g.so.contains t.visited k = true) ∧
        (∀ u ∈ t.nextToExpand, g.so.contains t.visited (c.vid u) = true) ∧ g.so.contains t.visited (c.vid r.vertex) = true ∧
        ((bfsOpen s = none ∧ bfsOpen t = none) ∨
          g.so.contains s.visited (c.vid r.vertex) = false ∧
            ∃ v e es, bfsOpen s = some (v, e :: es) ∧ bfsOpen t = some (v, es)) := by
  obtain ⟨pc, te, nte, d, vis, pr, la⟩ := s
  rcases pc with _ | _ | ⟨v, _ | ⟨e, es⟩⟩ | _
  · rcases te with _ | ⟨u, te⟩
    · exact rfl
    · exact ⟨rfl, rfl, hf⟩
  · rcases te with _ | ⟨u, te⟩
    · simp only [bfsStep]
      cases hl : nte.getLast? with
      | none => exact ⟨rfl, rfl, hf⟩
      | some l => exact ⟨fun _ h => h, hf, hf l (List.mem_of_getLast? hl), .inl ⟨rfl, rfl⟩⟩
    · exact ⟨rfl, rfl, rfl, u, rfl, rfl⟩
  · exact ⟨rfl, rfl, hf⟩
  · simp only [bfsStep, bfsVisit, ht, Bool.false_eq_true, if_false, hg.checkAdd_fst]
    by_cases hc : g.so.contains vis (c.vid e.1) = true
    · simp only [hc, if_true]
      exact ⟨rfl, trivial, hf⟩
    · simp only [hc]
      have hm : ∀ k, g.so.contains vis k = true → g.so.contains (g.so.checkAdd vis (c.vid e.1)).2 k = true := by
        intro k hk
        rw [hg.contains_checkAdd, hk, Bool.or_true]
      have hn : g.so.contains (g.so.checkAdd vis (c.vid e.1)).2 (c.vid e.1) = true := by
        rw [hg.contains_checkAdd]; simp
      have hall : ∀ u ∈ nte ++ [e.1], g.so.contains (g.so.checkAdd vis (c.vid e.1)).2 (c.vid u) = true := by
        intro u hu
        rcases List.mem_append.1 hu with hu | hu
        · exact hm _ (hf u hu)
        · rw [List.mem_singleton.1 hu]; exact hn
      cases c.buildPaths <;>
        exact ⟨hm, hall, hn, .inr ⟨by simpa using hc, v, e, es, rfl, rfl⟩⟩
  · exact ⟨rfl, rfl, by simp⟩

theorem bi_step_calm (hg : g.so.Lawful) (c : BiCfg V K L) (f : Bool × V → List (V × L)) (s : BiState V L S M ML)
    (hs : BiCalm g c s) :
    SearchShape f biWho biOpen (fun s => s.result = none) s (biStep g (c.with f) s) ∧
      ∀ t, biStep g (c.with f) s = .tau t ∨ biStep g (c.with f) s = .expand t → BiCalm g c t := by
  have hk := bfs_step_calm hg ((c.with f).side s.back) rfl s.cur.st hs.found
  unfold biStep
  cases hst : bfsStep g ((c.with f).side s.back) true s.cur.st with
  | stop t =>
    rw [hst] at hk
    refine ⟨fun _ => ?_, by simp⟩
    simp only [biOpen, show bfsOpen s.cur.st = none from hk, Option.map_none]
  | fail e => exact ⟨trivial, by simp⟩
  | tau t =>
    rw [hst] at hk
    obtain ⟨h1, h2, h3⟩ := hk
    refine ⟨?_, ?_⟩
    · simp only [SearchShape, biOpen, setCur_cur, setCur_back']
      rcases ho : bfsOpen s.cur.st with _ | ⟨v, _ | ⟨e, es⟩⟩ <;> rw [ho] at h1 <;> simp only at h1 <;>
        simp only [Option.map_none, Option.map_some, h1]
    · intro t' ht'
      simp only [Step.tau.injEq, reduceCtorEq, or_false] at ht'
      subst ht'
      refine ⟨?_, ?_, ?_, ?_⟩
      · rw [setCur_other]; exact hs.other
      · rw [setCur_cur]; exact h3
      · rw [setCur_other]; exact hs.foundOther
      · intro u hu
        rw [setCur_prev] at hu
        rw [setCur_cur]
        simp only
        rw [h2]
        exact hs.prev u hu
  | expand t =>
    rw [hst] at hk
    obtain ⟨h1, h2, h3, v, h4, h5⟩ := hk
    simp only
    cases checkLimit s.cur.lim with
    | none => exact ⟨trivial, by simp⟩
    | some l =>
      refine ⟨⟨?_, (s.back, v), ?_, ?_⟩, ?_⟩
      · simp only [biOpen, h1, Option.map_none]
      · simp only [biWho, h4, Option.map_some]
      · simp only [biOpen, setCur_cur, setCur_back', h5, Option.map_some]
        cases s.back <;> rfl
      · intro t' ht'
        simp only [Step.expand.injEq, reduceCtorEq, false_or] at ht'
        subst ht'
        refine ⟨?_, ?_, ?_, ?_⟩
        · rw [setCur_other]; exact hs.other
        · rw [setCur_cur]; simp only; rw [h2, h3]; exact hs.found
        · rw [setCur_other]; exact hs.foundOther
        · intro u hu
          rw [setCur_prev] at hu
          rw [setCur_cur]
          simp only
          rw [h2]
          exact hs.prev u hu
  | emit r t =>
    rw [hst] at hk
    obtain ⟨h1, h2, h3, h4⟩ := hk
    simp only
    generalize hy : ({ s.cur with st := t, started := true } : BiSide V L S M ML) = y
    have hyt : y.st = t := by rw [← hy]
    by_cases hp : s.prev = some r.vertex
    · rw [if_pos hp]
      have hno : bfsOpen s.cur.st = none ∧ bfsOpen t = none := by
        rcases h4 with h4 | ⟨h4, -⟩
        · exact h4
        · have := hs.prev _ hp
          rw [show ((c.with f).side s.back).vid = c.vid from rfl] at h4
          rw [h4] at this
          simp at this
      have hcur : ({ s.setCur y with back := !s.back, prev := none } : BiState V L S M ML).cur = s.other := by
        obtain ⟨fw, bw, back, prev, result⟩ := s
        cases back <;> rfl
      have hoth : ({ s.setCur y with back := !s.back, prev := none } : BiState V L S M ML).other = y := by
        obtain ⟨fw, bw, back, prev, result⟩ := s
        cases back <;> rfl
      refine ⟨?_, ?_⟩
      · simp only [SearchShape, biOpen, hno.1, Option.map_none, hcur, hs.other]
      · intro t' ht'
        simp only [Step.tau.injEq, reduceCtorEq, or_false] at ht'
        subst ht'
        refine ⟨?_, ?_, ?_, by simp⟩
        · rw [hoth, hyt]; exact hno.2
        · rw [hcur]; exact hs.foundOther
        · rw [hoth, hyt]; exact h2
    · rw [if_neg hp]
      split
      · exact ⟨by simp [SearchShape], by simp⟩
      · have hcur : ({ s.setCur y with prev := some r.vertex } : BiState V L S M ML).cur = y := by
          obtain ⟨fw, bw, back, prev, result⟩ := s
          cases back <;> rfl
        have hoth : ({ s.setCur y with prev := some r.vertex } : BiState V L S M ML).other = s.other := by
          obtain ⟨fw, bw, back, prev, result⟩ := s
          cases back <;> rfl
        refine ⟨?_, ?_⟩
        · have hb : ({ s.setCur y with prev := some r.vertex } : BiState V L S M ML).back = s.back := setCur_back' s y
          generalize ({ s.setCur y with prev := some r.vertex } : BiState V L S M ML) = z at hcur hb
          simp only [SearchShape, biOpen, hcur, hb, hyt]
          rcases h4 with ⟨h4, h5⟩ | ⟨-, v, e, es, h4, h5⟩ <;> simp only [h4, h5, Option.map_none, Option.map_some]
        · intro t' ht'
          simp only [Step.tau.injEq, reduceCtorEq, or_false] at ht'
          subst ht'
          refine ⟨?_, ?_, ?_, ?_⟩
          · rw [hoth]; exact hs.other
          · rw [hcur, hyt]; exact h2
          · rw [hoth]; exact hs.foundOther
          · intro u hu
            simp only [Option.some.injEq] at hu
            subst hu
            rw [hcur, hyt]; exact h3

/-- **C102 (bidirectional breadth-first search).** As `C102_bd`. Here, if a path is found, the search can have ended before the
last edges function has given all its edges, and thus an exception behind the edge that completes the path does
not occur. -/
theorem C102_bibfs (hg : g.so.Lawful) (c : BiCfg V K L) (raises : Bool × V → Bool) (fullF fullB : V → List (V × L))
    (hF : EdgesUntilException (fun v => raises (false, v)) c.nextF fullF)
    (hB : EdgesUntilException (fun v => raises (true, v)) c.nextB fullB)
    (starts goals : List V) (limit : Option Int) (fuel : Nat) :
    let full := { c with nextF := fullF, nextB := fullB }
    let r := biRaisingSearch g c raises starts goals limit fuel
    r.1 <+: biReads g full starts goals limit fuel ∧
    RaisesAtFirst raises r.1 r.exception? (r.2 = .ok .notFound) ∧
    ∀ a, r.2 = .ok a →
      a = biSearch g full starts goals true true limit fuel ∧ r.1 = biReads g full starts goals limit fuel := by
  obtain ⟨f, x, h1, h2, h3, h4, hx⟩ := more_both hF hB
  obtain ⟨nF, nB, vid, bp⟩ := c
  simp only at h1 h2
  subst h1 h2 h3 h4
  generalize hc : (⟨fun v => f (false, v), fun v => f (true, v), vid, bp⟩ : BiCfg V K L) = c
  have hc1 : c = c.with f := by rw [← hc]
  have hc2 : ({ c with nextF := fun v => f (false, v) ++ x (false, v), nextB := fun v => f (true, v) ++ x (true, v) } :
    BiCfg V K L) = c.with (fun p => f p ++ x p) := rfl
  simp only [hc2]
  simp only [biRaisingSearch, biReads, biSearch]
  rcases hcom : biCommon c.vid starts goals true true with _ | v
  · simp only
    have hinit : biInit g (c.with (fun p => f p ++ x p)) starts goals limit = biMore x (biInit g c starts goals limit) := rfl
    rw [hinit]
    have hcalm : BiCalm g c (biInit g c starts goals limit) :=
      ⟨rfl, by simp [biInit, BiState.cur, bfsInit], by simp [biInit, BiState.other, bfsInit], by simp [biInit]⟩
    have hA := search_raises_at_first (m := biStep g (c.with f)) (next := f) (who := biWho) (opened := biOpen)
      (silent := fun s => s.result = none) (BiCalm g c) (fun s t hs h => (bi_step_calm hg c f s hs).2 t (.inl h))
      (fun s t hs h => (bi_step_calm hg c f s hs).2 t (.inr h)) (fun s hs => (bi_step_calm hg c f s hs).1) raises fuel
      (biInit g c starts goals limit) hcalm
    have hBg := search_begins (m := fun f => biStep g (c.with f)) (bi_more_step c) bi_more_who raises f x hx fuel
      (biInit g c starts goals limit)
    rw [← hc1] at hA hBg
    simp only at hA hBg
    generalize runSearchRaising (biStep g c) biWho biOpen raises fuel (biInit g c starts goals limit) = r at hA hBg
    obtain ⟨reads, ending, final⟩ := r
    obtain ⟨hp, hu⟩ := hBg
    refine ⟨hp, ?_, ?_⟩
    · rcases ending with (_ | _ | e) | p
      · simp only at hA ⊢
        rcases hfr : final.result with _ | ⟨n, p⟩
        · exact ⟨hA.last, hA.raised, fun _ => hA.complete ⟨trivial, hfr⟩⟩
        · exact ⟨hA.last, hA.raised, by simp⟩
      · exact ⟨hA.last, hA.raised, by simp⟩
      · exact ⟨hA.last, hA.raised, by simp⟩
      · exact ⟨hA.last, hA.raised, by simp⟩
    · rcases ending with e | p
      · intro a ha
        obtain ⟨h1, h2, h3⟩ := hu e rfl
        refine ⟨?_, h1⟩
        simp only at h3
        rw [h2, h3, show (biMore x final).result = final.result from rfl]
        rcases e with _ | _ | e
        · simp only at ha ⊢
          rcases hfr : final.result with _ | ⟨n, p⟩ <;> rw [hfr] at ha <;> simpa using ha.symm
        · simpa using ha.symm
        · simpa using ha.symm
      · simp
  · simp only
    exact ⟨List.nil_prefix, .nil, fun a h => ⟨by simpa using h.symm, trivial⟩⟩

end bi

/-! ## Examples -/

/-- In the example of C25, the function for incoming edges raises an exception for vertex 4, before its first edge. -/
example : EdgesUntilException (fun v => decide ((false, v) = (true, 4))) exBi.nextF exBi.nextF ∧
    EdgesUntilException (fun v => decide ((true, v) = (true, 4))) (fun v => if v = 4 then [] else exBi.nextB v) exBi.nextB ∧
    biRaisingSearch exHash { exBi with nextB := fun v => if v = 4 then [] else exBi.nextB v }
      (fun p => decide (p = (true, 4))) [0] [4] none 100 = ([(false, 0), (true, 4)], .error (true, 4)) := by
  refine ⟨fun v => ⟨List.prefix_refl _, fun _ => rfl⟩, fun v => ?_, by decide +kernel⟩
  by_cases h : v = 4
  · simp [h]
  · simp [h]

/-- For vertex 1, the exception is behind the edge that completes the path: it does not occur. -/
example : (biRaisingSearch exHash exBi (fun p => decide (p = (false, 1))) [0] [4] none 100).1 =
      [(false, 0), (true, 4), (false, 1)] ∧
    (biRaisingSearch exHash exBi (fun p => decide (p = (false, 1))) [0] [4] none 100).exception? = none := by
  constructor <;> decide +kernel

/-- In the example of C32, the function for outgoing edges raises an exception for vertex 1. -/
example : bdRaisingSearch exBdHash exBd (fun p => decide (p = (false, 1))) [0] [4] none 100 100 =
      ([(false, 0), (true, 4), (false, 1)], .error (false, 1)) := by
  decide +kernel

end NoGraphs
