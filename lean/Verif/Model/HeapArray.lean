import Verif.Model.Gear
import Verif.Model.Heap
import Verif.Model.ShortestPaths
import Verif.Model.AStar
import Verif.Model.MinimumSpanningTree
import Verif.Model.BiDijkstra
import Verif.Model.InfBranching

/-!
# The binary heap of `heapq`, and the weighted strategies on it

`Model/Heap.lean` models a heap by the sorted list of its elements. Here, the algorithms of Python's library module
`heapq` (CPython, `Lib/heapq.py`, version 3.11; the optimized C variant does the same) are modelled on the list they
really work on, and the weighted strategies of NoGraphs (files and lines as in the models they correspond to) on top
of them.

The heap elements of NoGraphs are tuples `(weight, unique_no, vertex, ...)`. Vertices do not need to be comparable:
here, the comparison of two tuples that agree in the first two components raises `TypeError`.
-/

namespace NoGraphs

section
variable {W X : Type} [LinearOrder W]

/-- `a < b` for tuples `(weight, unique_no, *item)`, where the components of `item` cannot be compared. -/
def tupleLt (a b : HEntry W X) : Except PyErr Bool :=
  if a.key = b.key then
    if a.no = b.no then .error .typeError else .ok (decide (a.no < b.no))
  else .ok (decide (a.key < b.key))

/-- The loop of `_siftdown` and the assignment after it (`heapq.py` 211-220); `x` is `newitem`. -/
def siftdownLoop (h : List (HEntry W X)) (x : HEntry W X) (start pos : Nat) : Except PyErr (List (HEntry W X)) :=
  if start < pos then
    match h[(pos - 1) / 2]? with
    | none => .error .indexError
    | some p =>
      match tupleLt x p with
      | .error e => .error e
      | .ok true => siftdownLoop (h.set pos p) x start ((pos - 1) / 2)
      | .ok false => .ok (h.set pos x)
  else .ok (h.set pos x)
termination_by pos
decreasing_by omega

/-- `_siftdown` (`heapq.py` 207-220). -/
def siftdown (h : List (HEntry W X)) (start pos : Nat) : Except PyErr (List (HEntry W X)) :=
  match h[pos]? with
  | none => .error .indexError
  | some x => siftdownLoop h x start pos

/-- The position of the smaller child (`heapq.py` 268-270); `child` is the left child. -/
def smallerChild (h : List (HEntry W X)) (child : Nat) : Except PyErr Nat :=
  if child + 1 < h.length then
    match h[child]?, h[child + 1]? with
    | some a, some b =>
      match tupleLt a b with
      | .error e => .error e
      | .ok true => .ok child
      | .ok false => .ok (child + 1)
    | _, _ => .error .indexError
  else .ok child

theorem smallerChild_le {h : List (HEntry W X)} {child c : Nat} (hc : smallerChild h child = .ok c) : child ≤ c := by
  unfold smallerChild at hc
  split at hc
  · split at hc
    · split at hc
      · cases hc
      · cases hc; omega
      · cases hc; omega
    · cases hc
  · cases hc; exact le_refl _

/-- The loop of `_siftup` (`heapq.py` 265-274): the list and the position of the leaf that is now empty. -/
def siftupLoop (h : List (HEntry W X)) (pos : Nat) : Except PyErr (List (HEntry W X) × Nat) :=
  if 2 * pos + 1 < h.length then
    match _hc : smallerChild h (2 * pos + 1) with
    | .error e => .error e
    | .ok c =>
      match h[c]? with
      | none => .error .indexError
      | some v => siftupLoop (h.set pos v) c
  else .ok (h, pos)
termination_by h.length - pos
decreasing_by
  have := smallerChild_le _hc
  simp only [List.length_set]
  omega

/-- `_siftup` (`heapq.py` 260-278). -/
def siftup (h : List (HEntry W X)) (pos : Nat) : Except PyErr (List (HEntry W X)) :=
  match h[pos]? with
  | none => .error .indexError
  | some x =>
    match siftupLoop h pos with
    | .error e => .error e
    | .ok (h', p) => siftdown (h'.set p x) pos p

/-- `heappush` (`heapq.py` 132-135). -/
def hqPush (h : List (HEntry W X)) (e : HEntry W X) : Except PyErr (List (HEntry W X)) :=
  siftdown (h ++ [e]) 0 h.length

/-- `heappop` (`heapq.py` 137-145): the returned element and the heap. -/
def hqPop (h : List (HEntry W X)) : Except PyErr (HEntry W X × List (HEntry W X)) :=
  match h.getLast? with
  | none => .error .indexError
  | some last =>
    match h.dropLast with
    | [] => .ok (last, [])
    | top :: r =>
      match siftup ((top :: r).set 0 last) 0 with
      | .error e => .error e
      | .ok h' => .ok (top, h')

/-- The loop of `heapify` (`heapq.py` 178-179), for the positions below `i`. -/
def hqHeapifyLoop : Nat → List (HEntry W X) → Except PyErr (List (HEntry W X))
  | 0, h => .ok h
  | i + 1, h =>
    match siftup h i with
    | .error e => .error e
    | .ok h' => hqHeapifyLoop i h'

/-- `heapify` (`heapq.py` 170-179). -/
def hqHeapify (h : List (HEntry W X)) : Except PyErr (List (HEntry W X)) := hqHeapifyLoop (h.length / 2) h

end

/-! ## Shortest paths -/

section
variable {V K L W M ML D : Type} [Add W] [Zero W] [LinearOrder W] (g : WGear V K L W M ML D) (c : WCfg V K L W)

/-- One step of `_traverse` (`shortest_paths.py` 276-372) on a binary heap. -/
def spStepHq (s : SpState V L W M ML D) : Step (SpState V L W M ML D) (SpReport V W M ML D) :=
  match s.pc with
  | .loop =>
    if s.heap = [] then .stop s                                       -- line 276
    else
      match hqPop s.heap with                                         -- line 278
      | .error x => .fail x
      | .ok (e, rest) =>
        let v := e.item.1
        let ec := e.item.2
        if !c.isTree && decide (g.dd.get s.dist (c.vid v) < e.key) then
          .tau { s with heap := rest }                                -- lines 283-292
        else
          let d := if !c.isTree && !c.keepDistances then g.dd.set s.dist (c.vid v) 0
            else s.dist                                               -- lines 293-300
          let s' := { s with heap := rest, dist := d, pc := .expand v e.key ec }
          if ec > 0 then .emit ⟨v, e.key, ec, d, s.preds, s.labels⟩ s'  -- lines 303-308
          else .tau s'
  | .expand v w ec => .expand { s with pc := .edges v w ec (c.next v) }  -- lines 310-315
  | .edges _ _ _ [] => .tau { s with pc := .loop }
  | .edges v w ec ((n, x, l) :: es) =>                                -- lines 315-372
    let nw := x + w
    if c.inf ≤ nw then .fail .overflowError                           -- lines 321-322
    else
      match spImprove g c s.dist (c.vid n) nw with
      | none => .tau { s with pc := .edges v w ec es }                -- lines 337-338
      | some d =>
        match hqPush s.heap ⟨nw, s.no, (n, ec + 1)⟩ with              -- lines 364-372
        | .error x => .fail x
        | .ok h =>
          .tau { pc := .edges v w ec es
                 heap := h
                 no := s.no - 1
                 dist := d
                 preds := if c.buildPaths then g.mo.set s.preds (c.vid n) v else s.preds
                 labels := if c.buildPaths then g.lo.set s.labels (c.vid n) l else s.labels }

/-- State at the start of `_traverse` (`shortest_paths.py` 173-200, 255-272): the entries of the start vertices are
listed and `heapify` is called. -/
def spInitHq (known : Option D) (starts : List V) : Except PyErr (SpState V L W M ML D) :=
  match hqHeapify (spStartEntries g c (spDistances g c known starts) starts 256) with
  | .error x => .error x
  | .ok h => .ok
    { pc := .loop
      heap := h
      no := 256 - starts.length
      dist := spDistances g c known starts
      preds := if c.buildPaths then g.mo.setAll g.mo.empty (starts.map (fun v => (c.vid v, v)))
        else g.mo.empty
      labels := g.lo.empty }

/-- What can be seen of a traversal: its events (reports, and reads of edges), and how it ended. -/
def spRunHq (known : Option D) (starts : List V) (limit : Option Int) (fuel : Nat) :
    List (Ev (SpReport V W M ML D)) × Ending :=
  match spInitHq g c known starts with
  | .error x => ([], .raised x)
  | .ok s =>
    let r := runMachine (spStepHq g c) fuel (prepareLimit limit) s
    (r.events, r.ending)

end

/-! ## A* -/

section
variable {V K L W M ML D : Type} [AddCommMonoid W] [LinearOrder W] (g : WGear V K L W M ML D) (c : AStarCfg V K L W)

/-- One step of `_traverse` (`a_star.py` 333-435) on a binary heap. -/
def aStepHq (s : AStarState V L W M ML D) : Step (AStarState V L W M ML D) (AStarReport V W M ML D) :=
  match s.pc with
  | .loop =>
    if s.heap = [] then .stop s                                                 -- line 333
    else
      match hqPop s.heap with                                                   -- line 335
      | .error x => .fail x
      | .ok (e, rest) =>
        let v := e.item.1
        let ec := e.item.2
        if !c.isTree && decide (g.dd.get s.guesses (c.vid v) < e.key) then
          .tau { s with heap := rest }                                          -- lines 351-352
        else
          let w := g.dd.get s.dist (c.vid v)                                    -- line 355
          let s' := { s with heap := rest, pc := .expand v w ec }
          if ec > 0 then .emit ⟨v, w, ec, s.dist, s.preds, s.labels⟩ s'         -- lines 358-363
          else .tau s'
  | .expand v w ec => .expand { s with pc := .edges v w ec (c.next v) }         -- lines 365-370
  | .edges _ _ _ [] => .tau { s with pc := .loop }
  | .edges v w ec ((n, x, l) :: es) =>                                          -- lines 370-435
    let nw := x + w
    if c.inf ≤ nw then .fail .overflowError                                     -- lines 376-377
    else
      match aImprove g c s.dist (c.vid n) nw with
      | none => .tau { s with pc := .edges v w ec es }                          -- lines 390-391
      | some d =>
        let h := c.heur n
        let guess := aGuess c.inf nw h                                          -- lines 417-421
        if h ≠ c.inf ∧ c.inf ≤ guess then .fail .overflowError                  -- lines 424-425
        else
          match hqPush s.heap ⟨guess, s.no, (n, ec + 1)⟩ with                   -- lines 432-435
          | .error x => .fail x
          | .ok hp =>
            .tau { pc := .edges v w ec es
                   heap := hp
                   no := s.no - 1
                   dist := d
                   guesses := if c.isTree then s.guesses else g.dd.set s.guesses (c.vid n) guess  -- lines 427-431
                   preds := if c.buildPaths then g.mo.set s.preds (c.vid n) v else s.preds        -- lines 400-415
                   labels := if c.buildPaths then g.lo.set s.labels (c.vid n) l else s.labels }

/-- State at the start of `_traverse` (`a_star.py` 206-236, 290-329). -/
def aInitHq (known knownGuesses : Option D) (starts : List V) : Except PyErr (AStarState V L W M ML D) :=
  let d := aDistances g c known starts
  let gu := aGuesses g c knownGuesses d starts
  match hqHeapify (aStartEntries g c gu starts 256) with
  | .error x => .error x
  | .ok h => .ok
    { pc := .loop
      heap := h
      no := 256 - starts.length
      dist := d
      guesses := gu
      preds := if c.buildPaths then g.mo.setAll g.mo.empty (starts.map (fun v => (c.vid v, v))) else g.mo.empty
      labels := g.lo.empty }

/-- What can be seen of a traversal. -/
def aRunHq (known knownGuesses : Option D) (starts : List V) (limit : Option Int) (fuel : Nat) :
    List (Ev (AStarReport V W M ML D)) × Ending :=
  match aInitHq g c known knownGuesses starts with
  | .error x => ([], .raised x)
  | .ok s =>
    let r := runMachine (aStepHq g c) fuel (prepareLimit limit) s
    (r.events, r.ending)

end

/-! ## Minimum spanning tree -/

section
variable {V K L W S M ML : Type} [LinearOrder W] (g : TravGear V K L S M ML) (c : MstCfg V K L W)

/-- One step of `_traverse` (`minimum_spanning_tree.py` 218-351) on a binary heap. -/
def mstStepHq (s : MstState V L W S M ML) : Step (MstState V L W S M ML) (MstReport V L W M ML) :=
  match s.pc with
  | .starts [] =>                                                               -- line 228
    match hqHeapify s.heap with
    | .error x => .fail x
    | .ok h => .tau { s with pc := .loop, heap := h }
  | .starts (v :: vs) => .expand { s with                                       -- lines 224-227
      pc := .starts vs
      heap := s.heap ++ mstEntries v (c.next v) s.no
      no := s.no + (c.next v).length }
  | .loop =>
    if s.heap = [] then .stop s                                                 -- line 246
    else
      match hqPop s.heap with                                                   -- lines 248-249
      | .error x => .fail x
      | .ok (e, rest) =>
        let u := e.item.1
        let v := e.item.2.1
        let l := e.item.2.2.2
        let chk := g.so.checkAdd s.visited (c.vid v)                            -- lines 256-286
        if chk.1 then .tau { s with heap := rest }
        else
          let pr := if c.buildPaths then g.mo.set s.preds (c.vid v) u else s.preds      -- lines 288-303
          let la := if c.buildPaths then g.lo.set s.labels (c.vid v) l else s.labels
          .emit ⟨v, e.item, pr, la⟩                                             -- lines 309-313
            { s with heap := rest, visited := chk.2, preds := pr, labels := la, pc := .expand v }
  | .expand v => .expand { s with pc := .edges v (c.next v) }                   -- lines 315-318
  | .edges _ [] => .tau { s with pc := .loop }
  | .edges v (e :: es) =>                                                       -- lines 318-351
    if g.so.contains s.visited (c.vid e.1) then .tau { s with pc := .edges v es }
    else
      match hqPush s.heap ⟨e.2.1, s.no, (v, e)⟩ with
      | .error x => .fail x
      | .ok h => .tau { s with pc := .edges v es, heap := h, no := s.no + 1 }

/-- What can be seen of a traversal (lines 203-213: as in `mstRun`). -/
def mstRunHq (starts : List V) (limit : Option Int) (fuel : Nat) :
    List (Ev (MstReport V L W M ML)) × Ending :=
  if limit.any (fun k : Int => 0 ≤ k && k < starts.length) then ([], .raised .runtimeError)
  else
    let r := runMachine (mstStepHq g c) fuel (prepareLimit limit) (mstInit g c starts)
    (r.events, r.ending)

end

/-! ## Bidirectional shortest path search -/

section
variable {V K L W M ML D : Type} [DecidableEq V] [DecidableEq K]
variable [AddCommMonoid W] [LinearOrder W] (g : WGear V K L W M ML D) (c : BdCfg V K L W)

/-- One step of the loop (`bidirectional_search/shortest_path.py` 352-515) on binary heaps. -/
def bdStepHq (s : BdState V L W M ML D) : Step (BdState V L W M ML D) Unit :=
  let me := s.get s.back
  match s.pc with
  | .loop =>
    if me.heap = [] then .stop s                                          -- lines 395-402
    else
      match hqPop me.heap with                                            -- line 411
      | .error x => .fail x
      | .ok (e, rest) =>
        if g.dd.get me.dist (c.vid e.item) < e.key then                   -- lines 422-423
          .tau { s.setCur { me with heap := rest } with back := !s.back }
        else if c.inf ≠ s.best ∧ s.best ≤ e.key + s.others then           -- lines 425-430
          .stop { s with found := true }
        else
          match checkLimit me.lim with                                    -- lines 435-440
          | none => .fail .runtimeError
          | some lim =>
            .expand { s.setCur { me with heap := rest, lim := lim } with
              others := e.key                                             -- line 433
              pc := .edges e.item e.key (c.next s.back e.item) }          -- line 445
  | .edges _ _ [] => .tau { s with pc := .loop, back := !s.back }
  | .edges v w ((n, x, l) :: es) =>
    let nw := x + w                                                       -- line 448
    if c.inf ≤ nw then .fail .overflowError                               -- lines 451-452
    else
      match g.dd.improve me.dist (c.vid n) nw with                        -- lines 464-471
      | none => .tau { s with pc := .edges v w es }
      | some d =>
        match hqPush me.heap ⟨nw, me.no, n⟩ with                          -- line 489
        | .error x => .fail x
        | .ok h =>
          let me' : BdSide V W M ML D :=
            { me with
              heap := h
              no := me.no - 1
              dist := d
              preds := if c.buildPath then g.mo.set me.preds (c.vid n) v else me.preds    -- lines 475-479
              labels := if c.buildPath then g.lo.set me.labels (c.vid n) l else me.labels }
          let total := nw + g.dd.get (s.get (!s.back)).dist (c.vid n)
          let s' := { s.setCur me' with pc := .edges v w es }
          if s.best ≤ total then .tau s'                                  -- lines 496-500
          else .tau { s' with best := total, node := n }                  -- lines 501-502

/-- The variables of one direction at the start (lines 185-198, 210-218, 253-262, 299-343). -/
def bdInitSideHq (starts : List V) (limit : Option Int) : Except PyErr (BdSide V W M ML D) :=
  match hqHeapify (bdStartEntries g c (bdDistances g c starts) starts 256) with
  | .error x => .error x
  | .ok h => .ok
    { heap := h
      no := 256 - starts.length
      dist := bdDistances g c starts
      preds := if c.buildPath then g.mo.setAll g.mo.empty (starts.map (fun v => (c.vid v, v))) else g.mo.empty
      labels := g.lo.empty
      lim := prepareLimit limit }

/-- `start_from` (lines 113-515). -/
def bdSearchHq (starts goals : List V) (limit : Option Int) (fuel pathFuel : Nat) : SearchResult W V L :=
  match starts, goals with
  | [], _ => .notFound                                                    -- lines 275-279
  | _, [] => .notFound
  | start :: _, _ :: _ =>
    match biCommon c.vid starts goals true true with                      -- lines 286-293
    | some v => .found 0 (.fromVertex v)
    | none =>
      match bdInitSideHq g c starts limit, bdInitSideHq g c goals limit with
      | .ok fw, .ok bw =>
        let r := runMachine (bdStepHq g c) fuel none
          { pc := .loop, fw := fw, bw := bw, back := false, best := c.inf, node := start, others := 0, found := false }
        match r.ending with
        | .done => if r.final.found then .found r.final.best (bdPath g c r.final pathFuel) else .notFound
        | .raised e => .raised e
        | .outOfFuel => .outOfFuel
      | .error e, _ => .raised e
      | _, .error e => .raised e

end

/-! ## Infinitely branching graphs -/

section
variable {V W M ML D Mo Do : Type} [DecidableEq V] [AddCommMonoid W] [LinearOrder W]
variable (g : WGear (V × Nat) (V × Nat) Unit W M ML D) (o : IbGear V W Mo Do) (c : IbCfg V W)

/-- One step (`extra_infinite_branching.py` 192-266), with the inner traversal on a binary heap. -/
def ibStepHq (s : IbState V W M ML D Mo Do) : Step (IbState V W M ML D Mo Do) (IbReport V W Mo Do) :=
  match s.sp.pc with
  | .expand st w ec =>
    match ibEdges g c s.sp.dist s.iters st with
    | .error e => .fail e
    | .ok (es, it) =>
      .expand { s with
        sp := { s.sp with pc := .edges st w ec es }, iters := it
        distance := if st.2 = 0 then g.dd.get s.sp.dist (st.1, 0) else s.distance }
  | _ =>
    match spStepHq g (ibInner c) s.sp with
    | .stop sp => .stop { s with sp := sp }
    | .fail e => .fail e
    | .tau sp => .tau { s with sp := sp }
    | .expand sp => .expand { s with sp := sp }
    | .emit r sp =>
      if r.vertex.2 = 0 then
        match ibReport g o c s r with
        | .error e => .fail e
        | .ok r' => .emit r' { s with sp := sp, preds := r'.preds, dist := r'.dist, distance := r'.distance }
      else .tau { s with sp := sp }                                              -- line 252

/-- What can be seen of a traversal (lines 160-190, 227-266). -/
def ibRunHq (isCollection : Bool) (starts : List V) (limit : Option Int) (fuel : Nat) :
    List (Ev (IbReport V W Mo Do)) × Ending :=
  match spInitHq g (ibInner c) none ((ibStarts c isCollection starts).map (fun v => (v, 0))) with
  | .error x => ([], .raised x)
  | .ok sp =>
    let r := runMachine (ibStepHq g o c) fuel (prepareLimit limit) { ibInit g o c isCollection starts with sp := sp }
    (r.events, r.ending)

end

end NoGraphs
