import Verif.Model.AStar
import Verif.Model.BiDijkstra
import Verif.Model.ShortestPaths

/-!
# Direct reads of distances

For fast access, the strategies with weights read distances directly from the sequence inside of a distance mapping, if
the mapping is based on a sequence (`access_to_vertex_mapping`, `_gear_collections.py` 520-557). Such a read raises an
`IndexError` if the sequence is too short. At some places, an `except IndexError` follows (`shortest_paths.py` 336-341,
`a_star.py` 389-396, `bidirectional_search/shortest_path.py` 464-471, 495-506), at others, the authors argue that there can
be no such exception (`shortest_paths.py` 262-265, 290-291, `a_star.py` 350-355) or read without comment (`a_star.py` 305,
320-322, `bidirectional_search/shortest_path.py` 335, 340, 422).

The other models read infinity in these cases. Here, the strategies are modelled with the exceptions.
-/

namespace NoGraphs

variable {V K L W M ML D : Type}

/-- `mapping[key]` for a `DefaultdictWithNiceStr` (`_gears.py` 296-314): the infinity value for missing keys, no exception. -/
def dictRead {K W : Type} (inf : W) (m : K → Option W) (k : K) : Option W := some ((m k).getD inf)

/-- `sequence[key]` for the sequence of a sequence-based mapping; `none` is the `IndexError`. -/
def seqRead {W : Type} (m : List W) (k : Nat) : Option W := seqGet m k

section
variable [AddCommMonoid W] [LinearOrder W] (rd : D → K → Option W) (g : WGear V K L W M ML D)

/-- The heap entries for start vertices (`shortest_paths.py` 255, 263-271, `a_star.py` 290, 318-328), read from `d`; `none`
is the `IndexError`. -/
def directEntries (vid : V → K) (d : D) : List V → Int → Option (List (HEntry W (V × Nat)))
  | [], _ => some []
  | v :: vs, no =>
    match rd d (vid v) with
    | none => none
    | some w => (directEntries vid d vs (no - 1)).map (⟨w, no, (v, 0)⟩ :: ·)

/-- One step of `_traverse` (`shortest_paths.py` 276-372). -/
def spStepDirect (c : WCfg V K L W) (s : SpState V L W M ML D) : Step (SpState V L W M ML D) (SpReport V W M ML D) :=
  match s.pc, s.heap with
  | .loop, e :: rest =>
    let v := e.item.1
    let ec := e.item.2
    let expand (d : D) : Step (SpState V L W M ML D) (SpReport V W M ML D) :=
      let s' := { s with heap := rest, dist := d, pc := .expand v e.key ec }
      if ec > 0 then .emit ⟨v, e.key, ec, d, s.preds, s.labels⟩ s'          -- lines 303-308
      else .tau s'
    if c.isTree then expand s.dist                                          -- line 283
    else
      match rd s.dist (c.vid v) with                                        -- line 291
      | none => .fail .indexError
      | some w =>
        if w < e.key then .tau { s with heap := rest }                      -- line 292
        else expand (if c.keepDistances then s.dist else g.dd.set s.dist (c.vid v) 0)   -- lines 293-300
  | _, _ => spStep g c s

/-- A traversal, started from `starts` and iterated (`shortest_paths.py` 173-208, 255-372). An exception in lines 263-271
is raised by the first `next`. -/
def spRunDirect (c : WCfg V K L W) (known : Option D) (starts : List V) (limit : Option Int) (fuel : Nat) :
    RunResult (SpState V L W M ML D) (SpReport V W M ML D) :=
  match directEntries rd c.vid (spDistances g c known starts) starts 256 with
  | none => { events := [], ending := .raised .indexError, final := spInit g c known starts }
  | some es => runMachine (spStepDirect rd g c) fuel (prepareLimit limit)
      { spInit g c known starts with heap := heapify es }

/-- The pairs of id and `distances_sequence[vertex_id] + heuristic(vertex)` (`a_star.py` 302-308); `none` is the
`IndexError`. -/
def directGuessPairs (c : AStarCfg V K L W) (d : D) : List V → Option (List (K × W))
  | [] => some []
  | v :: vs =>
    match rd d (c.vid v) with
    | none => none
    | some w => (directGuessPairs c d vs).map ((c.vid v, w + c.heur v) :: ·)

/-- The path length guesses at the start (`a_star.py` 299-310, `define_distances` in `_strategies/utils.py` 132-152): the
pairs are computed only if they are iterated. -/
def aGuessesDirect (c : AStarCfg V K L W) (known : Option D) (d : D) (starts : List V) : Option D :=
  match known with
  | none => (directGuessPairs rd c d starts).map (g.dd.setAll g.dd.empty)
  | some k => if c.isTree then some k else (directGuessPairs rd c d starts).map (g.dd.setDefaults k)

/-- One step of `_traverse` (`a_star.py` 333-435). -/
def aStepDirect (c : AStarCfg V K L W) (s : AStarState V L W M ML D) :
    Step (AStarState V L W M ML D) (AStarReport V W M ML D) :=
  match s.pc, s.heap with
  | .loop, e :: rest =>
    let v := e.item.1
    let ec := e.item.2
    let expand : Step (AStarState V L W M ML D) (AStarReport V W M ML D) :=
      match rd s.dist (c.vid v) with                                        -- line 355
      | none => .fail .indexError
      | some w =>
        let s' := { s with heap := rest, pc := .expand v w ec }
        if ec > 0 then .emit ⟨v, w, ec, s.dist, s.preds, s.labels⟩ s'       -- lines 358-363
        else .tau s'
    if c.isTree then expand
    else
      match rd s.guesses (c.vid v) with                                     -- line 351
      | none => .fail .indexError
      | some gw => if gw < e.key then .tau { s with heap := rest } else expand
  | _, _ => aStep g c s

/-- A traversal, started from `starts` and iterated (`a_star.py` 205-244, 290-435). -/
def aRunDirect (c : AStarCfg V K L W) (known knownGuesses : Option D) (starts : List V) (limit : Option Int) (fuel : Nat) :
    RunResult (AStarState V L W M ML D) (AStarReport V W M ML D) :=
  let d := aDistances g c known starts
  let failed : RunResult (AStarState V L W M ML D) (AStarReport V W M ML D) :=
    { events := [], ending := .raised .indexError, final := aInit g c known knownGuesses starts }
  match aGuessesDirect rd g c knownGuesses d starts with
  | none => failed
  | some gu =>
    match directEntries rd c.vid gu starts 256 with
    | none => failed
    | some es => runMachine (aStepDirect rd g c) fuel (prepareLimit limit)
        { aInit g c known knownGuesses starts with guesses := gu, heap := heapify es }

/-- The heap entries for start vertices (`bidirectional_search/shortest_path.py` 334-342); `none` is the `IndexError`. -/
def bdDirectEntries (vid : V → K) (d : D) : List V → Int → Option (List (HEntry W V))
  | [], _ => some []
  | v :: vs, no =>
    match rd d (vid v) with
    | none => none
    | some w => (bdDirectEntries vid d vs (no - 1)).map (⟨w, no, v⟩ :: ·)

/-- One step of the loop (`bidirectional_search/shortest_path.py` 352-515), with the `IndexError` that is possible in lines
497 and 501 and caught in lines 503-506. -/
def bdStepDirect (c : BdCfg V K L W) (s : BdState V L W M ML D) : Step (BdState V L W M ML D) Unit :=
  let me := s.get s.back
  match s.pc with
  | .loop =>
    match me.heap with
    | [] => .stop s                                                         -- lines 395-402
    | e :: rest =>                                                          -- line 411
      match rd me.dist (c.vid e.item) with                                  -- line 422
      | none => .fail .indexError
      | some w =>
        if w < e.key then .tau { s.setCur { me with heap := rest } with back := !s.back }
        else if c.inf ≠ s.best ∧ s.best ≤ e.key + s.others then .stop { s with found := true }       -- lines 425-430
        else
          match checkLimit me.lim with                                      -- lines 435-440
          | none => .fail .runtimeError
          | some lim =>
            .expand { s.setCur { me with heap := rest, lim := lim } with
              others := e.key                                               -- line 433
              pc := .edges e.item e.key (c.next s.back e.item) }            -- line 445
  | .edges _ _ [] => .tau { s with pc := .loop, back := !s.back }
  | .edges v w ((n, x, l) :: es) =>
    let nw := x + w                                                         -- line 448
    if c.inf ≤ nw then .fail .overflowError                                 -- lines 451-452
    else
      match g.dd.improve me.dist (c.vid n) nw with                          -- lines 464-471
      | none => .tau { s with pc := .edges v w es }
      | some d =>
        let me' : BdSide V W M ML D :=
          { me with
            heap := heapPush me.heap ⟨nw, me.no, n⟩                         -- line 489
            no := me.no - 1
            dist := d
            preds := if c.buildPath then g.mo.set me.preds (c.vid n) v else me.preds    -- lines 475-479
            labels := if c.buildPath then g.lo.set me.labels (c.vid n) l else me.labels }
        let s' := { s.setCur me' with pc := .edges v w es }
        match rd (s.get (!s.back)).dist (c.vid n) with
        | none => .tau s'                                                   -- lines 503-506
        | some o =>
          if s.best ≤ nw + o then .tau s'                                   -- lines 496-500
          else .tau { s' with best := nw + o, node := n }                   -- lines 501-502

/-- `start_from` (`bidirectional_search/shortest_path.py` 113-515). -/
def bdSearchDirect [DecidableEq V] [DecidableEq K] (c : BdCfg V K L W) (starts goals : List V) (limit : Option Int)
    (fuel pathFuel : Nat) : SearchResult W V L :=
  match starts, goals with
  | [], _ => .notFound                                                      -- lines 275-279
  | _, [] => .notFound
  | start :: _, _ :: _ =>
    match biCommon c.vid starts goals true true with                        -- lines 286-293
    | some v => .found 0 (.fromVertex v)
    | none =>
      match bdDirectEntries rd c.vid (bdDistances g c starts) starts 256,
        bdDirectEntries rd c.vid (bdDistances g c goals) goals 256 with
      | some fes, some bes =>
        let s := bdInit g c start starts goals limit
        let s := { s with fw := { s.fw with heap := heapify fes }, bw := { s.bw with heap := heapify bes } }
        let r := runMachine (bdStepDirect rd g c) fuel none s
        match r.ending with
        | .done => if r.final.found then .found r.final.best (bdPath g c r.final pathFuel) else .notFound
        | .raised e => .raised e
        | .outOfFuel => .outOfFuel
      | _, _ => .raised .indexError

end

end NoGraphs
