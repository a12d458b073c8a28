import Verif.Model.DepthFirstTrace
import Verif.Proofs.DfsFrames
import Verif.Proofs.SetGrows

/-! Invariants of depth-first search with trace. -/

set_option linter.unusedSectionVars false

namespace NoGraphs

open Spec

variable {V K L S M ML : Type} [DecidableEq V] [DecidableEq K]

section

variable (g : TravGear V K L S M ML) (c : TraceCfg V K L) (bp : Prop) (validL : L → Prop) (already : S)
  (starts : List V)

/-- The rule of the search. -/
def TraceCfg.rule : DfsRule :=
  if c.isTree then .walks else match c.mode with | .dfsTree => .tree | .allPaths => .paths | .allWalks => .walks

/-- The event the code reports for an entered path. -/
def enteredEvent (q : SPath V L) : DfsEvent := if q.last = q.first then .enteringStart else .enteringSuccessor

/-- The consumer prunes the search at the `n`-th entered path `q`. (It can do this only at a report.) -/
def TraceCfg.prune (n : Nat) (q : SPath V L) : Bool := c.report (enteredEvent q) && c.skip n

/-- What follows from the check of the options, and is needed. -/
structure TraceCfg.Ok : Prop where
  walks_on : c.rule = .walks → c.computeOnTrace = false
  paths_on : c.rule = .paths → c.computeOnTrace = true
  back_on : c.rule = .tree → c.report .backEdge = true → c.computeOnTrace = true
  index : c.rule = .tree → (c.report .forwardEdge || c.report .crossEdge) = true → c.computeIndex = true
  edge_paths : c.rule = .paths → c.report .someNonTreeEdge = false ∧ c.report .forwardEdge = false ∧
    c.report .crossEdge = false

/-- The event the code reports for an act. -/
def codeEvent (pre : List (DfsAct V L)) : DfsAct V L → DfsEvent
  | .enter q => enteredEvent q
  | .leave q => if q.isStart then .leavingStart else .leavingSuccessor
  | .skip q =>
    if q.isStart then .skippingStart
    else if c.report .someNonTreeEdge then .someNonTreeEdge
    else if c.report .backEdge && decide (c.vid q.last ∈ q.init.map c.vid) then .backEdge
    else if c.report .forwardEdge || c.report .crossEdge then
      if indexOf (enteredIds c.vid pre) (c.vid q.parent) < indexOf (enteredIds c.vid pre) (c.vid q.last) then
        (if c.report .forwardEdge then .forwardEdge else .none)
      else (if c.report .crossEdge then .crossEdge else .none)
    else .none

/-- The code makes a report for the act. -/
def shown (m : List (DfsAct V L) × DfsAct V L) : Bool :=
  codeEvent c m.1 m.2 ≠ .none && c.report (codeEvent c m.1 m.2)

/-- The vertices in the on-trace set at an act. -/
def onVerts : DfsAct V L → List V
  | .skip q => q.init
  | .enter q | .leave q => q.verts

/-- The ids visited after some acts. -/
def ghost (hist : List (DfsAct V L)) : K → Prop :=
  fun k => g.so.contains already k = true ∨ k ∈ enteredIds c.vid hist

/-- The path is stored, with the given labels. -/
def StoredP (pr : M) (la : ML) (p : SPath V L) (tl : List L) : Prop :=
  StoredPath (g.mo.get? pr) (g.lo.get? la) c.vid p.last (p.relabel tl)

/-- The paths of the trace are stored. -/
def StoredAll (pr : M) (la : ML) : List (SPath V L) → List L → Prop
  | [], _ => True
  | p :: P, tl => StoredP g c pr la p tl.reverse ∧ StoredAll pr la P tl.tail

/-- Facts about the acts. -/
structure TrFact (pre : List (DfsAct V L)) (a : DfsAct V L) : Prop where
  gpath : GPath c.next starts a.path
  nodup : c.rule ≠ .walks → ((onVerts a).map c.vid).Nodup
  entN : c.rule = .tree → (enteredIds c.vid pre).Nodup ∧ ∀ k ∈ enteredIds c.vid pre, ¬ g.so.contains already k = true
  left : c.rule = .tree → ∀ k ∈ leftIds c.vid pre, k ∈ enteredIds c.vid pre
  enter : c.rule = .tree → ∀ q, a = .enter q → ¬ ghost g c already pre (c.vid q.last)
  skip : c.rule = .tree → ∀ q, a = .skip q → ghost g c already pre (c.vid q.last) ∧
    ∀ k, k ∈ q.init.map c.vid ↔ k ∈ enteredIds c.vid pre ∧ k ∉ leftIds c.vid pre
  skipP : c.rule = .paths → ∀ q, a = .skip q → c.vid q.last ∈ q.init.map c.vid
  skipW : c.rule = .walks → ∀ q, a ≠ .skip q

/-- A report for an act. -/
structure TrMatch (r : TraceReport V K L S M ML) (m : List (DfsAct V L) × DfsAct V L) : Prop where
  vertex : r.vertex = m.2.path.last
  event : r.event = codeEvent c m.1 m.2
  trace : r.trace = m.2.path.verts
  depth : c.computeDepth = true → r.depth = ((onVerts m.2).length : Int) - 1
  onTr : c.computeOnTrace = true → ∀ k, g.so.contains r.onTrace k = true ↔ k ∈ (onVerts m.2).map c.vid
  vis : c.rule = .tree → ∀ k, g.so.contains r.visited k = true ↔ ghost g c already (m.1 ++ [m.2]) k
  idx : c.computeIndex = true → ∀ k, r.index k = indexOf (enteredIds c.vid (m.1 ++ [m.2])) k
  labels : c.labeled = true → LabelsAgree c.next m.2.path r.traceLabels
  paths : bp → (∀ q, m.2 ≠ .skip q) → StoredP g c r.preds r.labels m.2.path r.traceLabels

/-- What is needed for building paths, if something is claimed about paths (`bp`). -/
def TrPathsOk : Prop := bp → c.buildPaths = true ∧ c.labeled = true ∧
  (∃ validV, Storable g c.toTravCfg starts validV validL) ∧ g.mo.Faithful ∧
  (c.rule = .tree ∨ (c.rule = .paths ∧ starts.length ≤ 1))

/-- The paths in the on-trace set: the frames and, when a path is just left (`lv`), this one. -/
def onPaths (q : Option (SPath V L)) (lv : Bool) (F : List (Frame V L)) : List (SPath V L) :=
  (if lv then q.toList else []) ++ F.map (·.1)

/-- The data of the traversal, with frames `F`, a path `q` that is currently left (`lv`) or skipped, and the acts
`hist` so far. -/
structure TrData (s : TraceState V K L S M ML) (F : List (Frame V L)) (q : Option (SPath V L)) (lv : Bool)
    (hist : List (DfsAct V L)) : Prop where
  frames : FramesOk c.next starts F
  extra : ∀ p, q = some p → Parent c.next starts p F
  trace : s.trace = (q.toList ++ F.map (·.1)).map SPath.last
  depth : c.computeDepth = true → s.depth = ((onPaths q lv F).length : Int) - 1
  onTr : c.computeOnTrace = true → ∀ k, g.so.contains s.onTrace k = true ↔
    k ∈ (onPaths q lv F).map (fun p => c.vid p.last)
  nodup : c.rule ≠ .walks → ((onPaths q lv F).map (fun p => c.vid p.last)).Nodup
  vis : c.rule = .tree → ∀ k, g.so.contains s.visited k = true ↔ ghost g c already hist k
  idx : c.computeIndex = true → (∀ k, s.index k = indexOf (enteredIds c.vid hist) k) ∧
    s.time = (entered hist).length + 1
  opens : ∀ p ∈ onPaths q lv F, p ∈ entered hist
  entN : c.rule = .tree → (enteredIds c.vid hist).Nodup ∧
    ∀ k ∈ enteredIds c.vid hist, ¬ g.so.contains already k = true
  left : c.rule = .tree → ∀ k, k ∈ leftIds c.vid hist ↔
    k ∈ enteredIds c.vid hist ∧ k ∉ F.map (fun f => c.vid f.1.last)
  range : c.rule = .tree → c.report .backEdge = true → ∀ k, g.so.contains s.visited k = true →
    (g.so.mustContain s.onTrace k).isSome = true
  cur : ∀ f ∈ F, s.cur = some f.1.first
  facts : ∀ m ∈ moments hist, TrFact g c already starts m.1 m.2
  agree : c.labeled = true → match (q.toList ++ F.map (·.1)).head? with
    | some p => LabelsAgree c.next p s.traceLabels.reverse
    | none => s.traceLabels = []
  stored : bp → StoredAll g c s.preds s.labels (onPaths q lv F)
    (if lv || q.isNone then s.traceLabels else s.traceLabels.tail)
  dom : bp → ∀ k, (g.mo.get? s.preds k).isSome = true → k ∈ enteredIds c.vid hist

/-- The stacks, with a start vertex `x` that is still to be handled. -/
structure TrStack (s : TraceState V K L S M ML) (F : List (Frame V L)) (x : Option V) : Prop where
  stack : s.toVisit = F.flatMap (fun f => f.2.map Prod.fst) ++ x.toList
  mark : s.markers = F.flatMap (fun f => f.2.map (fun _ => false) ++ [true]) ++ x.toList.map (fun _ => false)
  labs : c.labeled = true → ∃ junk, s.toLabels = F.flatMap (fun f => f.2.map Prod.snd) ++ junk
  bound : c.labeled = true → F.flatMap (fun f => f.2) ≠ [] → s.lab.isSome = true
  valid : bp → (∀ l, s.lab = some l → validL l) ∧ ∀ l ∈ s.toLabels, validL l

/-- The label of the edge pushed last is in the variable `labels`. -/
def TrFresh (s : TraceState V K L S M ML) (F : List (Frame V L)) : Prop :=
  c.labeled = true → ∀ p e ps F0, F = (p, e :: ps) :: F0 →
    ((∃ v es, s.pc = .edges v es) ∨ (e :: ps).length = (c.next p.last).length) → s.lab = some e.2

/-- The frames, as if the out-edges of an entered vertex were already pushed. -/
def vframes (s : TraceState V K L S M ML) (F : List (Frame V L)) : List (Frame V L) :=
  match s.pc, F with
  | .entered _ rep, (p, _) :: F0 => (p, if rep && c.skip s.n then [] else (c.next p.last).reverse) :: F0
  | .edges _ es, (p, ps) :: F0 => (p, es.reverse ++ ps) :: F0
  | _, F => F

/-- What remains of the recursive search. -/
def TrCont (hist : List (DfsAct V L)) (F : List (Frame V L)) (sts : List V) : Prop :=
  ∀ pr : Nat → SPath V L → Bool, (∀ m q, m < (entered hist).length → pr m q = c.prune m q) → ∀ acts vis' n',
    Dfs c.next c.vid c.rule pr (fun k => g.so.contains already k = true) 0 (starts.map SPath.single) acts vis' n' ↔
    ∃ a, acts = hist ++ a ∧
      Rest c.next c.vid c.rule pr (ghost g c already hist) (entered hist).length F sts a vis' n'

/-- Control state. -/
def TrCtl (s : TraceState V K L S M ML) (F : List (Frame V L)) (x : Option V) (q : Option (SPath V L)) (lv : Bool) : Prop :=
  match s.pc with
  | .start => F = [] ∧ x = none ∧ q = none ∧ lv = false
  | .loop nl => q = none ∧ lv = false ∧ (x ≠ none → F = []) ∧ (nl = false → F ≠ [] → s.event = .leavingSuccessor)
  | .leave v last nl => x = none ∧ lv = true ∧ (∃ p, q = some p ∧ p.last = v) ∧ last = F.isEmpty ∧
      (nl = false → F ≠ [] → s.event = .leavingSuccessor)
  | .startShown => x = none ∧ lv = false ∧ (∃ p, q = some p) ∧ F = []
  | .edgeShown => x = none ∧ lv = false ∧ (∃ p, q = some p) ∧ F ≠ []
  | .entered v rep => x = none ∧ lv = false ∧ q = none ∧
      ∃ p F0, F = (p, []) :: F0 ∧ p.last = v ∧ rep = c.report (enteredEvent p)
  | .edges v es => x = none ∧ lv = false ∧ q = none ∧
      ∃ p ps F0, F = (p, ps) :: F0 ∧ p.last = v ∧ (c.next v).reverse = es.reverse ++ ps

/-- The invariant (without reports). -/
structure TrCore (s : TraceState V K L S M ML) (F : List (Frame V L)) (x : Option V) (q : Option (SPath V L)) (lv : Bool)
    (hist : List (DfsAct V L)) : Prop where
  data : TrData g c bp already starts s F q lv hist
  stk : TrStack c bp validL s F x
  fresh : TrFresh c s F
  ctl : TrCtl c s F x q lv
  cont : TrCont g c already starts hist (vframes c s F) (x.toList ++ s.starts)
  n : s.n + (match s.pc with | .entered _ _ => 1 | _ => 0) = (entered hist).length
  xcur : ∀ v, x = some v → s.cur = some v
  sub : ∀ v ∈ x.toList ++ s.starts, v ∈ starts
  one : (x.toList ++ s.starts).length ≤ starts.length ∧
    (entered hist ≠ [] → (x.toList ++ s.starts).length < starts.length)

variable {g c bp validL already starts}

/-! ### Two states with the same data -/

structure SameData (s s' : TraceState V K L S M ML) : Prop where
  trace : s'.trace = s.trace
  depth : s'.depth = s.depth
  onTrace : s'.onTrace = s.onTrace
  visited : s'.visited = s.visited
  index : s'.index = s.index
  time : s'.time = s.time
  cur : s'.cur = s.cur
  traceLabels : s'.traceLabels = s.traceLabels
  preds : s'.preds = s.preds
  labels : s'.labels = s.labels

theorem TrData.congr {s s' : TraceState V K L S M ML} {F : List (Frame V L)} {q : Option (SPath V L)} {lv : Bool}
    {hist : List (DfsAct V L)} (h : TrData g c bp already starts s F q lv hist) (e : SameData s s') :
    TrData g c bp already starts s' F q lv hist := by
  obtain ⟨e1, e2, e3, e4, e5, e6, e7, e8, e9, e10⟩ := e
  constructor
  · exact h.frames
  · exact h.extra
  · rw [e1]; exact h.trace
  · rw [e2]; exact h.depth
  · rw [e3]; exact h.onTr
  · exact h.nodup
  · rw [e4]; exact h.vis
  · rw [e5, e6]; exact h.idx
  · exact h.opens
  · exact h.entN
  · exact h.left
  · rw [e3, e4]; exact h.range
  · rw [e7]; exact h.cur
  · exact h.facts
  · rw [e8]; exact h.agree
  · rw [e8, e9, e10]; exact h.stored
  · rw [e9]; exact h.dom

/-- Only the pending edges of the frames change. -/
theorem TrData.frames_congr {s : TraceState V K L S M ML} {F F' : List (Frame V L)} {q : Option (SPath V L)} {lv : Bool}
    {hist : List (DfsAct V L)} (h : TrData g c bp already starts s F q lv hist) (hF : FramesOk c.next starts F')
    (e : F'.map (·.1) = F.map (·.1)) (hex : ∀ p, q = some p → Parent c.next starts p F') :
    TrData g c bp already starts s F' q lv hist := by
  have e1 : onPaths q lv F' = onPaths q lv F := by unfold onPaths; rw [e]
  have e2 : F'.map (fun f => c.vid f.1.last) = F.map (fun f => c.vid f.1.last) := by
    have := congrArg (List.map (fun p : SPath V L => c.vid p.last)) e
    simpa [List.map_map, Function.comp_def] using this
  constructor
  · exact hF
  · exact hex
  · rw [e]; exact h.trace
  · rw [e1]; exact h.depth
  · rw [e1]; exact h.onTr
  · rw [e1]; exact h.nodup
  · exact h.vis
  · exact h.idx
  · rw [e1]; exact h.opens
  · exact h.entN
  · rw [e2]; exact h.left
  · exact h.range
  · intro f hf
    have : f.1 ∈ F'.map (·.1) := List.mem_map_of_mem hf
    rw [e] at this
    obtain ⟨f', hf', e'⟩ := List.mem_map.1 this
    rw [h.cur f' hf', e']
  · exact h.facts
  · rw [e]; exact h.agree
  · rw [e1]; exact h.stored
  · exact h.dom

/-! ### The rest of the search -/

theorem ghost_enter (hist : List (DfsAct V L)) (q : SPath V L) :
    ghost g c already (hist ++ [.enter q]) = insertId (ghost g c already hist) (c.vid q.last) := by
  funext k
  apply propext
  simp only [ghost, insertId, enteredIds_append, enteredIds_enter, List.mem_append, List.mem_singleton]
  constructor
  · rintro (h | h | h)
    · exact .inr (.inl h)
    · exact .inr (.inr h)
    · exact .inl h
  · rintro (h | h | h)
    · exact .inr (.inr h)
    · exact .inl h
    · exact .inr (.inl h)

theorem ghost_leave (hist : List (DfsAct V L)) (q : SPath V L) :
    ghost g c already (hist ++ [.leave q]) = ghost g c already hist := by
  funext k; simp [ghost]

theorem ghost_skip (hist : List (DfsAct V L)) (q : SPath V L) :
    ghost g c already (hist ++ [.skip q]) = ghost g c already hist := by
  funext k; simp [ghost]

theorem entered_snoc_leave (hist : List (DfsAct V L)) (q : SPath V L) : entered (hist ++ [.leave q]) = entered hist := by
  simp

theorem entered_snoc_skip (hist : List (DfsAct V L)) (q : SPath V L) : entered (hist ++ [.skip q]) = entered hist := by
  simp

theorem entered_snoc_enter (hist : List (DfsAct V L)) (q : SPath V L) :
    entered (hist ++ [.enter q]) = entered hist ++ [q] := by simp

theorem append_cons_eq {α : Type} (h a : List α) (x : α) : h ++ x :: a = (h ++ [x]) ++ a := by simp

theorem TrCont.leave {hist : List (DfsAct V L)} {p : SPath V L} {F : List (Frame V L)} {sts : List V}
    (h : TrCont g c already starts hist ((p, []) :: F) sts) :
    TrCont g c already starts (hist ++ [.leave p]) F sts := by
  intro pr hpr acts vis' n'
  rw [entered_snoc_leave] at hpr ⊢
  rw [h pr hpr, ghost_leave]
  constructor
  · rintro ⟨a, rfl, h⟩
    obtain ⟨b, rfl, hb'⟩ := Rest.leave_iff.1 h
    exact ⟨b, append_cons_eq _ _ _, hb'⟩
  · rintro ⟨a, rfl, h⟩
    exact ⟨_, (append_cons_eq _ _ _).symm, Rest.leave_iff.2 ⟨a, rfl, h⟩⟩

theorem TrCont.skip {hist : List (DfsAct V L)} {q : SPath V L} {F F' : List (Frame V L)} {sts sts' : List V}
    (h : TrCont g c already starts hist F sts) (hp : Pop F sts q F' sts')
    (hb : c.rule.Blocks c.vid (ghost g c already hist) q) :
    TrCont g c already starts (hist ++ [.skip q]) F' sts' := by
  intro pr hpr acts vis' n'
  rw [entered_snoc_skip] at hpr ⊢
  rw [h pr hpr, ghost_skip]
  constructor
  · rintro ⟨a, rfl, h⟩
    obtain ⟨b, rfl, hb'⟩ := (Rest.skip_iff hp hb).1 h
    exact ⟨b, append_cons_eq _ _ _, hb'⟩
  · rintro ⟨a, rfl, h⟩
    exact ⟨_, (append_cons_eq _ _ _).symm, (Rest.skip_iff hp hb).2 ⟨a, rfl, h⟩⟩

theorem TrCont.enter {hist : List (DfsAct V L)} {q : SPath V L} {F F' : List (Frame V L)} {sts sts' : List V}
    (h : TrCont g c already starts hist F sts) (hp : Pop F sts q F' sts')
    (hb : ¬ c.rule.Blocks c.vid (ghost g c already hist) q) :
    TrCont g c already starts (hist ++ [.enter q])
      ((q, if c.prune (entered hist).length q then [] else (c.next q.last).reverse) :: F') sts' := by
  intro pr hpr acts vis' n'
  rw [entered_snoc_enter, List.length_append, List.length_singleton] at hpr ⊢
  rw [h pr (fun m q hm => hpr m q (by omega)), ghost_enter]
  have hq := hpr (entered hist).length q (by omega)
  cases hc : c.prune (entered hist).length q with
  | true =>
    rw [hc] at hq
    rw [if_pos rfl]
    constructor
    · rintro ⟨a, rfl, h⟩
      obtain ⟨b, rfl, hb'⟩ := (Rest.prune_iff hp hb hq).1 h
      exact ⟨b, append_cons_eq _ _ _, hb'⟩
    · rintro ⟨a, rfl, h⟩
      exact ⟨_, (append_cons_eq _ _ _).symm, (Rest.prune_iff hp hb hq).2 ⟨a, rfl, h⟩⟩
  | false =>
    rw [hc] at hq
    rw [if_neg (by simp)]
    constructor
    · rintro ⟨a, rfl, h⟩
      obtain ⟨b, rfl, hb'⟩ := (Rest.enter_iff hp hb hq).1 h
      exact ⟨b, append_cons_eq _ _ _, hb'⟩
    · rintro ⟨a, rfl, h⟩
      exact ⟨_, (append_cons_eq _ _ _).symm, (Rest.enter_iff hp hb hq).2 ⟨a, rfl, h⟩⟩

/-! ### Reports -/

theorem map_last_verts {q : Option (SPath V L)} {F : List (Frame V L)} (hF : FramesOk c.next starts F)
    (hex : ∀ p, q = some p → Parent c.next starts p F) {p : SPath V L}
    (hp : (q.toList ++ F.map (·.1)).head? = some p) :
    ((q.toList ++ F.map (·.1)).map SPath.last).reverse = p.verts := by
  cases q with
  | some p' =>
    simp only [Option.toList_some, List.cons_append, List.nil_append, List.head?_cons, Option.some.injEq] at hp
    subst hp
    rw [(hex p' rfl).verts' hF]
    simp [frameTrace]
  | none =>
    cases F with
    | nil => simp at hp
    | cons f F =>
      simp only [Option.toList_none, List.nil_append, List.map_cons, List.head?_cons, Option.some.injEq] at hp
      subst hp
      rw [hF.verts f F rfl]
      simp [frameTrace]

theorem map_frames_init {F : List (Frame V L)} (hF : FramesOk c.next starts F) {p : SPath V L}
    (hp : Parent c.next starts p F) : ((F.map (·.1)).map SPath.last).reverse = p.init := by
  rw [hp.init hF]; simp [frameTrace]

/-- The report that is yielded when the act `a` has just been done. -/
theorem TrData.report {s : TraceState V K L S M ML} {F : List (Frame V L)} {q : Option (SPath V L)} {lv : Bool}
    {pre : List (DfsAct V L)} {a : DfsAct V L} (h : TrData g c bp already starts s F q lv (pre ++ [a]))
    (hp : (q.toList ++ F.map (·.1)).head? = some a.path)
    (hk : (lv || q.isNone) = true ∧ (∀ p, a ≠ .skip p) ∨ (lv = false ∧ ∃ p, a = .skip p ∧ q = some p))
    {v : V} (hv : v = a.path.last) (he : s.event = codeEvent c pre a) :
    TrMatch g c bp already
      ⟨v, s.depth, s.event, s.visited, s.onTrace, s.trace.reverse, s.traceLabels.reverse, s.index, s.preds, s.labels⟩
      (pre, a) := by
  have hon : ((onPaths q lv F).map SPath.last).reverse = onVerts a := by
    rcases hk with ⟨hk, hns⟩ | ⟨rfl, p, rfl, rfl⟩
    · have hall : onPaths q lv F = q.toList ++ F.map (·.1) := by
        unfold onPaths
        cases q with
        | none => cases lv <;> simp
        | some p => cases lv <;> simp at hk ⊢
      rw [hall, map_last_verts h.frames h.extra hp]
      cases a with
      | enter q => rfl
      | leave q => rfl
      | skip q => exact absurd rfl (hns q)
    · simp only [onPaths, Bool.false_eq_true, if_false, List.nil_append]
      exact map_frames_init h.frames (h.extra p rfl)
  constructor
  · exact hv
  · exact he
  · show s.trace.reverse = _
    rw [h.trace, map_last_verts h.frames h.extra hp]
  · intro hd
    show s.depth = _
    rw [h.depth hd, ← hon]; simp
  · intro ho k
    show g.so.contains s.onTrace k = true ↔ _
    rw [h.onTr ho, ← hon]
    simp [List.map_reverse, List.map_map, Function.comp_def]
  · exact h.vis
  · exact fun hi => (h.idx hi).1
  · intro hl
    have := h.agree hl
    rw [hp] at this
    exact this
  · intro hb hns
    rcases hk with ⟨hk, -⟩ | ⟨-, p, rfl, -⟩
    · have hs := h.stored hb
      rw [if_pos hk] at hs
      have hall : onPaths q lv F = q.toList ++ F.map (·.1) := by
        unfold onPaths
        cases q with
        | none => cases lv <;> simp
        | some p => cases lv <;> simp at hk ⊢
      rw [hall] at hs
      cases hq : (q.toList ++ F.map (·.1)) with
      | nil => rw [hq] at hp; simp at hp
      | cons p P =>
        rw [hq] at hs hp
        simp only [List.head?_cons, Option.some.injEq] at hp
        subst hp
        exact hs.1
    · exact absurd rfl (hns p)

/-! ### Data after the parts of a step -/

theorem agree_tail {p : SPath V L} {F : List (Frame V L)} {tl : List L} (hp : Parent c.next starts p F)
    (h : LabelsAgree c.next p tl.reverse) :
    (match (F.map (·.1)).head? with
      | some p => LabelsAgree c.next p tl.tail.reverse
      | none => tl.tail = []) ∧ (F = [] ↔ tl = []) := by
  cases F with
  | nil =>
    have h1 := h.1
    rw [SPath.isStart_steps hp.1] at h1
    have : tl = [] := by simpa using h1
    subst this
    simp
  | cons f F =>
    obtain ⟨e, rfl, -⟩ := hp
    obtain ⟨tl', l', e1, h1⟩ := LabelsAgree.init h
    have e2 : tl = l' :: tl'.reverse := by
      have := congrArg List.reverse e1
      simpa using this
    subst e2
    simpa using h1

theorem StoredAll.tail {pr : M} {la : ML} {p : SPath V L} {P : List (SPath V L)} {tl : List L}
    (h : StoredAll g c pr la (p :: P) tl) : StoredAll g c pr la P tl.tail := h.2

theorem TrData.markLeave {s : TraceState V K L S M ML} {p : SPath V L} {F : List (Frame V L)}
    {hist : List (DfsAct V L)} (h : TrData g c bp already starts s ((p, []) :: F) none false hist) :
    TrData g c bp already starts s F (some p) true (hist ++ [.leave p]) := by
  have hpar : Parent c.next starts p F := h.frames.2.1
  have hmem : p ∈ entered hist := h.opens p (by simp [onPaths])
  have hmem' : c.vid p.last ∈ enteredIds c.vid hist := List.mem_map.2 ⟨p, hmem, rfl⟩
  constructor
  · exact h.frames.2.2
  · rintro p' ⟨⟩; exact hpar
  · simpa using h.trace
  · simpa [onPaths] using h.depth
  · simpa [onPaths] using h.onTr
  · simpa [onPaths] using h.nodup
  · rw [ghost_leave]; exact h.vis
  · rw [entered_snoc_leave]; simpa using h.idx
  · rw [entered_snoc_leave]; simpa [onPaths] using h.opens
  · simpa using h.entN
  · intro hr k
    have h1 := h.left hr k
    have h2 := h.nodup (by rw [hr]; simp)
    simp only [onPaths, Bool.false_eq_true, if_false, List.nil_append, List.map_cons, List.map_map,
      Function.comp_def, List.nodup_cons] at h2
    simp only [leftIds_append, leftIds_leave, List.mem_append, List.mem_singleton, enteredIds_append,
      enteredIds_leave, List.append_nil]
    rw [h1]
    simp only [List.map_cons, List.mem_cons, not_or]
    constructor
    · rintro (⟨h3, h4, h5⟩ | rfl)
      · exact ⟨h3, h5⟩
      · exact ⟨hmem', h2.1⟩
    · rintro ⟨h3, h4⟩
      by_cases e : k = c.vid p.last
      · exact .inr e
      · exact .inl ⟨h3, e, h4⟩
  · exact h.range
  · exact fun f hf => h.cur f (List.mem_cons_of_mem _ hf)
  · intro m hm
    rw [moments_snoc] at hm
    rcases List.mem_append.1 hm with hm | hm
    · exact h.facts m hm
    · rw [List.mem_singleton] at hm
      subst hm
      constructor
      · exact hpar.gpath h.frames.2.2
      · intro hr
        have := h.nodup hr
        show ((p.verts).map c.vid).Nodup
        have e := h.frames.verts _ _ rfl
        simp only at e
        rw [e, List.map_reverse, List.nodup_reverse]
        simpa [onPaths, frameTrace, Function.comp_def] using this
      · exact h.entN
      · exact fun hr k hk => ((h.left hr k).1 hk).1
      · intro _ q e; cases e
      · intro _ q e; cases e
      · intro _ q e; cases e
      · intro _ q e; cases e
  · simpa using h.agree
  · simpa [onPaths] using h.stored
  · simpa using h.dom

theorem TrData.onTop {s : TraceState V K L S M ML} {p : SPath V L} {F : List (Frame V L)}
    {hist : List (DfsAct V L)} (h : TrData g c bp already starts s F (some p) true hist)
    (ho : c.computeOnTrace = true) : g.so.contains s.onTrace (c.vid p.last) = true := by
  rw [h.onTr ho]; simp [onPaths]

/-- The removal of a left vertex from the set of vertices on the trace does not fail. -/
theorem TrData.drops (hso : g.so.Lawful) {s : TraceState V K L S M ML} {p : SPath V L} {F : List (Frame V L)}
    {hist : List (DfsAct V L)} (h : TrData g c bp already starts s F (some p) true hist) :
    ∃ ot, (if c.computeOnTrace then g.so.drop s.onTrace (c.vid p.last) else .ok s.onTrace) = Except.ok ot := by
  split
  · rename_i ho
    obtain ⟨ot, hot, -⟩ := hso.drop_ok _ _ (h.onTop ho)
    exact ⟨ot, hot⟩
  · exact ⟨_, rfl⟩

theorem TrData.afterLeave (hok : c.Ok) (hpo : TrPathsOk g c bp validL starts) (hso : g.so.Lawful) (hgr : g.so.Grows)
    {s : TraceState V K L S M ML} {p : SPath V L} {F : List (Frame V L)}
    {hist : List (DfsAct V L)} (h : TrData g c bp already starts s F (some p) true hist) (pc : TracePc V L) {ot : S}
    (hot : (if c.computeOnTrace then g.so.drop s.onTrace (c.vid p.last) else .ok s.onTrace) = .ok ot) :
    TrData g c bp already starts { s with
      pc := pc
      traceLabels := if c.labeled && !F.isEmpty then s.traceLabels.tail else s.traceLabels
      trace := s.trace.tail
      onTrace := ot
      depth := if c.computeDepth then s.depth - 1 else s.depth } F none false hist := by
  have hpar : Parent c.next starts p F := h.extra p rfl
  constructor
  · exact h.frames
  · simp
  · simp [h.trace]
  · intro hd
    have := h.depth hd
    simp only [onPaths, if_true, Option.toList_some, List.length_append, List.length_cons, List.length_nil,
      List.length_map] at this
    simp only [hd, if_true, onPaths, Bool.false_eq_true, if_false, List.nil_append, List.length_map]
    omega
  · intro ho k
    have hr : c.rule ≠ .walks := by intro hr; rw [hok.walks_on hr] at ho; cases ho
    have h1 := h.onTr ho k
    have h2 := h.nodup hr
    simp only [onPaths, if_true, Option.toList_some, List.cons_append, List.nil_append, List.map_cons,
      List.mem_cons, List.nodup_cons] at h1 h2
    obtain ⟨ot', hot', hj⟩ := hso.drop_ok s.onTrace (c.vid p.last) (h.onTop ho)
    rw [if_pos ho, hot', Except.ok.injEq] at hot
    subst hot
    simp only [hj, Bool.and_eq_true, Bool.not_eq_true', decide_eq_false_iff_not,
      onPaths, Bool.false_eq_true, if_false, List.nil_append, h1]
    constructor
    · rintro ⟨h3, h4⟩; exact h4.resolve_left h3
    · intro h3; exact ⟨fun e => h2.1 (e ▸ h3), .inr h3⟩
  · intro hr
    have h2 := h.nodup hr
    simp only [onPaths, if_true, Option.toList_some, List.cons_append, List.nil_append, List.map_cons,
      List.nodup_cons] at h2
    simpa [onPaths] using h2.2
  · exact h.vis
  · exact h.idx
  · intro p' hp'
    exact h.opens p' (by simp only [onPaths] at hp' ⊢; simp at hp'; simp [hp'])
  · exact h.entN
  · exact h.left
  · intro hr hb k hk
    have := h.range hr hb k hk
    show (g.so.mustContain ot k).isSome = true
    split at hot
    · exact hgr.drop _ _ _ _ hot this
    · cases hot; exact this
  · exact h.cur
  · exact h.facts
  · intro hl
    have h1 := agree_tail hpar (tl := s.traceLabels) (by simpa using h.agree hl)
    cases F with
    | nil =>
      have := h1.2.1 rfl
      simp [this]
    | cons f F => simpa [hl] using h1.1
  · intro hb
    have h1 := h.stored hb
    simp only [Bool.true_or, if_true, onPaths, Option.toList_some, List.cons_append, List.nil_append] at h1
    simp only [Option.isNone_none, Bool.or_true, if_true, onPaths, Bool.false_eq_true, if_false, List.nil_append]
    cases F with
    | nil => trivial
    | cons f F =>
      cases hl : c.labeled with
      | true => simpa [hl] using h1.tail
      | false => rw [(hpo hb).2.1] at hl; cases hl
  · exact h.dom

/-- A shown path is removed from the trace. -/
theorem TrData.afterShown (hpo : TrPathsOk g c bp validL starts)
    {s : TraceState V K L S M ML} {p : SPath V L} {F : List (Frame V L)}
    {hist : List (DfsAct V L)} (h : TrData g c bp already starts s F (some p) false hist) (pc : TracePc V L)
    (tl : List L) (htl : c.labeled = true → tl = s.traceLabels.tail) :
    TrData g c bp already starts { s with pc := pc, traceLabels := tl, trace := s.trace.tail } F none false hist := by
  have hpar : Parent c.next starts p F := h.extra p rfl
  constructor
  · exact h.frames
  · simp
  · simp [h.trace]
  · exact h.depth
  · exact h.onTr
  · exact h.nodup
  · exact h.vis
  · exact h.idx
  · exact h.opens
  · exact h.entN
  · exact h.left
  · exact h.range
  · exact h.cur
  · exact h.facts
  · intro hl
    have h1 := agree_tail hpar (tl := s.traceLabels) (by simpa using h.agree hl)
    rw [← htl hl] at h1
    simpa using h1.1
  · intro hb
    have h1 := h.stored hb
    rw [htl (hpo hb).2.1]
    simpa [onPaths] using h1
  · exact h.dom

/-- A path is appended to the trace, temporarily. -/
theorem TrData.show {s : TraceState V K L S M ML} {q : SPath V L} {F : List (Frame V L)}
    {hist : List (DfsAct V L)} (h : TrData g c bp already starts s F none false hist)
    (hq : Parent c.next starts q F) (ev : DfsEvent) (pc : TracePc V L) (tl : List L)
    (htl : c.labeled = true → LabelsAgree c.next q tl.reverse) (htl' : c.labeled = true → tl.tail = s.traceLabels)
    (hpo : TrPathsOk g c bp validL starts) :
    TrData g c bp already starts
      { s with event := ev, trace := q.last :: s.trace, traceLabels := tl, pc := pc } F (some q) false hist := by
  constructor
  · exact h.frames
  · rintro p ⟨⟩; exact hq
  · simp [h.trace]
  · exact h.depth
  · exact h.onTr
  · exact h.nodup
  · exact h.vis
  · exact h.idx
  · exact h.opens
  · exact h.entN
  · exact h.left
  · exact h.range
  · exact h.cur
  · exact h.facts
  · intro hl; simpa using htl hl
  · intro hb
    have h1 := h.stored hb
    simp only [Bool.false_or, Option.isNone_some, Bool.false_eq_true, if_false]
    rw [htl' (hpo hb).2.1]
    simpa [onPaths] using h1
  · exact h.dom

/-- A path is skipped. -/
theorem TrData.skip {s : TraceState V K L S M ML} {q : SPath V L} {F : List (Frame V L)}
    {hist : List (DfsAct V L)} (h : TrData g c bp already starts s F none false hist)
    (hq : Parent c.next starts q F) (hb : c.rule.Blocks c.vid (ghost g c already hist) q) :
    TrData g c bp already starts s F none false (hist ++ [.skip q]) := by
  have hinit : q.init = (frameTrace F).reverse := hq.init h.frames
  constructor
  · exact h.frames
  · simp
  · exact h.trace
  · exact h.depth
  · exact h.onTr
  · exact h.nodup
  · rw [ghost_skip]; exact h.vis
  · rw [entered_snoc_skip]; simpa using h.idx
  · rw [entered_snoc_skip]; exact h.opens
  · simpa using h.entN
  · simpa using h.left
  · exact h.range
  · exact h.cur
  · intro m hm
    rw [moments_snoc] at hm
    rcases List.mem_append.1 hm with hm | hm
    · exact h.facts m hm
    · rw [List.mem_singleton] at hm
      subst hm
      constructor
      · exact hq.gpath h.frames
      · intro hr
        have := h.nodup hr
        show ((q.init).map c.vid).Nodup
        rw [hinit, List.map_reverse, List.nodup_reverse]
        simpa [onPaths, frameTrace, Function.comp_def] using this
      · exact h.entN
      · exact fun hr k hk => ((h.left hr k).1 hk).1
      · intro _ q e; cases e
      · rintro hr q' ⟨⟩
        rw [hr] at hb
        refine ⟨hb, fun k => ?_⟩
        have h1 := h.left hr k
        rw [hinit]
        simp only [frameTrace, List.map_reverse, List.mem_reverse, List.map_map, Function.comp_def]
        constructor
        · intro hk
          have hke : k ∈ enteredIds c.vid hist := by
            obtain ⟨f, hf, rfl⟩ := List.mem_map.1 hk
            exact List.mem_map.2 ⟨f.1, h.opens f.1 (by simp only [onPaths]; simp; exact ⟨_, hf⟩), rfl⟩
          exact ⟨hke, fun hl => (h1.1 hl).2 hk⟩
        · rintro ⟨h2, h3⟩
          by_contra h4
          exact h3 (h1.2 ⟨h2, h4⟩)
      · rintro hr q' ⟨⟩
        rw [hr] at hb; exact hb
      · rintro hr q' -
        rw [hr] at hb; exact hb
  · exact h.agree
  · exact h.stored
  · simpa using h.dom

theorem relabel_verts_sub {p : SPath V L} {tl : List L} {u : V} (h : u ∈ (p.relabel tl).verts) : u ∈ p.verts := by
  simp only [SPath.verts, SPath.relabel, List.mem_cons] at h ⊢
  rcases h with h | h
  · exact .inl h
  · obtain ⟨⟨a, b⟩, h1, rfl⟩ := List.mem_map.1 h
    exact .inr (List.of_mem_zip h1).1

theorem FramesOk.verts_sub {F : List (Frame V L)} (hF : FramesOk c.next starts F) :
    ∀ f ∈ F, ∀ u ∈ f.1.verts, u ∈ frameTrace F := by
  induction F with
  | nil => simp
  | cons f F ih =>
    intro f' hf' u hu
    rcases List.mem_cons.1 hf' with rfl | hf'
    · rw [hF.verts _ _ rfl] at hu; simpa using hu
    · have := ih hF.2.2 f' hf' u hu
      simp only [frameTrace, List.map_cons, List.mem_cons]
      exact .inr this

theorem StoredAll.frame {pr pr' : M} {la la' : ML} {k : K} (hpr : ∀ j, j ≠ k → g.mo.get? pr' j = g.mo.get? pr j)
    (hla : ∀ j, j ≠ k → g.lo.get? la' j = g.lo.get? la j) (P : List (SPath V L)) (tl : List L)
    (hk : ∀ p ∈ P, ∀ u ∈ p.verts, c.vid u ≠ k) (h : StoredAll g c pr la P tl) : StoredAll g c pr' la' P tl := by
  induction P generalizing tl with
  | nil => trivial
  | cons p P ih =>
    refine ⟨?_, ih _ (fun p hp => hk p (List.mem_cons_of_mem _ hp)) h.2⟩
    have hp := hk p List.mem_cons_self
    exact h.1.frame (fun u hu => hpr _ (hp u (relabel_verts_sub hu))) (fun u hu => hla _ (hp u (relabel_verts_sub hu)))

/-- A vertex is entered. -/
theorem TrData.enter (hok : c.Ok) (hpo : TrPathsOk g c bp validL starts)
    {s s' : TraceState V K L S M ML} {q : SPath V L} {F : List (Frame V L)}
    {hist : List (DfsAct V L)} (h : TrData g c bp already starts s F none false hist)
    (hq : Parent c.next starts q F) (hb : ¬ c.rule.Blocks c.vid (ghost g c already hist) q)
    (hcur : s.cur = some q.first)
    (hlab : c.labeled = true → q.isStart = false → ∃ l', s.lab = some l' ∧
      LabelsAgree c.next q (s.traceLabels.reverse ++ [l']))
    (hval : bp → ∀ l, s.lab = some l → validL l)
    (hone : bp → q.isStart = true → c.rule = .paths → entered hist = [])
    (hvis : c.rule = .tree → ∀ k, g.so.contains s'.visited k = (decide (k = c.vid q.last) || g.so.contains s.visited k))
    (hon : c.computeOnTrace = true → ∀ k, g.so.contains s'.onTrace k =
      (decide (k = c.vid q.last) || g.so.contains s.onTrace k))
    (hran : c.rule = .tree → c.computeOnTrace = true → ∀ k, (k = c.vid q.last ∨
      (g.so.mustContain s.onTrace k).isSome = true) → (g.so.mustContain s'.onTrace k).isSome = true)
    (etrace : s'.trace = q.last :: s.trace)
    (edepth : s'.depth = if c.computeDepth then s.depth + 1 else s.depth)
    (eindex : s'.index = if c.computeIndex then fun k => if k = c.vid q.last then s.time else s.index k else s.index)
    (etime : s'.time = if c.computeIndex then s.time + 1 else s.time)
    (ecur : s'.cur = s.cur)
    (etl : s'.traceLabels = if c.labeled && !s.trace.isEmpty then s.lab.toList ++ s.traceLabels else s.traceLabels)
    (epreds : s'.preds = if c.buildPaths then
          match s.trace, s.cur with
          | u :: _, _ => g.mo.set s.preds (c.vid q.last) u
          | [], some st => setStart g s.preds (c.vid st) st
          | [], none => s.preds
        else s.preds)
    (elabels : s'.labels = if c.buildPaths then
          match s.trace, c.labeled, s.lab with
          | _ :: _, true, some l => g.lo.set s.labels (c.vid q.last) l
          | _, _, _ => s.labels
        else s.labels) :
    TrData g c bp already starts s' ((q, []) :: F) none false (hist ++ [.enter q]) := by
  have htr : s.trace = frameTrace F := by rw [h.trace]; simp [frameTrace]
  have hemp : s.trace.isEmpty = q.isStart := by rw [htr, hq.isStart]; cases F <;> rfl
  have hopen : ∀ k ∈ F.map (fun f => c.vid f.1.last), k ∈ enteredIds c.vid hist := by
    intro k hk
    obtain ⟨f, hf, rfl⟩ := List.mem_map.1 hk
    exact List.mem_map.2 ⟨f.1, h.opens f.1 (by simp only [onPaths]; simp; exact ⟨_, hf⟩), rfl⟩
  have hnew : c.rule ≠ .walks → c.vid q.last ∉ F.map (fun f => c.vid f.1.last) := by
    intro hr hk
    cases hr' : c.rule with
    | walks => exact hr hr'
    | tree =>
      rw [hr'] at hb
      exact hb (.inr (hopen _ hk))
    | paths =>
      rw [hr'] at hb
      refine hb ?_
      show c.vid q.last ∈ q.init.map c.vid
      rw [hq.init h.frames]
      simpa [frameTrace, Function.comp_def] using hk
  have hF' : FramesOk c.next starts ((q, []) :: F) := ⟨List.nil_suffix, hq, h.frames⟩
  have hnd : c.rule ≠ .walks → ((onPaths none false ((q, []) :: F)).map (fun p => c.vid p.last)).Nodup := by
    intro hr
    have := h.nodup hr
    simp only [onPaths, Bool.false_eq_true, if_false, List.nil_append, List.map_cons, List.map_map,
      Function.comp_def, List.nodup_cons] at this ⊢
    exact ⟨hnew hr, this⟩
  have hagree : c.labeled = true → LabelsAgree c.next q s'.traceLabels.reverse := by
    intro hl
    rw [etl, hl, hemp]
    cases hs : q.isStart with
    | true =>
      have : F = [] := by have := hq.isStart; rw [hs] at this; cases F <;> simp at this ⊢
      subst this
      have := h.agree hl
      simp only [Option.toList_none, List.nil_append, List.map_nil, List.head?_nil] at this
      rw [this]
      exact LabelsAgree.start hs
    | false =>
      obtain ⟨l', e1, h1⟩ := hlab hl hs
      simpa [e1] using h1
  constructor
  · exact hF'
  · simp
  · simp [etrace, h.trace]
  · intro hd
    have := h.depth hd
    simp only [onPaths, Bool.false_eq_true, if_false, List.nil_append, List.length_map, List.length_cons] at this ⊢
    rw [edepth, if_pos hd, this]
    omega
  · intro ho k
    have := h.onTr ho k
    rw [hon ho k]
    simp only [onPaths, Bool.false_eq_true, if_false, List.nil_append, List.map_cons, List.mem_cons,
      Bool.or_eq_true, decide_eq_true_eq] at this ⊢
    rw [this]
  · exact hnd
  · intro hr k
    rw [hvis hr k, ghost_enter]
    simp only [Bool.or_eq_true, decide_eq_true_eq, h.vis hr k, insertId]
  · intro hi
    obtain ⟨h1, h2⟩ := h.idx hi
    rw [eindex, etime, if_pos hi, if_pos hi, entered_snoc_enter]
    refine ⟨fun k => ?_, by simp [h2]⟩
    simp only [enteredIds_append, enteredIds_enter, indexOf_snoc, enteredIds_length, h1, h2]
  · intro p hp
    rw [entered_snoc_enter, List.mem_append]
    simp only [onPaths, Bool.false_eq_true, if_false, List.nil_append, List.map_cons, List.mem_cons] at hp
    rcases hp with rfl | hp
    · simp
    · exact .inl (h.opens p (by simpa [onPaths] using hp))
  · intro hr
    obtain ⟨h1, h2⟩ := h.entN hr
    rw [hr] at hb
    simp only [enteredIds_append, enteredIds_enter]
    constructor
    · rw [List.nodup_append]
      refine ⟨h1, by simp, ?_⟩
      rintro a ha b hb' rfl
      rw [List.mem_singleton] at hb'
      exact hb (.inr (hb' ▸ ha))
    · intro k hk
      rcases List.mem_append.1 hk with hk | hk
      · exact h2 k hk
      · rw [List.mem_singleton] at hk
        subst hk
        exact fun h => hb (.inl h)
  · intro hr k
    have h1 := h.left hr k
    rw [hr] at hb
    simp only [leftIds_append, leftIds_enter, List.append_nil, enteredIds_append, enteredIds_enter, List.mem_append,
      List.mem_singleton, List.map_cons, List.mem_cons, not_or]
    rw [h1]
    constructor
    · rintro ⟨h2, h3⟩
      exact ⟨.inl h2, fun e => hb (.inr (e ▸ h2)), h3⟩
    · rintro ⟨h2, h3, h4⟩
      exact ⟨h2.resolve_right (by simpa using h3), h4⟩
  · intro hr hbk k hk
    rw [hvis hr k, Bool.or_eq_true, decide_eq_true_eq] at hk
    refine hran hr (hok.back_on hr hbk) k ?_
    rcases hk with hk | hk
    · exact .inl hk
    · exact .inr (h.range hr hbk k hk)
  · intro f hf
    rw [ecur]
    rcases List.mem_cons.1 hf with rfl | hf
    · exact hcur
    · exact h.cur f hf
  · intro m hm
    rw [moments_snoc] at hm
    rcases List.mem_append.1 hm with hm | hm
    · exact h.facts m hm
    · rw [List.mem_singleton] at hm
      subst hm
      constructor
      · exact hq.gpath h.frames
      · intro hr
        have := hnd hr
        show ((q.verts).map c.vid).Nodup
        have e := hF'.verts _ _ rfl
        simp only at e
        rw [e, List.map_reverse, List.nodup_reverse]
        simpa [onPaths, frameTrace, Function.comp_def] using this
      · exact h.entN
      · exact fun hr k hk => ((h.left hr k).1 hk).1
      · rintro hr q' ⟨⟩
        rw [hr] at hb; exact hb
      · intro _ q e; cases e
      · intro _ q e; cases e
      · intro _ q e; cases e
  · intro hl; simpa using hagree hl
  · intro hbp
    obtain ⟨h1, h2, ⟨validV, h3⟩, h4, h5⟩ := hpo hbp
    have hr : c.rule ≠ .walks := by rcases h5 with h5 | ⟨h5, -⟩ <;> rw [h5] <;> simp
    have hst := h.stored hbp
    simp only [Option.isNone_none, Bool.or_true, if_true, onPaths, Bool.false_eq_true, if_false,
      List.nil_append, List.map_cons] at hst ⊢
    cases F with
    | nil =>
      have hs : q.isStart = true := hq.1
      have hsteps := SPath.isStart_steps hs
      have hlast := SPath.last_of_isStart hs
      refine ⟨?_, trivial⟩
      have hnone : (g.mo.get? s.preds (c.vid q.first)).isSome = false := by
        by_contra hc
        have hd := h.dom hbp (c.vid q.first) (Bool.not_eq_false _ |>.mp hc)
        rcases h5 with h5 | ⟨h5, -⟩
        · rw [h5] at hb
          exact hb (.inr (hlast ▸ hd))
        · have := hone hbp hs h5
          simp [enteredIds, this] at hd
      have hset : s'.preds = g.mo.set s.preds (c.vid q.first) q.first := by
        rw [epreds, if_pos h1, htr, hcur]
        show setStart g s.preds (c.vid q.first) q.first = _
        unfold setStart
        cases hraw : g.mo.raw s.preds (c.vid q.first) with
        | none => rfl
        | some o =>
          cases o with
          | none => rfl
          | some x =>
            have := h4 _ _ _ hraw
            rw [this] at hnone; cases hnone
      have hval : validV q.first := hlast ▸ h3.verts _ (GPath.reachable (hq.gpath h.frames))
      unfold StoredP
      rw [hset, hlast]
      have hrel : ∀ tl, q.relabel tl = SPath.single q.first := by
        intro tl; simp [SPath.relabel, SPath.single, hsteps]
      rw [hrel]
      refine ⟨?_, by simp [SPath.single, SPath.edges, edgesFrom, SPath.verts, rawEdges]⟩
      have : (SPath.single q.first : SPath V L).verts.reverse = [q.first] := by simp [SPath.single, SPath.verts]
      rw [this]
      refine .start ?_
      rw [h3.mo.get_set _ _ _ _ hval, if_pos rfl]
    | cons f F =>
      obtain ⟨e, rfl, -⟩ := id hq
      have hs : (f.1.snoc e.1 e.2).isStart = false := by simp
      obtain ⟨l', el, hla⟩ := hlab h2 hs
      have hlast : (f.1.snoc e.1 e.2).last = e.1 := SPath.last_snoc _ _ _
      have hne : s.trace = f.1.last :: frameTrace F := by rw [htr]; rfl
      have hvalV : validV f.1.last :=
        h3.verts _ (GPath.reachable (h.frames.gpath f List.mem_cons_self))
      have hset : s'.preds = g.mo.set s.preds (c.vid e.1) f.1.last := by
        rw [epreds, if_pos h1, hne, hlast]
      have hsetl : s'.labels = g.lo.set s.labels (c.vid e.1) l' := by
        rw [elabels, if_pos h1, hne, hlast, h2, el]
      have etl' : s'.traceLabels = l' :: s.traceLabels := by
        rw [etl, h2, hemp, hs, el]; rfl
      have hget : ∀ j, g.mo.get? s'.preds j = if j = c.vid e.1 then some f.1.last else g.mo.get? s.preds j := by
        intro j; rw [hset, h3.mo.get_set _ _ _ _ hvalV]
      have hgetl : ∀ j, g.lo.get? s'.labels j = if j = c.vid e.1 then some l' else g.lo.get? s.labels j := by
        intro j; rw [hsetl, h3.lo.get_set _ _ _ _ (hval hbp l' el)]
      have hnew' := hnew hr
      rw [hlast] at hnew'
      have hst' : StoredAll g c s'.preds s'.labels ((f :: F).map (·.1)) s.traceLabels := by
        refine hst.frame (k := c.vid e.1) (fun j hj => by rw [hget, if_neg hj]) (fun j hj => by rw [hgetl, if_neg hj]) _ _ ?_
        intro p hp u hu hk
        obtain ⟨f', hf', rfl⟩ := List.mem_map.1 hp
        have := FramesOk.verts_sub h.frames f' hf' u hu
        apply hnew'
        rw [← hk]
        obtain ⟨f'', h6, rfl⟩ := List.mem_map.1 this
        exact List.mem_map.2 ⟨f'', h6, rfl⟩
      rw [etl']
      refine ⟨?_, hst'⟩
      have hlen : s.traceLabels.reverse.length = f.1.steps.length := by
        have := h.agree h2
        simp only [Option.toList_none, List.nil_append, List.map_cons, List.head?_cons] at this
        exact this.1
      unfold StoredP
      rw [List.reverse_cons, relabel_snoc hlen, hlast]
      refine StoredPath.extend hst'.1 ?_ ?_ ?_
      · rw [hget, if_pos rfl]
      · rw [hgetl, if_pos rfl]
      · intro hc
        exact hnew' (by simp [hc])
  · intro hbp k hk
    obtain ⟨h1, h2, ⟨validV, h3⟩, h4, h5⟩ := hpo hbp
    simp only [enteredIds_append, enteredIds_enter, List.mem_append, List.mem_singleton]
    cases F with
    | nil =>
      have hs : q.isStart = true := hq.1
      have hlast := SPath.last_of_isStart hs
      have hval : validV q.first := hlast ▸ h3.verts _ (GPath.reachable (hq.gpath h.frames))
      rw [epreds, if_pos h1, htr, hcur] at hk
      change (g.mo.get? (setStart g s.preds (c.vid q.first) q.first) k).isSome = true at hk
      by_cases e : k = c.vid q.first
      · exact .inr (by rw [hlast]; exact e)
      · refine .inl (h.dom hbp k ?_)
        unfold setStart at hk
        split at hk
        · exact hk
        · rwa [h3.mo.get_set _ _ _ _ hval, if_neg e] at hk
        · rwa [h3.mo.get_set _ _ _ _ hval, if_neg e] at hk
    | cons f F =>
      have hne : s.trace = f.1.last :: frameTrace F := by rw [htr]; rfl
      have hvalV : validV f.1.last :=
        h3.verts _ (GPath.reachable (h.frames.gpath f List.mem_cons_self))
      rw [epreds, if_pos h1, hne] at hk
      simp only [h3.mo.get_set _ _ _ _ hvalV] at hk
      by_cases e : k = c.vid q.last
      · exact .inr e
      · rw [if_neg e] at hk
        exact .inl (h.dom hbp k hk)

/-! ### Steps -/

variable (g c bp validL already starts)

/-- The path `q` has been taken from the stack. -/
structure Popped (s : TraceState V K L S M ML) (q : SPath V L) (F : List (Frame V L)) (hist : List (DfsAct V L)) : Prop where
  data : TrData g c bp already starts s F none false hist
  stk : TrStack c bp validL s F none
  par : Parent c.next starts q F
  lab : c.labeled = true → q.isStart = false → ∃ l', s.lab = some l' ∧
    LabelsAgree c.next q (s.traceLabels.reverse ++ [l'])
  cur : s.cur = some q.first
  pop : ∃ F0 sts, Pop F0 sts q F s.starts ∧ TrCont g c already starts hist F0 sts
  n : s.n = (entered hist).length
  sub : ∀ v ∈ s.starts, v ∈ starts
  one : s.starts.length < starts.length
  onestart : bp → q.isStart = true → c.rule = .paths → entered hist = []

/-- A measure for control states. -/
def trCls : TracePc V L → Nat
  | .start => 0
  | .loop _ => 1
  | .leave _ _ _ | .startShown | .edgeShown => 2
  | .edges _ _ => 3
  | .entered _ _ => 4

/-- The number of out-edges still to be pushed. -/
def trEs : TracePc V L → Nat
  | .edges _ es => es.length
  | _ => 0

/-- A step that is not an act of the search comes nearer to one. -/
def TrLt (s' s : TraceState V K L S M ML) : Prop :=
  s'.starts.length < s.starts.length ∨ (s'.starts = s.starts ∧
    (trCls s'.pc < trCls s.pc ∨ (trCls s'.pc = trCls s.pc ∧ trEs s'.pc < trEs s.pc)))

/-- What a step from `s0` does. -/
def TrNext (s0 : TraceState V K L S M ML) (hist : List (DfsAct V L)) : Step (TraceState V K L S M ML) (TraceReport V K L S M ML) → Prop
  | .stop _ => True
  | .fail _ => False
  | .tau s' => ∃ F x q lv, (TrCore g c bp validL already starts s' F x q lv hist ∧ TrLt s' s0) ∨
      ∃ a, shown c (hist, a) = false ∧ TrCore g c bp validL already starts s' F x q lv (hist ++ [a])
  | .emit r s' => ∃ F x q lv a, shown c (hist, a) = true ∧ TrMatch g c bp already r (hist, a) ∧
      TrCore g c bp validL already starts s' F x q lv (hist ++ [a])
  | .expand s' => ∃ F x q lv, TrCore g c bp validL already starts s' F x q lv hist ∧ TrLt s' s0

variable {g c bp validL already starts}

/-- If the top frame has an open child, not all of its out-edges are pending. -/
theorem TrFresh.of_parent {s : TraceState V K L S M ML} {F : List (Frame V L)} {q : SPath V L}
    (hq : Parent c.next starts q F) (hpc : ∀ v es, s.pc ≠ .edges v es) : TrFresh c s F := by
  rintro - p e ps F0 rfl (⟨v, es, h⟩ | h)
  · exact absurd h (hpc v es)
  · obtain ⟨e', -, h1⟩ := hq
    have := h1.length_le
    simp at this h
    omega

theorem TrFresh.top_nil {s : TraceState V K L S M ML} {F : List (Frame V L)} {q : SPath V L} :
    TrFresh c s ((q, []) :: F) := by
  rintro - p e ps F0 h
  simp at h

theorem TrFresh.nil {s : TraceState V K L S M ML} : TrFresh c s [] := by
  rintro - p e ps F0 h
  simp at h

theorem enter_step {s0 : TraceState V K L S M ML} (hok : c.Ok) (hpo : TrPathsOk g c bp validL starts)
    {s : TraceState V K L S M ML} {q : SPath V L} {F : List (Frame V L)} {hist : List (DfsAct V L)}
    (h : Popped g c bp validL already starts s q F hist)
    (hb : ¬ c.rule.Blocks c.vid (ghost g c already hist) q) (vis' ot' : S)
    (hvis : c.rule = .tree → ∀ k, g.so.contains vis' k = (decide (k = c.vid q.last) || g.so.contains s.visited k))
    (hon : c.computeOnTrace = true → ∀ k, g.so.contains ot' k =
      (decide (k = c.vid q.last) || g.so.contains s.onTrace k))
    (hran : c.rule = .tree → c.computeOnTrace = true → ∀ k, (k = c.vid q.last ∨
      (g.so.mustContain s.onTrace k).isSome = true) → (g.so.mustContain ot' k).isSome = true) :
    TrNext g c bp validL already starts s0 hist (trEnter g c { s with visited := vis', onTrace := ot' } q.last) := by
  have htr : s.trace = frameTrace F := by rw [h.data.trace]; simp [frameTrace]
  have hemp : s.trace.isEmpty = q.isStart := by rw [htr, h.par.isStart]; cases F <;> rfl
  have hlabn : (c.labeled && !s.trace.isEmpty && s.lab.isNone) = false := by
    rw [hemp]
    cases hl : c.labeled with
    | false => rfl
    | true =>
      cases hs : q.isStart with
      | true => rfl
      | false =>
        obtain ⟨l', e, -⟩ := h.lab hl hs
        simp [e]
  have hev : (if some q.last = s.cur then DfsEvent.enteringStart else .enteringSuccessor) = enteredEvent q := by
    rw [h.cur]; simp [enteredEvent]
  unfold trEnter
  simp only [hlabn, Bool.false_eq_true, if_false, hev]
  generalize hs' : (TraceState.mk _ _ _ _ _ _ _ _ _ _ _ _ _ _ _ _ _ _ : TraceState V K L S M ML) = s'
  have hdata : TrData g c bp already starts s' ((q, []) :: F) none false (hist ++ [.enter q]) := by
    subst hs'
    exact h.data.enter hok hpo h.par hb h.cur h.lab (fun hb => (h.stk.valid hb).1) h.onestart hvis hon hran
      rfl rfl rfl rfl rfl rfl rfl rfl
  have hcore : TrCore g c bp validL already starts s' ((q, []) :: F) none none false (hist ++ [.enter q]) := by
    obtain ⟨F0, sts, hpop, hcont⟩ := h.pop
    refine ⟨hdata, ?_, TrFresh.top_nil, ?_, ?_, ?_, by simp, ?_, ?_⟩
    · subst hs'
      refine ⟨?_, ?_, ?_, ?_, h.stk.valid⟩
      · simpa using h.stk.stack
      · have := h.stk.mark
        simp only [Option.toList_none, List.map_nil, List.append_nil] at this
        simp [this]
      · intro hl; simpa using h.stk.labs hl
      · intro hl; simpa using h.stk.bound hl
    · subst hs'
      exact ⟨rfl, rfl, rfl, q, F, rfl, rfl, rfl⟩
    · have := hcont.enter hpop hb
      subst hs'
      simp only [vframes, Option.toList_none, List.nil_append, TraceCfg.prune] at this ⊢
      rw [h.n]
      exact this
    · subst hs'
      rw [entered_snoc_enter]
      simp [h.n]
    · subst hs'; simpa using h.sub
    · subst hs'
      have := h.one
      simp only [Option.toList_none, List.nil_append]
      exact ⟨by omega, fun _ => this⟩
  have hsh : shown c (hist, .enter q) = c.report (enteredEvent q) := by
    have : enteredEvent q ≠ .none := by unfold enteredEvent; split <;> simp
    simp [shown, codeEvent, this]
  cases hr : c.report (enteredEvent q) with
  | false =>
    simp only [Bool.false_eq_true, if_false]
    exact ⟨_, _, _, _, .inr ⟨.enter q, by rw [hsh, hr], hcore⟩⟩
  | true =>
    simp only [if_true]
    refine ⟨_, _, _, _, .enter q, by rw [hsh, hr], ?_, hcore⟩
    refine hdata.report rfl (.inl ⟨rfl, by simp⟩) rfl ?_
    subst hs'
    rfl

/-- A non-tree edge. -/
theorem showEdge_step {s0 : TraceState V K L S M ML} (hpo : TrPathsOk g c bp validL starts)
    {s : TraceState V K L S M ML} {q : SPath V L} {F : List (Frame V L)} {hist : List (DfsAct V L)}
    (h : Popped g c bp validL already starts s q F hist) (hs : q.isStart = false)
    (hb : c.rule.Blocks c.vid (ghost g c already hist) q) :
    TrNext g c bp validL already starts s0 hist (trShowEdge c s q.last (codeEvent c hist (.skip q))) := by
  have hF : F ≠ [] := by
    rintro rfl
    have := h.par.isStart
    rw [hs] at this; cases this
  obtain ⟨F0, sts, hpop, hcont⟩ := h.pop
  have hcont' := hcont.skip hpop hb
  have hd := h.data.skip h.par hb
  have hst : ∀ pc ev tr tl, TrStack c bp validL { s with pc := pc, event := ev, trace := tr, traceLabels := tl } F none :=
    fun pc ev tr tl => ⟨h.stk.stack, h.stk.mark, h.stk.labs, h.stk.bound, h.stk.valid⟩
  have hone : (s.starts).length ≤ starts.length ∧
      (entered (hist ++ [.skip q]) ≠ [] → (s.starts).length < starts.length) :=
    ⟨by have := h.one; omega, fun _ => h.one⟩
  unfold trShowEdge
  cases hsh : (codeEvent c hist (.skip q) ≠ .none && c.report (codeEvent c hist (.skip q)) : Bool) with
  | false =>
    simp only [Bool.false_eq_true, if_false]
    refine ⟨F, none, none, false, .inr ⟨.skip q, hsh, ?_⟩⟩
    refine ⟨hd.congr ⟨rfl, rfl, rfl, rfl, rfl, rfl, rfl, rfl, rfl, rfl⟩, hst _ _ _ _,
      TrFresh.of_parent h.par (by simp), ⟨rfl, rfl, by simp, by simp⟩, hcont', ?_, by simp, ?_, ?_⟩
    · rw [entered_snoc_skip]; exact h.n
    · simpa using h.sub
    · simpa using hone
  | true =>
    simp only [if_true]
    have hlabn : (c.labeled && s.lab.isNone) = false := by
      cases hl : c.labeled with
      | false => rfl
      | true => obtain ⟨l', e, -⟩ := h.lab hl hs; simp [e]
    simp only [hlabn, Bool.false_eq_true, if_false]
    have hd' := hd.show h.par (codeEvent c hist (.skip q)) .edgeShown
      (if c.labeled then s.lab.toList ++ s.traceLabels else s.traceLabels)
      (by
        intro hl
        obtain ⟨l', e, h1⟩ := h.lab hl hs
        simpa [hl, e] using h1)
      (by
        intro hl
        obtain ⟨l', e, h1⟩ := h.lab hl hs
        simp [hl, e]) hpo
    refine ⟨F, none, some q, false, .skip q, hsh, ?_, ?_⟩
    · exact hd'.report rfl (.inr ⟨rfl, q, rfl, rfl⟩) rfl rfl
    · refine ⟨hd', hst _ _ _ _, TrFresh.of_parent h.par (by simp), ⟨rfl, rfl, ⟨q, rfl⟩, hF⟩, hcont', ?_, by simp, ?_, ?_⟩
      · rw [entered_snoc_skip]; exact h.n
      · simpa using h.sub
      · simpa using hone

/-- Which event is chosen. -/
theorem revisit_eq (hok : c.Ok) (hso : g.so.Lawful)
    {s : TraceState V K L S M ML} {q : SPath V L} {F : List (Frame V L)} {hist : List (DfsAct V L)}
    (h : Popped g c bp validL already starts s q F hist) (hs : q.isStart = false)
    (hb : c.rule.Blocks c.vid (ghost g c already hist) q) (ev : DfsEvent)
    (hev : c.rule = .tree ∧ ev = .none ∨ c.rule = .paths ∧ ev = if c.report .backEdge then .backEdge else .none) :
    trRevisit g c s q.last ev = trShowEdge c s q.last (codeEvent c hist (.skip q)) := by
  cases F with
  | nil => have := h.par.isStart; rw [hs] at this; cases this
  | cons f F =>
  have htr : s.trace = f.1.last :: frameTrace F := by rw [h.data.trace]; simp [frameTrace]
  have hpa : q.parent = f.1.last := h.par.parent h.data.frames
  have hnone : trShowEdge c s q.last .none = .tau { s with pc := .loop true } := by simp [trShowEdge]
  have hmem : c.computeOnTrace = true → (c.vid q.last ∈ q.init.map c.vid ↔ g.so.contains s.onTrace (c.vid q.last) = true) := by
    intro ho
    rw [h.data.onTr ho, h.par.init h.data.frames]
    simp only [onPaths, frameTrace, Bool.false_eq_true, if_false, List.nil_append, List.map_reverse, List.mem_reverse,
      List.map_map, Function.comp_def]
  unfold trRevisit
  simp only [codeEvent, hs, Bool.false_eq_true, if_false]
  cases h1 : c.report .someNonTreeEdge with
  | true => simp
  | false =>
  simp only [Bool.false_eq_true, if_false]
  rcases hev with ⟨hr, rfl⟩ | ⟨hr, rfl⟩
  · cases h2 : c.report .backEdge with
    | true =>
      have ho := hok.back_on hr h2
      have hv : g.so.contains s.visited (c.vid q.last) = true := (h.data.vis hr _).2 (by rw [hr] at hb; exact hb)
      have := h.data.range hr h2 _ hv
      obtain ⟨b, hbm⟩ := Option.isSome_iff_exists.1 this
      have hbv := hso.mustContain_some _ _ _ hbm
      have hdec : decide (c.vid q.last ∈ q.init.map c.vid) = b := by
        rw [hbv]
        cases hcb : g.so.contains s.onTrace (c.vid q.last) with
        | true => simpa using (hmem ho).2 hcb
        | false => simpa [hcb] using hmem ho
      rw [hdec]
      simp only [hbm, Bool.true_or, if_true, Bool.true_and]
      cases b with
      | true => simp
      | false =>
        simp only [ne_eq, reduceCtorEq, not_false_eq_true, decide_true, if_true, Bool.false_eq_true, if_false,
          Bool.true_and]
        cases h3 : (c.report .forwardEdge || c.report .crossEdge) with
        | false => simp
        | true =>
          simp only [if_true]
          rw [htr]
          simp only
          have hi := (h.data.idx (hok.index hr h3)).1
          rw [hi, hi, hpa]
    | false =>
      cases h3 : (c.report .forwardEdge || c.report .crossEdge) with
      | false =>
        rw [Bool.or_eq_false_iff] at h3
        simp [h3.1, h3.2, hnone]
      | true =>
        have hi := (h.data.idx (hok.index hr h3)).1
        simp only [Bool.false_or, h3, Bool.true_or, Bool.false_and, Bool.false_eq_true, if_false, if_true,
          decide_true, Bool.true_and, htr, hi, hpa]
  · obtain ⟨-, h4, h5⟩ := hok.edge_paths hr
    rw [hr] at hb
    have hbm : c.vid q.last ∈ q.init.map c.vid := hb
    cases h2 : c.report .backEdge with
    | true => simp [hbm]
    | false => simp [h4, h5, hnone]

theorem rule_cases (c : TraceCfg V K L) :
    (c.rule = .walks ∧ (c.isTree = true ∨ (c.isTree = false ∧ c.mode = .allWalks))) ∨
    (c.rule = .tree ∧ c.isTree = false ∧ c.mode = .dfsTree) ∨
    (c.rule = .paths ∧ c.isTree = false ∧ c.mode = .allPaths) := by
  unfold TraceCfg.rule
  cases c.isTree <;> cases c.mode <;> simp

/-- A start vertex is skipped. -/
theorem skipStart_step {s0 : TraceState V K L S M ML} (hpo : TrPathsOk g c bp validL starts)
    {s : TraceState V K L S M ML} {q : SPath V L} {F : List (Frame V L)} {hist : List (DfsAct V L)}
    (h : Popped g c bp validL already starts s q F hist) (hs : q.isStart = true)
    (hb : c.rule.Blocks c.vid (ghost g c already hist) q) :
    TrNext g c bp validL already starts s0 hist (if c.report .skippingStart then
        TraceState.yield { s with event := .skippingStart, trace := [q.last], pc := .startShown } q.last
      else .tau { s with pc := .loop true }) := by
  have hF : F = [] := by
    have := h.par.isStart
    rw [hs] at this; cases F <;> simp at this ⊢
  subst hF
  have hev : codeEvent c hist (.skip q) = .skippingStart := by simp [codeEvent, hs]
  obtain ⟨F0, sts, hpop, hcont⟩ := h.pop
  have hcont' := hcont.skip hpop hb
  have hd := h.data.skip h.par hb
  have hone : (s.starts).length ≤ starts.length ∧
      (entered (hist ++ [.skip q]) ≠ [] → (s.starts).length < starts.length) :=
    ⟨by have := h.one; omega, fun _ => h.one⟩
  cases hr : c.report .skippingStart with
  | false =>
    simp only [Bool.false_eq_true, if_false]
    refine ⟨[], none, none, false, .inr ⟨.skip q, by simp [shown, hev, hr], ?_⟩⟩
    refine ⟨hd.congr ⟨rfl, rfl, rfl, rfl, rfl, rfl, rfl, rfl, rfl, rfl⟩,
      ⟨h.stk.stack, h.stk.mark, h.stk.labs, h.stk.bound, h.stk.valid⟩,
      TrFresh.nil, ⟨rfl, rfl, by simp, by simp⟩, hcont', ?_, by simp, ?_, ?_⟩
    · rw [entered_snoc_skip]; exact h.n
    · simpa using h.sub
    · simpa using hone
  | true =>
    simp only [if_true]
    have htr : s.trace = [] := by rw [h.data.trace]; rfl
    have hd' := hd.show h.par .skippingStart .startShown s.traceLabels
      (by
        intro hl
        have := h.data.agree hl
        simp only [Option.toList_none, List.nil_append, List.map_nil, List.head?_nil] at this
        rw [this]
        exact LabelsAgree.start hs)
      (by
        intro hl
        have := h.data.agree hl
        simp only [Option.toList_none, List.nil_append, List.map_nil, List.head?_nil] at this
        rw [this]; rfl) hpo
    rw [htr] at hd'
    refine ⟨[], none, some q, false, .skip q, by simp [shown, hev, hr], ?_, ?_⟩
    · exact hd'.report rfl (.inr ⟨rfl, q, rfl, rfl⟩) rfl hev.symm
    · refine ⟨hd', ⟨h.stk.stack, h.stk.mark, h.stk.labs, h.stk.bound, h.stk.valid⟩, TrFresh.nil,
        ⟨rfl, rfl, ⟨q, rfl⟩, rfl⟩, hcont', ?_, by simp, ?_, ?_⟩
      · rw [entered_snoc_skip]; exact h.n
      · simpa using h.sub
      · simpa using hone

theorem try_step {s0 : TraceState V K L S M ML} (hok : c.Ok) (hpo : TrPathsOk g c bp validL starts) (hso : g.so.Lawful) (hgr : g.so.Grows)
    {s : TraceState V K L S M ML} {q : SPath V L} {F : List (Frame V L)} {hist : List (DfsAct V L)}
    (h : Popped g c bp validL already starts s q F hist) :
    TrNext g c bp validL already starts s0 hist (trTry g c s q.last) := by
  have htr : s.trace = frameTrace F := by rw [h.data.trace]; simp [frameTrace]
  have hemp : s.trace.isEmpty = q.isStart := by rw [htr, h.par.isStart]; cases F <;> rfl
  unfold trTry
  rcases rule_cases c with ⟨hr, hm⟩ | ⟨hr, ht, hm⟩ | ⟨hr, ht, hm⟩
  · have key : TrNext g c bp validL already starts s0 hist (trEnter g c s q.last) := by
      refine enter_step hok hpo h (by rw [hr]; simp [DfsRule.Blocks]) s.visited s.onTrace ?_ ?_ ?_
      · rw [hr]; simp
      · rw [hok.walks_on hr]; simp
      · rw [hr]; simp
    rcases hm with ht | ⟨ht, hm⟩
    · simp only [ht, if_true]; exact key
    · simp only [ht, hm, Bool.false_eq_true, if_false]; exact key
  · simp only [ht, hm, Bool.false_eq_true, if_false, hso.checkAdd_fst]
    have hbl : c.rule.Blocks c.vid (ghost g c already hist) q ↔ g.so.contains s.visited (c.vid q.last) = true := by
      rw [h.data.vis hr, hr]; rfl
    cases hv : g.so.contains s.visited (c.vid q.last) with
    | true =>
      simp only [if_true]
      rw [hemp]
      cases hs : q.isStart with
      | true => simp only [if_true]; exact skipStart_step hpo h hs (hbl.2 hv)
      | false =>
        simp only [Bool.false_eq_true, if_false]
        rw [revisit_eq hok hso h hs (hbl.2 hv) _ (.inl ⟨hr, rfl⟩)]
        exact showEdge_step hpo h hs (hbl.2 hv)
    | false =>
      simp only [Bool.false_eq_true, if_false]
      refine enter_step hok hpo h (by rw [hbl, hv]; simp) _ _ ?_ ?_ ?_
      · intro _ k; exact hso.contains_checkAdd _ _ _
      · intro ho k; rw [if_pos ho, hso.contains_add]
      · intro _ ho k hk
        rw [if_pos ho]
        rcases hk with rfl | hk
        · exact hgr.add_self _ _
        · exact hgr.add _ _ _ hk
  · simp only [ht, hm, Bool.false_eq_true, if_false, hso.checkAdd_fst]
    have ho := hok.paths_on hr
    have hbl : c.rule.Blocks c.vid (ghost g c already hist) q ↔ g.so.contains s.onTrace (c.vid q.last) = true := by
      rw [h.data.onTr ho, hr]
      show c.vid q.last ∈ q.init.map c.vid ↔ _
      rw [h.par.init h.data.frames]
      simp [onPaths, frameTrace]
    cases hv : g.so.contains s.onTrace (c.vid q.last) with
    | true =>
      simp only [if_true]
      have hs : q.isStart = false := by
        by_contra hc
        have hc' : q.isStart = true := by simpa using hc
        have h2 := hbl.2 hv
        rw [hr] at h2
        have h3 : c.vid q.last ∈ q.init.map c.vid := h2
        rw [SPath.init, SPath.verts_of_isStart hc'] at h3
        simp at h3
      rw [revisit_eq hok hso h hs (hbl.2 hv) _ (.inr ⟨hr, rfl⟩)]
      exact showEdge_step hpo h hs (hbl.2 hv)
    | false =>
      simp only [Bool.false_eq_true, if_false]
      refine enter_step hok hpo h (by rw [hbl, hv]; simp) s.visited _ ?_ ?_ ?_
      · rw [hr]; simp
      · intro _ k
        rw [if_pos ho, hso.contains_add, hso.contains_checkAdd]
        cases decide (k = c.vid q.last) <;> simp
      · rw [hr]; simp

theorem flatMap_snd_eq_nil {F : List (Frame V L)} (h : F.flatMap (fun f => f.2.map Prod.fst) = []) : ∀ f ∈ F, f.2 = [] := by
  intro f hf
  rw [List.flatMap_eq_nil_iff] at h
  simpa using h f hf

theorem pop_step {s0 : TraceState V K L S M ML} (hok : c.Ok) (hpo : TrPathsOk g c bp validL starts) (hso : g.so.Lawful) (hgr : g.so.Grows)
    {s : TraceState V K L S M ML} {F : List (Frame V L)} {x : Option V} {hist : List (DfsAct V L)} {nl : Bool}
    {ms : List Bool} (h : TrCore g c bp validL already starts s F x none false hist) (hpc : s.pc = .loop nl)
    (hms : s.markers = false :: ms) :
    TrNext g c bp validL already starts s0 hist (trPop g c { s with markers := ms }) := by
  have hctl := h.ctl
  unfold TrCtl at hctl
  rw [hpc] at hctl
  obtain ⟨-, -, hxF, -⟩ := hctl
  have hn : s.n = (entered hist).length := by have := h.n; rw [hpc] at this; simpa using this
  have hcont := h.cont
  unfold vframes at hcont
  rw [hpc] at hcont
  simp only at hcont
  have hstk := h.stk.stack
  have hmk := h.stk.mark
  rw [hms] at hmk
  cases F with
  | nil =>
    cases x with
    | none => simp at hmk
    | some v =>
      simp only [List.flatMap_nil, List.nil_append, Option.toList_some, List.map_cons, List.map_nil] at hmk hstk
      obtain ⟨-, rfl⟩ := List.cons.inj hmk
      have hone := h.one
      simp only [Option.toList_some, List.cons_append, List.nil_append, List.length_cons] at hone
      have key : Popped g c bp validL already starts { s with markers := [], toVisit := [] } (SPath.single v) [] hist := by
        refine ⟨h.data.congr ⟨rfl, rfl, rfl, rfl, rfl, rfl, rfl, rfl, rfl, rfl⟩, ?_, ?_, ?_, ?_, ?_, hn, ?_, ?_, ?_⟩
        · exact ⟨rfl, rfl, fun _ => ⟨s.toLabels, rfl⟩, by simp, h.stk.valid⟩
        · exact ⟨by simp, by simpa using h.sub v (by simp)⟩
        · intro _ h1; simp at h1
        · exact h.xcur v rfl
        · exact ⟨[], v :: s.starts, .start, hcont⟩
        · exact fun v hv => h.sub v (by simp [hv])
        · show s.starts.length < _
          omega
        · intro hb _ hr
          obtain ⟨-, -, -, -, h5⟩ := hpo hb
          rcases h5 with h5 | ⟨-, h5⟩
          · rw [hr] at h5; cases h5
          · by_contra hc
            have := hone.2 hc
            omega
      unfold trPop
      simp only [hstk, List.isEmpty_nil, Bool.not_true, Bool.and_false, Bool.false_eq_true, if_false]
      have := try_step (s0 := s0) hok hpo hso hgr key
      rwa [SPath.last_single] at this
  | cons f F =>
    obtain ⟨p, ps⟩ := f
    have hx : x = none := by
      by_contra hc; exact absurd (hxF hc) (by simp)
    subst hx
    cases ps with
    | nil => simp at hmk
    | cons e ps =>
      simp only [List.flatMap_cons, List.map_cons, List.cons_append, Option.toList_none, List.map_nil,
        List.append_nil] at hmk hstk
      obtain ⟨-, rfl⟩ := List.cons.inj hmk
      have hfr := h.data.frames
      obtain ⟨hfr', hpar⟩ := Parent.snoc hfr rfl
      have hent : entered hist ≠ [] := by
        have := h.data.opens p (by simp [onPaths])
        intro hc; rw [hc] at this; cases this
      have hone := h.one.2 hent
      simp only [Option.toList_none, List.nil_append] at hone
      have hsub : ∀ v ∈ s.starts, v ∈ starts := fun v hv => h.sub v (by simp [hv])
      have hd : ∀ tv lab tl mk, TrData g c bp already starts
          { s with markers := mk, toVisit := tv, lab := lab, toLabels := tl } ((p, ps) :: F) none false hist := fun tv lab tl mk =>
        (h.data.frames_congr hfr' (by simp) (by simp)).congr ⟨rfl, rfl, rfl, rfl, rfl, rfl, rfl, rfl, rfl, rfl⟩
      have hag : c.labeled = true → LabelsAgree c.next p s.traceLabels.reverse := by
        intro hl; simpa using h.data.agree hl
      have hcur : s.cur = some (p.snoc e.1 e.2).first := h.data.cur _ List.mem_cons_self
      unfold trPop
      simp only [hstk]
      by_cases hcond : c.labeled = true ∧ ps.map Prod.fst ++ F.flatMap (fun f => f.2.map Prod.fst) ≠ []
      · obtain ⟨hl, hne⟩ := hcond
        obtain ⟨junk, hj⟩ := h.stk.labs hl
        simp only [List.flatMap_cons, List.map_cons, List.cons_append] at hj
        have hc : (c.labeled && !(ps.map Prod.fst ++ F.flatMap (fun f => f.2.map Prod.fst)).isEmpty) = true := by
          rw [hl]; simpa [List.isEmpty_iff] using hne
        simp only [hc, if_true, hj]
        have key : Popped g c bp validL already starts { s with
            markers := ps.map (fun _ => false) ++ [true] ++ F.flatMap (fun f => f.2.map (fun _ => false) ++ [true])
            toVisit := ps.map Prod.fst ++ F.flatMap (fun f => f.2.map Prod.fst)
            lab := some e.2
            toLabels := ps.map Prod.snd ++ F.flatMap (fun f => f.2.map Prod.snd) ++ junk }
            (p.snoc e.1 e.2) ((p, ps) :: F) hist := by
          refine ⟨hd _ _ _ _, ?_, hpar, ?_, hcur, ?_, hn, hsub, hone, ?_⟩
          · refine ⟨by simp, by simp, fun _ => ⟨junk, by simp⟩, fun _ _ => rfl, fun hb => ?_⟩
            have hv := (h.stk.valid hb).2
            rw [hj] at hv
            refine ⟨?_, ?_⟩
            · rintro l ⟨⟩; exact hv _ List.mem_cons_self
            · intro l hl; exact hv l (List.mem_cons_of_mem _ hl)
          · intro _ _
            exact ⟨e.2, rfl, LabelsAgree.snoc (hag hl) (.inl rfl)⟩
          · exact ⟨_, _, .edge, hcont⟩
          · intro _ h1; simp at h1
        have := try_step (s0 := s0) hok hpo hso hgr key
        rwa [SPath.last_snoc] at this
      · have hc : (c.labeled && !(ps.map Prod.fst ++ F.flatMap (fun f => f.2.map Prod.fst)).isEmpty) = false := by
          cases hl : c.labeled with
          | false => rfl
          | true =>
            have : ps.map Prod.fst ++ F.flatMap (fun f => f.2.map Prod.fst) = [] := by
              by_contra h1; exact hcond ⟨hl, h1⟩
            rw [this]; rfl
        simp only [hc, Bool.false_eq_true, if_false]
        have hnil : c.labeled = true → ps = [] ∧ ∀ f ∈ F, f.2 = [] := by
          intro hl
          have : ps.map Prod.fst ++ F.flatMap (fun f => f.2.map Prod.fst) = [] := by
            by_contra h1; exact hcond ⟨hl, h1⟩
          rw [List.append_eq_nil_iff] at this
          exact ⟨by simpa using this.1, flatMap_snd_eq_nil this.2⟩
        have key : Popped g c bp validL already starts { s with
            markers := ps.map (fun _ => false) ++ [true] ++ F.flatMap (fun f => f.2.map (fun _ => false) ++ [true])
            toVisit := ps.map Prod.fst ++ F.flatMap (fun f => f.2.map Prod.fst) }
            (p.snoc e.1 e.2) ((p, ps) :: F) hist := by
          refine ⟨hd _ _ _ _, ?_, hpar, ?_, hcur, ?_, hn, hsub, hone, ?_⟩
          · refine ⟨by simp, by simp, fun hl => ⟨s.toLabels, ?_⟩, fun hl => ?_, h.stk.valid⟩
            · obtain ⟨h1, h2⟩ := hnil hl
              have : F.flatMap (fun f => f.2.map Prod.snd) = [] := by
                rw [List.flatMap_eq_nil_iff]; intro f hf; simp [h2 f hf]
              simp [h1, this]
            · intro _
              exact h.stk.bound hl (by simp)
          · intro hl _
            have hsome := h.stk.bound hl (by simp)
            obtain ⟨l', el⟩ := Option.isSome_iff_exists.1 hsome
            refine ⟨l', el, LabelsAgree.snoc (hag hl) ?_⟩
            obtain ⟨h1, h2⟩ := hnil hl
            subst h1
            have hlen := hfr.1.length_le
            simp only [List.length_reverse, List.length_cons, List.length_nil] at hlen
            rcases Nat.lt_or_ge 1 (c.next p.last).length with h3 | h3
            · right
              refine ⟨?_, h3⟩
              rw [← SPath.edges_snoc]
              refine FramesOk.firstEdges (starts := starts) (F := (p.snoc e.1 e.2, []) :: (p, []) :: F)
                ⟨List.nil_suffix, hpar, hfr'⟩ _ _ rfl ?_
              intro f hf
              rcases List.mem_cons.1 hf with rfl | hf
              · rfl
              · exact h2 f hf
            · left
              have := h.fresh hl p e [] F rfl (.inr (by simp; omega))
              rw [el] at this
              exact Option.some.inj this
          · exact ⟨_, _, .edge, hcont⟩
          · intro _ h1; simp at h1
        have := try_step (s0 := s0) hok hpo hso hgr key
        rwa [SPath.last_snoc] at this

/-- Every step preserves the invariant. -/
theorem tr_step (hok : c.Ok) (hpo : TrPathsOk g c bp validL starts) (hso : g.so.Lawful) (hgr : g.so.Grows)
    {s : TraceState V K L S M ML} {F : List (Frame V L)} {x : Option V} {q : Option (SPath V L)} {lv : Bool}
    {hist : List (DfsAct V L)} (h : TrCore g c bp validL already starts s F x q lv hist) :
    TrNext g c bp validL already starts s hist (trStep g c s) := by
  have hctl := h.ctl
  have hn := h.n
  have hcont := h.cont
  unfold TrCtl at hctl
  unfold vframes at hcont
  unfold trStep
  cases hpc : s.pc with
  | start =>
    rw [hpc] at hctl hn hcont
    obtain ⟨rfl, rfl, rfl, rfl⟩ := hctl
    simp only at hcont
    cases hst : s.starts with
    | nil => trivial
    | cons v rest =>
      rw [hst] at hcont
      have hone := h.one
      have hsub := h.sub
      rw [hst] at hone hsub
      refine ⟨[], some v, none, false, .inl ⟨⟨?_, ?_, TrFresh.nil, ⟨rfl, rfl, fun _ => rfl, by simp⟩, ?_, ?_, ?_, ?_, ?_⟩,
        .inl (by simp [hst])⟩⟩
      · obtain ⟨a1, a2, a3, a4, a5, a6, a7, a8, a9, a10, a11, a12, a13, a14, a15, a16, a17⟩ := h.data
        exact ⟨a1, a2, a3, a4, a5, a6, a7, a8, a9, a10, a11, a12, by simp, a14, a15, a16, a17⟩
      · refine ⟨?_, ?_, h.stk.labs, h.stk.bound, h.stk.valid⟩
        · have := h.stk.stack
          simp only [List.flatMap_nil, Option.toList_none, List.append_nil] at this
          simp [this]
        · have := h.stk.mark
          simp only [List.flatMap_nil, Option.toList_none, List.append_nil, List.map_nil] at this
          simp [this]
      · exact hcont
      · exact hn
      · rintro v' ⟨⟩; rfl
      · exact hsub
      · exact hone
  | loop nl =>
    rw [hpc] at hctl hn hcont
    obtain ⟨rfl, rfl, hxF, hev⟩ := hctl
    simp only at hcont hn
    cases hms : s.markers with
    | nil =>
      have hmk := h.stk.mark
      rw [hms] at hmk
      have hF : F = [] := by
        cases F with
        | nil => rfl
        | cons f F => simp at hmk
      subst hF
      have hx : x = none := by cases x <;> simp at hmk ⊢
      subst hx
      refine ⟨[], none, none, false, .inl ⟨⟨h.data.congr ⟨rfl, rfl, rfl, rfl, rfl, rfl, rfl, rfl, rfl, rfl⟩,
        ⟨h.stk.stack, rfl, h.stk.labs, h.stk.bound, h.stk.valid⟩, TrFresh.nil, ⟨rfl, rfl, rfl, rfl⟩, hcont, hn,
        by simp, h.sub, h.one⟩, by simp [TrLt, trCls, trEs, hpc]⟩⟩
    | cons b ms =>
      cases b with
      | false => exact pop_step hok hpo hso hgr h hpc hms
      | true =>
        have hmk := h.stk.mark
        have hstk := h.stk.stack
        rw [hms] at hmk
        cases F with
        | nil => cases x <;> simp at hmk
        | cons f F =>
          obtain ⟨p, ps⟩ := f
          have hx : x = none := by
            by_contra hc; exact absurd (hxF hc) (by simp)
          subst hx
          cases ps with
          | cons e ps => simp [List.replicate_succ] at hmk
          | nil =>
            simp only [List.flatMap_cons, List.map_nil, List.nil_append, List.cons_append, Option.toList_none,
              List.append_nil] at hmk hstk hcont
            obtain ⟨-, hms'⟩ := List.cons.inj hmk
            have htr : s.trace = p.last :: frameTrace F := by rw [h.data.trace]; simp [frameTrace]
            have hpar : Parent c.next starts p F := h.data.frames.2.1
            have hempty : ms.isEmpty = F.isEmpty := by
              rw [hms']; cases F <;> simp
            have hd := h.data.markLeave
            have hsub := h.sub
            have hone := h.one
            simp only [Option.toList_none, List.nil_append] at hsub hone
            have hcore : ∀ ev nl', (nl' = false → F ≠ [] → ev = .leavingSuccessor) →
                TrCore g c bp validL already starts
                { s with markers := ms, event := ev, pc := .leave p.last F.isEmpty nl', trace := p.last :: frameTrace F }
                F none (some p) true (hist ++ [.leave p]) := by
              intro ev nl' hev'
              refine ⟨hd.congr ⟨htr.symm, rfl, rfl, rfl, rfl, rfl, rfl, rfl, rfl, rfl⟩, ?_,
                TrFresh.of_parent hpar (by simp), ⟨rfl, rfl, ⟨p, rfl, rfl⟩, rfl, hev'⟩, hcont.leave, ?_, by simp, ?_, ?_⟩
              · refine ⟨by simpa using hstk, by simpa using hms', fun hl => ?_, fun hl => ?_, h.stk.valid⟩
                · simpa using h.stk.labs hl
                · simpa using h.stk.bound hl
              · rw [entered_snoc_leave]; exact hn
              · simpa using hsub
              · rw [entered_snoc_leave]; simpa using hone
            have hce : codeEvent c hist (.leave p) = if F.isEmpty then .leavingStart else .leavingSuccessor := by
              simp [codeEvent, hpar.isStart]
            simp only [htr, hempty]
            cases hF : F.isEmpty with
            | true =>
              rw [hF] at hce hcore
              simp only [if_true] at hce
              simp only [Bool.not_true, Bool.false_eq_true, if_false]
              cases hr : c.report .leavingStart with
              | true =>
                simp only [if_true]
                refine ⟨F, none, some p, true, .leave p, by simp [shown, hce, hr], ?_, ?_⟩
                · exact (hcore .leavingStart nl (by
                    intro _ h1; exact absurd (List.isEmpty_iff.1 hF) h1)).data.report rfl (.inl ⟨rfl, by simp⟩) rfl hce.symm
                · exact hcore .leavingStart nl (by
                    intro _ h1; exact absurd (List.isEmpty_iff.1 hF) h1)
              | false =>
                simp only [Bool.false_eq_true, if_false]
                refine ⟨F, none, some p, true, .inr ⟨.leave p, by simp [shown, hce, hr], ?_⟩⟩
                exact hcore s.event nl (by
                    intro _ h1; exact absurd (List.isEmpty_iff.1 hF) h1)
            | false =>
              rw [hF] at hce hcore
              simp only [Bool.false_eq_true, if_false] at hce
              simp only [Bool.not_false, if_true]
              have hev' : (if nl then DfsEvent.leavingSuccessor else s.event) = .leavingSuccessor := by
                cases nl with
                | true => rfl
                | false => exact hev rfl (by simp)
              cases hr : c.report .leavingSuccessor with
              | true =>
                simp only [if_true]
                refine ⟨F, none, some p, true, .leave p, by simp [shown, hce, hr], ?_, ?_⟩
                · exact (hcore (if nl then DfsEvent.leavingSuccessor else s.event) false
                    (fun _ _ => hev')).data.report rfl (.inl ⟨rfl, by simp⟩) rfl (by rw [hce]; exact hev')
                · exact hcore (if nl then DfsEvent.leavingSuccessor else s.event) false (fun _ _ => hev')
              | false =>
                simp only [Bool.false_eq_true, if_false]
                refine ⟨F, none, some p, true, .inr ⟨.leave p, by simp [shown, hce, hr], ?_⟩⟩
                exact hcore s.event nl (fun h1 _ => hev h1 (by simp))
  | leave v last nl =>
    rw [hpc] at hctl hn hcont
    obtain ⟨rfl, rfl, ⟨p, rfl, rfl⟩, rfl, hev⟩ := hctl
    simp only at hcont hn ⊢
    have hpar := h.data.extra p rfl
    have hcond : (c.labeled && !F.isEmpty && s.traceLabels.isEmpty) = false := by
      cases hl : c.labeled with
      | false => rfl
      | true =>
        have h1 := agree_tail hpar (tl := s.traceLabels) (by simpa using h.data.agree hl)
        cases F with
        | nil => rfl
        | cons f F =>
          cases htl : s.traceLabels with
          | nil => exact absurd (h1.2.2 htl) (by simp)
          | cons a b => rfl
    obtain ⟨ot, hot⟩ := h.data.drops hso
    simp only [hcond, Bool.false_eq_true, if_false, hot]
    refine ⟨F, none, none, false, .inl ⟨⟨h.data.afterLeave hok hpo hso hgr _ hot, ?_,
      TrFresh.of_parent hpar (by simp), ⟨rfl, rfl, by simp, hev⟩, hcont, hn, by simp, h.sub, h.one⟩, by simp [TrLt, trCls, trEs, hpc]⟩⟩
    exact ⟨h.stk.stack, h.stk.mark, h.stk.labs, h.stk.bound, h.stk.valid⟩
  | startShown =>
    rw [hpc] at hctl hn hcont
    obtain ⟨rfl, rfl, ⟨p, rfl⟩, rfl⟩ := hctl
    simp only at hcont hn
    have hpar := h.data.extra p rfl
    refine ⟨[], none, none, false, .inl ⟨⟨h.data.afterShown hpo _ s.traceLabels (fun hl => ?_), ?_,
      TrFresh.nil, ⟨rfl, rfl, by simp, by simp⟩, hcont, hn, by simp, h.sub, h.one⟩, by simp [TrLt, trCls, trEs, hpc]⟩⟩
    · have h1 := agree_tail hpar (tl := s.traceLabels) (by simpa using h.data.agree hl)
      rw [h1.2.1 rfl]; rfl
    · exact ⟨h.stk.stack, h.stk.mark, h.stk.labs, h.stk.bound, h.stk.valid⟩
  | edgeShown =>
    rw [hpc] at hctl hn hcont
    obtain ⟨rfl, rfl, ⟨p, rfl⟩, hF⟩ := hctl
    simp only at hcont hn
    have hpar := h.data.extra p rfl
    refine ⟨F, none, none, false, .inl ⟨⟨h.data.afterShown hpo _ _ (fun hl => by rw [if_pos hl]), ?_,
      TrFresh.of_parent hpar (by simp), ⟨rfl, rfl, by simp, by simp⟩, hcont, hn, by simp, h.sub, h.one⟩, by simp [TrLt, trCls, trEs, hpc]⟩⟩
    exact ⟨h.stk.stack, h.stk.mark, h.stk.labs, h.stk.bound, h.stk.valid⟩
  | entered v rep =>
    rw [hpc] at hctl hn hcont
    obtain ⟨rfl, rfl, rfl, p, F0, rfl, rfl, hrep⟩ := hctl
    simp only at hcont hn ⊢
    cases hsk : (rep && c.skip s.n) with
    | true =>
      simp only [hsk, if_true] at hcont ⊢
      refine ⟨_, none, none, false, .inl ⟨⟨h.data.congr ⟨rfl, rfl, rfl, rfl, rfl, rfl, rfl, rfl, rfl, rfl⟩, ?_,
        TrFresh.top_nil, ⟨rfl, rfl, by simp, by simp⟩, hcont, hn, by simp, h.sub, h.one⟩, by simp [TrLt, trCls, trEs, hpc]⟩⟩
      exact ⟨h.stk.stack, h.stk.mark, h.stk.labs, h.stk.bound, h.stk.valid⟩
    | false =>
      simp only [hsk, Bool.false_eq_true, if_false] at hcont ⊢
      refine ⟨_, none, none, false, ⟨h.data.congr ⟨rfl, rfl, rfl, rfl, rfl, rfl, rfl, rfl, rfl, rfl⟩, ?_,
        TrFresh.top_nil, ⟨rfl, rfl, rfl, p, [], F0, rfl, rfl, by simp⟩, ?_, hn, by simp, h.sub, h.one⟩,
        by simp [TrLt, trCls, trEs, hpc]⟩
      · exact ⟨h.stk.stack, h.stk.mark, h.stk.labs, h.stk.bound, h.stk.valid⟩
      · simpa [vframes] using hcont
  | edges v es =>
    rw [hpc] at hctl hn hcont
    obtain ⟨rfl, rfl, rfl, p, ps, F0, rfl, rfl, hes⟩ := hctl
    simp only at hcont hn
    cases es with
    | nil =>
      refine ⟨_, none, none, false, .inl ⟨⟨h.data.congr ⟨rfl, rfl, rfl, rfl, rfl, rfl, rfl, rfl, rfl, rfl⟩, ?_,
        ?_, ⟨rfl, rfl, by simp, by simp⟩, ?_, hn, by simp, h.sub, h.one⟩, by simp [TrLt, trCls, trEs, hpc]⟩⟩
      · exact ⟨h.stk.stack, h.stk.mark, h.stk.labs, h.stk.bound, h.stk.valid⟩
      · intro hl p' e ps' F' heq _
        exact h.fresh hl p' e ps' F' heq (.inl ⟨_, _, hpc⟩)
      · simpa [vframes] using hcont
    | cons e es =>
      have hfr := h.data.frames
      have hes' : (c.next p.last).reverse = es.reverse ++ e :: ps := by simpa using hes
      have hF' : FramesOk c.next starts ((p, e :: ps) :: F0) :=
        ⟨⟨es.reverse, hes'.symm⟩, hfr.2.1, hfr.2.2⟩
      refine ⟨(p, e :: ps) :: F0, none, none, false,
        .inl ⟨⟨(h.data.frames_congr hF' (by simp) (by simp)).congr ⟨rfl, rfl, rfl, rfl, rfl, rfl, rfl, rfl, rfl, rfl⟩, ?_,
        ?_, ⟨rfl, rfl, rfl, p, e :: ps, F0, rfl, rfl, hes'⟩, ?_, hn, by simp, h.sub, h.one⟩, by simp [TrLt, trCls, trEs, hpc]⟩⟩
      · refine ⟨?_, ?_, ?_, ?_, ?_⟩
        · have := h.stk.stack
          simp only [List.flatMap_cons, Option.toList_none, List.append_nil] at this
          simp [this]
        · have := h.stk.mark
          simp only [List.flatMap_cons, Option.toList_none, List.append_nil, List.map_nil] at this
          simp only [this, List.flatMap_cons, Option.toList_none, List.append_nil, List.map_nil, List.map_cons,
            List.cons_append]
        · intro hl
          obtain ⟨junk, hj⟩ := h.stk.labs hl
          refine ⟨junk, ?_⟩
          simp only [List.flatMap_cons] at hj
          simp [hl, hj]
        · intro hl _
          simp [hl]
        · intro hb
          obtain ⟨h1, h2, ⟨validV, h3⟩, h4, h5⟩ := hpo hb
          have hv : validL e.2 := by
            refine h3.labs p.last e (GPath.reachable (hfr.gpath _ List.mem_cons_self)) ?_
            have : e ∈ (c.next p.last).reverse := by rw [hes']; simp
            simpa using this
          have h6 := (h.stk.valid hb).2
          simp only [h2, if_true]
          refine ⟨?_, ?_⟩
          · rintro l ⟨⟩; exact hv
          · intro l hl
            rcases List.mem_cons.1 hl with rfl | hl
            · exact hv
            · exact h6 l hl
      · intro hl p' e' ps' F' heq _
        simp only [List.cons.injEq, Prod.mk.injEq] at heq
        obtain ⟨⟨-, rfl, -⟩, -⟩ := heq
        simp [hl]
      · simpa [vframes] using hcont

/-! ### Runs -/

/-- The back-edge check never reads outside of the sequence behind the on-trace set. -/
def TrRange (g : TravGear V K L S M ML) (c : TraceCfg V K L) (already : S) : Prop :=
  c.rule = .tree → c.report .backEdge = true → ∀ k, g.so.contains already k = true →
    (g.so.mustContain g.so.empty k).isSome = true

theorem tr_init (hso : g.so.Lawful) (hmo : bp → ∀ k, g.mo.get? g.mo.empty k = none) (hra : TrRange g c already) :
    TrCore g c bp validL already starts (trInit g already starts) [] none none false [] := by
  refine ⟨⟨trivial, by simp, rfl, fun _ => rfl, ?_, by simp [onPaths], ?_, ?_, by simp [onPaths], ?_, ?_, ?_, by simp, ?_,
    fun _ => rfl, fun _ => trivial, ?_⟩, ⟨rfl, rfl, fun _ => ⟨[], rfl⟩, by simp, ?_⟩, TrFresh.nil, ⟨rfl, rfl, rfl, rfl⟩,
    ?_, rfl, by simp, by simp [trInit], by simp [trInit]⟩
  · intro _ k; simp [trInit, hso.contains_empty, onPaths]
  · intro _ k; simp [trInit, ghost]
  · intro _; simp [trInit, indexOf]
  · simp
  · simp
  · exact hra
  · simp [moments_nil]
  · intro hb k hk
    rw [show (trInit g already starts).preds = g.mo.empty from rfl, hmo hb k] at hk
    cases hk
  · intro _; simp [trInit]
  · intro pr _ acts vis' n'
    have : ghost g c already [] = fun k => g.so.contains already k = true := by funext k; simp [ghost]
    simp only [List.nil_append, exists_eq_left', this, vframes, trInit, Rest, Option.toList_none]
    rfl

/-- The invariant of reachable states. -/
def TrInv (g : TravGear V K L S M ML) (c : TraceCfg V K L) (bp : Prop) (validL : L → Prop) (already : S) (starts : List V)
    (h : List (Ev (TraceReport V K L S M ML))) (s : TraceState V K L S M ML) : Prop :=
  ∃ F x q lv hist, TrCore g c bp validL already starts s F x q lv hist ∧
    List.Forall₂ (TrMatch g c bp already) (repsOf h) ((moments hist).filter (shown c))

theorem TrPathsOk.empty (hpo : TrPathsOk g c bp validL starts) : bp → ∀ k, g.mo.get? g.mo.empty k = none := by
  intro hb
  obtain ⟨-, -, ⟨validV, h⟩, -⟩ := hpo hb
  exact h.mo.get_empty

theorem tr_inv (hok : c.Ok) (hpo : TrPathsOk g c bp validL starts) (hso : g.so.Lawful) (hgr : g.so.Grows)
    (hra : TrRange g c already) {h : List (Ev (TraceReport V K L S M ML))} {s : TraceState V K L S M ML}
    (hr : Reaches (trStep g c) (trInit g already starts) h s) : TrInv g c bp validL already starts h s := by
  refine hr.invariant (TrInv g c bp validL already starts) ?_ ?_ ?_ ?_
  · exact ⟨[], none, none, false, [], tr_init hso hpo.empty hra, .nil⟩
  · rintro h s s' ⟨F, x, q, lv, hist, hc, hf⟩ hs
    have hn := tr_step hok hpo hso hgr hc
    rw [hs] at hn
    obtain ⟨F', x', q', lv', ⟨hc', -⟩ | ⟨a, hsh, hc'⟩⟩ := hn
    · exact ⟨F', x', q', lv', hist, hc', hf⟩
    · refine ⟨F', x', q', lv', _, hc', ?_⟩
      rw [moments_snoc, List.filter_append]
      simpa [hsh] using hf
  · rintro h s r s' ⟨F, x, q, lv, hist, hc, hf⟩ hs
    have hn := tr_step hok hpo hso hgr hc
    rw [hs] at hn
    obtain ⟨F', x', q', lv', a, hsh, hm, hc'⟩ := hn
    refine ⟨F', x', q', lv', _, hc', ?_⟩
    rw [moments_snoc, List.filter_append, repsOf_append]
    refine List.rel_append hf ?_
    simpa [hsh] using hm
  · rintro h s s' ⟨F, x, q, lv, hist, hc, hf⟩ hs
    have hn := tr_step hok hpo hso hgr hc
    rw [hs] at hn
    obtain ⟨F', x', q', lv', hc', -⟩ := hn
    exact ⟨F', x', q', lv', hist, hc', by simpa using hf⟩

/-- The beginning of a search. -/
theorem TrCont.begin {hist : List (DfsAct V L)} {F : List (Frame V L)} {sts : List V}
    (h : TrCont g c already starts hist F sts) :
    ∃ pr : Nat → SPath V L → Bool, (∀ m q, m < (entered hist).length → pr m q = c.prune m q) ∧
      ∃ rest vis' n', Dfs c.next c.vid c.rule pr (fun k => g.so.contains already k = true) 0
        (starts.map SPath.single) (hist ++ rest) vis' n' := by
  let pr : Nat → SPath V L → Bool := fun m q => if m < (entered hist).length then c.prune m q else true
  have hpr : ∀ m q, m < (entered hist).length → pr m q = c.prune m q := fun m q hm => if_pos hm
  obtain ⟨acts, vis', n', hd, -⟩ := Spec.Dfs.exists_of_bound (next := c.next) (vid := c.vid) (rule := c.rule)
    (prune := pr) (entered hist).length (fun n q hn => if_neg (by omega)) (fun k => g.so.contains already k = true) 0
    (starts.map SPath.single)
  obtain ⟨a, rfl, -⟩ := (h pr hpr acts vis' n').1 hd
  exact ⟨pr, hpr, a, vis', n', hd⟩

theorem trEnter_ne_stop (s t : TraceState V K L S M ML) (v : V) : trEnter g c s v ≠ .stop t := by
  unfold trEnter
  split
  · simp
  · dsimp only [TraceState.yield]
    generalize (if some v = s.cur then DfsEvent.enteringStart else .enteringSuccessor) = ev
    split <;> simp

theorem trShowEdge_ne_stop (s t : TraceState V K L S M ML) (v : V) (ev : DfsEvent) :
    trShowEdge c s v ev ≠ .stop t := by
  unfold trShowEdge
  split
  · split <;> simp [TraceState.yield]
  · simp

theorem trRevisit_ne_stop (s t : TraceState V K L S M ML) (v : V) (ev : DfsEvent) :
    trRevisit g c s v ev ≠ .stop t := by
  unfold trRevisit
  split
  · exact trShowEdge_ne_stop _ _ _ _
  · split
    · dsimp only
      split
      · simp
      · split
        · split
          · simp
          · exact trShowEdge_ne_stop _ _ _ _
        · exact trShowEdge_ne_stop _ _ _ _
    · simp

theorem trTry_ne_stop (s t : TraceState V K L S M ML) (v : V) : trTry g c s v ≠ .stop t := by
  unfold trTry
  split
  · exact trEnter_ne_stop _ _ _
  · split
    · exact trEnter_ne_stop _ _ _
    · dsimp only
      split
      · split
        · split <;> simp [TraceState.yield]
        · exact trRevisit_ne_stop _ _ _ _
      · exact trEnter_ne_stop _ _ _
    · dsimp only
      split
      · exact trRevisit_ne_stop _ _ _ _
      · exact trEnter_ne_stop _ _ _

theorem trPop_ne_stop (s t : TraceState V K L S M ML) : trPop g c s ≠ .stop t := by
  unfold trPop
  split
  · simp
  · split
    · split
      · simp
      · exact trTry_ne_stop _ _ _
    · exact trTry_ne_stop _ _ _

/-- At the end, nothing remains. -/
theorem TrCore.stopped {s s' : TraceState V K L S M ML} {F : List (Frame V L)} {x : Option V} {q : Option (SPath V L)}
    {lv : Bool} {hist : List (DfsAct V L)} (h : TrCore g c bp validL already starts s F x q lv hist)
    (hok : c.Ok) (hpo : TrPathsOk g c bp validL starts) (hso : g.so.Lawful) (hgr : g.so.Grows)
    (hs : trStep g c s = .stop s') : ∃ vis' n', Dfs c.next c.vid c.rule c.prune
      (fun k => g.so.contains already k = true) 0 (starts.map SPath.single) hist vis' n' := by
  have key : s.pc = .start ∧ s.starts = [] := by
    unfold trStep at hs
    cases hpc : s.pc with
    | start =>
      rw [hpc] at hs
      cases hst : s.starts with
      | nil => exact ⟨rfl, rfl⟩
      | cons v r => rw [hst] at hs; simp at hs
    | loop nl =>
      rw [hpc] at hs
      cases hms : s.markers with
      | nil => rw [hms] at hs; cases hs
      | cons b ms =>
        rw [hms] at hs
        cases b with
        | false => exact absurd hs (trPop_ne_stop _ _)
        | true =>
          cases htr : s.trace with
          | nil => rw [htr] at hs; cases hs
          | cons v r =>
            rw [htr] at hs
            simp only [TraceState.yield] at hs
            split at hs <;> split at hs <;> cases hs
    | leave v l nl => rw [hpc] at hs; simp only at hs; split at hs <;> (try split at hs) <;> contradiction
    | startShown => rw [hpc] at hs; cases hs
    | edgeShown => rw [hpc] at hs; cases hs
    | entered v r => rw [hpc] at hs; simp only at hs; split at hs <;> contradiction
    | edges v es => rw [hpc] at hs; cases es <;> cases hs
  have hctl := h.ctl
  have hcont := h.cont
  unfold TrCtl at hctl
  unfold vframes at hcont
  rw [key.1] at hctl hcont
  obtain ⟨rfl, rfl, rfl, rfl⟩ := hctl
  refine ⟨ghost g c already hist, (entered hist).length, (hcont c.prune (fun _ _ _ => rfl) _ _ _).2 ⟨[], by simp, ?_⟩⟩
  rw [key.2]
  exact .nil

/-- The traversal ends if the recursive search does. -/
theorem tr_terminates (hok : c.Ok) (hpo : TrPathsOk g c bp validL starts) (hso : g.so.Lawful) (hgr : g.so.Grows)
    (hra : TrRange g c already)
    (hex : ∃ acts vis' n', Dfs c.next c.vid c.rule c.prune (fun k => g.so.contains already k = true) 0
      (starts.map SPath.single) acts vis' n') :
    ∃ N, ∀ fuel, N ≤ fuel → ∀ lim,
      (runMachine (trStep g c) fuel lim (trInit g already starts)).ending ≠ .outOfFuel := by
  obtain ⟨acts, vis', n', hd⟩ := hex
  have hpre : ∀ {hist F sts}, TrCont g c already starts hist F sts → hist.length ≤ acts.length := by
    intro hist F sts h
    obtain ⟨a, e, -⟩ := (h c.prune (fun _ _ _ => rfl) acts vis' n').1 hd
    rw [e]; simp
  let Good : (Nat × Nat × Nat × Nat) → TraceState V K L S M ML → Prop := fun a s =>
    ∃ F x q lv hist, TrCore g c bp validL already starts s F x q lv hist ∧
      a = (acts.length - hist.length, s.starts.length, trCls s.pc, trEs s.pc)
  have hlt : ∀ {s s' : TraceState V K L S M ML} {n : Nat}, TrLt s' s →
      lex4 (n, s'.starts.length, trCls s'.pc, trEs s'.pc) (n, s.starts.length, trCls s.pc, trEs s.pc) := by
    intro s s' n h
    rw [lex4_iff]
    rcases h with h | ⟨h, h1⟩
    · omega
    · rw [h]; omega
  refine run_terminates_ghost (trStep g c) lex4 lex4_wf Good ?_ _ _
    ⟨[], none, none, false, [], tr_init hso hpo.empty hra, rfl⟩
  rintro a s s' ⟨F, x, q, lv, hist, hc, rfl⟩ hs
  have hn := tr_step hok hpo hso hgr hc
  have hmore : ∀ {F x q lv a}, TrCore g c bp validL already starts s' F x q lv (hist ++ [a]) →
      ∃ a', Good a' s' ∧ lex4 a' (acts.length - hist.length, s.starts.length, trCls s.pc, trEs s.pc) := by
    intro F x q lv a hc'
    have := hpre hc'.cont
    refine ⟨_, ⟨F, x, q, lv, _, hc', rfl⟩, ?_⟩
    rw [lex4_iff]
    simp only [List.length_append, List.length_singleton] at this ⊢
    omega
  cases hm : trStep g c s with
  | stop t => rw [hm] at hs; simp [Step.next?] at hs
  | fail t => rw [hm] at hs; simp [Step.next?] at hs
  | tau t =>
    rw [hm] at hs hn
    simp only [Step.next?, Option.some.injEq] at hs
    subst hs
    obtain ⟨F', x', q', lv', ⟨hc', hl⟩ | ⟨a, -, hc'⟩⟩ := hn
    · exact ⟨_, ⟨F', x', q', lv', hist, hc', rfl⟩, hlt hl⟩
    · exact hmore hc'
  | emit r t =>
    rw [hm] at hs hn
    simp only [Step.next?, Option.some.injEq] at hs
    subst hs
    obtain ⟨F', x', q', lv', a, -, -, hc'⟩ := hn
    exact hmore hc'
  | expand t =>
    rw [hm] at hs hn
    simp only [Step.next?, Option.some.injEq] at hs
    subst hs
    obtain ⟨F', x', q', lv', hc', hl⟩ := hn
    exact ⟨_, ⟨F', x', q', lv', hist, hc', rfl⟩, hlt hl⟩

/-- Summary: what a run does. -/
theorem tr_run (hok : c.Ok) (hpo : TrPathsOk g c bp validL starts) (hso : g.so.Lawful) (hgr : g.so.Grows)
    (hra : TrRange g c already) (limit : Option Int) (fuel : Nat) :
    ∃ hist, (∀ m ∈ moments hist, TrFact g c already starts m.1 m.2) ∧
      List.Forall₂ (TrMatch g c bp already) (trRun g c already starts limit fuel).reports ((moments hist).filter (shown c)) ∧
      (∃ pr : Nat → SPath V L → Bool, (∀ m q, m < (entered hist).length → pr m q = c.prune m q) ∧
        ∃ rest vis' n', Dfs c.next c.vid c.rule pr (fun k => g.so.contains already k = true) 0
          (starts.map SPath.single) (hist ++ rest) vis' n') ∧
      (match (trRun g c already starts limit fuel).ending with
        | .done => ∃ vis' n', Dfs c.next c.vid c.rule c.prune (fun k => g.so.contains already k = true) 0
            (starts.map SPath.single) hist vis' n'
        | .raised e => e = .runtimeError ∧ limit ≠ none
        | .outOfFuel => True) := by
  unfold trRun
  obtain ⟨s, hr, he⟩ := run_reaches (trStep g c) fuel (prepareLimit limit) (trInit g already starts)
  obtain ⟨F, x, q, lv, hist, hc, hf⟩ := tr_inv hok hpo hso hgr hra hr
  refine ⟨hist, hc.data.facts, hf, hc.cont.begin, ?_⟩
  generalize (runMachine (trStep g c) fuel (prepareLimit limit) (trInit g already starts)).ending = e at he ⊢
  cases e with
  | outOfFuel => trivial
  | done => exact hc.stopped hok hpo hso hgr he
  | raised e =>
    rcases he with he | ⟨rfl, h1, -⟩
    · have := tr_step hok hpo hso hgr hc
      rw [he] at this
      exact this.elim
    · refine ⟨rfl, ?_⟩
      rintro rfl
      exact h1 rfl

end

end NoGraphs
