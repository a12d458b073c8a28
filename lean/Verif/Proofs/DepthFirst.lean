import Verif.Model.DepthFirst
import Verif.Proofs.DfsSpec
import Verif.Proofs.PathVis

/-! Invariants of depth-first search without trace (non-tree variant). -/

set_option linter.unusedSectionVars false

namespace NoGraphs

open Spec

variable {V K L S M ML : Type} [DecidableEq V] [DecidableEq K]

/-- A path from a start vertex along edges of the graph. -/
def GPath (next : V → List (V × L)) (starts : List V) (q : SPath V L) : Prop :=
  q.first ∈ starts ∧ IsPath next q.first q.steps

theorem GPath.single {next : V → List (V × L)} {starts : List V} {v : V} (h : v ∈ starts) :
    GPath next starts (SPath.single v) := ⟨h, trivial⟩

theorem GPath.snoc {next : V → List (V × L)} {starts : List V} {q : SPath V L} (h : GPath next starts q)
    {e : V × L} (he : e ∈ next q.last) : GPath next starts (q.snoc e.1 e.2) :=
  ⟨h.1, h.2.snoc q.verts_getLast he⟩

theorem isPath_reachable {next : V → List (V × L)} {P : V → Prop} {s : V} {steps : List (V × L)}
    (hs : Reachable (Edge next) P s) (h : IsPath next s steps) :
    Reachable (Edge next) P (((steps.map Prod.fst).getLast?).getD s) := by
  induction steps generalizing s with
  | nil => exact hs
  | cons e r ih =>
    obtain ⟨v, l⟩ := e
    have := ih (hs.step ⟨l, h.1⟩) h.2
    rw [List.map_cons, List.getLast?_cons]
    simpa using this

theorem GPath.reachable {next : V → List (V × L)} {starts : List V} {q : SPath V L} (h : GPath next starts q) :
    Reachable (Edge next) (· ∈ starts) q.last := isPath_reachable (.start h.1) h.2

/-- The pending paths of a marked stack. -/
def pend (G : List (SPath V L × Bool)) : List (SPath V L) := (G.filter (fun x => !x.2)).map (·.1)

/-- The number of entered paths on a marked stack. -/
def cnt (G : List (SPath V L × Bool)) : Nat := (G.filter (·.2)).length

@[simp] theorem pend_nil : pend ([] : List (SPath V L × Bool)) = [] := rfl
@[simp] theorem pend_true (q : SPath V L) (G : List (SPath V L × Bool)) : pend ((q, true) :: G) = pend G := rfl
@[simp] theorem pend_false (q : SPath V L) (G : List (SPath V L × Bool)) : pend ((q, false) :: G) = q :: pend G := rfl
@[simp] theorem pend_append (A B : List (SPath V L × Bool)) : pend (A ++ B) = pend A ++ pend B := by simp [pend]
@[simp] theorem cnt_nil : cnt ([] : List (SPath V L × Bool)) = 0 := rfl
@[simp] theorem cnt_true (q : SPath V L) (G : List (SPath V L × Bool)) : cnt ((q, true) :: G) = cnt G + 1 := rfl
@[simp] theorem cnt_false (q : SPath V L) (G : List (SPath V L × Bool)) : cnt ((q, false) :: G) = cnt G := rfl
@[simp] theorem cnt_append (A B : List (SPath V L × Bool)) : cnt (A ++ B) = cnt A + cnt B := by simp [cnt]

/-- Each path on the stack has as many edges as there are entered paths below. -/
def Own : List (SPath V L × Bool) → Prop
  | [] => True
  | x :: G => x.1.steps.length = cnt G ∧ Own G

theorem Own.tail {A B : List (SPath V L × Bool)} (h : Own (A ++ B)) : Own B := by
  induction A with
  | nil => exact h
  | cons x A ih => exact ih h.2

theorem popTrue_of_pend_nil {G : List (SPath V L × Bool)} (h : pend G = []) (d : Int) :
    popTrue (G.map (·.2)) d = ([], d - cnt G) := by
  induction G generalizing d with
  | nil => simp [popTrue]
  | cons x G ih =>
    obtain ⟨q, b⟩ := x
    cases b with
    | false => simp at h
    | true =>
      simp only [List.map_cons, popTrue]
      rw [ih (by simpa using h)]
      simp only [cnt_true, Prod.mk.injEq, true_and]
      omega

theorem pend_cons_split {G : List (SPath V L × Bool)} {q : SPath V L} {P : List (SPath V L)}
    (h : pend G = q :: P) : ∃ T B, G = T ++ (q, false) :: B ∧ pend T = [] ∧ pend B = P := by
  induction G with
  | nil => simp at h
  | cons x G ih =>
    obtain ⟨p, b⟩ := x
    cases b with
    | false =>
      simp only [pend_false, List.cons.injEq] at h
      obtain ⟨rfl, rfl⟩ := h
      exact ⟨[], G, rfl, rfl, rfl⟩
    | true =>
      obtain ⟨T, B, rfl, h1, h2⟩ := ih (by simpa using h)
      exact ⟨(p, true) :: T, B, rfl, by simpa using h1, h2⟩

theorem popTrue_split {T B : List (SPath V L × Bool)} {q : SPath V L} (h : pend T = []) (d : Int) :
    popTrue ((T ++ (q, false) :: B).map (·.2)) d = (B.map (·.2), d - cnt T) := by
  induction T generalizing d with
  | nil => simp [popTrue]
  | cons x T ih =>
    obtain ⟨p, b⟩ := x
    cases b with
    | false => simp at h
    | true =>
      simp only [List.cons_append, List.map_cons, popTrue]
      rw [ih (by simpa using h)]
      simp only [cnt_true, Prod.mk.injEq, true_and]
      omega

/-- A mapping whose direct read gives a value only if one is stored. (It does not hold for mappings over arrays,
where a gap value can be read.) -/
def MapOps.Faithful {M K X : Type} (o : MapOps M K X) : Prop :=
  ∀ m k x, o.raw m k = some (some x) → (o.get? m k).isSome = true

section

variable (g : TravGear V K L S M ML) (c : DfsCfg V K L) (bp : Prop) (already : S) (starts : List V)

/-- The path is reported when its last vertex is entered. -/
def DfsCfg.reported (q : SPath V L) : Bool := if q.isStart then c.reportStart else c.reportSucc

/-- The consumer prunes the search at the `n`-th entered vertex. (It can do this only at a report.) -/
def DfsCfg.prune (n : Nat) (q : SPath V L) : Bool := c.reported q && c.skip n

/-- The event of an entered path. -/
def enterEvent (q : SPath V L) : DfsEvent := if q.isStart then .enteringStart else .enteringSuccessor

/-- The path `q` is stored for its last vertex. -/
abbrev DfsStored (vis : S) (pr : M) (la : ML) (q : SPath V L) : Prop :=
  PathVis c.next starts c.vid (g.so.contains vis) (g.mo.get? pr) (g.lo.get? la) q.last q

/-- A report for an entered path. -/
structure DfsMatch (r : DfsReport V S M ML) (q : SPath V L) : Prop where
  vertex : r.vertex = q.last
  event : r.event = enterEvent q
  depth : c.computeDepth = true → r.depth = q.steps.length
  paths : bp → DfsStored g c starts r.visited r.preds r.labels q

/-- What is needed for building paths, if something is claimed about paths (`bp`). -/
def DfsPathsOk : Prop := bp → c.buildPaths = true ∧
  (∃ validV validL, Storable g c.toTravCfg starts validV validL) ∧
  (g.mo.Faithful ∨ (starts.length ≤ 1 ∧ ∀ k, g.mo.raw g.mo.empty k = none))

/-- The vertices that can be reached without the already visited ones. -/
abbrev dfsReach (v : V) : Prop :=
  Reachable (Allowed c.next c.vid (fun k => g.so.contains already k = true))
    (fun v => v ∈ starts ∧ ¬ g.so.contains already (c.vid v) = true) v

/-- The paths still to be handled. -/
def dfsItems (s : DfsState V L S M ML) (G : List (SPath V L × Bool)) (q : Option (SPath V L)) : List (SPath V L) :=
  (match s.pc with
   | .start => []
   | .loop => pend G
   | .entered _ rep => (if rep && c.skip s.n then [] else q.elim [] (children c.next)) ++ pend G
   | .edges _ es => (q.elim [] fun q => es.reverse.map fun e => q.snoc e.1 e.2) ++ pend G) ++ s.starts.map SPath.single

/-- What remains of the recursive search. -/
def DfsCont (vis : S) (outs items : List (SPath V L)) : Prop :=
  ∀ pr : Nat → SPath V L → Bool, (∀ n st, n < outs.length → pr n st = c.prune n st) → ∀ out vis' n',
    DfsOut c.next c.vid pr (fun k => g.so.contains already k = true) 0 (starts.map SPath.single) out vis' n' ↔
    ∃ o, out = outs ++ o ∧ DfsOut c.next c.vid pr (fun k => g.so.contains vis k = true) outs.length items o vis' n'

/-- A vertex has just been entered, its path is `q`. -/
structure DfsCur (s : DfsState V L S M ML) (G : List (SPath V L × Bool)) (outs : List (SPath V L)) (q : SPath V L)
    (v : V) : Prop where
  last : q.last = v
  mem : q ∈ outs
  startIff : some v = s.cur ↔ q.isStart = true
  cur : ∃ x, s.cur = some x ∧ g.so.contains s.visited (c.vid x) = true
  nonstart : ∀ p ∈ pend G, p.isStart = false
  ev : q.isStart = false → s.event = .enteringSuccessor

/-- Control state. -/
def DfsCtl (s : DfsState V L S M ML) (G : List (SPath V L × Bool)) (outs : List (SPath V L))
    (q : Option (SPath V L)) : Prop :=
  match s.pc with
  | .start => G = [] ∧ s.n = outs.length
  | .loop => s.n = outs.length ∧ ∃ x, s.cur = some x ∧ (G = [(SPath.single x, false)] ∨
      (g.so.contains s.visited (c.vid x) = true ∧ (∀ p ∈ pend G, p.isStart = false) ∧
        (pend G ≠ [] → s.event = .enteringSuccessor)))
  | .entered v rep => ∃ q', q = some q' ∧ s.n + 1 = outs.length ∧ rep = c.reported q' ∧ (∃ B, G = (q', true) :: B) ∧
      DfsCur g c s G outs q' v
  | .edges v es => ∃ q', q = some q' ∧ s.n = outs.length ∧ (∃ A B, G = A ++ (q', true) :: B ∧ cnt A = 0) ∧
      (∀ e ∈ es, e ∈ c.next v) ∧ DfsCur g c s G outs q' v

/-- The stored predecessor and label of a pending path. -/
def DfsLink (pr : M) (la : ML) (outs : List (SPath V L)) (q : SPath V L) : Prop :=
  (q.isStart = true ∧ g.mo.get? pr (c.vid q.last) = some q.last) ∨
  ∃ p w l, q = p.snoc w l ∧ p ∈ outs ∧ g.mo.get? pr (c.vid w) = some p.last ∧ g.lo.get? la (c.vid w) = some l

/-- Invariant for paths. -/
structure DfsPathInv (vis : S) (pr : M) (la : ML) (P : List (SPath V L)) (outs : List (SPath V L)) : Prop where
  stored : ∀ q ∈ outs, DfsStored g c starts vis pr la q
  link : ∀ A q B, P = A ++ q :: B → c.vid q.last ∉ A.map (fun p => c.vid p.last) →
    g.so.contains vis (c.vid q.last) = false → DfsLink g c pr la outs q
  dom : ∀ k, (g.mo.get? pr k).isSome = true → g.so.contains vis k = true ∨ k ∈ P.map (fun p => c.vid p.last)

/-- The invariant, with the marked stack `G`, the entered paths `outs` and the path `q` of the current vertex. -/
structure DfsInv (h : List (Ev (DfsReport V S M ML))) (s : DfsState V L S M ML) (G : List (SPath V L × Bool))
    (outs : List (SPath V L)) (q : Option (SPath V L)) : Prop where
  stack : s.toVisit = (pend G).map SPath.last
  mark : c.computeDepth = true → s.markers = G.map (·.2) ∧ s.depth = (cnt G : Int) - 1
  own : Own G
  vis : ∀ k, g.so.contains s.visited k = true ↔ g.so.contains already k = true ∨ k ∈ outs.map (fun p => c.vid p.last)
  ctl : DfsCtl g c s G outs q
  cont : DfsCont g c already starts s.visited outs (dfsItems c s G q)
  reps : List.Forall₂ (DfsMatch g c bp starts) (repsOf h) (outs.filter c.reported)
  sub : ∀ v ∈ s.starts, v ∈ starts
  gpath : (∀ p ∈ pend G, GPath c.next starts p) ∧ ∀ p ∈ outs, GPath c.next starts p
  len : s.starts.length < starts.length ∨ (s.pc = .start ∧ s.preds = g.mo.empty ∧ s.starts = starts)
  reach : (∀ p ∈ pend G, ¬ g.so.contains already (c.vid p.last) = true → dfsReach g c already starts p.last) ∧
    ∀ p ∈ outs, dfsReach g c already starts p.last
  paths : bp → DfsPathInv g c starts s.visited s.preds s.labels (pend G) outs

variable {g c bp already starts}


theorem DfsPathsOk.storable (hp : DfsPathsOk g c bp starts) (hb : bp) :
    ∃ validV validL, Storable g c.toTravCfg starts validV validL := (hp hb).2.1

theorem DfsInv.init (hp : DfsPathsOk g c bp starts) :
    DfsInv g c bp already starts [] (dfsInit g c already starts) [] [] none where
  stack := rfl
  mark := fun _ => ⟨rfl, rfl⟩
  own := trivial
  vis := fun k => by simp [dfsInit]
  ctl := ⟨rfl, rfl⟩
  cont := by
    intro pr _ out vis' n'
    simp [dfsItems, dfsInit]
  reps := .nil
  sub := fun _ h => h
  gpath := ⟨by simp, by simp⟩
  len := .inr ⟨rfl, rfl, rfl⟩
  reach := ⟨by simp, by simp⟩
  paths := by
    intro hb
    obtain ⟨validV, validL, hst⟩ := hp.storable hb
    refine ⟨by simp, by simp, ?_⟩
    intro k hk
    rw [show (dfsInit g c already starts).preds = g.mo.empty from rfl, hst.mo.get_empty] at hk
    simp at hk

/-! ### Path invariant -/

theorem DfsPathInv.begin {vis : S} {pr : M} {la : ML} {outs : List (SPath V L)} (hp : DfsPathsOk g c bp starts)
    (hb : bp) (h : DfsPathInv g c starts vis pr la [] outs) {v : V} (hv : v ∈ starts)
    (hf : ∀ x, g.mo.raw pr (c.vid v) = some (some x) → (g.mo.get? pr (c.vid v)).isSome = true) :
    DfsPathInv g c starts vis (setStart g pr (c.vid v) v) la [SPath.single v] outs := by
  obtain ⟨hbp, ⟨validV, validL, hst⟩, -⟩ := hp hb
  have hval := hst.verts v (.start hv)
  have hset : g.mo.get? pr (c.vid v) = none →
      DfsPathInv g c starts vis (g.mo.set pr (c.vid v) v) la [SPath.single v] outs := by
    intro hnone
    have hget : ∀ j, g.mo.get? (g.mo.set pr (c.vid v) v) j = if j = c.vid v then some v else g.mo.get? pr j :=
      fun j => hst.mo.get_set _ _ _ _ hval
    refine ⟨?_, ?_, ?_⟩
    · intro q hq
      have := h.stored q hq
      refine ⟨this.1.mono hnone (fun j hj => ?_) (fun j _ => rfl), this.2⟩
      rw [hget, if_neg hj]
    · intro A q B e hA hvis
      have : A = [] ∧ SPath.single v = q := by
        cases A with
        | nil => simp at e; exact ⟨rfl, e.1⟩
        | cons a A => simp at e
      obtain ⟨rfl, rfl⟩ := this
      left
      refine ⟨rfl, ?_⟩
      rw [SPath.last_single, hget, if_pos rfl]
    · intro k hk
      rw [hget] at hk
      by_cases e : k = c.vid v
      · right; simp [e]
      · rw [if_neg e] at hk
        rcases h.dom k hk with h | h
        · exact .inl h
        · simp at h
  unfold setStart
  cases hr : g.mo.raw pr (c.vid v) with
  | none =>
    apply hset
    cases hg : g.mo.get? pr (c.vid v) with
    | none => rfl
    | some x => rw [hst.mo.raw_of_get _ _ _ hg] at hr; simp at hr
  | some o =>
    cases o with
    | none =>
      apply hset
      cases hg : g.mo.get? pr (c.vid v) with
      | none => rfl
      | some x => rw [hst.mo.raw_of_get _ _ _ hg] at hr; simp at hr
    | some x =>
      have hv := (h.dom _ (hf _ hr)).resolve_right (by simp)
      refine ⟨h.stored, ?_, fun k hk => (h.dom k hk).imp_right (by simp)⟩
      intro A q B e hA hvis
      have : A = [] ∧ SPath.single v = q := by
        cases A with
        | nil => simp at e; exact ⟨rfl, e.1⟩
        | cons a A => simp at e
      obtain ⟨rfl, rfl⟩ := this
      rw [SPath.last_single, hv] at hvis
      simp at hvis

theorem DfsPathInv.nil {vis : S} {pr : M} {la : ML} {P outs : List (SPath V L)} (hP : P = [])
    (h : DfsPathInv g c starts vis pr la P outs) : DfsPathInv g c starts vis pr la [] outs := by
  subst hP; exact h

theorem DfsPathInv.seen {vis : S} {pr : M} {la : ML} {q : SPath V L} {P outs : List (SPath V L)}
    (h : DfsPathInv g c starts vis pr la (q :: P) outs) (hv : g.so.contains vis (c.vid q.last) = true) :
    DfsPathInv g c starts vis pr la P outs := by
  refine ⟨h.stored, ?_, ?_⟩
  · intro A p B e hA hvis
    refine h.link (q :: A) p B (by rw [e]; rfl) ?_ hvis
    rw [List.map_cons, List.mem_cons]
    rintro (e' | h')
    · rw [e', hv] at hvis; simp at hvis
    · exact hA h'
  · intro k hk
    rcases h.dom k hk with h | h
    · exact .inl h
    · rw [List.map_cons, List.mem_cons] at h
      rcases h with rfl | h
      · exact .inl hv
      · exact .inr h

theorem DfsLink.mono {pr : M} {la : ML} {outs outs' : List (SPath V L)} {q : SPath V L}
    (h : DfsLink g c pr la outs q) (hs : ∀ p ∈ outs, p ∈ outs') : DfsLink g c pr la outs' q := by
  rcases h with h | ⟨p, w, l, h1, h2, h3⟩
  · exact .inl h
  · exact .inr ⟨p, w, l, h1, hs p h2, h3⟩

theorem GPath.snoc_edge {next : V → List (V × L)} {starts : List V} {p : SPath V L} {w : V} {l : L}
    (h : GPath next starts (p.snoc w l)) : (w, l) ∈ next p.last := by
  obtain ⟨_, h⟩ := h
  obtain ⟨f, st⟩ := p
  simp only [SPath.snoc] at h
  unfold SPath.last
  simp only
  clear * - h
  induction st generalizing f with
  | nil => exact h.1
  | cons a st ih =>
    obtain ⟨a, la⟩ := a
    have := ih a h.2
    rw [List.map_cons, List.getLast?_cons]
    simpa using this

theorem DfsPathInv.enter (hg : g.so.Lawful) {vis : S} {pr : M} {la : ML} {q : SPath V L}
    {P outs : List (SPath V L)}
    (h : DfsPathInv g c starts vis pr la (q :: P) outs) (hq : GPath c.next starts q)
    (hv : g.so.contains vis (c.vid q.last) = false) :
    DfsPathInv g c starts (g.so.checkAdd vis (c.vid q.last)).2 pr la P (outs ++ [q]) := by
  have hc : ∀ k, g.so.contains (g.so.checkAdd vis (c.vid q.last)).2 k = true ↔
      k = c.vid q.last ∨ g.so.contains vis k = true := by
    intro k; rw [hg.contains_checkAdd]; simp
  have hmono : ∀ p ∈ outs, DfsStored g c starts (g.so.checkAdd vis (c.vid q.last)).2 pr la p := by
    intro p hp
    exact (h.stored p hp).mono (fun j hj => (hc j).2 (.inr hj)) (fun _ _ => rfl) (fun _ _ => rfl)
  refine ⟨?_, ?_, ?_⟩
  · intro p hp
    rcases List.mem_append.1 hp with hp | hp
    · exact hmono p hp
    · rw [List.mem_singleton] at hp
      subst hp
      rcases h.link [] p P rfl (by simp) hv with ⟨h1, h2⟩ | ⟨p', w, l, rfl, h1, h2, h3⟩
      · have e := (p.isStart_iff).1 h1
        have hs : p.first = p.last := congrArg SPath.first e
        have := PathVis.start (next := c.next) (starts := starts) (vid := c.vid)
          (vis := g.so.contains (g.so.checkAdd vis (c.vid p.last)).2) (get := g.mo.get? pr)
          (lab := g.lo.get? la) (v := p.last) (hs ▸ hq.1) h2 ((hc _).2 (.inl rfl))
        rw [show (⟨p.last, []⟩ : SPath V L) = p from e.symm] at this
        exact this
      · have := (hmono p' h1).extend (l := l) (w := w) hq.snoc_edge h2 h3 ((hc _).2 (.inl (by simp))) ?_
        · unfold DfsStored; rw [SPath.last_snoc] at this ⊢; exact this
        · intro e
          have hvis := (h.stored p' h1).2 p'.last (by
            have := p'.verts_getLast
            exact List.mem_of_getLast? this)
          rw [e, ← SPath.last_snoc p' w l, hv] at hvis
          simp at hvis
  · intro A p B e hA hvis
    have hne : ¬ (c.vid p.last = c.vid q.last ∨ g.so.contains vis (c.vid p.last) = true) := by
      rw [← hc]; simp [hvis]
    refine (h.link (q :: A) p B (by rw [e]; rfl) ?_ ?_).mono (fun p hp => List.mem_append_left _ hp)
    · rw [List.map_cons, List.mem_cons]
      rintro (e' | h')
      · exact hne (.inl e')
      · exact hA h'
    · by_contra h'
      exact hne (.inr (by simpa using h'))
  · intro k hk
    rcases h.dom k hk with h | h
    · exact .inl ((hc k).2 (.inr h))
    · rw [List.map_cons, List.mem_cons] at h
      rcases h with rfl | h
      · exact .inl ((hc _).2 (.inl rfl))
      · exact .inr h

theorem DfsPathInv.push (hp : DfsPathsOk g c bp starts) (hb : bp) {vis : S} {pr : M} {la : ML}
    {q : SPath V L} {P outs : List (SPath V L)} (h : DfsPathInv g c starts vis pr la P outs) (hq : q ∈ outs)
    (hgq : GPath c.next starts q) {e : V × L} (he : e ∈ c.next q.last)
    (hv : g.so.contains vis (c.vid e.1) = false) :
    DfsPathInv g c starts vis (g.mo.set pr (c.vid e.1) q.last) (g.lo.set la (c.vid e.1) e.2)
      (q.snoc e.1 e.2 :: P) outs := by
  obtain ⟨hbp, ⟨validV, validL, hst⟩, hf⟩ := hp hb
  have hget : ∀ j, g.mo.get? (g.mo.set pr (c.vid e.1) q.last) j =
      if j = c.vid e.1 then some q.last else g.mo.get? pr j :=
    fun j => hst.mo.get_set _ _ _ _ (hst.verts _ hgq.reachable)
  have hlab : ∀ j, g.lo.get? (g.lo.set la (c.vid e.1) e.2) j =
      if j = c.vid e.1 then some e.2 else g.lo.get? la j :=
    fun j => hst.lo.get_set _ _ _ _ (hst.labs _ _ hgq.reachable he)
  have hne : ∀ j, g.so.contains vis j = true → j ≠ c.vid e.1 := by
    rintro j hj rfl; rw [hv] at hj; simp at hj
  refine ⟨?_, ?_, ?_⟩
  · intro p hp
    exact (h.stored p hp).mono (fun _ h => h) (fun j hj => by rw [hget, if_neg (hne j hj)])
      (fun j hj => by rw [hlab, if_neg (hne j hj)])
  · intro A p B eq hA hvis
    cases A with
    | nil =>
      simp only [List.nil_append, List.cons.injEq] at eq
      obtain ⟨rfl, rfl⟩ := eq
      exact .inr ⟨q, e.1, e.2, rfl, hq, by rw [hget, if_pos rfl], by rw [hlab, if_pos rfl]⟩
    | cons a A =>
      simp only [List.cons_append, List.cons.injEq] at eq
      obtain ⟨rfl, eq⟩ := eq
      rw [List.map_cons, List.mem_cons, SPath.last_snoc] at hA
      have hn : c.vid p.last ≠ c.vid e.1 := fun h => hA (.inl h)
      rcases h.link A p B eq (fun h => hA (.inr h)) hvis with ⟨h1, h2⟩ | ⟨p', w, l, rfl, h1, h2, h3⟩
      · exact .inl ⟨h1, by rw [hget, if_neg hn]; exact h2⟩
      · rw [SPath.last_snoc] at hn
        exact .inr ⟨p', w, l, rfl, h1, by rw [hget, if_neg hn]; exact h2, by rw [hlab, if_neg hn]; exact h3⟩
  · intro k hk
    rw [hget] at hk
    by_cases e' : k = c.vid e.1
    · right; simp [e']
    · rw [if_neg e'] at hk
      rcases h.dom k hk with h | h
      · exact .inl h
      · exact .inr (List.mem_cons_of_mem _ h)


/-! ### Steps -/

theorem dfsPop_frame (s : DfsState V L S M ML) : (dfsPop c s).pc = s.pc ∧ (dfsPop c s).starts = s.starts ∧
    (dfsPop c s).cur = s.cur ∧ (dfsPop c s).toVisit = s.toVisit ∧ (dfsPop c s).n = s.n ∧
    (dfsPop c s).event = s.event ∧ (dfsPop c s).visited = s.visited ∧ (dfsPop c s).preds = s.preds ∧
    (dfsPop c s).labels = s.labels := by
  unfold dfsPop
  split <;> simp

theorem dfsPop_depth (s : DfsState V L S M ML) (h : c.computeDepth = true) :
    (dfsPop c s).markers = (popTrue s.markers s.depth).1 ∧ (dfsPop c s).depth = (popTrue s.markers s.depth).2 := by
  unfold dfsPop
  simp [h]

variable {h : List (Ev (DfsReport V S M ML))} {s : DfsState V L S M ML} {G : List (SPath V L × Bool)}
  {outs : List (SPath V L)} {q : Option (SPath V L)}

theorem DfsInv.begin (hp : DfsPathsOk g c bp starts) (inv : DfsInv g c bp already starts h s G outs q)
    (hpc : s.pc = .start) {v : V} {rest : List V} (hs : s.starts = v :: rest) :
    DfsInv g c bp already starts h { s with
        pc := .loop, starts := rest, cur := some v, toVisit := v :: s.toVisit
        markers := if c.computeDepth then false :: s.markers else s.markers
        preds := if c.buildPaths then setStart g s.preds (c.vid v) v else s.preds }
      [(SPath.single v, false)] outs q := by
  have hctl := inv.ctl
  unfold DfsCtl at hctl
  rw [hpc] at hctl
  obtain ⟨rfl, hn⟩ := hctl
  have hv : v ∈ starts := inv.sub v (by rw [hs]; exact List.mem_cons_self)
  constructor
  · have := inv.stack; simp at this; simp [this]
  · intro hc
    have := inv.mark hc
    simp at this
    simp [hc, this]
  · exact ⟨rfl, trivial⟩
  · exact inv.vis
  · exact ⟨hn, v, rfl, .inl rfl⟩
  · have := inv.cont
    simp only [dfsItems, hpc, hs] at this
    simpa [dfsItems] using this
  · exact inv.reps
  · exact fun x hx => inv.sub x (by rw [hs]; exact List.mem_cons_of_mem _ hx)
  · exact ⟨by simpa using GPath.single hv, inv.gpath.2⟩
  · left
    show rest.length < _
    rcases inv.len with hl | ⟨_, _, hl⟩
    · rw [hs] at hl; simp at hl; omega
    · rw [← hl, hs]; simp
  · refine ⟨?_, inv.reach.2⟩
    intro p hp' hna
    simp at hp'
    subst hp'
    rw [SPath.last_single] at hna ⊢
    exact .start ⟨hv, hna⟩
  · intro hb
    have := (inv.paths hb).begin hp hb hv ?_
    case refine_1 =>
      intro x hx
      rcases (hp hb).2.2 with hf | ⟨h1, h2⟩
      · exact hf _ _ _ hx
      · rcases inv.len with hl | ⟨_, hl, _⟩
        · rw [hs] at hl; simp at hl; omega
        · rw [hl, h2] at hx; simp at hx
    simpa [(hp hb).1] using this

theorem DfsInv.exhausted (inv : DfsInv g c bp already starts h s G outs q)
    (hpc : s.pc = .loop) (ht : s.toVisit = []) :
    DfsInv g c bp already starts h { dfsPop c s with pc := .start } [] outs q := by
  have hctl := inv.ctl
  unfold DfsCtl at hctl
  rw [hpc] at hctl
  have hpend : pend G = [] := by have := inv.stack; rw [ht] at this; simpa using this.symm
  obtain ⟨f1, f2, f3, f4, f5, f6, f7, f8, f9⟩ := dfsPop_frame (c := c) s
  constructor
  · show (dfsPop c s).toVisit = _
    rw [f4, ht]; rfl
  · intro hc
    obtain ⟨m1, m2⟩ := dfsPop_depth s hc
    show (dfsPop c s).markers = _ ∧ (dfsPop c s).depth = _
    obtain ⟨h1, h2⟩ := inv.mark hc
    rw [m1, m2, h1, popTrue_of_pend_nil hpend, h2]
    exact ⟨rfl, by simp; omega⟩
  · trivial
  · show ∀ k, g.so.contains (dfsPop c s).visited k = true ↔ _
    rw [f7]; exact inv.vis
  · refine ⟨rfl, ?_⟩
    show (dfsPop c s).n = _
    rw [f5]; exact hctl.1
  · have := inv.cont
    simp only [dfsItems, hpc, hpend, List.nil_append] at this
    simpa [dfsItems, f2, f7] using this
  · exact inv.reps
  · show ∀ v ∈ (dfsPop c s).starts, _
    rw [f2]; exact inv.sub
  · exact ⟨by simp, inv.gpath.2⟩
  · left
    show (dfsPop c s).starts.length < _
    rw [f2]
    exact inv.len.resolve_right (fun h => by rw [hpc] at h; simp at h)
  · exact ⟨by simp, inv.reach.2⟩
  · intro hb
    show DfsPathInv g c starts (dfsPop c s).visited (dfsPop c s).preds (dfsPop c s).labels [] outs
    rw [f7, f8, f9]
    exact (inv.paths hb).nil hpend

theorem DfsInv.seen (inv : DfsInv g c bp already starts h s G outs q)
    (hpc : s.pc = .loop) {v : V} {rest : List V} (ht : s.toVisit = v :: rest)
    (hv : g.so.contains s.visited (c.vid v) = true) :
    ∃ G', DfsInv g c bp already starts h { dfsPop c s with toVisit := rest } G' outs q := by
  have hctl := inv.ctl
  unfold DfsCtl at hctl
  rw [hpc] at hctl
  obtain ⟨f1, f2, f3, f4, f5, f6, f7, f8, f9⟩ := dfsPop_frame (c := c) s
  have hpend := inv.stack
  rw [ht] at hpend
  cases hP : pend G with
  | nil => rw [hP] at hpend; simp at hpend
  | cons p P =>
    rw [hP] at hpend
    simp only [List.map_cons, List.cons.injEq] at hpend
    obtain ⟨rfl, rfl⟩ := hpend
    obtain ⟨T, B, rfl, hT, rfl⟩ := pend_cons_split hP
    refine ⟨B, ?_⟩
    constructor
    · rfl
    · intro hc
      obtain ⟨m1, m2⟩ := dfsPop_depth s hc
      show (dfsPop c s).markers = _ ∧ (dfsPop c s).depth = _
      obtain ⟨h1, h2⟩ := inv.mark hc
      rw [m1, m2, h1, popTrue_split hT, h2]
      exact ⟨rfl, by simp; omega⟩
    · exact inv.own.tail.2
    · show ∀ k, g.so.contains (dfsPop c s).visited k = true ↔ _
      rw [f7]; exact inv.vis
    · unfold DfsCtl
      simp only [f1, hpc, f3, f5, f6, f7]
      obtain ⟨hn, x, hx, hor⟩ := hctl
      refine ⟨hn, x, hx, .inr ?_⟩
      rcases hor with h1 | ⟨h1, h2, h3⟩
      · cases T with
        | nil =>
          simp only [List.nil_append, List.cons.injEq, Prod.mk.injEq, and_true] at h1
          obtain ⟨rfl, rfl⟩ := h1
          exact ⟨by simpa using hv, by simp, by simp⟩
        | cons t T => simp at h1
      · refine ⟨h1, fun p hp => h2 p (by rw [hP]; exact List.mem_cons_of_mem _ hp), fun _ => h3 (by rw [hP]; simp)⟩
    · have := inv.cont
      simp only [dfsItems, hpc, hP, List.cons_append] at this
      simp only [dfsItems, f1, hpc, f2, f7]
      intro pr hpr out vis' n'
      rw [this pr hpr out vis' n']
      simp only [DfsOut.seen_iff (vis := fun k => g.so.contains s.visited k = true) hv]
    · exact inv.reps
    · show ∀ v ∈ (dfsPop c s).starts, _
      rw [f2]; exact inv.sub
    · exact ⟨fun p hp => inv.gpath.1 p (by rw [hP]; exact List.mem_cons_of_mem _ hp), inv.gpath.2⟩
    · left
      show (dfsPop c s).starts.length < _
      rw [f2]
      exact inv.len.resolve_right (fun h => by rw [hpc] at h; simp at h)
    · exact ⟨fun p hp => inv.reach.1 p (by rw [hP]; exact List.mem_cons_of_mem _ hp), inv.reach.2⟩
    · intro hb
      show DfsPathInv g c starts (dfsPop c s).visited (dfsPop c s).preds (dfsPop c s).labels (pend B) outs
      rw [f7, f8, f9]
      have := inv.paths hb
      rw [hP] at this
      exact this.seen hv

theorem DfsInv.enter (hg : g.so.Lawful) (inv : DfsInv g c bp already starts h s G outs q)
    (hpc : s.pc = .loop) {v : V} {rest : List V} (ht : s.toVisit = v :: rest)
    (hv : g.so.contains s.visited (c.vid v) = false) :
    dfsReach g c already starts v ∧
    ((∃ s', dfsEnter c { dfsPop c s with toVisit := rest, visited := (g.so.checkAdd s.visited (c.vid v)).2 } v = .tau s' ∧
      s'.visited = (g.so.checkAdd s.visited (c.vid v)).2 ∧
      ∃ G' outs' q', DfsInv g c bp already starts h s' G' outs' q') ∨
    (∃ r s', dfsEnter c { dfsPop c s with toVisit := rest, visited := (g.so.checkAdd s.visited (c.vid v)).2 } v = .emit r s' ∧
      s'.visited = (g.so.checkAdd s.visited (c.vid v)).2 ∧
      ∃ G' outs' q', DfsInv g c bp already starts (h ++ [.rep r]) s' G' outs' q')) := by
  have hctl := inv.ctl
  unfold DfsCtl at hctl
  rw [hpc] at hctl
  obtain ⟨f1, f2, f3, f4, f5, f6, f7, f8, f9⟩ := dfsPop_frame (c := c) s
  have hpend := inv.stack
  rw [ht] at hpend
  cases hP : pend G with
  | nil => rw [hP] at hpend; simp at hpend
  | cons p P =>
    rw [hP] at hpend
    simp only [List.map_cons, List.cons.injEq] at hpend
    obtain ⟨rfl, rfl⟩ := hpend
    obtain ⟨T, B, rfl, hT, rfl⟩ := pend_cons_split hP
    have hvc : ∀ k, g.so.contains (g.so.checkAdd s.visited (c.vid p.last)).2 k = true ↔
        k = c.vid p.last ∨ g.so.contains s.visited k = true := by
      intro k; rw [hg.contains_checkAdd]; simp
    have hnv : ¬ g.so.contains s.visited (c.vid p.last) = true := by simp [hv]
    have hgp : GPath c.next starts p := inv.gpath.1 p (by rw [hP]; exact List.mem_cons_self)
    have hrp : dfsReach g c already starts p.last :=
      inv.reach.1 p (by rw [hP]; exact List.mem_cons_self) (fun h => hnv ((inv.vis _).2 (.inl h)))
    obtain ⟨hn, x, hx, hor⟩ := hctl
    have hstart : some p.last = s.cur ↔ p.isStart = true := by
      rw [hx]
      rcases hor with h1 | ⟨h1, h2, h3⟩
      · cases T with
        | nil =>
          simp only [List.nil_append, List.cons.injEq, Prod.mk.injEq, and_true] at h1
          obtain ⟨rfl, rfl⟩ := h1
          simp
        | cons t T => simp at h1
      · have := h2 p (by rw [hP]; exact List.mem_cons_self)
        rw [this]
        simp only [Option.some.injEq, Bool.false_eq_true, iff_false]
        rintro rfl
        exact hnv h1
    have hcur : ∃ x, s.cur = some x ∧ g.so.contains (g.so.checkAdd s.visited (c.vid p.last)).2 (c.vid x) = true := by
      refine ⟨x, hx, (hvc _).2 ?_⟩
      rcases hor with h1 | ⟨h1, h2, h3⟩
      · cases T with
        | nil =>
          simp only [List.nil_append, List.cons.injEq, Prod.mk.injEq, and_true] at h1
          obtain ⟨rfl, rfl⟩ := h1
          simp
        | cons t T => simp at h1
      · exact .inr h1
    have hnon : ∀ p' ∈ pend B, p'.isStart = false := by
      rcases hor with h1 | ⟨h1, h2, h3⟩
      · cases T with
        | nil =>
          simp only [List.nil_append, List.cons.injEq, Prod.mk.injEq, and_true] at h1
          obtain ⟨rfl, rfl⟩ := h1
          simp
        | cons t T => simp at h1
      · exact fun p hp => h2 p (by rw [hP]; exact List.mem_cons_of_mem _ hp)
    have hev : p.isStart = false → s.event = .enteringSuccessor := by
      rcases hor with h1 | ⟨h1, h2, h3⟩
      · cases T with
        | nil =>
          simp only [List.nil_append, List.cons.injEq, Prod.mk.injEq, and_true] at h1
          obtain ⟨rfl, rfl⟩ := h1
          simp
        | cons t T => simp at h1
      · exact fun _ => h3 (by rw [hP]; simp)
    have hown := inv.own.tail
    have hpaths : bp → DfsPathInv g c starts (g.so.checkAdd s.visited (c.vid p.last)).2
        s.preds s.labels (pend B) (outs ++ [p]) := by
      intro hb
      have := inv.paths hb
      rw [hP] at this
      exact this.enter hg hgp hv
    have hdep : c.computeDepth = true → (dfsPop c s).markers = B.map (·.2) ∧ (dfsPop c s).depth = (cnt B : Int) - 1 := by
      intro hc
      obtain ⟨m1, m2⟩ := dfsPop_depth s hc
      obtain ⟨h1, h2⟩ := inv.mark hc
      rw [m1, m2, h1, popTrue_split hT, h2]
      exact ⟨rfl, by simp; omega⟩
    -- the new state
    have key : ∀ (h' : List (Ev (DfsReport V S M ML))) (s' : DfsState V L S M ML),
        s' = { dfsPop c s with
          toVisit := (pend B).map SPath.last, visited := (g.so.checkAdd s.visited (c.vid p.last)).2
          depth := if c.computeDepth then (dfsPop c s).depth + 1 else (dfsPop c s).depth
          selfDepth := if c.computeDepth then (if c.computeDepth then (dfsPop c s).depth + 1 else (dfsPop c s).depth)
            else (dfsPop c s).selfDepth
          markers := if c.computeDepth then true :: (dfsPop c s).markers else (dfsPop c s).markers
          event := if p.isStart then .enteringStart else s.event
          pc := .entered p.last (c.reported p) } →
        List.Forall₂ (DfsMatch g c bp starts) (repsOf h') ((outs ++ [p]).filter c.reported) →
        DfsInv g c bp already starts h' s' ((p, true) :: B) (outs ++ [p]) (some p) := by
      rintro h' s' rfl hreps
      constructor
      · simp
      · intro hc
        obtain ⟨h1, h2⟩ := hdep hc
        simp only [hc, if_true, h1, h2, List.map_cons, cnt_true, true_and]
        omega
      · exact ⟨hown.1, hown.2⟩
      · intro k
        show g.so.contains (g.so.checkAdd s.visited (c.vid p.last)).2 k = true ↔ _
        rw [hvc, inv.vis, List.map_append, List.mem_append, List.map_cons, List.map_nil, List.mem_singleton]
        constructor
        · rintro (h | h | h)
          · exact .inr (.inr h)
          · exact .inl h
          · exact .inr (.inl h)
        · rintro (h | h | h)
          · exact .inr (.inl h)
          · exact .inr (.inr h)
          · exact .inl h
      · refine ⟨p, rfl, ?_, rfl, ⟨B, rfl⟩, ?_⟩
        · show (dfsPop c s).n + 1 = _
          rw [f5, hn, List.length_append]; rfl
        · constructor
          · rfl
          · simp
          · show some p.last = (dfsPop c s).cur ↔ _
            rw [f3]; exact hstart
          · show ∃ x, (dfsPop c s).cur = some x ∧ _
            rw [f3]; exact hcur
          · simpa using hnon
          · intro hns
            show (if p.isStart = true then DfsEvent.enteringStart else s.event) = _
            rw [hns]; simpa using hev hns
      · have hcont := inv.cont
        simp only [dfsItems, hpc, hP, List.cons_append] at hcont
        simp only [dfsItems, pend_true, f2, f5, Option.elim_some]
        intro pr hpr out vis' n'
        rw [hcont pr (fun n st hlt => hpr n st (by rw [List.length_append]; omega)) out vis' n']
        have hprn := hpr outs.length p (by simp)
        have hpn : (c.reported p && c.skip s.n) = c.prune outs.length p := by
          rw [hn]; rfl
        rw [hpn]
        have hins : (fun k => g.so.contains (g.so.checkAdd s.visited (c.vid p.last)).2 k = true) =
            insertId (fun k => g.so.contains s.visited k = true) (c.vid p.last) := by
          funext k
          exact propext (hvc k)
        simp only [hins, List.length_append, List.length_singleton]
        cases hpc' : c.prune outs.length p with
        | true =>
          rw [hpc'] at hprn
          simp only [DfsOut.prune_iff (vis := fun k => g.so.contains s.visited k = true) hnv hprn, if_true, List.nil_append]
          constructor
          · rintro ⟨o, rfl, o', rfl, h⟩
            exact ⟨o', by simp, h⟩
          · rintro ⟨o', rfl, h⟩
            exact ⟨_, by simp, o', rfl, h⟩
        | false =>
          rw [hpc'] at hprn
          simp only [DfsOut.enter_iff (vis := fun k => g.so.contains s.visited k = true) hnv hprn,
            Bool.false_eq_true, if_false, List.append_assoc]
          constructor
          · rintro ⟨o, rfl, o', rfl, h⟩
            exact ⟨o', by simp, h⟩
          · rintro ⟨o', rfl, h⟩
            exact ⟨_, by simp, o', rfl, h⟩
      · exact hreps
      · show ∀ v ∈ (dfsPop c s).starts, _
        rw [f2]; exact inv.sub
      · refine ⟨fun p' hp => inv.gpath.1 p' (by rw [hP]; exact List.mem_cons_of_mem _ (by simpa using hp)), ?_⟩
        intro p' hp'
        rcases List.mem_append.1 hp' with h | h
        · exact inv.gpath.2 p' h
        · rw [List.mem_singleton] at h; subst h; exact hgp
      · left
        show (dfsPop c s).starts.length < _
        rw [f2]
        exact inv.len.resolve_right (fun h => by rw [hpc] at h; simp at h)
      · refine ⟨fun p' hp => inv.reach.1 p' (by rw [hP]; exact List.mem_cons_of_mem _ (by simpa using hp)), ?_⟩
        intro p' hp'
        rcases List.mem_append.1 hp' with h | h
        · exact inv.reach.2 p' h
        · rw [List.mem_singleton] at h; subst h; exact hrp
      · intro hb
        have := hpaths hb
        show DfsPathInv g c starts (g.so.checkAdd s.visited (c.vid p.last)).2 (dfsPop c s).preds (dfsPop c s).labels
          (pend ((p, true) :: B)) (outs ++ [p])
        rw [f8, f9, pend_true]
        exact this
    refine ⟨hrp, ?_⟩
    have hrel : ∀ r : DfsReport V S M ML, c.reported p = true → DfsMatch g c bp starts r p →
        List.Forall₂ (DfsMatch g c bp starts) (repsOf (h ++ [.rep r])) ((outs ++ [p]).filter c.reported) := by
      intro r hr hm
      rw [List.filter_append, repsOf_append]
      apply List.rel_append inv.reps
      simp only [repsOf_rep, repsOf_nil, hr, List.filter_cons_of_pos, List.filter_nil]
      exact .cons hm .nil
    have hsil : c.reported p = false →
        List.Forall₂ (DfsMatch g c bp starts) (repsOf h) ((outs ++ [p]).filter c.reported) := by
      intro hr
      rw [List.filter_append]
      simpa [hr] using inv.reps
    have hmatch : ∀ ev, ev = enterEvent p → DfsMatch g c bp starts
        ⟨p.last, if c.computeDepth then (if c.computeDepth then (dfsPop c s).depth + 1 else (dfsPop c s).depth)
            else (dfsPop c s).selfDepth, ev, (g.so.checkAdd s.visited (c.vid p.last)).2, (dfsPop c s).preds,
            (dfsPop c s).labels⟩ p := by
      intro ev hev'
      refine ⟨rfl, hev', ?_, ?_⟩
      · intro hc
        simp only [hc, if_true, (hdep hc).2, hown.1]
        omega
      · intro hb
        simp only [f8, f9]
        exact (hpaths hb).stored p (by simp)
    unfold dfsEnter
    simp only [f3]
    cases hst : p.isStart with
    | true =>
      rw [if_pos (hstart.2 hst)]
      have hrep : c.reported p = c.reportStart := by simp [DfsCfg.reported, hst]
      cases hr : c.reportStart with
      | true =>
        rw [if_pos rfl]
        refine .inr ⟨_, _, rfl, rfl, _, _, _, key _ _ ?_ (hrel _ (by rw [hrep, hr]) (hmatch _ ?_))⟩
        · simp [hst, hrep, hr, f3]
        · simp [enterEvent, hst]
      | false =>
        rw [if_neg (by simp)]
        refine .inl ⟨_, rfl, rfl, _, _, _, key _ _ ?_ (hsil (by rw [hrep, hr]))⟩
        simp [hst, hrep, hr, f3]
    | false =>
      rw [if_neg (by rw [hstart, hst]; simp)]
      have hrep : c.reported p = c.reportSucc := by simp [DfsCfg.reported, hst]
      cases hr : c.reportSucc with
      | true =>
        rw [if_pos rfl]
        refine .inr ⟨_, _, rfl, rfl, _, _, _, key _ _ ?_ (hrel _ (by rw [hrep, hr]) (hmatch _ ?_))⟩
        · simp [hst, hrep, hr, f3, f6]
        · simp only [f6, hev hst]; simp [enterEvent, hst]
      | false =>
        rw [if_neg (by simp)]
        refine .inl ⟨_, rfl, rfl, _, _, _, key _ _ ?_ (hsil (by rw [hrep, hr]))⟩
        simp [hst, hrep, hr, f3, f6]

theorem DfsInv.skipped (inv : DfsInv g c bp already starts h s G outs q) {v : V} {rep : Bool}
    (hpc : s.pc = .entered v rep) (hskip : (rep && c.skip s.n) = true) :
    DfsInv g c bp already starts h
      { s with pc := .loop, n := s.n + 1, event := if some v = s.cur then .enteringSuccessor else s.event } G outs q := by
  have hctl := inv.ctl
  unfold DfsCtl at hctl
  rw [hpc] at hctl
  obtain ⟨q, rfl, hn, hrep, ⟨B, hG⟩, hcur⟩ := hctl
  constructor
  · exact inv.stack
  · exact inv.mark
  · exact inv.own
  · exact inv.vis
  · obtain ⟨x, hx, hxv⟩ := hcur.cur
    refine ⟨hn, x, hx, .inr ⟨hxv, hcur.nonstart, fun _ => ?_⟩⟩
    show (if some v = s.cur then DfsEvent.enteringSuccessor else s.event) = _
    split
    · rfl
    · rename_i hne
      apply hcur.ev
      rw [hcur.startIff] at hne
      simpa using hne
  · have := inv.cont
    simp only [dfsItems, hpc, hskip, if_true, List.nil_append] at this
    exact this
  · exact inv.reps
  · exact inv.sub
  · exact inv.gpath
  · exact .inl (inv.len.resolve_right (fun h => by rw [hpc] at h; simp at h))
  · exact inv.reach
  · exact inv.paths

theorem DfsInv.expand (inv : DfsInv g c bp already starts h s G outs q) {v : V} {rep : Bool}
    (hpc : s.pc = .entered v rep) (hskip : (rep && c.skip s.n) = false) :
    DfsInv g c bp already starts (h ++ [.exp]) { s with pc := .edges v (c.next v), n := s.n + 1 } G outs q := by
  have hctl := inv.ctl
  unfold DfsCtl at hctl
  rw [hpc] at hctl
  obtain ⟨q, rfl, hn, hrep, ⟨B, hG⟩, hcur⟩ := hctl
  constructor
  · exact inv.stack
  · exact inv.mark
  · exact inv.own
  · exact inv.vis
  · exact ⟨q, rfl, hn, ⟨[], B, hG, rfl⟩, fun e h => h, ⟨hcur.last, hcur.mem, hcur.startIff, hcur.cur, hcur.nonstart, hcur.ev⟩⟩
  · have := inv.cont
    simp only [dfsItems, hpc, hskip, Bool.false_eq_true, if_false, children, hcur.last, Option.elim_some] at this
    exact this
  · simpa using inv.reps
  · exact inv.sub
  · exact inv.gpath
  · exact .inl (inv.len.resolve_right (fun h => by rw [hpc] at h; simp at h))
  · exact inv.reach
  · exact inv.paths

theorem DfsInv.edgesEnd (inv : DfsInv g c bp already starts h s G outs q) {v : V}
    (hpc : s.pc = .edges v []) :
    DfsInv g c bp already starts h
      { s with pc := .loop, event := if some v = s.cur then .enteringSuccessor else s.event } G outs q := by
  have hctl := inv.ctl
  unfold DfsCtl at hctl
  rw [hpc] at hctl
  obtain ⟨q, rfl, hn, _, _, hcur⟩ := hctl
  constructor
  · exact inv.stack
  · exact inv.mark
  · exact inv.own
  · exact inv.vis
  · obtain ⟨x, hx, hxv⟩ := hcur.cur
    refine ⟨hn, x, hx, .inr ⟨hxv, hcur.nonstart, fun _ => ?_⟩⟩
    show (if some v = s.cur then DfsEvent.enteringSuccessor else s.event) = _
    split
    · rfl
    · rename_i hne
      apply hcur.ev
      rw [hcur.startIff] at hne
      simpa using hne
  · have := inv.cont
    simp only [dfsItems, hpc, Option.elim_some, List.reverse_nil, List.map_nil, List.nil_append] at this
    exact this
  · exact inv.reps
  · exact inv.sub
  · exact inv.gpath
  · exact .inl (inv.len.resolve_right (fun h => by rw [hpc] at h; simp at h))
  · exact inv.reach
  · exact inv.paths

theorem DfsInv.edgeSeen (inv : DfsInv g c bp already starts h s G outs q) {v : V} {e : V × L} {es : List (V × L)}
    (hpc : s.pc = .edges v (e :: es)) (hv : g.so.contains s.visited (c.vid e.1) = true) :
    DfsInv g c bp already starts h { s with pc := .edges v es } G outs q := by
  have hctl := inv.ctl
  unfold DfsCtl at hctl
  rw [hpc] at hctl
  obtain ⟨q, rfl, hn, hG, hes, hcur⟩ := hctl
  constructor
  · exact inv.stack
  · exact inv.mark
  · exact inv.own
  · exact inv.vis
  · exact ⟨q, rfl, hn, hG, fun e h => hes e (List.mem_cons_of_mem _ h),
      ⟨hcur.last, hcur.mem, hcur.startIff, hcur.cur, hcur.nonstart, hcur.ev⟩⟩
  · have := inv.cont
    simp only [dfsItems, hpc, Option.elim_some] at this
    simp only [dfsItems, Option.elim_some]
    intro pr hpr out vis' n'
    rw [this pr hpr out vis' n']
    simp only [List.reverse_cons, List.map_append, List.append_assoc, List.map_cons, List.map_nil, List.cons_append,
      List.nil_append]
    have hv' : (fun k => g.so.contains s.visited k = true) (c.vid (q.snoc e.1 e.2).last) := by
      rw [SPath.last_snoc]; exact hv
    simp only [DfsOut.insert_seen (vis := fun k => g.so.contains s.visited k = true) (vid := c.vid) (q := q.snoc e.1 e.2) hv']
  · exact inv.reps
  · exact inv.sub
  · exact inv.gpath
  · exact .inl (inv.len.resolve_right (fun h => by rw [hpc] at h; simp at h))
  · exact inv.reach
  · exact inv.paths

theorem DfsInv.edgePush (hp : DfsPathsOk g c bp starts) (inv : DfsInv g c bp already starts h s G outs q) {v : V} {e : V × L}
    {es : List (V × L)} (hpc : s.pc = .edges v (e :: es)) (hv : g.so.contains s.visited (c.vid e.1) = false) :
    DfsInv g c bp already starts h { s with
      pc := .edges v es
      toVisit := e.1 :: s.toVisit
      markers := if c.computeDepth then false :: s.markers else s.markers
      preds := if c.buildPaths then g.mo.set s.preds (c.vid e.1) v else s.preds
      labels := if c.buildPaths then g.lo.set s.labels (c.vid e.1) e.2 else s.labels }
      (((q.map fun q => (q.snoc e.1 e.2, false)).toList) ++ G) outs q := by
  have hctl := inv.ctl
  unfold DfsCtl at hctl
  rw [hpc] at hctl
  obtain ⟨q, rfl, hn, ⟨A, B, rfl, hA⟩, hes, hcur⟩ := hctl
  simp only [Option.map_some, Option.toList_some, List.singleton_append]
  have he : e ∈ c.next q.last := hcur.last ▸ hes e List.mem_cons_self
  have hgq := inv.gpath.2 q hcur.mem
  constructor
  · simp [inv.stack]
  · intro hc
    obtain ⟨h1, h2⟩ := inv.mark hc
    simp only [hc, if_true, h1, List.map_cons, cnt_false, h2, true_and]
  · refine ⟨?_, inv.own⟩
    have := inv.own.tail.1
    simp only [cnt_append, cnt_true, hA, SPath.snoc, List.length_append, List.length_singleton] at this ⊢
    omega
  · exact inv.vis
  · refine ⟨q, rfl, hn, ⟨(q.snoc e.1 e.2, false) :: A, B, rfl, hA⟩, fun e h => hes e (List.mem_cons_of_mem _ h),
      ⟨hcur.last, hcur.mem, hcur.startIff, hcur.cur, ?_, hcur.ev⟩⟩
    intro p hp
    rw [pend_false, List.mem_cons] at hp
    rcases hp with rfl | hp
    · simp
    · exact hcur.nonstart p hp
  · have := inv.cont
    simp only [dfsItems, hpc, Option.elim_some] at this
    simp only [dfsItems, pend_false, Option.elim_some]
    simpa using this
  · exact inv.reps
  · exact inv.sub
  · refine ⟨?_, inv.gpath.2⟩
    intro p hp
    rw [pend_false, List.mem_cons] at hp
    rcases hp with rfl | hp
    · exact hgq.snoc he
    · exact inv.gpath.1 p hp
  · exact .inl (inv.len.resolve_right (fun h => by rw [hpc] at h; simp at h))
  · refine ⟨?_, inv.reach.2⟩
    intro p hp hna
    rw [pend_false, List.mem_cons] at hp
    rcases hp with rfl | hp
    · rw [SPath.last_snoc] at hna ⊢
      exact (inv.reach.2 q hcur.mem).step ⟨⟨e.2, he⟩, hna⟩
    · exact inv.reach.1 p hp hna
  · intro hb
    have := (inv.paths hb).push hp hb hcur.mem hgq he hv
    rw [hcur.last] at this
    simpa [(hp hb).1] using this


/-- All steps. -/
theorem DfsInv.step (hg : g.so.Lawful) (ht : c.isTree = false) (hp : DfsPathsOk g c bp starts)
    (inv : DfsInv g c bp already starts h s G outs q) :
    match dfsStep g c s with
    | .stop s' => s.pc = .start ∧ s.starts = [] ∧ s' = { s with selfDepth := -1 }
    | .fail _ => False
    | .tau s' => ∃ G' outs' q', DfsInv g c bp already starts h s' G' outs' q'
    | .emit r s' => ∃ G' outs' q', DfsInv g c bp already starts (h ++ [.rep r]) s' G' outs' q'
    | .expand s' => ∃ G' outs' q', DfsInv g c bp already starts (h ++ [.exp]) s' G' outs' q' := by
  unfold dfsStep
  cases hpc : s.pc with
  | start =>
    dsimp only
    cases hs : s.starts with
    | nil => exact ⟨rfl, rfl, rfl⟩
    | cons v rest => exact ⟨_, _, _, inv.begin hp hpc hs⟩
  | loop =>
    obtain ⟨f1, f2, f3, f4, f5, f6, f7, f8, f9⟩ := dfsPop_frame (c := c) s
    dsimp only
    rw [f4]
    cases htv : s.toVisit with
    | nil => exact ⟨_, _, _, by simpa [f4, htv] using inv.exhausted hpc htv⟩
    | cons v rest =>
      dsimp only
      rw [ht, f7, hg.checkAdd_fst, if_neg (by simp)]
      cases hv : g.so.contains s.visited (c.vid v) with
      | true =>
        rw [if_pos rfl]
        obtain ⟨G', hi⟩ := inv.seen hpc htv hv
        exact ⟨_, _, _, by simpa [f7] using hi⟩
      | false =>
        rw [if_neg (by simp)]
        obtain ⟨_, ⟨s', e, _, hi⟩ | ⟨r, s', e, _, hi⟩⟩ := inv.enter hg hpc htv hv
        · rw [e]; exact hi
        · rw [e]; exact hi
  | entered v rep =>
    dsimp only
    cases hk : rep && c.skip s.n with
    | true => rw [if_pos rfl]; exact ⟨_, _, _, inv.skipped hpc hk⟩
    | false => rw [if_neg (by simp)]; exact ⟨_, _, _, inv.expand hpc hk⟩
  | edges v es =>
    cases es with
    | nil => exact ⟨_, _, _, inv.edgesEnd hpc⟩
    | cons e es =>
      dsimp only
      rw [ht]
      cases hv : g.so.contains s.visited (c.vid e.1) with
      | true => rw [if_pos (by simp)]; exact ⟨_, _, _, inv.edgeSeen hpc hv⟩
      | false => rw [if_neg (by simp)]; exact ⟨_, _, _, inv.edgePush hp hpc hv⟩

theorem dfs_inv (hg : g.so.Lawful) (ht : c.isTree = false) (hp : DfsPathsOk g c bp starts)
    (hr : Reaches (dfsStep g c) (dfsInit g c already starts) h s) :
    ∃ G outs q, DfsInv g c bp already starts h s G outs q := by
  refine Reaches.invariant (m := dfsStep g c) (fun h s => ∃ G outs q, DfsInv g c bp already starts h s G outs q)
    ⟨_, _, _, DfsInv.init hp⟩ ?_ ?_ ?_ hr
  · rintro h s s' ⟨G, outs, q, inv⟩ e
    have := inv.step hg ht hp
    rw [e] at this
    exact this
  · rintro h s r s' ⟨G, outs, q, inv⟩ e
    have := inv.step hg ht hp
    rw [e] at this
    exact this
  · rintro h s s' ⟨G, outs, q, inv⟩ e
    have := inv.step hg ht hp
    rw [e] at this
    exact this

theorem dfs_no_fail (hg : g.so.Lawful) (ht : c.isTree = false) (hp : DfsPathsOk g c bp starts) (e : PyErr)
    (hr : Reaches (dfsStep g c) (dfsInit g c already starts) h s) : dfsStep g c s ≠ .fail e := by
  obtain ⟨G, outs, q, inv⟩ := dfs_inv hg ht hp hr
  have := inv.step hg ht hp
  intro e
  rw [e] at this
  exact this

/-- Measure for termination. -/
def dfsMeasure (g : TravGear V K L S M ML) (c : DfsCfg V K L) (ids : List K) (s : DfsState V L S M ML) :
    Nat × Nat × Nat × Nat :=
  ((ids.filter fun k => !g.so.contains s.visited k).length, s.starts.length,
    (match s.pc with
     | .start => 0
     | .loop => 0
     | .entered v _ => (c.next v).length + 2
     | .edges _ es => es.length + 1),
    (match s.pc with
     | .loop => s.toVisit.length + 1
     | _ => 0))

theorem dfs_terminates (hg : g.so.Lawful) (ht : c.isTree = false) (hp : DfsPathsOk g c bp starts)
    (hfin : ∃ ids : List K, ∀ v, dfsReach g c already starts v → c.vid v ∈ ids) :
    ∃ N, ∀ fuel, N ≤ fuel → ∀ lim,
      (runMachine (dfsStep g c) fuel lim (dfsInit g c already starts)).ending ≠ .outOfFuel := by
  obtain ⟨ids, hids⟩ := hfin
  refine run_terminates_reach _ lex4 lex4_wf (dfsMeasure g c ids) _ ?_
  intro h s s' hr hn
  obtain ⟨G, outs, q, inv⟩ := dfs_inv hg ht hp hr
  unfold dfsStep at hn
  cases hpc : s.pc with
  | start =>
    rw [hpc] at hn
    dsimp only at hn
    cases hs : s.starts with
    | nil => rw [hs] at hn; simp [Step.next?] at hn
    | cons v rest =>
      rw [hs] at hn
      simp only [Step.next?, Option.some.injEq] at hn
      subst hn
      simp only [dfsMeasure, lex4_iff, true_and, hpc, hs, List.length_cons]
      omega
  | loop =>
    rw [hpc] at hn
    obtain ⟨f1, f2, f3, f4, f5, f6, f7, f8, f9⟩ := dfsPop_frame (c := c) s
    dsimp only at hn
    rw [f4] at hn
    cases htv : s.toVisit with
    | nil =>
      rw [htv] at hn
      simp only [Step.next?, Option.some.injEq] at hn
      subst hn
      simp only [dfsMeasure, lex4_iff, true_and, hpc, f2, f7]
      omega
    | cons v rest =>
      rw [htv] at hn
      dsimp only at hn
      rw [ht, f7, hg.checkAdd_fst, if_neg (by simp)] at hn
      cases hv : g.so.contains s.visited (c.vid v) with
      | true =>
        rw [hv, if_pos rfl] at hn
        simp only [Step.next?, Option.some.injEq] at hn
        subst hn
        simp only [dfsMeasure, lex4_iff, true_and, f1, hpc, f2, f7, htv, List.length_cons]
        omega
      | false =>
        rw [hv, if_neg (by simp)] at hn
        obtain ⟨hreach, hor⟩ := inv.enter hg hpc htv hv
        have hs' : s'.visited = (g.so.checkAdd s.visited (c.vid v)).2 := by
          rcases hor with ⟨s1, e, h1, _⟩ | ⟨r, s1, e, h1, _⟩
          · rw [e] at hn; simp only [Step.next?, Option.some.injEq] at hn; subst hn; exact h1
          · rw [e] at hn; simp only [Step.next?, Option.some.injEq] at hn; subst hn; exact h1
        simp only [dfsMeasure, lex4_iff]
        left
        rw [hs']
        exact filter_not_lt ids _ _ (fun j hj => by rw [hg.contains_checkAdd]; simp [hj]) (hids v hreach) hv
          (by rw [hg.contains_checkAdd]; simp)
  | entered v rep =>
    rw [hpc] at hn
    dsimp only at hn
    split at hn
    · simp only [Step.next?, Option.some.injEq] at hn
      subst hn
      simp only [dfsMeasure, lex4_iff, true_and, hpc]
      omega
    · simp only [Step.next?, Option.some.injEq] at hn
      subst hn
      simp only [dfsMeasure, lex4_iff, true_and, hpc]
      omega
  | edges v es =>
    rw [hpc] at hn
    cases es with
    | nil =>
      simp only [Step.next?, Option.some.injEq] at hn
      subst hn
      simp only [dfsMeasure, lex4_iff, true_and, hpc]
      omega
    | cons e es =>
      dsimp only at hn
      split at hn
      · simp only [Step.next?, Option.some.injEq] at hn
        subst hn
        simp only [dfsMeasure, lex4_iff, true_and, hpc, List.length_cons]
        omega
      · simp only [Step.next?, Option.some.injEq] at hn
        subst hn
        simp only [dfsMeasure, lex4_iff, true_and, hpc, List.length_cons]
        omega

end

end NoGraphs
