import Verif.Spec.SameIdentity
import Verif.Props.GearIndependence
import Verif.Props.BfsModes
import Verif.Props.NeighborsThenDepth
import Verif.Props.DepthFirst
import Verif.Props.MinimumSpanningTree
import Verif.Props.ShortestPaths
import Verif.Props.AStar
import Verif.Props.BiDijkstra

/-! Pull-back of gears along a renaming of ids, and runs with renamed ids. -/

set_option linter.unusedSectionVars false

namespace NoGraphs

open Spec

variable {V Q K K' L W S M ML D X : Type}

/-! ## Pull-back of collections -/

/-- The set, with the key `f q` for `q`. -/
def SetOps.pull (o : SetOps S K) (f : Q → K) : SetOps S Q where
  empty := o.empty
  contains s k := o.contains s (f k)
  add s k := o.add s (f k)
  checkAdd s k := o.checkAdd s (f k)
  drop s k := o.drop s (f k)
  mustContain s k := o.mustContain s (f k)

/-- The mapping, with the key `f q` for `q`. -/
def MapOps.pull (o : MapOps M K X) (f : Q → K) : MapOps M Q X where
  empty := o.empty
  get? m k := o.get? m (f k)
  raw m k := o.raw m (f k)
  set m k x := o.set m (f k) x

/-- The distances, with the key `f q` for `q`. -/
def DistOps.pull (o : DistOps D K W) (f : Q → K) : DistOps D Q W where
  empty := o.empty
  get m k := o.get m (f k)
  set m k x := o.set m (f k) x
  improve m k x := o.improve m (f k) x
  setDefault m k x := o.setDefault m (f k) x

def TravGear.pull (g : TravGear V K L S M ML) (f : Q → K) : TravGear V Q L S M ML :=
  ⟨g.so.pull f, g.mo.pull f, g.lo.pull f⟩

def WGear.pull (g : WGear V K L W M ML D) (f : Q → K) : WGear V Q L W M ML D :=
  ⟨g.mo.pull f, g.lo.pull f, g.dd.pull f⟩

section laws

variable [DecidableEq Q] [DecidableEq K] {f : Q → K} (hf : Function.Injective f)

include hf

theorem SetOps.Lawful.pull {o : SetOps S K} (h : o.Lawful) : (o.pull f).Lawful where
  contains_empty k := h.contains_empty _
  contains_add s k j := by
    show o.contains (o.add s (f k)) (f j) = _
    rw [h.contains_add]; simp only [hf.eq_iff]; rfl
  checkAdd_fst s k := h.checkAdd_fst _ _
  contains_checkAdd s k j := by
    show o.contains (o.checkAdd s (f k)).2 (f j) = _
    rw [h.contains_checkAdd]; simp only [hf.eq_iff]; rfl
  drop_ok s k hk := by
    obtain ⟨s', h1, h2⟩ := h.drop_ok s (f k) hk
    refine ⟨s', h1, fun j => ?_⟩
    show o.contains s' (f j) = _
    rw [h2]; simp only [hf.eq_iff]; rfl
  mustContain_none s k := h.mustContain_none _ _
  mustContain_some s k := h.mustContain_some _ _

omit hf in
theorem SetOps.Grows.pull {o : SetOps S K} (h : o.Grows) : (o.pull f).Grows where
  add_self s k := h.add_self _ _
  add s k j := h.add _ _ _
  drop s s' k j := h.drop _ _ _ _

theorem MapOps.Lawful.pull {o : MapOps M K X} {valid : X → Prop} (h : o.Lawful valid) : (o.pull f).Lawful valid where
  get_empty k := h.get_empty _
  get_set m k x j hx := by
    show o.get? (o.set m (f k) x) (f j) = _
    rw [h.get_set _ _ _ _ hx]; simp only [hf.eq_iff]; rfl
  raw_of_get m k x := h.raw_of_get _ _ _

omit hf in
theorem MapOps.Faithful.pull {o : MapOps M K X} (h : o.Faithful) : (o.pull f).Faithful := fun m k x => h m (f k) x

theorem DistOps.Lawful.pull [LinearOrder W] {o : DistOps D K W} {inf : W} (h : o.Lawful inf) : (o.pull f).Lawful inf where
  get_empty k := h.get_empty _
  get_set m k w j := by
    show o.get (o.set m (f k) w) (f j) = _
    rw [h.get_set]; simp only [hf.eq_iff]; rfl
  improve_none m k w hw := h.improve_none _ _ _ hw
  improve_some m k w m' hw hm j := by
    show o.get m' (f j) = _
    rw [h.improve_some m (f k) w m' hw hm]; simp only [hf.eq_iff]; rfl
  get_setDefault_ne m k w j hj := h.get_setDefault_ne _ _ _ _ (fun e => hj (hf e))
  get_setDefault m k w := h.get_setDefault _ _ _

theorem Storable.pull {g : TravGear V K L S M ML} {c : TravCfg V K L} {q : V → Q} (hq : c.vid = fun v => f (q v))
    {starts : List V} {validV : V → Prop} {validL : L → Prop} (h : Storable g c starts validV validL) :
    Storable (g.pull f) (c.withId q) starts validV validL where
  mo := h.mo.pull hf
  lo := h.lo.pull hf
  verts := h.verts
  labs := h.labs
  distinct s hs t ht e := h.distinct s hs t ht (by rw [hq]; exact congrArg f e)

theorem MstStorable.pull {g : TravGear V K L S M ML} {c : MstCfg V K L W} {q : V → Q} (hq : c.vid = fun v => f (q v))
    {starts : List V} {validV : V → Prop} {validL : L → Prop} (h : MstStorable g c starts validV validL) :
    MstStorable (g.pull f) (c.withId q) starts validV validL where
  mo := h.mo.pull hf
  lo := h.lo.pull hf
  verts := h.verts
  labs := h.labs
  distinct s hs t ht e := h.distinct s hs t ht (by rw [hq]; exact congrArg f e)

theorem WStorable.pull [Add W] [Zero W] {mo : MapOps M K V} {lo : MapOps ML K L} {next : V → List (V × W × L)} {vid : V → K}
    {q : V → Q} (hq : vid = fun v => f (q v))
    {starts : List V} {validV : V → Prop} {validL : L → Prop} (h : WStorable mo lo next vid starts validV validL) :
    WStorable (mo.pull f) (lo.pull f) next q starts validV validL where
  mo := h.mo.pull hf
  lo := h.lo.pull hf
  verts := h.verts
  labs := h.labs
  distinct s hs t ht e := h.distinct s hs t ht (by rw [hq]; exact congrArg f e)

end laws

/-! ## Initial content -/

theorem SetOps.addAll_pull (o : SetOps S K) (f : Q → K) (s : S) (q : V → Q) (vs : List V) :
    (o.pull f).addAll s (vs.map q) = o.addAll s (vs.map (fun v => f (q v))) := by
  unfold SetOps.addAll
  rw [List.foldl_map, List.foldl_map]; rfl

theorem MapOps.setAll_pull (o : MapOps M K X) (f : Q → K) (m : M) (q : V → Q) (x : V → X) (vs : List V) :
    (o.pull f).setAll m (vs.map (fun v => (q v, x v))) = o.setAll m (vs.map (fun v => (f (q v), x v))) := by
  unfold MapOps.setAll
  rw [List.foldl_map, List.foldl_map]; rfl

theorem DistOps.setAll_pull (o : DistOps D K W) (f : Q → K) (m : D) (q : V → Q) (x : V → W) (vs : List V) :
    (o.pull f).setAll m (vs.map (fun v => (q v, x v))) = o.setAll m (vs.map (fun v => (f (q v), x v))) := by
  unfold DistOps.setAll
  rw [List.foldl_map, List.foldl_map]; rfl

/-- What two functions that identify the same vertices have in common. -/
theorem Spec.SameIdentity.common [DecidableEq K] {vid : V → K} {vid' : V → K'} (h : SameIdentity vid vid') :
    ∃ (Q : Type) (_ : DecidableEq Q) (q : V → Q) (f : Q → K) (f' : Q → K'), Function.Injective f ∧ Function.Injective f' ∧
      Function.Surjective q ∧ vid = (fun v => f (q v)) ∧ vid' = fun v => f' (q v) := by
  refine ⟨{k // ∃ v, vid v = k}, inferInstance, fun v => ⟨vid v, v, rfl⟩, Subtype.val, fun k => vid' k.2.choose,
    Subtype.val_injective, ?_, ?_, rfl, ?_⟩
  · rintro ⟨a, ha⟩ ⟨b, hb⟩ e
    have := (h _ _).2 e
    rw [ha.choose_spec, hb.choose_spec] at this
    exact Subtype.ext this
  · rintro ⟨a, v, rfl⟩; exact ⟨v, rfl⟩
  · funext v
    exact (h _ _).1 (Exists.choose_spec (⟨v, rfl⟩ : ∃ u, vid u = vid v)).symm

/-! ## Runs -/

variable {f : Q → K} {q : V → Q}

theorem bfsRun_pull (g : TravGear V K L S M ML) (c : TravCfg V K L) (hq : c.vid = fun v => f (q v)) (already : S)
    (starts : List V) (limit : Option Int) (fuel : Nat) :
    bfsRun (g.pull f) (c.withId q) already starts limit fuel = bfsRun g c already starts limit fuel := by
  obtain ⟨next, vid, t, b⟩ := c
  subst hq
  have hi : bfsInit (g.pull f) (TravCfg.withId ⟨next, fun v => f (q v), t, b⟩ q) already starts =
      bfsInit g ⟨next, fun v => f (q v), t, b⟩ already starts := by
    unfold bfsInit
    congr 1
    · exact ite_congr rfl (fun _ => rfl) (fun _ => SetOps.addAll_pull ..)
    · exact ite_congr rfl (fun _ => MapOps.setAll_pull ..) (fun _ => rfl)
  unfold bfsRun
  rw [hi]; rfl

theorem ntdRun_pull (g : TravGear V K L S M ML) (c : NtdCfg V K L) (hq : c.vid = fun v => f (q v)) (already : S)
    (starts : List V) (limit : Option Int) (fuel : Nat) :
    ntdRun (g.pull f) (c.withId q) already starts limit fuel = ntdRun g c already starts limit fuel := by
  obtain ⟨⟨next, vid, t, b⟩, cd⟩ := c
  subst hq
  have hi : ntdInit (g.pull f) (NtdCfg.withId ⟨⟨next, fun v => f (q v), t, b⟩, cd⟩ q) already starts =
      ntdInit g ⟨⟨next, fun v => f (q v), t, b⟩, cd⟩ already starts := by
    unfold ntdInit
    congr 1
    · exact ite_congr rfl (fun _ => rfl) (fun _ => SetOps.addAll_pull ..)
    · exact ite_congr rfl (fun _ => MapOps.setAll_pull ..) (fun _ => rfl)
  unfold ntdRun
  rw [hi]; rfl

theorem dfsRun_pull [DecidableEq V] (g : TravGear V K L S M ML) (c : DfsCfg V K L) (hq : c.vid = fun v => f (q v))
    (already : S) (starts : List V) (limit : Option Int) (fuel : Nat) :
    dfsRun (g.pull f) (c.withId q) already starts limit fuel = dfsRun g c already starts limit fuel := by
  obtain ⟨⟨next, vid, t, b⟩, cd, r1, r2, sk⟩ := c
  subst hq
  rfl

theorem topoRun_pull (g : TravGear V K L S M ML) (c : TravCfg V K L) (hq : c.vid = fun v => f (q v)) (already : S)
    (starts : List V) (limit : Option Int) (fuel : Nat) :
    topoRun (g.pull f) (c.withId q) already starts limit fuel = topoRun g c already starts limit fuel := by
  obtain ⟨next, vid, t, b⟩ := c
  subst hq
  have hi : topoInit (g.pull f) (TravCfg.withId ⟨next, fun v => f (q v), t, b⟩ q) already starts =
      topoInit g ⟨next, fun v => f (q v), t, b⟩ already starts := by
    unfold topoInit
    congr 1
    · exact ite_congr rfl (fun _ => rfl) (fun _ => SetOps.addAll_pull ..)
    · exact ite_congr rfl (fun _ => MapOps.setAll_pull ..) (fun _ => rfl)
  unfold topoRun
  rw [hi]; rfl

theorem mstRun_pull [LinearOrder W] (g : TravGear V K L S M ML) (c : MstCfg V K L W) (hq : c.vid = fun v => f (q v))
    (starts : List V) (limit : Option Int) (fuel : Nat) :
    mstRun (g.pull f) (c.withId q) starts limit fuel = mstRun g c starts limit fuel := by
  obtain ⟨next, vid, b⟩ := c
  subst hq
  have hi : mstInit (g.pull f) (MstCfg.withId ⟨next, fun v => f (q v), b⟩ q) starts =
      mstInit g ⟨next, fun v => f (q v), b⟩ starts := by
    unfold mstInit
    congr 1
    · exact SetOps.addAll_pull ..
    · exact ite_congr rfl (fun _ => MapOps.setAll_pull ..) (fun _ => rfl)
  unfold mstRun
  rw [hi]; rfl

section weights

variable [Add W] [Zero W] [LinearOrder W]

theorem spStartEntries_pull (g : WGear V K L W M ML D) (c : WCfg V K L W) (hq : c.vid = fun v => f (q v)) (d : D)
    (vs : List V) (no : Int) :
    spStartEntries (g.pull f) (c.withId q) d vs no = spStartEntries g c d vs no := by
  induction vs generalizing no with
  | nil => rfl
  | cons v vs ih =>
    unfold spStartEntries
    rw [ih]
    simp only [hq]; rfl

theorem spRun_pull (g : WGear V K L W M ML D) (c : WCfg V K L W) (hq : c.vid = fun v => f (q v))
    (starts : List V) (limit : Option Int) (fuel : Nat) :
    spRun (g.pull f) (c.withId q) none starts limit fuel = spRun g c none starts limit fuel := by
  obtain ⟨next, vid, t, b, k, inf⟩ := c
  subst hq
  have hd : spDistances (g.pull f) (WCfg.withId ⟨next, fun v => f (q v), t, b, k, inf⟩ q) none starts =
      spDistances g ⟨next, fun v => f (q v), t, b, k, inf⟩ none starts := DistOps.setAll_pull ..
  have hi : spInit (g.pull f) (WCfg.withId ⟨next, fun v => f (q v), t, b, k, inf⟩ q) none starts =
      spInit g ⟨next, fun v => f (q v), t, b, k, inf⟩ none starts := by
    unfold spInit
    rw [hd, spStartEntries_pull (f := f) (q := q) _ _ rfl]
    congr 1
    exact ite_congr rfl (fun _ => MapOps.setAll_pull ..) (fun _ => rfl)
  unfold spRun
  rw [hi]; rfl

end weights

section astar

variable [AddCommMonoid W] [LinearOrder W]

theorem aStartEntries_pull (g : WGear V K L W M ML D) (c : AStarCfg V K L W) (hq : c.vid = fun v => f (q v)) (d : D)
    (vs : List V) (no : Int) :
    aStartEntries (g.pull f) (c.withId q) d vs no = aStartEntries g c d vs no := by
  induction vs generalizing no with
  | nil => rfl
  | cons v vs ih =>
    unfold aStartEntries
    rw [ih]
    simp only [hq]; rfl

theorem aRun_pull (g : WGear V K L W M ML D) (c : AStarCfg V K L W) (hq : c.vid = fun v => f (q v))
    (starts : List V) (limit : Option Int) (fuel : Nat) :
    aRun (g.pull f) (c.withId q) none none starts limit fuel = aRun g c none none starts limit fuel := by
  obtain ⟨next, vid, t, b, inf, heur⟩ := c
  subst hq
  have hd : aDistances (g.pull f) (AStarCfg.withId ⟨next, fun v => f (q v), t, b, inf, heur⟩ q) none starts =
      aDistances g ⟨next, fun v => f (q v), t, b, inf, heur⟩ none starts := DistOps.setAll_pull ..
  have hgu : ∀ d, aGuesses (g.pull f) (AStarCfg.withId ⟨next, fun v => f (q v), t, b, inf, heur⟩ q) none d starts =
      aGuesses g ⟨next, fun v => f (q v), t, b, inf, heur⟩ none d starts := fun d => DistOps.setAll_pull ..
  have hi : aInit (g.pull f) (AStarCfg.withId ⟨next, fun v => f (q v), t, b, inf, heur⟩ q) none none starts =
      aInit g ⟨next, fun v => f (q v), t, b, inf, heur⟩ none none starts := by
    unfold aInit
    dsimp only
    rw [hd, hgu, aStartEntries_pull (f := f) (q := q) _ _ rfl]
    congr 1
    exact ite_congr rfl (fun _ => MapOps.setAll_pull ..) (fun _ => rfl)
  unfold aRun
  rw [hi]; rfl

end astar

/-! ## Depth-first search with trace: the numbers of the vertices are a function on ids -/

section trace

variable [DecidableEq V] [DecidableEq Q] [DecidableEq K]

def TraceState.pull (s : TraceState V K L S M ML) (f : Q → K) : TraceState V Q L S M ML :=
  ⟨s.pc, s.starts, s.cur, s.toVisit, s.toLabels, s.markers, s.lab, s.depth, s.n, s.event, s.time, s.visited, s.onTrace,
    s.trace, s.traceLabels, fun k => s.index (f k), s.preds, s.labels⟩

def TraceReport.pull (r : TraceReport V K L S M ML) (f : Q → K) : TraceReport V Q L S M ML :=
  ⟨r.vertex, r.depth, r.event, r.visited, r.onTrace, r.trace, r.traceLabels, fun k => r.index (f k), r.preds, r.labels⟩

def Step.pull {σ σ' ρ ρ' : Type} (F : σ → σ') (R : ρ → ρ') : Step σ ρ → Step σ' ρ'
  | .stop s => .stop (F s)
  | .fail e => .fail e
  | .tau s => .tau (F s)
  | .emit r s => .emit (R r) (F s)
  | .expand s => .expand (F s)

abbrev tpull (f : Q → K) : Step (TraceState V K L S M ML) (TraceReport V K L S M ML) →
    Step (TraceState V Q L S M ML) (TraceReport V Q L S M ML) := Step.pull (·.pull f) (·.pull f)

theorem tpull_ite (p : Prop) [Decidable p] (a b : Step (TraceState V K L S M ML) (TraceReport V K L S M ML)) :
    tpull f (if p then a else b) = if p then tpull f a else tpull f b := apply_ite ..

variable (g : TravGear V K L S M ML) (c : TraceCfg V K L) (hf : Function.Injective f) (hq : c.vid = fun v => f (q v))

include hf hq

theorem trEnter_pull (s : TraceState V K L S M ML) (v : V) :
    trEnter (g.pull f) (c.withId q) (s.pull f) v = tpull f (trEnter g c s v) := by
  obtain ⟨⟨next, vid, t, b⟩, cd, mo, rep, co, ci, lb, sk⟩ := c
  subst hq
  have hidx : (if ci = true then fun k => if k = q v then s.time else s.index (f k) else fun k => s.index (f k)) =
        fun k => (if ci = true then fun k => if k = f (q v) then s.time else s.index k else s.index) (f k) := by
    cases ci
    · rfl
    · funext k
      simp only [if_true, hf.eq_iff]
  unfold trEnter
  refine Eq.trans ?_ (tpull_ite ..).symm
  refine ite_congr rfl (fun _ => rfl) (fun _ => ?_)
  refine Eq.trans ?_ (tpull_ite ..).symm
  refine ite_congr rfl (fun _ => ?_) (fun _ => ?_)
  · simp only [TraceState.yield, tpull, Step.pull, TraceState.pull, TraceReport.pull]
    rw [← hidx]; rfl
  · simp only [tpull, Step.pull, TraceState.pull]
    rw [← hidx]; rfl

theorem trShowEdge_pull (s : TraceState V K L S M ML) (v : V) (e : DfsEvent) :
    trShowEdge (c.withId q) (s.pull f) v e = tpull f (trShowEdge c s v e) := by
  unfold trShowEdge
  refine Eq.trans ?_ (tpull_ite ..).symm
  refine ite_congr rfl (fun _ => ?_) (fun _ => rfl)
  refine Eq.trans ?_ (tpull_ite ..).symm
  exact ite_congr rfl (fun _ => rfl) (fun _ => rfl)

theorem trRevisit_pull (s : TraceState V K L S M ML) (v : V) (e : DfsEvent) :
    trRevisit (g.pull f) (c.withId q) (s.pull f) v e = tpull f (trRevisit g c s v e) := by
  have hsh : ∀ e, trShowEdge (c.withId q) (s.pull f) v e = tpull f (trShowEdge c s v e) :=
    fun e => trShowEdge_pull c hf hq s v e
  have hv : ∀ v, c.vid v = f (q v) := fun v => by rw [hq]
  unfold trRevisit
  refine Eq.trans ?_ (tpull_ite ..).symm
  refine ite_congr rfl (fun _ => hsh _) (fun _ => ?_)
  refine Eq.trans ?_ (tpull_ite ..).symm
  refine ite_congr rfl (fun _ => ?_) (fun _ => rfl)
  rw [hv v]
  change (match
      if (c.report DfsEvent.backEdge && decide (e ≠ DfsEvent.backEdge)) = true then
        match g.so.mustContain s.onTrace (f (q v)) with
        | none => none
        | some b => some (if b = true then DfsEvent.backEdge else e)
      else some e with
    | none => Step.fail PyErr.assertionError
    | some event => _) = _
  dsimp only
  generalize (if (c.report DfsEvent.backEdge && decide (e ≠ DfsEvent.backEdge)) = true then
        match g.so.mustContain s.onTrace (f (q v)) with
        | none => none
        | some b => some (if b = true then DfsEvent.backEdge else e)
      else some e) = x
  cases x with
  | none => rfl
  | some event =>
    dsimp only
    refine Eq.trans ?_ (tpull_ite ..).symm
    refine ite_congr rfl (fun _ => ?_) (fun _ => hsh _)
    change (match s.trace with | [] => _ | u :: tail => _) = _
    generalize s.trace = tr
    cases tr with
    | nil => rfl
    | cons u tr =>
      dsimp only
      rw [hsh, hv u]
      rfl

theorem trTry_pull (s : TraceState V K L S M ML) (v : V) :
    trTry (g.pull f) (c.withId q) (s.pull f) v = tpull f (trTry g c s v) := by
  have hen : ∀ s : TraceState V K L S M ML, trEnter (g.pull f) (c.withId q) (s.pull f) v = tpull f (trEnter g c s v) :=
    fun s => trEnter_pull g c hf hq s v
  have hre : ∀ e, trRevisit (g.pull f) (c.withId q) (s.pull f) v e = tpull f (trRevisit g c s v e) :=
    fun e => trRevisit_pull g c hf hq s v e
  have hv : ∀ v, c.vid v = f (q v) := fun v => by rw [hq]
  unfold trTry
  refine Eq.trans ?_ (tpull_ite ..).symm
  refine ite_congr rfl (fun _ => hen _) (fun _ => ?_)
  rw [hv v]
  change (match c.mode with | .allWalks => _ | .dfsTree => _ | .allPaths => _) = _
  generalize c.mode = m
  cases m with
  | dfsTree =>
    dsimp only
    refine Eq.trans ?_ (tpull_ite ..).symm
    refine ite_congr rfl (fun _ => ?_) (fun _ => ?_)
    · refine Eq.trans ?_ (tpull_ite ..).symm
      refine ite_congr rfl (fun _ => ?_) (fun _ => hre _)
      refine Eq.trans ?_ (tpull_ite ..).symm
      exact ite_congr rfl (fun _ => rfl) (fun _ => rfl)
    · refine Eq.trans ?_ (hen _)
      rfl
  | allPaths =>
    dsimp only
    refine Eq.trans ?_ (tpull_ite ..).symm
    refine ite_congr rfl (fun _ => hre _) (fun _ => ?_)
    refine Eq.trans ?_ (hen _)
    rfl
  | allWalks => exact hen _

theorem trPop_pull (s : TraceState V K L S M ML) :
    trPop (g.pull f) (c.withId q) (s.pull f) = tpull f (trPop g c s) := by
  have ht : ∀ (s : TraceState V K L S M ML) v, trTry (g.pull f) (c.withId q) (s.pull f) v = tpull f (trTry g c s v) :=
    fun s v => trTry_pull g c hf hq s v
  obtain ⟨pc, starts, cur, toVisit, toLabels, markers, lab, depth, n, event, time, visited, onTrace, trace, traceLabels,
    index, preds, labels⟩ := s
  unfold trPop
  cases toVisit with
  | nil => rfl
  | cons v tv =>
    dsimp only [TraceState.pull]
    refine Eq.trans ?_ (tpull_ite ..).symm
    refine ite_congr rfl (fun _ => ?_) (fun _ => ?_)
    rotate_left
    · refine Eq.trans ?_ (ht _ _)
      rfl
    cases toLabels with
    | nil => rfl
    | cons l tl =>
      dsimp only
      refine Eq.trans ?_ (ht _ _)
      rfl

theorem trStep_pull (s : TraceState V K L S M ML) :
    trStep (g.pull f) (c.withId q) (s.pull f) = tpull f (trStep g c s) := by
  have ht : ∀ (s : TraceState V K L S M ML), trPop (g.pull f) (c.withId q) (s.pull f) = tpull f (trPop g c s) :=
    fun s => trPop_pull g c hf hq s
  have hv : ∀ v, c.vid v = f (q v) := fun v => by rw [hq]
  obtain ⟨pc, starts, cur, toVisit, toLabels, markers, lab, depth, n, event, time, visited, onTrace, trace, traceLabels,
    index, preds, labels⟩ := s
  unfold trStep
  cases pc with
  | start => cases starts <;> rfl
  | loop nl =>
    cases markers with
    | nil => rfl
    | cons m ms =>
      cases m with
      | false =>
        dsimp only
        refine Eq.trans ?_ (ht _)
        rfl
      | true =>
        cases trace with
        | nil => rfl
        | cons v tr =>
          dsimp only [TraceState.pull]
          refine Eq.trans ?_ (tpull_ite ..).symm
          refine ite_congr rfl (fun _ => ?_) (fun _ => ?_)
          · refine Eq.trans ?_ (tpull_ite ..).symm
            exact ite_congr rfl (fun _ => rfl) (fun _ => rfl)
          · refine Eq.trans ?_ (tpull_ite ..).symm
            exact ite_congr rfl (fun _ => rfl) (fun _ => rfl)
  | leave v last nl =>
    dsimp only [TraceState.pull]
    rw [hv v]
    refine Eq.trans ?_ (tpull_ite ..).symm
    refine ite_congr rfl (fun _ => rfl) (fun _ => ?_)
    change (match if c.computeOnTrace = true then g.so.drop onTrace (f (q v)) else Except.ok onTrace with
      | .error e => _ | .ok o => _) = _
    generalize (if c.computeOnTrace = true then g.so.drop onTrace (f (q v)) else Except.ok onTrace) = x
    cases x <;> rfl
  | startShown => rfl
  | edgeShown => rfl
  | entered v rep =>
    dsimp only [TraceState.pull]
    refine Eq.trans ?_ (tpull_ite ..).symm
    exact ite_congr rfl (fun _ => rfl) (fun _ => rfl)
  | edges v es => cases es <;> rfl

/-- Runs of depth-first search with trace correspond. -/
theorem trRun_pull (already : S) (starts : List V) (limit : Option Int) (fuel : Nat) :
    List.Forall₂ (fun r r' => r' = r.pull f) (trRun g c already starts limit fuel).reports
      (trRun (g.pull f) (c.withId q) already starts limit fuel).reports ∧
    (trRun g c already starts limit fuel).ending = (trRun (g.pull f) (c.withId q) already starts limit fuel).ending := by
  obtain ⟨h1, h2, -⟩ := run_sim (m := trStep g c) (m' := trStep (g.pull f) (c.withId q)) (fun s s' => s' = s.pull f)
    (fun _ _ => True) (fun r r' => r' = r.pull f) (fun s s' h => by
      rw [h, trStep_pull g c hf hq s]
      cases trStep g c s with
      | stop s => exact .stop trivial
      | fail e => exact .fail
      | tau s => exact .tau rfl
      | emit r s => exact .emit rfl rfl
      | expand s => exact .expand rfl) fuel (prepareLimit limit) (trInit g already starts) (trInit (g.pull f) already starts)
    rfl
  exact ⟨repsOf_forall₂ h1, h2⟩

end trace

/-! ## Bidirectional searches -/

section paths

variable [DecidableEq V]

/-- The container of paths, with the key `f q` for `q`. -/
def PathsView.pull (p : PathsView V K L) (f : Q → K) (q : V → Q) : PathsView V Q L where
  contains k := p.contains (f k)
  rawPred k := p.rawPred (f k)
  rawLabel k := p.rawLabel (f k)
  vid := q

variable (p : PathsView V K L) (hq : p.vid = fun v => f (q v))

include hq

theorem iterVertsLoop_pull (fuel : Nat) (v : V) : iterVertsLoop (p.pull f q) fuel v = iterVertsLoop p fuel v := by
  induction fuel generalizing v with
  | zero => rfl
  | succ fuel ih =>
    unfold iterVertsLoop
    rw [show p.vid v = f (q v) by rw [hq]]
    simp only [ih]; rfl

theorem iterRawLoop_pull (fuel : Nat) (v : V) :
    iterRawLoop p fuel v = ((iterRawLoop (p.pull f q) fuel v).1.map (fun t => (t.1, t.2.1, f t.2.2)),
      (iterRawLoop (p.pull f q) fuel v).2) := by
  induction fuel generalizing v with
  | zero => rfl
  | succ fuel ih =>
    unfold iterRawLoop
    rw [show p.vid v = f (q v) by rw [hq]]
    simp only [ih]
    rw [show (p.pull f q).rawPred ((p.pull f q).vid v) = p.rawPred (f (q v)) from rfl]
    generalize p.rawPred (f (q v)) = x
    rcases x with _ | _ | u
    · rfl
    · rfl
    · dsimp only
      split <;> rfl

omit hq in
theorem iterPathEdges_pull (l : List (V × V × Q)) (e : Ending) :
    (p.pull f q).iterPathEdges l e = p.iterPathEdges (l.map (fun t => (t.1, t.2.1, f t.2.2))) e := by
  induction l with
  | nil => rfl
  | cons t l ih =>
    obtain ⟨u, v, k⟩ := t
    unfold PathsView.iterPathEdges
    simp only [List.map_cons, ih]; rfl

theorem iterRawEdges_pull (fuel : Nat) (v : V) :
    p.iterRawEdgesToStart fuel v = (((p.pull f q).iterRawEdgesToStart fuel v).1.map (fun t => (t.1, t.2.1, f t.2.2)),
      ((p.pull f q).iterRawEdgesToStart fuel v).2) := by
  unfold PathsView.iterRawEdgesToStart
  rw [show p.vid v = f (q v) by rw [hq]]
  rw [show (p.pull f q).contains ((p.pull f q).vid v) = p.contains (f (q v)) from rfl]
  split
  · exact iterRawLoop_pull p hq fuel v
  · rfl

theorem fromBidirectionalSearch_pull (p' : PathsView V K L) (hq' : p'.vid = fun v => f (q v)) (fuel : Nat) (v : V) :
    PathObj.fromBidirectionalSearch (p.pull f q) (p'.pull f q) fuel v = PathObj.fromBidirectionalSearch p p' fuel v := by
  have h1 : ∀ p : PathsView V K L, p.vid = (fun v => f (q v)) →
      (p.pull f q).iterVerticesToStart fuel v = p.iterVerticesToStart fuel v := by
    intro p hq
    unfold PathsView.iterVerticesToStart
    rw [show p.vid v = f (q v) by rw [hq]]
    exact ite_congr rfl (fun _ => iterVertsLoop_pull p hq fuel v) (fun _ => rfl)
  have h2 : ∀ p : PathsView V K L, p.vid = (fun v => f (q v)) →
      (p.pull f q).iterVerticesFromStart fuel v = p.iterVerticesFromStart fuel v := by
    intro p hq
    unfold PathsView.iterVerticesFromStart
    rw [h1 p hq]
  have h3 : ∀ p : PathsView V K L, p.vid = (fun v => f (q v)) →
      (p.pull f q).iterLabeledEdgesToStart fuel v = p.iterLabeledEdgesToStart fuel v := by
    intro p hq
    unfold PathsView.iterLabeledEdgesToStart
    rw [iterRawEdges_pull p hq]
    dsimp only
    exact iterPathEdges_pull ..
  have h4 : ∀ p : PathsView V K L, p.vid = (fun v => f (q v)) →
      (p.pull f q).iterLabeledEdgesFromStart fuel v = p.iterLabeledEdgesFromStart fuel v := by
    intro p hq
    unfold PathsView.iterLabeledEdgesFromStart
    rw [iterRawEdges_pull p hq]
    generalize (p.pull f q).iterRawEdgesToStart fuel v = x
    obtain ⟨l, e⟩ := x
    cases e with
    | done =>
      dsimp only
      rw [iterPathEdges_pull, List.map_reverse]
    | outOfFuel => rfl
    | raised e => rfl
  unfold PathObj.fromBidirectionalSearch
  rw [h1 p hq, h1 p' hq', h2 p hq, h2 p' hq', h3 p hq, h3 p' hq', h4 p hq, h4 p' hq']

end paths

theorem biCommon_pull [DecidableEq Q] [DecidableEq K] (hf : Function.Injective f) (starts goals : List V) (a b : Bool) :
    biCommon q starts goals a b = biCommon (fun v => f (q v)) starts goals a b := by
  unfold biCommon
  dsimp only
  congr 1
  funext v
  simp only [List.mem_map, hf.eq_iff]

theorem biSearch_pull [DecidableEq V] [DecidableEq Q] [DecidableEq K] (hf : Function.Injective f)
    (g : TravGear V K L S M ML) (c : BiCfg V K L) (hq : c.vid = fun v => f (q v))
    (starts goals : List V) (a b : Bool) (limit : Option Int) (fuel : Nat) :
    biSearch (g.pull f) (c.withId q) starts goals a b limit fuel = biSearch g c starts goals a b limit fuel := by
  obtain ⟨nf, nb, vid, bp⟩ := c
  subst hq
  have hi : ∀ x already vs, bfsInit (g.pull f) ((BiCfg.withId ⟨nf, nb, fun v => f (q v), bp⟩ q).side x) already vs =
      bfsInit g (BiCfg.side ⟨nf, nb, fun v => f (q v), bp⟩ x) already vs := by
    intro x already vs
    unfold bfsInit
    congr 1
    · exact ite_congr rfl (fun _ => rfl) (fun _ => SetOps.addAll_pull ..)
    · exact ite_congr rfl (fun _ => MapOps.setAll_pull ..) (fun _ => rfl)
  have hp : ∀ s v, biPath (g.pull f) (BiCfg.withId ⟨nf, nb, fun v => f (q v), bp⟩ q) s v =
      biPath g ⟨nf, nb, fun v => f (q v), bp⟩ s v := by
    intro s v
    exact ite_congr rfl (fun _ => fromBidirectionalSearch_pull (f := f) (q := q)
      (pathsView g.mo g.lo (fun v => f (q v)) s.fw.st.preds s.fw.st.labels) rfl
      (pathsView g.mo g.lo (fun v => f (q v)) s.bw.st.preds s.bw.st.labels) rfl _ _) (fun _ => rfl)
  have hst : biStep (g.pull f) (BiCfg.withId ⟨nf, nb, fun v => f (q v), bp⟩ q) =
      biStep g ⟨nf, nb, fun v => f (q v), bp⟩ := by
    funext s
    unfold biStep
    simp only [hp]
    rfl
  unfold biSearch
  rw [show (BiCfg.withId ⟨nf, nb, fun v => f (q v), bp⟩ q : BiCfg V Q L).vid = q from rfl, biCommon_pull hf, hst]
  unfold biInit
  simp only [hi]
  rfl

section bd

variable [AddCommMonoid W] [LinearOrder W] [DecidableEq V] [DecidableEq Q] [DecidableEq K]

theorem bdStartEntries_pull (g : WGear V K L W M ML D) (c : BdCfg V K L W) (hq : c.vid = fun v => f (q v)) (d : D)
    (vs : List V) (no : Int) :
    bdStartEntries (g.pull f) (c.withId q) d vs no = bdStartEntries g c d vs no := by
  induction vs generalizing no with
  | nil => rfl
  | cons v vs ih =>
    unfold bdStartEntries
    rw [ih]
    simp only [hq]; rfl

theorem bdSearch_pull (hf : Function.Injective f)
    (g : WGear V K L W M ML D) (c : BdCfg V K L W) (hq : c.vid = fun v => f (q v))
    (starts goals : List V) (limit : Option Int) (fuel pathFuel : Nat) :
    bdSearch (g.pull f) (c.withId q) starts goals limit fuel pathFuel = bdSearch g c starts goals limit fuel pathFuel := by
  have hi : ∀ vs, bdInitSide (g.pull f) (c.withId q) vs limit = bdInitSide g c vs limit := by
    intro vs
    have hd : bdDistances (g.pull f) (c.withId q) vs = bdDistances g c vs := by
      unfold bdDistances
      rw [hq]
      exact DistOps.setAll_pull ..
    unfold bdInitSide
    rw [hd, bdStartEntries_pull g c hq, hq]
    congr 1
    exact ite_congr rfl (fun _ => MapOps.setAll_pull ..) (fun _ => rfl)
  have hp : ∀ s, bdPath (g.pull f) (c.withId q) s pathFuel = bdPath g c s pathFuel := by
    intro s
    exact ite_congr rfl (fun _ => fromBidirectionalSearch_pull (f := f) (q := q)
      (pathsView g.mo g.lo c.vid s.fw.preds s.fw.labels) hq
      (pathsView g.mo g.lo c.vid s.bw.preds s.bw.labels) hq _ _) (fun _ => rfl)
  have hst : bdStep (g.pull f) (c.withId q) = bdStep g c := by
    obtain ⟨nf, nb, vid, bp, inf⟩ := c
    subst hq
    rfl
  cases starts with
  | nil => rfl
  | cons start starts =>
    cases goals with
    | nil => rfl
    | cons goal goals =>
      unfold bdSearch
      dsimp only
      rw [show (c.withId q).vid = q from rfl, biCommon_pull hf, ← hq, hst]
      unfold bdInit
      simp only [hi, hp]
      rfl

end bd

end NoGraphs
