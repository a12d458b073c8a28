import Verif.Model.Topological
import Verif.Spec.Order
import Verif.Proofs.SetGrows
import Verif.Proofs.PathVis

/-! Invariants of topological sorting (non-tree variant). -/

set_option linter.unusedSectionVars false

namespace NoGraphs

open Spec

variable {V K L S M ML : Type} [DecidableEq V] [DecidableEq K]

/-- The vertices of a stack (top first) that are marked to be on the trace, top first. -/
def traceOf (G : List (V × Bool)) : List V := (G.filter (·.2)).map (·.1)

@[simp] theorem traceOf_nil : traceOf ([] : List (V × Bool)) = [] := rfl
@[simp] theorem traceOf_true (v : V) (G : List (V × Bool)) : traceOf ((v, true) :: G) = v :: traceOf G := rfl
@[simp] theorem traceOf_false (v : V) (G : List (V × Bool)) : traceOf ((v, false) :: G) = traceOf G := rfl
@[simp] theorem traceOf_append (A B : List (V × Bool)) : traceOf (A ++ B) = traceOf A ++ traceOf B := by
  simp [traceOf]

section

variable (g : TravGear V K L S M ML) (c : TravCfg V K L) (already : S) (starts : List V)

/-- The edges that the traversal follows or finds to close a cycle. -/
abbrev topoE : V → V → Prop :=
  Allowed c.next c.vid (fun k => g.so.contains already k = true ∧ k ∉ starts.map c.vid)

/-- The ids on a marked stack. -/
def idsOf (G : List (V × Bool)) : List K := G.map (fun x => c.vid x.1)

/-- What a vertex directly above a marked stack has to fulfill. -/
def TopoOwn (v : V) (G : List (V × Bool)) : Prop :=
  match traceOf G with
  | [] => v ∈ starts ∧ c.vid v ∉ idsOf c G
  | t :: _ => topoE g c already starts t v ∧ c.vid v ∉ starts.map c.vid

/-- Each vertex on the stack is a start vertex or a successor of the trace vertex below, and it does not
have the id of a trace vertex below. -/
def TopoOwned : List (V × Bool) → Prop
  | [] => True
  | x :: G => TopoOwn g c already starts x.1 G ∧ c.vid x.1 ∉ (traceOf G).map c.vid ∧ TopoOwned G

variable {g c already starts}

theorem TopoOwned.tail {A B : List (V × Bool)} (h : TopoOwned g c already starts (A ++ B)) :
    TopoOwned g c already starts B := by
  induction A with
  | nil => exact h
  | cons x A ih => exact ih h.2.2

/-- The trace leads from a start vertex to its head. -/
theorem TopoOwned.bottom {G : List (V × Bool)} (h : TopoOwned g c already starts G) {t : V} {T : List V}
    (ht : traceOf G = t :: T) : ∃ s0 ∈ starts, (t :: T).getLast? = some s0 ∧
      Reachable (topoE g c already starts) (· = s0) t := by
  induction G generalizing t T with
  | nil => simp at ht
  | cons x G ih =>
    obtain ⟨v, b⟩ := x
    cases b with
    | false => exact ih h.2.2 ht
    | true =>
      simp only [traceOf_true, List.cons.injEq] at ht
      obtain ⟨rfl, rfl⟩ := ht
      have ho := h.1
      unfold TopoOwn at ho
      cases hT : traceOf G with
      | nil =>
        rw [hT] at ho
        exact ⟨v, ho.1, rfl, .start rfl⟩
      | cons t' T' =>
        rw [hT] at ho
        obtain ⟨s0, h1, h2, h3⟩ := ih h.2.2 hT
        exact ⟨s0, h1, by rw [List.getLast?_cons_cons]; exact h2, h3.step ho.1⟩

/-- The trace, from its start, is a walk. -/
theorem TopoOwned.walk {G : List (V × Bool)} (h : TopoOwned g c already starts G) (w : V)
    (hw : ∀ t T, traceOf G = t :: T → topoE g c already starts t w) :
    WalkList (topoE g c already starts) ((traceOf G).reverse ++ [w]) := by
  have snoc : ∀ (l : List V) (a b : V), WalkList (topoE g c already starts) (l ++ [a]) →
      topoE g c already starts a b → WalkList (topoE g c already starts) (l ++ [a] ++ [b]) := by
    intro l a b
    induction l with
    | nil => intro _ h; exact ⟨h, trivial⟩
    | cons x l ih =>
      intro h1 h2
      cases l with
      | nil => exact ⟨h1.1, h2, trivial⟩
      | cons y l => exact ⟨h1.1, ih h1.2 h2⟩
  induction G generalizing w with
  | nil => simp [WalkList]
  | cons x G ih =>
    obtain ⟨v, b⟩ := x
    cases b with
    | false => exact ih h.2.2 w hw
    | true =>
      have ho := h.1
      unfold TopoOwn at ho
      rw [traceOf_true, List.reverse_cons]
      apply snoc
      · apply ih h.2.2
        intro t T hT
        rw [hT] at ho
        exact ho.1
      · exact hw v _ rfl

theorem TopoOwned.trace_allowed {G : List (V × Bool)} (h : TopoOwned g c already starts G) {k : K}
    (hk : k ∈ (traceOf G).map c.vid) : k ∈ starts.map c.vid ∨ ¬ g.so.contains already k = true := by
  induction G with
  | nil => simp at hk
  | cons x G ih =>
    obtain ⟨v, b⟩ := x
    cases b with
    | false => exact ih h.2.2 hk
    | true =>
      rw [traceOf_true, List.map_cons, List.mem_cons] at hk
      rcases hk with rfl | hk
      · have ho := h.1
        unfold TopoOwn at ho
        cases hT : traceOf G with
        | nil => rw [hT] at ho; exact .inl (List.mem_map_of_mem ho.1)
        | cons t T => rw [hT] at ho; exact .inr (fun h1 => ho.1.2 ⟨h1, ho.2⟩)
      · exact ih h.2.2 hk

theorem TopoOwned.trace_nodup {G : List (V × Bool)} (h : TopoOwned g c already starts G) :
    ((traceOf G).map c.vid).Nodup := by
  induction G with
  | nil => simp
  | cons x G ih =>
    obtain ⟨v, b⟩ := x
    cases b with
    | false => exact ih h.2.2
    | true =>
      rw [traceOf_true, List.map_cons, List.nodup_cons]
      exact ⟨h.2.1, ih h.2.2⟩

variable (g c already starts)

/-- The ids of the reported vertices. -/
def repIds (h : List (Ev (TopoReport V S M ML))) : List K := (repsOf h).map (fun r => c.vid r.vertex)

/-- The id of `w` belongs to a start vertex other than the bottom of the trace `T`. -/
def TopoForeign (T : List V) (w : V) : Prop :=
  c.vid w ∈ starts.map c.vid ∧ ∀ s0, T.getLast? = some s0 → c.vid w ≠ c.vid s0

/-- The edge that leads to the id of `w` has still to be processed. -/
def TopoRem (s : TopoState V L S M ML) (A : List (V × Bool)) (w : V) : Prop :=
  ∃ u es, s.pc = .edges u es ∧ traceOf A = [] ∧ ∃ e ∈ es, c.vid e.1 = c.vid w

/-- The invariant; `G` is the stack with marks for the vertices that are on the trace. -/
structure TopoInv (h : List (Ev (TopoReport V S M ML))) (s : TopoState V L S M ML) (G : List (V × Bool)) :
    Prop where
  stack : s.stack = G.map (·.1)
  depth : s.pc = .loop → s.depth = (traceOf G).length
  depthE : ∀ u es, s.pc = .edges u es → s.depth + 1 = (traceOf G).length
  trace : ∀ k, g.so.contains s.trace k = true ↔ k ∈ (traceOf G).map c.vid
  grown : ∀ k, k ∈ (traceOf G).map c.vid ∨ k ∈ repIds c h ∨ (g.so.mustContain g.so.empty k).isSome →
    (g.so.mustContain s.trace k).isSome
  vis : ∀ k, g.so.contains s.visited k = true ↔ g.so.contains already k = true ∨ k ∈ starts.map c.vid ∨
    k ∈ (traceOf G).map c.vid ∨ k ∈ repIds c h
  own : TopoOwned g c already starts G
  srep : ∀ k ∈ starts.map c.vid, k ∈ repIds c h → k ∉ idsOf c G
  scov : ∀ k ∈ starts.map c.vid, k ∈ repIds c h ∨ k ∈ idsOf c G
  closed : s.pc ≠ .cycle → ∀ A t B, G = A ++ (t, true) :: B → ∀ w, topoE g c already starts t w →
    c.vid w ∈ repIds c h ∨ c.vid w ∈ idsOf c A ∨ TopoForeign c starts (t :: traceOf B) w ∨ TopoRem c s A w
  ed : ∀ u es, s.pc = .edges u es → ∃ A B, G = A ++ (u, true) :: B ∧ traceOf A = [] ∧ ∀ e ∈ es, e ∈ c.next u
  reps : ∀ before r after, repsOf h = before ++ r :: after → ∃ s0 ∈ starts,
    Reachable (topoE g c already starts) (· = s0) r.vertex ∧
    ∀ w, topoE g c already starts r.vertex w → c.vid w ∈ before.map (fun r => c.vid r.vertex) ∨
      (c.vid w ∈ starts.map c.vid ∧ c.vid w ≠ c.vid s0)
  nodup : (repIds c h).Nodup
  disj : ∀ k ∈ (traceOf G).map c.vid, k ∉ repIds c h
  cyc : s.pc = .cycle → ∃ t T n, traceOf G = t :: T ∧ topoE g c already starts t n ∧
    c.vid n ∈ (traceOf G).map c.vid ∧ s.cycleFromStart = topoReportCycle g c n s.stack s.trace


/-- The effect of a step on the marked stack. -/
inductive TopoMove (s : TopoState V L S M ML) : List (V × Bool) →
    Step (TopoState V L S M ML) (TopoReport V S M ML) → List (V × Bool) → Prop
  | stop : s.pc = .loop → TopoMove s [] (.stop s) []
  | raise G : s.pc = .cycle → TopoMove s G (.fail .runtimeError) G
  | leave v R : s.pc = .loop → TopoMove s ((v, true) :: R)
      (.emit ⟨v, s.depth - 1, s.visited, s.preds, s.labels⟩
        { s with stack := R.map (·.1), trace := g.so.discard s.trace (c.vid v), depth := s.depth - 1 }) R
  | skip v R : s.pc = .loop → traceOf R ≠ [] → g.so.contains s.visited (c.vid v) = true →
      TopoMove s ((v, false) :: R) (.tau { s with stack := R.map (·.1) }) R
  | enterStart v R : s.pc = .loop → traceOf R = [] →
      TopoMove s ((v, false) :: R) (.expand { s with
        pc := .edges v (c.next v), trace := g.so.add s.trace (c.vid v) }) ((v, true) :: R)
  | enter v R : s.pc = .loop → traceOf R ≠ [] → g.so.contains s.visited (c.vid v) = false →
      TopoMove s ((v, false) :: R) (.expand { s with
        pc := .edges v (c.next v), visited := (g.so.checkAdd s.visited (c.vid v)).2,
        trace := g.so.add s.trace (c.vid v) }) ((v, true) :: R)
  | edgeBad G v e es : s.pc = .edges v (e :: es) → g.so.contains s.visited (c.vid e.1) = true →
      g.so.mustContain s.trace (c.vid e.1) = none → TopoMove s G (.fail .assertionError) G
  | edgeCycle G v e es : s.pc = .edges v (e :: es) → g.so.contains s.visited (c.vid e.1) = true →
      g.so.contains s.trace (c.vid e.1) = true →
      TopoMove s G (.tau { s with
          pc := .cycle, cycleFromStart := topoReportCycle g c e.1 s.stack s.trace }) G
  | edgeSkip G v e es : s.pc = .edges v (e :: es) → g.so.contains s.visited (c.vid e.1) = true →
      g.so.contains s.trace (c.vid e.1) = false → TopoMove s G (.tau { s with pc := .edges v es }) G
  | push G v e es : s.pc = .edges v (e :: es) → g.so.contains s.visited (c.vid e.1) = false →
      TopoMove s G (.tau (topoPush g c s v e es)) ((e.1, false) :: G)
  | endEdges G v : s.pc = .edges v [] → TopoMove s G (.tau { s with pc := .loop, depth := s.depth + 1 }) G

variable {g c already starts}
variable {h : List (Ev (TopoReport V S M ML))} {s : TopoState V L S M ML} {G : List (V × Bool)}

theorem TopoInv.move (hg : g.so.Lawful) (inv : TopoInv g c already starts h s G) :
    ∃ G', TopoMove g c s G (topoStep g c s) G' := by
  have hst := inv.stack
  obtain ⟨pc, stack, leave, trace, depth, visited, preds, labels, cyc⟩ := s
  simp only at hst
  subst hst
  unfold topoStep
  cases hpc : pc with
  | cycle => exact ⟨G, .raise G rfl⟩
  | loop =>
    subst hpc
    have hd := inv.depth rfl
    have hpc : TopoPc.loop = (TopoPc.loop : TopoPc V L) := rfl
    cases G with
    | nil => exact ⟨[], .stop rfl⟩
    | cons x R =>
      obtain ⟨v, b⟩ := x
      simp only [List.map_cons]
      cases b with
      | true =>
        have : g.so.contains trace (c.vid v) = true := (inv.trace _).2 (by simp)
        rw [if_pos this]
        exact ⟨R, .leave v R hpc⟩
      | false =>
        have : ¬ g.so.contains trace (c.vid v) = true := by
          rw [inv.trace]
          exact inv.own.2.1
        rw [if_neg this]
        simp only [traceOf_false] at hd
        by_cases hT : traceOf R = []
        · rw [if_neg (by rw [hd, hT]; simp)]
          exact ⟨_, .enterStart v R hpc hT⟩
        · have : 0 < (traceOf R).length := List.length_pos_iff.2 hT
          rw [if_pos (by rw [hd]; omega), hg.checkAdd_fst]
          by_cases hv : g.so.contains visited (c.vid v) = true
          · rw [if_pos hv]; exact ⟨_, .skip v R hpc hT hv⟩
          · rw [if_neg hv]; exact ⟨_, .enter v R hpc hT (by simpa using hv)⟩
  | edges v es =>
    subst hpc
    cases es with
    | nil => exact ⟨G, .endEdges G v rfl⟩
    | cons e es =>
      simp only
      by_cases hv : g.so.contains visited (c.vid e.1) = true
      · rw [if_pos hv]
        cases hm : g.so.mustContain trace (c.vid e.1) with
        | none => exact ⟨G, .edgeBad G v e es rfl hv hm⟩
        | some b =>
          have := hg.mustContain_some _ _ _ hm
          cases b with
          | true => exact ⟨G, .edgeCycle G v e es rfl hv this.symm⟩
          | false => exact ⟨G, .edgeSkip G v e es rfl hv this.symm⟩
      · rw [if_neg hv]; exact ⟨_, .push G v e es rfl (by simpa using hv)⟩

theorem idsOf_cons (x : V × Bool) (R : List (V × Bool)) : idsOf c (x :: R) = c.vid x.1 :: idsOf c R := rfl

theorem mem_idsOf_of_trace {k : K} (hk : k ∈ (traceOf G).map c.vid) : k ∈ idsOf c G := by
  obtain ⟨t, ht, rfl⟩ := List.mem_map.1 hk
  obtain ⟨x, hx, rfl⟩ := List.mem_map.1 ht
  exact List.mem_map.2 ⟨x, (List.mem_filter.1 hx).1, rfl⟩

theorem TopoInv.emit (hg : g.so.Lawful) (hgr : g.so.Grows) (inv : TopoInv g c already starts h s G)
    {r : TopoReport V S M ML} {s' : TopoState V L S M ML} {G' : List (V × Bool)}
    (hm : TopoMove g c s G (.emit r s') G') : TopoInv g c already starts (h ++ [.rep r]) s' G' := by
  cases hm with
  | leave v _ hpc =>
    have hrep : ∀ k, k ∈ repIds c (h ++ [.rep ⟨v, s.depth - 1, s.visited, s.preds, s.labels⟩]) ↔
        k ∈ repIds c h ∨ k = c.vid v := by
      intro k; simp [repIds]
    have hnd := inv.own.trace_nodup
    rw [traceOf_true, List.map_cons, List.nodup_cons] at hnd
    have hown := inv.own
    constructor
    · rfl
    · intro _
      have := inv.depth hpc
      rw [traceOf_true, List.length_cons] at this
      simp only; omega
    · intro u es hp; rw [show s.pc = _ from hp] at hpc; simp at hpc
    · intro k
      rw [hg.contains_discard _ _ ((inv.trace _).2 (by simp))]
      have := inv.trace k
      rw [traceOf_true, List.map_cons, List.mem_cons] at this
      by_cases e : k = c.vid v
      · subst e; simp only [decide_true, Bool.not_true, Bool.false_and]
        simp only [Bool.false_eq_true, false_iff]; exact hnd.1
      · simp only [e, decide_false, Bool.not_false, Bool.true_and]
        rw [this]; simp [e]
    · intro k hk
      apply hgr.discard
      apply inv.grown
      rw [hrep] at hk
      rcases hk with hk | (hk | rfl) | hk
      · exact .inl (by rw [traceOf_true, List.map_cons]; exact List.mem_cons_of_mem _ hk)
      · exact .inr (.inl hk)
      · exact .inl (by simp)
      · exact .inr (.inr hk)
    · intro k
      have := inv.vis k
      rw [traceOf_true, List.map_cons, List.mem_cons] at this
      rw [hrep]
      show g.so.contains s.visited k = true ↔ _
      rw [this]; tauto
    · exact inv.own.2.2
    · intro k hk hr
      rw [hrep] at hr
      rcases hr with hr | rfl
      · have := inv.srep k hk hr
        rw [idsOf_cons] at this
        exact fun hh => this (List.mem_cons_of_mem _ hh)
      · have ho := hown.1
        unfold TopoOwn at ho
        cases hT : traceOf G' with
        | nil => rw [hT] at ho; exact ho.2
        | cons t T => rw [hT] at ho; exact absurd hk ho.2
    · intro k hk
      rw [hrep]
      rcases inv.scov k hk with hr | hr
      · exact .inl (.inl hr)
      · rw [idsOf_cons, List.mem_cons] at hr
        rcases hr with hr | hr
        · exact .inl (.inr hr)
        · exact .inr hr
    · intro _ A t B hG w hw
      have := inv.closed (by rw [hpc]; simp) ((v, true) :: A) t B (by rw [hG]; rfl) w hw
      rw [hrep, idsOf_cons, List.mem_cons] at *
      rcases this with h1 | (h1 | h1) | h1 | h1
      · exact .inl (.inl h1)
      · exact .inl (.inr h1)
      · exact .inr (.inl h1)
      · exact .inr (.inr (.inl h1))
      · obtain ⟨u, es, hp, _⟩ := h1
        rw [hp] at hpc; simp at hpc
    · intro u es hp; rw [show s.pc = _ from hp] at hpc; simp at hpc
    · intro before r after hb
      rw [repsOf_append, repsOf_rep, repsOf_nil] at hb
      rcases List.eq_nil_or_concat after with rfl | ⟨l, x, rfl⟩
      · have := List.append_inj' hb rfl
        obtain ⟨h1, h2⟩ := this
        simp only [List.cons.injEq, and_true] at h2
        subst h2 h1
        obtain ⟨s0, hs0, hl, hr⟩ := inv.own.bottom (traceOf_true v G')
        refine ⟨s0, hs0, hr, ?_⟩
        intro w hw
        rcases inv.closed (by rw [hpc]; simp) [] v G' rfl w hw with h1 | h1 | h1 | h1
        · exact .inl h1
        · simp [idsOf] at h1
        · exact .inr ⟨h1.1, h1.2 s0 hl⟩
        · obtain ⟨u, es, hp, _⟩ := h1
          rw [hp] at hpc; simp at hpc
      · rw [List.concat_eq_append, ← List.cons_append, ← List.append_assoc] at hb
        exact inv.reps before r l (List.append_inj' hb rfl).1
    · have h1 : repIds c (h ++ [.rep ⟨v, s.depth - 1, s.visited, s.preds, s.labels⟩]) =
          repIds c h ++ [c.vid v] := by simp [repIds]
      rw [h1, List.nodup_append]
      refine ⟨inv.nodup, by simp, ?_⟩
      intro a ha b hb e
      rw [List.mem_singleton] at hb
      subst hb e
      exact inv.disj _ (by simp) ha
    · intro k hk hr
      rw [hrep] at hr
      rcases hr with hr | rfl
      · exact inv.disj k (by rw [traceOf_true, List.map_cons]; exact List.mem_cons_of_mem _ hk) hr
      · exact hnd.1 hk
    · intro hp; rw [show s.pc = _ from hp] at hpc; simp at hpc

/-- The ids of a list of events do not change with a read of edges. -/
theorem repIds_exp : repIds c (h ++ [.exp]) = repIds c h := by simp [repIds]

theorem TopoInv.enter_aux (hg : g.so.Lawful) (hgr : g.so.Grows) {v : V} {R : List (V × Bool)}
    (inv : TopoInv g c already starts h s ((v, false) :: R)) (hpc : s.pc = .loop)
    (hnr : c.vid v ∉ repIds c h) (vis' : S)
    (hvis : ∀ k, g.so.contains vis' k = true ↔ g.so.contains s.visited k = true ∨ k = c.vid v) :
    TopoInv g c already starts (h ++ [.exp]) { s with
        pc := .edges v (c.next v), visited := vis', trace := g.so.add s.trace (c.vid v) } ((v, true) :: R) := by
  have hown := inv.own
  constructor
  · exact inv.stack
  · intro hp; simp at hp
  · intro u es _
    have := inv.depth hpc
    rw [traceOf_false] at this
    simp only [traceOf_true, List.length_cons]; omega
  · intro k
    simp only [hg.contains_add, traceOf_true, List.map_cons, List.mem_cons, Bool.or_eq_true,
      decide_eq_true_eq]
    rw [inv.trace k, traceOf_false]
  · intro k hk
    simp only [repIds_exp, traceOf_true, List.map_cons, List.mem_cons] at hk
    by_cases e : k = c.vid v
    · rw [e]; exact hgr.add_self _ _
    · apply hgr.add
      apply inv.grown
      rcases hk with (hk | hk) | hk
      · exact absurd hk e
      · exact .inl hk
      · exact .inr hk
  · intro k
    rw [hvis, inv.vis, repIds_exp, traceOf_true, traceOf_false, List.map_cons, List.mem_cons]
    tauto
  · exact hown
  · intro k hk hr
    rw [repIds_exp] at hr
    exact inv.srep k hk hr
  · intro k hk
    rw [repIds_exp]
    exact inv.scov k hk
  · intro _ A t B hG w hw
    rw [repIds_exp]
    cases A with
    | nil =>
      simp only [List.nil_append, List.cons.injEq, Prod.mk.injEq, and_true] at hG
      obtain ⟨rfl, rfl⟩ := hG
      obtain ⟨l, hl⟩ := hw.1
      exact .inr (.inr (.inr ⟨v, c.next v, rfl, rfl, (w, l), hl, rfl⟩))
    | cons x A =>
      simp only [List.cons_append, List.cons.injEq] at hG
      obtain ⟨rfl, rfl⟩ := hG
      rcases inv.closed (by rw [hpc]; simp) ((v, false) :: A) t B rfl w hw with h1 | h1 | h1 | h1
      · exact .inl h1
      · exact .inr (.inl h1)
      · exact .inr (.inr (.inl h1))
      · obtain ⟨u, es, hp, _⟩ := h1
        rw [hp] at hpc; simp at hpc
  · intro u es hp
    simp only [TopoPc.edges.injEq] at hp
    obtain ⟨rfl, rfl⟩ := hp
    exact ⟨[], R, rfl, rfl, fun e he => he⟩
  · intro before r after hb
    rw [repsOf_append, repsOf_exp, repsOf_nil, List.append_nil] at hb
    exact inv.reps before r after hb
  · rw [repIds_exp]; exact inv.nodup
  · intro k hk
    rw [repIds_exp]
    rw [traceOf_true, List.map_cons, List.mem_cons] at hk
    rcases hk with rfl | hk
    · exact hnr
    · exact inv.disj k hk
  · intro hp; simp at hp

theorem TopoInv.expand (hg : g.so.Lawful) (hgr : g.so.Grows) (inv : TopoInv g c already starts h s G)
    {s' : TopoState V L S M ML} {G' : List (V × Bool)}
    (hm : TopoMove g c s G (.expand s') G') : TopoInv g c already starts (h ++ [.exp]) s' G' := by
  cases hm with
  | enterStart v R hpc hT =>
    have ho := inv.own.1
    unfold TopoOwn at ho
    rw [hT] at ho
    have hs : c.vid v ∈ starts.map c.vid := List.mem_map.2 ⟨v, ho.1, rfl⟩
    refine inv.enter_aux hg hgr hpc ?_ s.visited ?_
    · intro hr; exact inv.srep _ hs hr (by simp [idsOf])
    · intro k
      constructor
      · exact .inl
      · rintro (h | rfl)
        · exact h
        · exact (inv.vis _).2 (.inr (.inl hs))
  | enter v R hpc hT hv =>
    refine inv.enter_aux hg hgr hpc ?_ _ ?_
    · intro hr
      have := (inv.vis (c.vid v)).2 (.inr (.inr (.inr hr)))
      rw [hv] at this; simp at this
    · intro k
      rw [hg.contains_checkAdd]
      simp only [Bool.or_eq_true, decide_eq_true_eq]; tauto

theorem TopoInv.tau (hg : g.so.Lawful) (inv : TopoInv g c already starts h s G)
    {s' : TopoState V L S M ML} {G' : List (V × Bool)}
    (hm : TopoMove g c s G (.tau s') G') : TopoInv g c already starts h s' G' := by
  cases hm with
  | skip v _ hpc hT hv =>
    have hown := inv.own
    have ho := hown.1
    unfold TopoOwn at ho
    have hrepv : c.vid v ∈ repIds c h := by
      cases hT' : traceOf G' with
      | nil => exact absurd hT' hT
      | cons t T =>
        rw [hT'] at ho
        rcases (inv.vis _).1 hv with h1 | h1 | h1 | h1
        · exact absurd ⟨h1, ho.2⟩ ho.1.2
        · exact absurd h1 ho.2
        · exact absurd h1 hown.2.1
        · exact h1
    have hns : c.vid v ∉ starts.map c.vid := by
      cases hT' : traceOf G' with
      | nil => exact absurd hT' hT
      | cons t T => rw [hT'] at ho; exact ho.2
    refine ⟨rfl, inv.depth, fun u es hp => inv.depthE u es hp, inv.trace, inv.grown, inv.vis, inv.own.2.2,
      ?_, ?_, ?_, ?_, inv.reps, inv.nodup, inv.disj, ?_⟩
    · intro k hk hr hh
      exact inv.srep k hk hr (by rw [idsOf_cons]; exact List.mem_cons_of_mem _ hh)
    · intro k hk
      rcases inv.scov k hk with h1 | h1
      · exact .inl h1
      · rw [idsOf_cons, List.mem_cons] at h1
        rcases h1 with rfl | h1
        · exact absurd hk hns
        · exact .inr h1
    · intro _ A t B hG w hw
      rcases inv.closed (by rw [hpc]; simp) ((v, false) :: A) t B (by rw [hG]; rfl) w hw with h1 | h1 | h1 | h1
      · exact .inl h1
      · rw [idsOf_cons, List.mem_cons] at h1
        rcases h1 with h1 | h1
        · rw [h1]; exact .inl hrepv
        · exact .inr (.inl h1)
      · exact .inr (.inr (.inl h1))
      · obtain ⟨u, es, hp, _⟩ := h1
        rw [hp] at hpc; simp at hpc
    · intro u es hp; rw [show s.pc = _ from hp] at hpc; simp at hpc
    · intro hp; rw [show s.pc = _ from hp] at hpc; simp at hpc
  | edgeCycle _ v e es hpc hv ht =>
    obtain ⟨A, B, hG, hA, he⟩ := inv.ed v _ hpc
    have hTr : traceOf G = v :: traceOf B := by rw [hG]; simp [hA]
    have hin := (inv.trace _).1 ht
    refine ⟨inv.stack, fun hp => by simp at hp, fun u es hp => by simp at hp, inv.trace, inv.grown, inv.vis,
      inv.own, inv.srep, inv.scov, fun hp => absurd rfl hp, fun u es hp => by simp at hp, inv.reps, inv.nodup,
      inv.disj, ?_⟩
    · intro _
      refine ⟨v, traceOf B, e.1, hTr, ⟨⟨e.2, he e List.mem_cons_self⟩, ?_⟩, hin, rfl⟩
      rintro ⟨h1, h2⟩
      rcases inv.own.trace_allowed hin with h3 | h3
      · exact h2 h3
      · exact h3 h1
  | edgeSkip _ v e es hpc hv ht =>
    obtain ⟨A, B, hG, hA, he⟩ := inv.ed v _ hpc
    refine ⟨inv.stack, fun hp => by simp at hp, ?_, inv.trace, inv.grown, inv.vis,
      inv.own, inv.srep, inv.scov, ?_, ?_, inv.reps, inv.nodup, inv.disj, fun hp => by simp at hp⟩
    · intro u es' _
      exact inv.depthE v (e :: es) hpc
    · intro _ A' t B' hG' w hw
      rcases inv.closed (by rw [hpc]; simp) A' t B' hG' w hw with h1 | h1 | h1 | h1
      · exact .inl h1
      · exact .inr (.inl h1)
      · exact .inr (.inr (.inl h1))
      · obtain ⟨u, es', hp, hA', e', he', hw'⟩ := h1
        rw [hpc] at hp
        simp only [TopoPc.edges.injEq] at hp
        obtain ⟨rfl, rfl⟩ := hp
        rcases List.mem_cons.1 he' with rfl | he'
        · have hnt : c.vid w ∉ (traceOf G).map c.vid := by
            rw [← inv.trace, ← hw', ht]; simp
          rw [hw'] at hv
          have hfor : c.vid w ∈ starts.map c.vid → TopoForeign c starts (t :: traceOf B') w := by
            intro hs
            refine ⟨hs, fun s0 h0 e0 => hnt ?_⟩
            rw [e0, hG']
            apply List.mem_map_of_mem
            rw [traceOf_append, traceOf_true, List.mem_append]
            exact .inr (List.mem_of_getLast? h0)
          rcases (inv.vis _).1 hv with h1 | h1 | h1 | h1
          · right; right; left
            apply hfor
            by_contra hns
            exact hw.2 ⟨h1, hns⟩
          · exact .inr (.inr (.inl (hfor h1)))
          · exact absurd h1 hnt
          · exact .inl h1
        · exact .inr (.inr (.inr ⟨v, es, rfl, hA', e', he', hw'⟩))
    · intro u es' hp
      simp only [TopoPc.edges.injEq] at hp
      obtain ⟨rfl, rfl⟩ := hp
      exact ⟨A, B, hG, hA, fun e' he' => he e' (List.mem_cons_of_mem _ he')⟩
  | push _ v e es hpc hv =>
    obtain ⟨A, B, hG, hA, he⟩ := inv.ed v _ hpc
    have hTr : traceOf G = v :: traceOf B := by rw [hG]; simp [hA]
    have hnv : ∀ P : Prop, g.so.contains s.visited (c.vid e.1) = true → P := by
      intro P h; rw [hv] at h; simp at h
    refine ⟨by simp [topoPush, inv.stack], fun hp => by simp [topoPush] at hp, ?_, inv.trace, inv.grown, inv.vis,
      ⟨?_, ?_, inv.own⟩, ?_, ?_, ?_, ?_, inv.reps, inv.nodup, inv.disj, fun hp => by simp [topoPush] at hp⟩
    · intro u es' _
      exact inv.depthE v (e :: es) hpc
    · unfold TopoOwn
      rw [hTr]
      refine ⟨⟨⟨e.2, he e List.mem_cons_self⟩, fun h1 => hnv _ ((inv.vis _).2 (.inl h1.1))⟩,
        fun h1 => hnv _ ((inv.vis _).2 (.inr (.inl h1)))⟩
    · intro h1; exact hnv _ ((inv.vis _).2 (.inr (.inr (.inl h1))))
    · intro k hk hr hh
      rw [idsOf_cons, List.mem_cons] at hh
      rcases hh with rfl | hh
      · exact hnv _ ((inv.vis _).2 (.inr (.inl hk)))
      · exact inv.srep k hk hr hh
    · intro k hk
      rcases inv.scov k hk with h1 | h1
      · exact .inl h1
      · exact .inr (by rw [idsOf_cons]; exact List.mem_cons_of_mem _ h1)
    · intro _ A' t B' hG' w hw
      cases A' with
      | nil => simp at hG'
      | cons x A' =>
        simp only [List.cons_append, List.cons.injEq] at hG'
        obtain ⟨rfl, hG'⟩ := hG'
        rw [idsOf_cons, List.mem_cons]
        rcases inv.closed (by rw [hpc]; simp) A' t B' hG' w hw with h1 | h1 | h1 | h1
        · exact .inl h1
        · exact .inr (.inl (.inr h1))
        · exact .inr (.inr (.inl h1))
        · obtain ⟨u, es', hp, hA', e', he', hw'⟩ := h1
          rw [hpc] at hp
          simp only [TopoPc.edges.injEq] at hp
          obtain ⟨rfl, rfl⟩ := hp
          rcases List.mem_cons.1 he' with rfl | he'
          · exact .inr (.inl (.inl hw'.symm))
          · exact .inr (.inr (.inr ⟨v, es, rfl, by simpa using hA', e', he', hw'⟩))
    · intro u es' hp
      simp only [topoPush, TopoPc.edges.injEq] at hp
      obtain ⟨rfl, rfl⟩ := hp
      exact ⟨(e.1, false) :: A, B, by rw [hG]; rfl, by simpa using hA, fun e' he' => he e' (List.mem_cons_of_mem _ he')⟩
  | endEdges _ v hpc =>
    refine ⟨inv.stack, fun _ => inv.depthE v _ hpc, fun u es hp => by simp at hp, inv.trace, inv.grown, inv.vis,
      inv.own, inv.srep, inv.scov, ?_, fun u es hp => by simp at hp, inv.reps, inv.nodup, inv.disj,
      fun hp => by simp at hp⟩
    intro _ A' t B' hG' w hw
    rcases inv.closed (by rw [hpc]; simp) A' t B' hG' w hw with h1 | h1 | h1 | h1
    · exact .inl h1
    · exact .inr (.inl h1)
    · exact .inr (.inr (.inl h1))
    · obtain ⟨u, es', hp, hA', e', he', hw'⟩ := h1
      rw [hpc] at hp
      simp only [TopoPc.edges.injEq] at hp
      obtain ⟨rfl, rfl⟩ := hp
      simp at he'

end

end NoGraphs
