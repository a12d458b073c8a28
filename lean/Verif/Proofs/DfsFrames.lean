import Verif.Proofs.DepthFirst
import Verif.Spec.DfsEvents
import Mathlib.Data.List.Induction

/-! Lemmas for depth-first search with trace: the stack as a list of frames, the rest of the recursive search, moments,
pre-order numbers, and labels. -/

set_option linter.unusedSectionVars false

namespace NoGraphs

open Spec

variable {V K L : Type} [DecidableEq V]

/-! ## Frames -/

/-- An entered path with the out-edges of its last vertex that are still to be handled. -/
abbrev Frame (V L : Type) := SPath V L × List (V × L)

/-- The path `p` is the child of the top frame of `F`. -/
def Parent (next : V → List (V × L)) (starts : List V) (p : SPath V L) : List (Frame V L) → Prop
  | [] => p.isStart = true ∧ p.last ∈ starts
  | f :: _ => ∃ e : V × L, p = f.1.snoc e.1 e.2 ∧ (e :: f.2) <:+ (next f.1.last).reverse

def FramesOk (next : V → List (V × L)) (starts : List V) : List (Frame V L) → Prop
  | [] => True
  | f :: F => f.2 <:+ (next f.1.last).reverse ∧ Parent next starts f.1 F ∧ FramesOk next starts F

/-- The vertices of the trace, top first. -/
def frameTrace (F : List (Frame V L)) : List V := F.map (fun f => f.1.last)

section
variable {next : V → List (V × L)} {starts : List V}

theorem Spec.SPath.isStart_steps {q : SPath V L} (h : q.isStart = true) : q.steps = [] := by
  simpa [SPath.isStart] using h

theorem Spec.SPath.last_of_isStart {q : SPath V L} (h : q.isStart = true) : q.last = q.first := by
  simp [SPath.last, SPath.isStart_steps h]

theorem Spec.SPath.verts_of_isStart {q : SPath V L} (h : q.isStart = true) : q.verts = [q.last] := by
  simp [SPath.verts, SPath.isStart_steps h, SPath.last]

theorem Parent.verts {p : SPath V L} {F : List (Frame V L)} (h : Parent next starts p F)
    (hF : ∀ f F0, F = f :: F0 → f.1.verts = (frameTrace F).reverse) : p.verts = (frameTrace F).reverse ++ [p.last] := by
  cases F with
  | nil => simpa [frameTrace] using SPath.verts_of_isStart h.1
  | cons f F =>
    obtain ⟨e, rfl, -⟩ := h
    rw [SPath.verts_snoc', hF f F rfl, SPath.last_snoc]

theorem FramesOk.verts {F : List (Frame V L)} (h : FramesOk next starts F) :
    ∀ f F0, F = f :: F0 → f.1.verts = (frameTrace F).reverse := by
  induction F with
  | nil => intro f F0 e; simp at e
  | cons f F ih =>
    rintro f' F0 e
    obtain ⟨rfl, rfl⟩ := List.cons.inj e
    rw [h.2.1.verts (ih h.2.2)]
    simp [frameTrace]

theorem Parent.verts' {p : SPath V L} {F : List (Frame V L)} (hF : FramesOk next starts F)
    (h : Parent next starts p F) : p.verts = (frameTrace F).reverse ++ [p.last] := h.verts hF.verts

theorem Parent.init {p : SPath V L} {F : List (Frame V L)} (hF : FramesOk next starts F)
    (h : Parent next starts p F) : p.init = (frameTrace F).reverse := by
  rw [SPath.init, h.verts' hF]; simp

theorem Parent.length {p : SPath V L} {F : List (Frame V L)} (hF : FramesOk next starts F)
    (h : Parent next starts p F) : p.steps.length = F.length := by
  have := congrArg List.length (h.verts' hF)
  simpa [SPath.verts, frameTrace] using this

theorem Parent.isStart {p : SPath V L} {F : List (Frame V L)} (h : Parent next starts p F) :
    p.isStart = F.isEmpty := by
  cases F with
  | nil => exact h.1
  | cons f F => obtain ⟨e, rfl, -⟩ := h; simp

theorem Parent.parent {p : SPath V L} {f : Frame V L} {F : List (Frame V L)} (hF : FramesOk next starts (f :: F))
    (h : Parent next starts p (f :: F)) : p.parent = f.1.last := by
  rw [SPath.parent, h.init hF]; simp [frameTrace]

theorem FramesOk.gpath {F : List (Frame V L)} (h : FramesOk next starts F) :
    ∀ f ∈ F, GPath next starts f.1 := by
  induction F with
  | nil => simp
  | cons f F ih =>
    intro f' hf
    rcases List.mem_cons.1 hf with rfl | hf
    · have hp := h.2.1
      cases F with
      | nil =>
        have := (SPath.isStart_iff f'.1).1 hp.1
        rw [this]
        exact GPath.single hp.2
      | cons f0 F =>
        obtain ⟨e, he, hs⟩ := hp
        rw [he]
        refine (ih h.2.2 f0 List.mem_cons_self).snoc ?_
        have := hs.subset List.mem_cons_self
        simpa using this
    · exact ih h.2.2 f' hf

theorem Parent.gpath {p : SPath V L} {F : List (Frame V L)} (hF : FramesOk next starts F)
    (h : Parent next starts p F) : GPath next starts p := by
  refine FramesOk.gpath (next := next) (starts := starts) (F := (p, []) :: F) ⟨?_, h, hF⟩ (p, []) List.mem_cons_self
  exact List.nil_suffix

theorem Parent.first {p : SPath V L} {f : Frame V L} {F : List (Frame V L)} (h : Parent next starts p (f :: F)) :
    p.first = f.1.first := by
  obtain ⟨e, rfl, -⟩ := h; rfl

theorem Parent.snoc {f : Frame V L} {F : List (Frame V L)} {e : V × L} {ps : List (V × L)}
    (hF : FramesOk next starts (f :: F)) (hf : f.2 = e :: ps) :
    FramesOk next starts ((f.1, ps) :: F) ∧ Parent next starts (f.1.snoc e.1 e.2) ((f.1, ps) :: F) := by
  have h1 := hF.1
  rw [hf] at h1
  exact ⟨⟨(List.suffix_cons e ps).trans h1, hF.2.1, hF.2.2⟩, e, rfl, h1⟩

end

/-! ## Taking a path from the stack -/

/-- The next path to be handled is `q`; then, the frames and start vertices `F'`, `sts'` remain. -/
inductive Pop : List (Frame V L) → List V → SPath V L → List (Frame V L) → List V → Prop
  | edge {p e ps F sts} : Pop ((p, e :: ps) :: F) sts (p.snoc e.1 e.2) ((p, ps) :: F) sts
  | start {v sts} : Pop [] (v :: sts) (SPath.single v) [] sts

theorem Pop.ok {next : V → List (V × L)} {starts : List V} {F F' : List (Frame V L)} {sts sts' : List V}
    {q : SPath V L} (h : Pop F sts q F' sts') (hF : FramesOk next starts F) (hs : ∀ v ∈ sts, v ∈ starts) :
    FramesOk next starts F' ∧ Parent next starts q F' := by
  cases h with
  | edge => exact Parent.snoc hF rfl
  | start => exact ⟨trivial, by simp, by simpa using hs _ List.mem_cons_self⟩

theorem Pop.trace {F F' : List (Frame V L)} {sts sts' : List V} {q : SPath V L} (h : Pop F sts q F' sts') :
    frameTrace F' = frameTrace F ∧ F'.length = F.length ∧ F'.map (·.1) = F.map (·.1) := by cases h <;> simp [frameTrace]

/-! ## The rest of a search -/

section
variable (next : V → List (V × L)) (vid : V → K) (rule : DfsRule) (prune : Nat → SPath V L → Bool)

/-- The effects `acts` of the rest of a search, with the frames `F` and the start vertices `sts` still to be handled. -/
def Rest (vis : K → Prop) (n : Nat) : List (Frame V L) → List V → List (DfsAct V L) → (K → Prop) → Nat → Prop
  | [], sts, acts, vis', n' => Dfs next vid rule prune vis n (sts.map SPath.single) acts vis' n'
  | f :: F, sts, acts, vis', n' => ∃ a1 v1 n1 a2, acts = a1 ++ .leave f.1 :: a2 ∧
      Dfs next vid rule prune vis n (f.2.map (fun e => f.1.snoc e.1 e.2)) a1 v1 n1 ∧
      Rest v1 n1 F sts a2 vis' n'

variable {next vid rule prune} {vis vis' : K → Prop} {n n' : Nat} {F F' : List (Frame V L)} {sts sts' : List V}
  {acts : List (DfsAct V L)} {p q : SPath V L}

theorem Rest.leave_iff : Rest next vid rule prune vis n ((p, []) :: F) sts acts vis' n' ↔
    ∃ a, acts = .leave p :: a ∧ Rest next vid rule prune vis n F sts a vis' n' := by
  constructor
  · rintro ⟨a1, v1, n1, a2, rfl, h1, h2⟩
    cases h1
    exact ⟨a2, rfl, h2⟩
  · rintro ⟨a, rfl, h⟩
    exact ⟨[], vis, n, a, rfl, .nil, h⟩

theorem Rest.skip_iff (hp : Pop F sts q F' sts') (hb : rule.Blocks vid vis q) :
    Rest next vid rule prune vis n F sts acts vis' n' ↔
    ∃ a, acts = .skip q :: a ∧ Rest next vid rule prune vis n F' sts' a vis' n' := by
  cases hp with
  | edge =>
    constructor
    · rintro ⟨a1, v1, n1, a2, rfl, h1, h2⟩
      cases h1 with
      | skip _ h => exact ⟨_, rfl, _, v1, n1, a2, rfl, h, h2⟩
      | prune hb' => exact absurd hb hb'
      | enter hb' => exact absurd hb hb'
    · rintro ⟨a, rfl, a1, v1, n1, a2, rfl, h1, h2⟩
      exact ⟨_, v1, n1, a2, rfl, .skip hb h1, h2⟩
  | start =>
    constructor
    · intro h
      cases h with
      | skip _ h => exact ⟨_, rfl, h⟩
      | prune hb' => exact absurd hb hb'
      | enter hb' => exact absurd hb hb'
    · rintro ⟨a, rfl, h⟩
      exact .skip hb h

theorem Rest.enter_iff (hp : Pop F sts q F' sts') (hb : ¬ rule.Blocks vid vis q) (hpr : prune n q = false) :
    Rest next vid rule prune vis n F sts acts vis' n' ↔
    ∃ a, acts = .enter q :: a ∧
      Rest next vid rule prune (insertId vis (vid q.last)) (n + 1) ((q, (next q.last).reverse) :: F') sts' a vis' n' := by
  cases hp with
  | @edge p e ps F sts =>
    constructor
    · rintro ⟨a1, v1, n1, a2, rfl, h1, h2⟩
      cases h1 with
      | skip hb' => exact absurd hb' hb
      | prune _ hp' => rw [hpr] at hp'; simp at hp'
      | enter _ _ h h' => exact ⟨_, rfl, _, _, _, _, by simp, h, _, v1, n1, a2, rfl, h', h2⟩
    · rintro ⟨a, rfl, b1, w1, m1, b2, rfl, h, a1, v1, n1, a2, rfl, h', h2⟩
      exact ⟨_, v1, n1, a2, by simp, .enter hb hpr h h', h2⟩
  | start =>
    constructor
    · intro h
      cases h with
      | skip hb' => exact absurd hb' hb
      | prune _ hp' => rw [hpr] at hp'; simp at hp'
      | enter _ _ h h' => exact ⟨_, rfl, _, _, _, _, rfl, h, h'⟩
    · rintro ⟨a, rfl, b1, w1, m1, b2, rfl, h, h'⟩
      exact .enter hb hpr h h'

theorem Rest.prune_iff (hp : Pop F sts q F' sts') (hb : ¬ rule.Blocks vid vis q) (hpr : prune n q = true) :
    Rest next vid rule prune vis n F sts acts vis' n' ↔
    ∃ a, acts = .enter q :: a ∧
      Rest next vid rule prune (insertId vis (vid q.last)) (n + 1) ((q, []) :: F') sts' a vis' n' := by
  simp only [Rest.leave_iff]
  cases hp with
  | edge =>
    constructor
    · rintro ⟨a1, v1, n1, a2, rfl, h1, h2⟩
      cases h1 with
      | skip hb' => exact absurd hb' hb
      | prune _ _ h => exact ⟨_, rfl, _, rfl, _, v1, n1, a2, rfl, h, h2⟩
      | enter _ hp' => rw [hpr] at hp'; simp at hp'
    · rintro ⟨a, rfl, b, rfl, a1, v1, n1, a2, rfl, h, h2⟩
      exact ⟨_, v1, n1, a2, rfl, .prune hb hpr h, h2⟩
  | start =>
    constructor
    · intro h
      cases h with
      | skip hb' => exact absurd hb' hb
      | prune _ _ h => exact ⟨_, rfl, _, rfl, h⟩
      | enter _ hp' => rw [hpr] at hp'; simp at hp'
    · rintro ⟨a, rfl, b, rfl, h⟩
      exact .prune hb hpr h

end

/-! ## Moments -/

@[simp] theorem moments_nil : moments ([] : List (DfsAct V L)) = [] := rfl

theorem momentsFrom_append (pre a b : List (DfsAct V L)) :
    momentsFrom pre (a ++ b) = momentsFrom pre a ++ momentsFrom (pre ++ a) b := by
  induction a generalizing pre with
  | nil => simp [momentsFrom]
  | cons x a ih => simp [momentsFrom, ih]

theorem moments_snoc (h : List (DfsAct V L)) (a : DfsAct V L) : moments (h ++ [a]) = moments h ++ [(h, a)] := by
  simp [moments, momentsFrom_append, momentsFrom]

theorem mem_moments {acts pre : List (DfsAct V L)} {a : DfsAct V L} :
    (pre, a) ∈ moments acts ↔ ∃ post, acts = pre ++ a :: post := by
  have key : ∀ (acts p : List (DfsAct V L)), (pre, a) ∈ momentsFrom p acts ↔ ∃ m post, pre = p ++ m ∧ acts = m ++ a :: post := by
    intro acts
    induction acts with
    | nil => intro p; simp [momentsFrom]
    | cons x acts ih =>
      intro p
      simp only [momentsFrom, List.mem_cons, Prod.mk.injEq, ih]
      constructor
      · rintro (⟨rfl, rfl⟩ | ⟨m, post, rfl, rfl⟩)
        · exact ⟨[], acts, by simp, rfl⟩
        · exact ⟨x :: m, post, by simp, rfl⟩
      · rintro ⟨m, post, rfl, e⟩
        cases m with
        | nil => simp at e; left; exact ⟨by simp, e.1.symm⟩
        | cons y m =>
          simp only [List.cons_append, List.cons.injEq] at e
          obtain ⟨rfl, rfl⟩ := e
          exact .inr ⟨m, post, by simp, rfl⟩
  rw [moments, key]
  constructor
  · rintro ⟨m, post, rfl, e⟩; exact ⟨post, by simpa using e⟩
  · rintro ⟨post, e⟩; exact ⟨pre, post, by simp, e⟩

@[simp] theorem leftPaths_nil : leftPaths ([] : List (DfsAct V L)) = [] := rfl
@[simp] theorem leftPaths_append (a b : List (DfsAct V L)) : leftPaths (a ++ b) = leftPaths a ++ leftPaths b := by
  simp [leftPaths]

@[simp] theorem enteredIds_nil (vid : V → K) : enteredIds vid ([] : List (DfsAct V L)) = [] := rfl
@[simp] theorem enteredIds_append (vid : V → K) (a b : List (DfsAct V L)) :
    enteredIds vid (a ++ b) = enteredIds vid a ++ enteredIds vid b := by simp [enteredIds]
@[simp] theorem enteredIds_enter (vid : V → K) (q : SPath V L) : enteredIds vid [.enter q] = [vid q.last] := rfl
@[simp] theorem enteredIds_leave (vid : V → K) (q : SPath V L) : enteredIds vid [.leave q] = [] := rfl
@[simp] theorem enteredIds_skip (vid : V → K) (q : SPath V L) : enteredIds vid [.skip q] = [] := rfl
@[simp] theorem leftIds_nil (vid : V → K) : leftIds vid ([] : List (DfsAct V L)) = [] := rfl
@[simp] theorem leftIds_append (vid : V → K) (a b : List (DfsAct V L)) :
    leftIds vid (a ++ b) = leftIds vid a ++ leftIds vid b := by simp [leftIds]
@[simp] theorem leftIds_enter (vid : V → K) (q : SPath V L) : leftIds vid [.enter q] = [] := rfl
@[simp] theorem leftIds_leave (vid : V → K) (q : SPath V L) : leftIds vid [.leave q] = [vid q.last] := rfl
@[simp] theorem leftIds_skip (vid : V → K) (q : SPath V L) : leftIds vid [.skip q] = [] := rfl
theorem enteredIds_length (vid : V → K) (a : List (DfsAct V L)) : (enteredIds vid a).length = (entered a).length := by
  simp [enteredIds]

/-! ## Pre-order numbers -/

section
variable [DecidableEq K]

theorem indexOf_nil (k : K) : indexOf [] k = 0 := by simp [indexOf]

theorem indexOf_snoc (ids : List K) (k j : K) :
    indexOf (ids ++ [k]) j = if j = k then ids.length + 1 else indexOf ids j := by
  unfold indexOf
  rw [List.reverse_append, List.reverse_singleton, List.singleton_append, List.idxOf_cons]
  by_cases e : j = k
  · subst e; simp
  · have : (k == j) = false := by simpa using fun h => e h.symm
    simp only [List.mem_append, List.mem_singleton, e, or_false, if_false, this, cond_false, List.length_append,
      List.length_singleton]
    split <;> omega

theorem indexOf_eq_zero {ids : List K} {k : K} (h : k ∉ ids) : indexOf ids k = 0 := by simp [indexOf, h]

theorem indexOf_le (ids : List K) (k : K) : indexOf ids k ≤ ids.length := by
  unfold indexOf; split <;> omega

theorem indexOf_pos {ids : List K} {k : K} (h : k ∈ ids) : 0 < indexOf ids k := by
  unfold indexOf
  have : ids.reverse.idxOf k < ids.reverse.length := List.idxOf_lt_length_of_mem (by simpa using h)
  rw [List.length_reverse] at this
  simp [h]; omega

/-- For lists without repetition, the comparison of pre-order numbers tells which id comes first. -/
theorem indexOf_lt_iff {ids : List K} (hn : ids.Nodup) {k j : K} (hk : k ∈ ids) (hj : j ∈ ids) :
    indexOf ids k < indexOf ids j ↔ Before ids k j := by
  induction ids using List.reverseRecOn with
  | nil => simp at hk
  | append_singleton l a ih =>
    have hn' : l.Nodup ∧ a ∉ l := by
      have := List.nodup_append.1 hn
      exact ⟨this.1, fun h => this.2.2 a h a (by simp) rfl⟩
    rw [indexOf_snoc, indexOf_snoc]
    by_cases e1 : k = a
    · subst e1
      rw [if_pos rfl]
      constructor
      · intro h
        exfalso
        split at h
        · omega
        · have := indexOf_le l j; omega
      · rintro ⟨A, B, e, hB⟩
        exfalso
        have hB' : B ≠ [] := by rintro rfl; simp at hB
        obtain ⟨B0, b, rfl⟩ : ∃ B0 b, B = B0 ++ [b] := ⟨_, _, (List.dropLast_append_getLast hB').symm⟩
        have e' : l ++ [k] = (A ++ k :: B0) ++ [b] := by simpa using e
        have e2 := List.append_inj' e' rfl
        rw [e2.1] at hn'
        exact hn'.2 (by simp)
    · have hk' : k ∈ l := by
        rcases List.mem_append.1 hk with h | h
        · exact h
        · exact absurd (List.mem_singleton.1 h) e1
      rw [if_neg e1]
      by_cases e2 : j = a
      · subst e2
        rw [if_pos rfl]
        constructor
        · intro _
          obtain ⟨A, B, rfl⟩ := List.append_of_mem hk'
          exact ⟨A, B ++ [j], by simp, by simp⟩
        · intro _; have := indexOf_le l k; omega
      · have hj' : j ∈ l := by
          rcases List.mem_append.1 hj with h | h
          · exact h
          · exact absurd (List.mem_singleton.1 h) e2
        rw [if_neg e2, ih hn'.1 hk' hj']
        constructor
        · rintro ⟨A, B, rfl, hB⟩
          exact ⟨A, B ++ [a], by simp, List.mem_append_left _ hB⟩
        · rintro ⟨A, B, e, hB⟩
          have hB' : B ≠ [] := by rintro rfl; simp at hB
          obtain ⟨B0, b, rfl⟩ : ∃ B0 b, B = B0 ++ [b] := ⟨_, _, (List.dropLast_append_getLast hB').symm⟩
          have e' : l ++ [a] = (A ++ k :: B0) ++ [b] := by simpa using e
          have e3 := List.append_inj' e' rfl
          refine ⟨A, B0, e3.1, ?_⟩
          rcases List.mem_append.1 hB with h | h
          · exact h
          · have : b = a := by simpa using e3.2.symm
            exact absurd ((List.mem_singleton.1 h).trans this) e2

theorem indexOf_inj {ids : List K} (hn : ids.Nodup) {k j : K} (hk : k ∈ ids) (hj : j ∈ ids)
    (h : indexOf ids k = indexOf ids j) : k = j := by
  unfold indexOf at h
  rw [if_pos hk, if_pos hj] at h
  have h1 : ids.reverse.idxOf k < ids.reverse.length := List.idxOf_lt_length_of_mem (by simpa using hk)
  have h2 : ids.reverse.idxOf j < ids.reverse.length := List.idxOf_lt_length_of_mem (by simpa using hj)
  rw [List.length_reverse] at h1 h2
  have e : ids.reverse.idxOf k = ids.reverse.idxOf j := by omega
  have h3 := List.getElem_idxOf (x := k) (xs := ids.reverse) (by rw [List.length_reverse]; exact h1)
  have h4 := List.getElem_idxOf (x := j) (xs := ids.reverse) (by rw [List.length_reverse]; exact h2)
  rw [← h3, ← h4]
  simp only [e]

end

/-! ## Labels -/

theorem Spec.SPath.edges_snoc (q : SPath V L) (v : V) (l : L) : (q.snoc v l).edges = q.edges ++ [(q.last, v, l)] := by
  classical
  unfold SPath.edges SPath.snoc
  simp only [edgesFrom_snoc]
  congr 3
  have h := q.verts_getLast
  unfold SPath.verts at h
  rw [List.getLast?_eq_some_getLast (by simp)] at h
  simpa using h

theorem edgesFrom_length (s : V) (steps : List (V × L)) : (edgesFrom s steps).length = steps.length := by
  induction steps generalizing s with
  | nil => rfl
  | cons a r ih => obtain ⟨a, l⟩ := a; simp [edgesFrom, ih]

theorem Spec.SPath.edges_length (q : SPath V L) : q.edges.length = q.steps.length := edgesFrom_length _ _

section
variable {next : V → List (V × L)}

theorem LabelsAgree.start {q : SPath V L} (h : q.isStart = true) : LabelsAgree next q [] := by
  have := SPath.isStart_steps h
  refine ⟨by simp [this], fun i e he => ?_⟩
  simp [SPath.edges, this, edgesFrom] at he

theorem LabelsAgree.snoc {q : SPath V L} {tl : List L} (h : LabelsAgree next q tl) {v : V} {l l' : L}
    (hl : l' = l ∨ (FirstEdges next (q.edges ++ [(q.last, v, l)]) ∧ 2 ≤ (next q.last).length)) :
    LabelsAgree next (q.snoc v l) (tl ++ [l']) := by
  refine ⟨by simp [SPath.snoc, h.1], fun i e he => ?_⟩
  rw [SPath.edges_snoc] at he ⊢
  have hlen : tl.length = q.edges.length := by rw [SPath.edges_length, h.1]
  rcases Nat.lt_trichotomy i q.edges.length with hi | hi | hi
  · rw [List.getElem?_append_left hi] at he
    rw [List.getElem?_append_left (by omega), List.take_append_of_le_length (by omega)]
    exact h.2 i e he
  · subst hi
    rw [List.getElem?_append_right (Nat.le_refl _), Nat.sub_self] at he
    simp only [List.getElem?_cons_zero, Option.some.injEq] at he
    subst he
    rw [List.getElem?_append_right (by omega), hlen, Nat.sub_self]
    rcases hl with rfl | h
    · left; rfl
    · right
      rw [List.take_of_length_le (by simp)]
      exact h
  · rw [List.getElem?_eq_none (by simp; omega)] at he
    simp at he

theorem LabelsAgree.init {q : SPath V L} {v : V} {l : L} {tl : List L} (h : LabelsAgree next (q.snoc v l) tl) :
    ∃ tl' l', tl = tl' ++ [l'] ∧ LabelsAgree next q tl' := by
  have h1 := h.1
  simp only [SPath.snoc, List.length_append, List.length_singleton] at h1
  have hne : tl ≠ [] := by rintro rfl; simp at h1
  refine ⟨tl.dropLast, tl.getLast hne, (List.dropLast_append_getLast hne).symm, ?_, fun i e he => ?_⟩
  · simp [h1]
  · have hi : i < q.edges.length := by
      by_contra hc
      rw [List.getElem?_eq_none (by omega)] at he; simp at he
    have hi' : i < q.steps.length := by rw [← SPath.edges_length]; exact hi
    have := h.2 i e (by rw [SPath.edges_snoc, List.getElem?_append_left hi]; exact he)
    rw [SPath.edges_snoc, List.take_append_of_le_length (by omega)] at this
    rw [List.getElem?_dropLast, if_pos (by omega)]
    exact this

theorem FramesOk.firstEdges {starts : List V} {F : List (Frame V L)} (h : FramesOk next starts F) :
    ∀ f F0, F = f :: F0 → (∀ f' ∈ F0, f'.2 = []) → FirstEdges next f.1.edges := by
  induction F with
  | nil => intro f F0 e; simp at e
  | cons f F ih =>
    intro f' F0 e h0
    obtain ⟨rfl, rfl⟩ := List.cons.inj e
    cases F with
    | nil =>
      have := SPath.isStart_steps h.2.1.1
      simp [FirstEdges, SPath.edges, this, edgesFrom]
    | cons f1 F1 =>
      obtain ⟨e, he, hs⟩ := h.2.1
      rw [h0 f1 List.mem_cons_self] at hs
      have hi := ih h.2.2 f1 F1 rfl (fun f' hf => h0 f' (List.mem_cons_of_mem _ hf))
      rw [he, SPath.edges_snoc]
      intro x hx
      rcases List.mem_append.1 hx with hx | hx
      · exact hi x hx
      · rw [List.mem_singleton] at hx
        subst hx
        obtain ⟨A, hA⟩ := hs
        have := congrArg List.getLast? hA
        simpa using this.symm

theorem relabel_verts {q : SPath V L} {tl : List L} (h : tl.length = q.steps.length) :
    (q.relabel tl).verts = q.verts := by
  unfold SPath.verts SPath.relabel
  simp only
  rw [List.map_fst_zip (by simp [h])]

theorem relabel_snoc {q : SPath V L} {tl : List L} (h : tl.length = q.steps.length) (v : V) (l l' : L) :
    (q.snoc v l).relabel (tl ++ [l']) = (q.relabel tl).snoc v l' := by
  unfold SPath.relabel SPath.snoc
  simp only [List.map_append, List.map_cons, List.map_nil, SPath.mk.injEq, true_and]
  rw [List.zip_append (by simp [h])]
  rfl

end

end NoGraphs
