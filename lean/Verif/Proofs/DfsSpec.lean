import Verif.Spec.Dfs
import Verif.Spec.Graph
import Verif.Proofs.Walks
import Mathlib.Data.List.Nodup

/-! Properties of the specification of depth-first search. -/

set_option linter.unusedSectionVars false

namespace NoGraphs

open Spec

variable {V K L : Type}

/-! ## Paths -/

@[simp] theorem Spec.SPath.last_snoc (q : SPath V L) (v : V) (l : L) : (q.snoc v l).last = v := by
  simp [SPath.last, SPath.snoc]

@[simp] theorem Spec.SPath.last_single (v : V) : (SPath.single v : SPath V L).last = v := by
  simp [SPath.last, SPath.single]

@[simp] theorem Spec.SPath.isStart_snoc (q : SPath V L) (v : V) (l : L) : (q.snoc v l).isStart = false := by
  simp [SPath.isStart, SPath.snoc]

@[simp] theorem Spec.SPath.isStart_single (v : V) : (SPath.single v : SPath V L).isStart = true := rfl

theorem Spec.SPath.verts_getLast (q : SPath V L) : q.verts.getLast? = some q.last := by
  unfold SPath.verts SPath.last
  rw [List.getLast?_cons]

theorem Spec.SPath.init_append_last (q : SPath V L) : q.init ++ [q.last] = q.verts := by
  unfold SPath.init
  rw [List.dropLast_append_getLast?]
  exact q.verts_getLast

theorem Spec.SPath.verts_snoc' (q : SPath V L) (v : V) (l : L) : (q.snoc v l).verts = q.verts ++ [v] := by
  simp [SPath.verts, SPath.snoc]

@[simp] theorem Spec.SPath.init_snoc (q : SPath V L) (v : V) (l : L) : (q.snoc v l).init = q.verts := by
  simp [SPath.init, SPath.verts_snoc']

@[simp] theorem Spec.SPath.init_single (v : V) : (SPath.single v : SPath V L).init = [] := rfl

theorem Spec.SPath.isStart_iff (q : SPath V L) : q.isStart = true ↔ q = SPath.single q.last := by
  obtain ⟨f, st⟩ := q
  cases st with
  | nil => simp [SPath.isStart, SPath.single, SPath.last]
  | cons a st => simp [SPath.isStart, SPath.single]

theorem mem_children {next : V → List (V × L)} {q c : SPath V L} :
    c ∈ children next q ↔ ∃ e ∈ next q.last, c = q.snoc e.1 e.2 := by
  simp only [children, List.mem_map, List.mem_reverse]
  constructor
  · rintro ⟨e, he, rfl⟩; exact ⟨e, he, rfl⟩
  · rintro ⟨e, he, rfl⟩; exact ⟨e, he, rfl⟩

/-! ## The relation -/

section
variable {next : V → List (V × L)} {vid : V → K} {rule : DfsRule} {prune : Nat → SPath V L → Bool}
variable {vis vis1 vis2 : K → Prop} {n n1 n2 : Nat} {q : SPath V L} {qs A B : List (SPath V L)}
variable {acts acts1 acts2 : List (DfsAct V L)}

theorem Spec.Dfs.mono (h : Dfs next vid rule prune vis n qs acts vis1 n1) {k : K} (hk : vis k) : vis1 k := by
  induction h with
  | nil => exact hk
  | skip _ _ ih => exact ih hk
  | prune _ _ _ ih => exact ih (.inr hk)
  | enter _ _ _ _ ih1 ih2 => exact ih2 (ih1 (.inr hk))

theorem Spec.Dfs.append (h1 : Dfs next vid rule prune vis n A acts1 vis1 n1)
    (h2 : Dfs next vid rule prune vis1 n1 B acts2 vis2 n2) :
    Dfs next vid rule prune vis n (A ++ B) (acts1 ++ acts2) vis2 n2 := by
  induction h1 with
  | nil => exact h2
  | skip hb _ ih => exact .skip hb (ih h2)
  | prune hb hp _ ih => exact .prune hb hp (ih h2)
  | enter hb hp ha _ _ ih2 =>
    have := Dfs.enter hb hp ha (ih2 h2)
    simpa using this

theorem Spec.Dfs.split (h : Dfs next vid rule prune vis n (A ++ B) acts vis2 n2) :
    ∃ acts1 vis1 n1 acts2, acts = acts1 ++ acts2 ∧ Dfs next vid rule prune vis n A acts1 vis1 n1 ∧
      Dfs next vid rule prune vis1 n1 B acts2 vis2 n2 := by
  induction A generalizing vis n acts with
  | nil => exact ⟨[], vis, n, acts, rfl, .nil, h⟩
  | cons q A ih =>
    rw [List.cons_append] at h
    cases h with
    | skip hb h =>
      obtain ⟨a1, v1, m1, a2, rfl, h1, h2⟩ := ih h
      exact ⟨_, v1, m1, a2, rfl, .skip hb h1, h2⟩
    | prune hb hp h =>
      obtain ⟨a1, v1, m1, a2, rfl, h1, h2⟩ := ih h
      exact ⟨_, v1, m1, a2, rfl, .prune hb hp h1, h2⟩
    | enter hb hp ha h =>
      obtain ⟨a1, v1, m1, a2, rfl, h1, h2⟩ := ih h
      exact ⟨_, v1, m1, a2, by simp, .enter hb hp ha h1, h2⟩

/-- The search is deterministic. -/
theorem Spec.Dfs.det (h1 : Dfs next vid rule prune vis n qs acts1 vis1 n1)
    (h2 : Dfs next vid rule prune vis n qs acts2 vis2 n2) : acts1 = acts2 ∧ vis1 = vis2 ∧ n1 = n2 := by
  induction h1 generalizing acts2 vis2 n2 with
  | nil => cases h2; exact ⟨rfl, rfl, rfl⟩
  | skip hb _ ih =>
    cases h2 with
    | skip _ h => obtain ⟨rfl, h3⟩ := ih h; exact ⟨rfl, h3⟩
    | prune hb' => exact absurd hb hb'
    | enter hb' => exact absurd hb hb'
  | prune hb hp _ ih =>
    cases h2 with
    | skip hb' => exact absurd hb' hb
    | prune _ _ h => obtain ⟨rfl, h3⟩ := ih h; exact ⟨rfl, h3⟩
    | enter _ hp' => rw [hp] at hp'; simp at hp'
  | enter hb hp _ _ ih1 ih2 =>
    cases h2 with
    | skip hb' => exact absurd hb' hb
    | prune _ hp' => rw [hp] at hp'; simp at hp'
    | enter _ _ h h' =>
      obtain ⟨rfl, rfl, rfl⟩ := ih1 h
      obtain ⟨rfl, h3⟩ := ih2 h'
      exact ⟨rfl, h3⟩

end

/-! ## Entered paths only -/

@[simp] theorem entered_nil : entered ([] : List (DfsAct V L)) = [] := rfl
@[simp] theorem entered_enter (q : SPath V L) (a : List (DfsAct V L)) :
    entered (.enter q :: a) = q :: entered a := rfl
@[simp] theorem entered_leave (q : SPath V L) (a : List (DfsAct V L)) : entered (.leave q :: a) = entered a := rfl
@[simp] theorem entered_skip (q : SPath V L) (a : List (DfsAct V L)) : entered (.skip q :: a) = entered a := rfl
@[simp] theorem entered_append (a b : List (DfsAct V L)) : entered (a ++ b) = entered a ++ entered b := by
  simp [entered]

/-- The search, with the list of the entered paths as result. -/
def DfsOut (next : V → List (V × L)) (vid : V → K) (prune : Nat → SPath V L → Bool) (vis : K → Prop) (n : Nat)
    (qs out : List (SPath V L)) (vis' : K → Prop) (n' : Nat) : Prop :=
  ∃ acts, Dfs next vid .tree prune vis n qs acts vis' n' ∧ entered acts = out

section
variable {next : V → List (V × L)} {vid : V → K} {prune : Nat → SPath V L → Bool}
variable {vis vis1 vis2 vis' : K → Prop} {n n1 n2 n' : Nat} {q : SPath V L} {qs A B out : List (SPath V L)}

theorem DfsOut.nil_iff : DfsOut next vid prune vis n [] out vis' n' ↔ out = [] ∧ vis' = vis ∧ n' = n := by
  constructor
  · rintro ⟨acts, h, rfl⟩; cases h; exact ⟨rfl, rfl, rfl⟩
  · rintro ⟨rfl, rfl, rfl⟩; exact ⟨[], .nil, rfl⟩

theorem DfsOut.append_iff : DfsOut next vid prune vis n (A ++ B) out vis' n' ↔
    ∃ o1 vis1 n1 o2, out = o1 ++ o2 ∧ DfsOut next vid prune vis n A o1 vis1 n1 ∧
      DfsOut next vid prune vis1 n1 B o2 vis' n' := by
  constructor
  · rintro ⟨acts, h, rfl⟩
    obtain ⟨a1, v1, m1, a2, rfl, h1, h2⟩ := h.split
    exact ⟨_, v1, m1, _, entered_append _ _, ⟨a1, h1, rfl⟩, ⟨a2, h2, rfl⟩⟩
  · rintro ⟨o1, v1, m1, o2, rfl, ⟨a1, h1, rfl⟩, ⟨a2, h2, rfl⟩⟩
    exact ⟨_, h1.append h2, entered_append _ _⟩

theorem DfsOut.seen_iff (hv : vis (vid q.last)) :
    DfsOut next vid prune vis n (q :: qs) out vis' n' ↔ DfsOut next vid prune vis n qs out vis' n' := by
  constructor
  · rintro ⟨acts, h, rfl⟩
    cases h with
    | skip _ h => exact ⟨_, h, rfl⟩
    | prune hb => exact absurd hv hb
    | enter hb => exact absurd hv hb
  · rintro ⟨acts, h, rfl⟩
    exact ⟨_, .skip hv h, rfl⟩

theorem DfsOut.mono (h : DfsOut next vid prune vis n qs out vis' n') {k : K} (hk : vis k) : vis' k := by
  obtain ⟨acts, h, -⟩ := h
  exact h.mono hk

theorem DfsOut.insert_seen (hv : vis (vid q.last)) :
    DfsOut next vid prune vis n (A ++ q :: B) out vis' n' ↔ DfsOut next vid prune vis n (A ++ B) out vis' n' := by
  rw [DfsOut.append_iff, DfsOut.append_iff]
  constructor
  · rintro ⟨o1, v1, m1, o2, e, h1, h2⟩
    exact ⟨o1, v1, m1, o2, e, h1, (DfsOut.seen_iff (h1.mono hv)).1 h2⟩
  · rintro ⟨o1, v1, m1, o2, e, h1, h2⟩
    exact ⟨o1, v1, m1, o2, e, h1, (DfsOut.seen_iff (h1.mono hv)).2 h2⟩

theorem DfsOut.prune_iff (hv : ¬ vis (vid q.last)) (hp : prune n q = true) :
    DfsOut next vid prune vis n (q :: qs) out vis' n' ↔
      ∃ o, out = q :: o ∧ DfsOut next vid prune (insertId vis (vid q.last)) (n + 1) qs o vis' n' := by
  constructor
  · rintro ⟨acts, h, rfl⟩
    cases h with
    | skip hb => exact absurd hb hv
    | prune _ _ h => exact ⟨_, rfl, _, h, rfl⟩
    | enter _ hp' => rw [hp] at hp'; simp at hp'
  · rintro ⟨o, rfl, acts, h, rfl⟩
    exact ⟨_, .prune hv hp h, rfl⟩

theorem DfsOut.enter_iff (hv : ¬ vis (vid q.last)) (hp : prune n q = false) :
    DfsOut next vid prune vis n (q :: qs) out vis' n' ↔
      ∃ o, out = q :: o ∧
        DfsOut next vid prune (insertId vis (vid q.last)) (n + 1) (children next q ++ qs) o vis' n' := by
  constructor
  · rintro ⟨acts, h, rfl⟩
    cases h with
    | skip hb => exact absurd hb hv
    | prune _ hp' => rw [hp] at hp'; simp at hp'
    | enter _ _ h h' =>
      refine ⟨_, rfl, ?_⟩
      rw [DfsOut.append_iff]
      exact ⟨_, _, _, _, entered_append _ _, ⟨_, h, rfl⟩, ⟨_, h', rfl⟩⟩
  · rintro ⟨o, rfl, h⟩
    rw [DfsOut.append_iff] at h
    obtain ⟨o1, v1, m1, o2, rfl, ⟨a1, h1, rfl⟩, ⟨a2, h2, rfl⟩⟩ := h
    exact ⟨_, .enter hv hp h1 h2, by simp⟩

theorem DfsOut.det {o1 o2 : List (SPath V L)} (h1 : DfsOut next vid prune vis n qs o1 vis1 n1)
    (h2 : DfsOut next vid prune vis n qs o2 vis2 n2) : o1 = o2 ∧ vis1 = vis2 ∧ n1 = n2 := by
  obtain ⟨a1, h1, rfl⟩ := h1
  obtain ⟨a2, h2, rfl⟩ := h2
  obtain ⟨rfl, h3, h4⟩ := h1.det h2
  exact ⟨rfl, h3, h4⟩

/-! ## What a search does -/

/-- After the search, exactly the ids visited before and those of the entered vertices are visited; no id is
entered twice. -/
theorem Spec.Dfs.visited (h : DfsOut next vid prune vis n qs out vis' n') :
    (∀ k, vis' k ↔ vis k ∨ k ∈ out.map (fun q => vid q.last)) ∧ (out.map (fun q => vid q.last)).Nodup ∧
    (∀ q ∈ out, ¬ vis (vid q.last)) ∧ n' = n + out.length := by
  obtain ⟨acts, h, rfl⟩ := h
  induction h with
  | nil => simp
  | skip _ _ ih => simpa using ih
  | @prune vis n q qs acts vis' n' hb _ _ ih =>
    obtain ⟨h1, h2, h3, h4⟩ := ih
    simp only [entered_enter, entered_leave, List.map_cons, List.mem_cons, List.nodup_cons, List.length_cons]
    refine ⟨fun k => ?_, ⟨fun hm => ?_, h2⟩, ?_, by omega⟩
    · rw [h1]; unfold insertId
      constructor
      · rintro ((h | h) | h)
        · exact .inr (.inl h)
        · exact .inl h
        · exact .inr (.inr h)
      · rintro (h | h | h)
        · exact .inl (.inr h)
        · exact .inl (.inl h)
        · exact .inr h
    · obtain ⟨x, hx, e⟩ := List.mem_map.1 hm
      exact h3 x hx (.inl e)
    · rintro x (rfl | hx)
      · exact hb
      · exact fun hh => h3 x hx (.inr hh)
  | @enter vis n q qs acts1 vis1 n1 acts2 vis2 n2 hb _ _ _ ih1 ih2 =>
    obtain ⟨h1, h2, h3, h4⟩ := ih1
    obtain ⟨g1, g2, g3, g4⟩ := ih2
    have e0 : entered (DfsAct.enter q :: acts1 ++ DfsAct.leave q :: acts2) = q :: (entered acts1 ++ entered acts2) := by
      simp
    rw [e0]
    simp only [List.map_cons, List.mem_cons, List.nodup_cons, List.length_cons, List.map_append, List.mem_append,
      List.length_append, List.nodup_append]
    have hsub : ∀ x ∈ entered acts2, vid x.last ≠ vid q.last ∧ ¬ vis (vid x.last) ∧
        vid x.last ∉ (entered acts1).map (fun q => vid q.last) := by
      intro x hx
      have := g3 x hx
      rw [h1] at this
      unfold insertId at this
      exact ⟨fun e => this (.inl (.inl e)), fun e => this (.inl (.inr e)), fun e => this (.inr e)⟩
    refine ⟨fun k => ?_, ⟨?_, h2, g2, ?_⟩, ?_, by omega⟩
    · rw [g1, h1]; unfold insertId
      constructor
      · rintro (((h | h) | h) | h)
        · exact .inr (.inl h)
        · exact .inl h
        · exact .inr (.inr (.inl h))
        · exact .inr (.inr (.inr h))
      · rintro (h | h | h | h)
        · exact .inl (.inl (.inr h))
        · exact .inl (.inl (.inl h))
        · exact .inl (.inr h)
        · exact .inr h
    · rintro (hm | hm)
      · obtain ⟨x, hx, e⟩ := List.mem_map.1 hm
        exact h3 x hx (.inl e)
      · obtain ⟨x, hx, e⟩ := List.mem_map.1 hm
        exact (hsub x hx).1 e
    · rintro a ha b hb e
      obtain ⟨x, hx, rfl⟩ := List.mem_map.1 hb
      exact (hsub x hx).2.2 (e ▸ ha)
    · rintro x (rfl | hx | hx)
      · exact hb
      · exact fun hh => h3 x hx (.inr hh)
      · exact (hsub x hx).2.1

/-- All paths that are to be handled get visited, and (without pruning) all vertices that the edges of entered
vertices lead to. -/
theorem Spec.Dfs.closed (h : DfsOut next vid noPrune vis n qs out vis' n') :
    (∀ q ∈ qs, vis' (vid q.last)) ∧ (∀ q ∈ out, ∀ e ∈ next q.last, vis' (vid e.1)) := by
  obtain ⟨acts, h, rfl⟩ := h
  induction h with
  | nil => simp
  | skip hb h ih =>
    obtain ⟨h1, h2⟩ := ih
    refine ⟨?_, h2⟩
    intro x hx
    rcases List.mem_cons.1 hx with rfl | hx
    · exact h.mono hb
    · exact h1 x hx
  | prune _ hpr => simp [noPrune] at hpr
  | @enter vis n q qs acts1 vis1 n1 acts2 vis2 n2 hb _ ha hb' ih1 ih2 =>
    obtain ⟨h1, h2⟩ := ih1
    obtain ⟨g1, g2⟩ := ih2
    have e0 : entered (DfsAct.enter q :: acts1 ++ DfsAct.leave q :: acts2) = q :: (entered acts1 ++ entered acts2) := by
      simp
    rw [e0]
    constructor
    · intro x hx
      rcases List.mem_cons.1 hx with rfl | hx
      · exact hb'.mono (ha.mono (.inl rfl))
      · exact g1 x hx
    · intro x hx e he
      rcases List.mem_cons.1 hx with rfl | hx
      · have := h1 (x.snoc e.1 e.2) (mem_children.2 ⟨e, he, rfl⟩)
        rw [SPath.last_snoc] at this
        exact hb'.mono this
      · rcases List.mem_append.1 hx with hx | hx
        · exact hb'.mono (h2 x hx e he)
        · exact g2 x hx e he

/-- The entered paths are paths of the graph, if the given ones are. -/
theorem Spec.Dfs.paths {P : SPath V L → Prop} (hext : ∀ q, P q → ∀ e ∈ next q.last, P (q.snoc e.1 e.2))
    {rule : DfsRule} {acts : List (DfsAct V L)}
    (h : Dfs next vid rule prune vis n qs acts vis' n') (hq : ∀ q ∈ qs, P q) : ∀ q ∈ entered acts, P q := by
  induction h with
  | nil => simp
  | skip _ _ ih => exact ih (fun q h => hq q (List.mem_cons_of_mem _ h))
  | prune _ _ _ ih =>
    intro x hx
    rcases List.mem_cons.1 hx with rfl | hx
    · exact hq _ List.mem_cons_self
    · exact ih (fun q h => hq q (List.mem_cons_of_mem _ h)) x hx
  | @enter vis n q qs acts1 vis1 n1 acts2 vis2 n2 _ _ _ _ ih1 ih2 =>
    intro x hx
    have hx : x ∈ q :: (entered acts1 ++ entered acts2) := by simpa using hx
    rcases List.mem_cons.1 hx with rfl | hx
    · exact hq _ List.mem_cons_self
    · rcases List.mem_append.1 hx with hx | hx
      · refine ih1 ?_ x hx
        intro y hy
        obtain ⟨e, he, rfl⟩ := mem_children.1 hy
        exact hext _ (hq _ List.mem_cons_self) e he
      · exact ih2 (fun q h => hq q (List.mem_cons_of_mem _ h)) x hx


/-- If the consumer prunes at every vertex from the `N`-th on, the search ends, for every graph and rule. -/
theorem Spec.Dfs.exists_of_bound {rule : DfsRule} (N : Nat) (hN : ∀ n st, N ≤ n → prune n st = true)
    (vis : K → Prop) (n : Nat) (qs : List (SPath V L)) :
    ∃ acts vis' n', Dfs next vid rule prune vis n qs acts vis' n' ∧ n ≤ n' := by
  have key : ∀ d n, N - n = d → ∀ (qs : List (SPath V L)) (vis : K → Prop),
      ∃ acts vis' n', Dfs next vid rule prune vis n qs acts vis' n' ∧ n ≤ n' := by
    intro d
    induction d using Nat.strong_induction_on with
    | _ d ihd =>
      intro n hd qs
      -- handle the list; the counter can grow on the way
      have inner : ∀ (qs : List (SPath V L)) (m : Nat) (vis : K → Prop), n ≤ m →
          ∃ acts vis' n', Dfs next vid rule prune vis m qs acts vis' n' ∧ m ≤ n' := by
        intro qs
        induction qs with
        | nil => intro m vis _; exact ⟨[], vis, m, .nil, Nat.le_refl _⟩
        | cons q qs ih =>
          intro m vis hm
          by_cases hb : rule.Blocks vid vis q
          · obtain ⟨a, v, k, h1, h2⟩ := ih m vis hm
            exact ⟨_, v, k, .skip hb h1, h2⟩
          · cases hp : prune m q with
            | true =>
              obtain ⟨a, v, k, h1, h2⟩ := ih (m + 1) (insertId vis (vid q.last)) (by omega)
              exact ⟨_, v, k, .prune hb hp h1, by omega⟩
            | false =>
              have hlt : m < N := by
                by_contra h
                rw [hN m _ (by omega)] at hp
                simp at hp
              obtain ⟨a1, v1, k1, h1, h2⟩ := ihd (N - (m + 1)) (by omega) (m + 1) rfl (children next q)
                (insertId vis (vid q.last))
              obtain ⟨a2, v2, k2, h3, h4⟩ := ih k1 v1 (by omega)
              exact ⟨_, v2, k2, .enter hb hp h1 h3, by omega⟩
      exact fun vis => inner qs n vis (Nat.le_refl _)
  exact key _ n rfl qs vis

/-- Without pruning, the number of vertices entered before does not matter. -/
theorem Spec.Dfs.shift {rule : DfsRule} {acts : List (DfsAct V L)} (h : Dfs next vid rule noPrune vis n qs acts vis' n')
    (d : Nat) : Dfs next vid rule noPrune vis (n + d) qs acts vis' (n' + d) := by
  induction h with
  | nil => exact .nil
  | skip hb _ ih => exact .skip hb ih
  | prune _ hp => simp [noPrune] at hp
  | enter hb _ _ _ ih1 ih2 =>
    rw [Nat.add_right_comm] at ih1
    exact .enter hb rfl ih1 ih2

theorem DfsOut.shift (h : DfsOut next vid noPrune vis n qs out vis' n') (d : Nat) :
    DfsOut next vid noPrune vis (d + n) qs out vis' (d + n') := by
  obtain ⟨acts, h, e⟩ := h
  rw [Nat.add_comm d, Nat.add_comm d]
  exact ⟨acts, h.shift d, e⟩

/-- Without pruning, the search enters all ids of reachable vertices. -/
theorem DfsOut.complete {starts : List V} (hc : Compat (Edge next) vid)
    (h : DfsOut next vid noPrune vis n (starts.map SPath.single) out vis' n') {v : V}
    (hv : Reachable (Allowed next vid vis) (fun v => v ∈ starts ∧ ¬ vis (vid v)) v) :
    ∃ q ∈ out, vid q.last = vid v := by
  obtain ⟨h1, h2, h3, -⟩ := Spec.Dfs.visited h
  obtain ⟨g1, g2⟩ := Spec.Dfs.closed h
  refine Reachable.induct (P := fun v => ∃ q ∈ out, vid q.last = vid v) ?_ ?_ hv
  · rintro v ⟨hs, hn⟩
    have := g1 (SPath.single v) (List.mem_map_of_mem hs)
    rw [SPath.last_single, h1] at this
    obtain ⟨q, hq, e⟩ := List.mem_map.1 (this.resolve_left hn)
    exact ⟨q, hq, e⟩
  · rintro u v - ⟨q, hq, e⟩ ⟨he, hn⟩
    obtain ⟨w, ⟨l, hw⟩, e'⟩ := hc u q.last v e.symm he
    have := g2 q hq (w, l) hw
    rw [h1, e'] at this
    obtain ⟨q', hq', e''⟩ := List.mem_map.1 (this.resolve_left hn)
    exact ⟨q', hq', e''⟩

/-- All entered vertices are reachable. -/
theorem DfsOut.sound {starts : List V}
    (h : DfsOut next vid prune vis n (starts.map SPath.single) out vis' n') :
    ∀ q ∈ out, q.first ∈ starts ∧ IsPath next q.first q.steps := by
  classical
  obtain ⟨acts, h, rfl⟩ := h
  refine Spec.Dfs.paths (P := fun q => q.first ∈ starts ∧ IsPath next q.first q.steps) ?_ h ?_
  · rintro q ⟨h1, h2⟩ e he
    exact ⟨h1, h2.snoc q.verts_getLast he⟩
  · intro q hq
    obtain ⟨v, hv, rfl⟩ := List.mem_map.1 hq
    exact ⟨hv, trivial⟩

end

end NoGraphs
