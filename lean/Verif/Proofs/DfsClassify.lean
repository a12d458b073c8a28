import Verif.Proofs.DepthFirstTrace
import Verif.Proofs.DfsNested

/-! The events the code reports are those of the specification. -/

set_option linter.unusedSectionVars false

namespace NoGraphs

open Spec

variable {V K L S M ML : Type} [DecidableEq V] [DecidableEq K]

theorem TraceCfg.Accepted.ok {c : TraceCfg V K L} {given : Bool} (h : c.Accepted given) : c.Ok := by
  obtain ⟨o, o', h1, -, e1, e2, e3, e4, e5, e6, -⟩ := h
  unfold dfsOptions at h1
  dsimp only at h1
  split at h1
  · cases h1
  split at h1
  · cases h1
  split at h1
  · cases h1
  split at h1
  · cases h1
  split at h1
  · cases h1
  split at h1
  · cases h1
  split at h1
  · cases h1
  rename_i n1 n2 n3 n4 n5 n6 n7
  simp only [Option.some.injEq] at h1
  subst h1
  simp only at e1 e2 e3 e4 e5 e6
  have hr : c.rule = (if o.isTree then .walks else match o.mode with
      | .dfsTree => .tree | .allPaths => .paths | .allWalks => .walks) := by
    unfold TraceCfg.rule; rw [e1, e2]; rfl
  constructor
  all_goals (intro h; rw [hr] at h)
  · rw [e5]
    cases ht : o.isTree <;> cases hm : o.mode <;> simp [ht, hm] at h n3 n4 ⊢
    · exact n4
    · exact n4
    · exact n4
    · exact n4
  · rw [e5]
    cases ht : o.isTree <;> cases hm : o.mode <;> simp [ht, hm] at h ⊢
  · rw [e3, e5]
    intro hb
    cases ht : o.isTree <;> cases hm : o.mode <;> simp [ht, hm] at h ⊢
    simp [DfsOptions.nonTree, hb]
  · rw [e3, e6]
    intro hb
    cases ht : o.isTree <;> cases hm : o.mode <;> simp [ht, hm] at h ⊢
    simp at hb
    right; exact hb
  · rw [e3]
    cases ht : o.isTree <;> cases hm : o.mode <;> simp [ht, hm] at h n5 ⊢
    exact ⟨n5.1.2, n5.1.1⟩

theorem TraceCfg.Accepted.index_given {c : TraceCfg V K L} {given : Bool} (h : c.Accepted given)
    (hi : c.computeIndex = true) : given = false := by
  obtain ⟨o, o', h1, -, e1, e2, e3, e4, e5, e6, e7⟩ := h
  unfold dfsOptions at h1
  dsimp only at h1
  split at h1
  · cases h1
  split at h1
  · cases h1
  split at h1
  · cases h1
  split at h1
  · cases h1
  split at h1
  · cases h1
  split at h1
  · cases h1
  split at h1
  · cases h1
  rename_i n1 n2 n3 n4 n5 n6 n7
  simp only [Option.some.injEq] at h1
  subst h1
  simp only at e6 e7
  rw [e6] at hi
  rw [hi] at n7
  simpa [← e7] using n7

/-- On the path to a vertex, the vertices are in the order in which they have been entered. -/
theorem Spec.Dfs.init_sublist {next : V → List (V × L)} {vid : V → K} {rule : DfsRule} {prune : Nat → SPath V L → Bool}
    {vis vis' : K → Prop} {n n' : Nat} {qs : List (SPath V L)} {acts : List (DfsAct V L)}
    (h : Dfs next vid rule prune vis n qs acts vis' n') :
    ∀ P : List (DfsAct V L), (∀ q ∈ qs, (q.init.map vid).Sublist (enteredIds vid P)) →
      ∀ m ∈ momentsFrom P acts, (m.2.path.init.map vid).Sublist (enteredIds vid m.1) := by
  induction h with
  | nil => intro P _ m hm; simp [momentsFrom] at hm
  | @skip vis n q qs acts vis' n' _ _ ih =>
    intro P hP m hm
    rcases List.mem_cons.1 hm with rfl | hm
    · exact hP q List.mem_cons_self
    · refine ih _ (fun q' hq' => ?_) m hm
      simpa using hP q' (List.mem_cons_of_mem _ hq')
  | @prune vis n q qs acts vis' n' _ _ _ ih =>
    intro P hP m hm
    rcases List.mem_cons.1 hm with rfl | hm
    · exact hP q List.mem_cons_self
    rcases List.mem_cons.1 hm with rfl | hm
    · simpa [DfsAct.path] using (hP q List.mem_cons_self).trans (List.sublist_append_left _ [vid q.last])
    · refine ih _ (fun q' hq' => ?_) m hm
      have := hP q' (List.mem_cons_of_mem _ hq')
      refine this.trans ?_
      rw [List.append_assoc, enteredIds_append]
      exact List.sublist_append_left _ _
  | @enter vis n q qs acts1 vis1 n1 acts2 vis2 n2 _ _ _ _ ih1 ih2 =>
    intro P hP m hm
    have hq := hP q List.mem_cons_self
    rcases List.mem_cons.1 hm with rfl | hm
    · exact hq
    have hm : m ∈ momentsFrom (P ++ [.enter q]) (acts1 ++ (.leave q :: acts2)) := hm
    rw [momentsFrom_append] at hm
    rcases List.mem_append.1 hm with hm | hm
    · refine ih1 _ (fun q' hq' => ?_) m hm
      obtain ⟨e, he, rfl⟩ := mem_children.1 hq'
      rw [SPath.init_snoc, ← q.init_append_last, List.map_append, enteredIds_append]
      exact hq.append (List.Sublist.refl _)
    · rcases List.mem_cons.1 hm with rfl | hm
      · refine hq.trans ?_
        simp only [enteredIds_append, List.append_assoc]
        exact List.sublist_append_left _ _
      · refine ih2 _ (fun q' hq' => ?_) m hm
        refine (hP q' (List.mem_cons_of_mem _ hq')).trans ?_
        simp only [enteredIds_append, List.append_assoc]
        exact List.sublist_append_left _ _

/-- An id has been entered, but not left. -/
def OpenId (vid : V → K) (P : List (DfsAct V L)) (k : K) : Prop := k ∈ enteredIds vid P ∧ k ∉ leftIds vid P

/-- In a depth-first search: the open ids, and what is known when a path is skipped. -/
theorem Spec.Dfs.opens {next : V → List (V × L)} {vid : V → K} {prune : Nat → SPath V L → Bool} {vis vis' : K → Prop}
    {n n' : Nat} {qs : List (SPath V L)} {acts : List (DfsAct V L)} (h : Dfs next vid .tree prune vis n qs acts vis' n') :
    ∀ P : List (DfsAct V L), (∀ k, vis k ↔ k ∈ enteredIds vid P) → (∀ k ∈ leftIds vid P, k ∈ enteredIds vid P) →
      (∀ q ∈ qs, ∀ k, k ∈ q.init.map vid ↔ OpenId vid P k) →
      (∀ k, vis' k ↔ k ∈ enteredIds vid (P ++ acts)) ∧ (∀ k ∈ leftIds vid (P ++ acts), k ∈ enteredIds vid (P ++ acts)) ∧
      (∀ k, OpenId vid (P ++ acts) k ↔ OpenId vid P k) ∧
      ∀ pre q post, acts = pre ++ .skip q :: post →
        vid q.last ∈ enteredIds vid (P ++ pre) ∧ ∀ k, k ∈ q.init.map vid ↔ OpenId vid (P ++ pre) k := by
  induction h with
  | nil => intro P h1 h2 h3; simpa using ⟨h1, h2⟩
  | @skip vis n q qs acts vis' n' hb _ ih =>
    intro P h1 h2 h3
    have e : ∀ k, OpenId vid (P ++ [.skip q]) k ↔ OpenId vid P k := by simp [OpenId]
    obtain ⟨a1, a2, a3, a4⟩ := ih (P ++ [.skip q]) (by simpa using h1) (by simpa using h2)
      (fun q' hq' k => by rw [e]; exact h3 q' (List.mem_cons_of_mem _ hq') k)
    rw [← append_cons_eq] at a1 a2 a3
    refine ⟨a1, a2, fun k => (a3 k).trans (e k), ?_⟩
    intro pre q' post e'
    cases pre with
    | nil =>
      simp only [List.nil_append, List.cons.injEq, DfsAct.skip.injEq] at e'
      obtain ⟨rfl, -⟩ := e'
      rw [List.append_nil]
      exact ⟨(h1 _).1 hb, h3 _ List.mem_cons_self⟩
    | cons a pre =>
      simp only [List.cons_append, List.cons.injEq] at e'
      obtain ⟨rfl, e'⟩ := e'
      have := a4 pre q' post e'
      rwa [← append_cons_eq] at this
  | @prune vis n q qs acts vis' n' hb _ _ ih =>
    intro P h1 h2 h3
    have hnb : vid q.last ∉ enteredIds vid P := fun h => hb ((h1 _).2 h)
    have e : ∀ k, OpenId vid (P ++ [.enter q, .leave q]) k ↔ OpenId vid P k := by
      intro k
      have e1 : enteredIds vid (P ++ [.enter q, .leave q]) = enteredIds vid P ++ [vid q.last] := by
        rw [enteredIds_append]; rfl
      have e2 : leftIds vid (P ++ [.enter q, .leave q]) = leftIds vid P ++ [vid q.last] := by
        rw [leftIds_append]; rfl
      simp only [OpenId, e1, e2, List.mem_append, List.mem_singleton, not_or]
      constructor
      · rintro ⟨h | h, h4, h5⟩
        · exact ⟨h, h4⟩
        · exact absurd h h5
      · rintro ⟨h4, h5⟩
        exact ⟨.inl h4, h5, fun e => hnb (e ▸ h4)⟩
    obtain ⟨a1, a2, a3, a4⟩ := ih (P ++ [.enter q, .leave q]) (by
        intro k
        have e1 : enteredIds vid (P ++ [.enter q, .leave q]) = enteredIds vid P ++ [vid q.last] := by
          rw [enteredIds_append]; rfl
        rw [e1, List.mem_append, List.mem_singleton, ← h1]
        exact or_comm) (by
        intro k
        have e1 : enteredIds vid (P ++ [.enter q, .leave q]) = enteredIds vid P ++ [vid q.last] := by
          rw [enteredIds_append]; rfl
        have e2 : leftIds vid (P ++ [.enter q, .leave q]) = leftIds vid P ++ [vid q.last] := by
          rw [leftIds_append]; rfl
        rw [e1, e2, List.mem_append, List.mem_append]
        exact Or.imp_left (h2 k))
      (fun q' hq' k => by rw [e]; exact h3 q' (List.mem_cons_of_mem _ hq') k)
    have ea : P ++ [.enter q, .leave q] ++ acts = P ++ (.enter q :: .leave q :: acts) := by simp
    rw [ea] at a1 a2 a3
    refine ⟨a1, a2, fun k => (a3 k).trans (e k), ?_⟩
    intro pre q' post e'
    match pre, e' with
    | [], e' => simp at e'
    | [a], e' => simp at e'
    | a :: b :: pre, e' =>
      simp only [List.cons_append, List.cons.injEq] at e'
      obtain ⟨rfl, rfl, e'⟩ := e'
      have := a4 pre q' post e'
      simpa using this
  | @enter vis n q qs acts1 vis1 n1 acts2 vis2 n2 hb _ _ _ ih1 ih2 =>
    intro P h1 h2 h3
    have hnb : vid q.last ∉ enteredIds vid P := fun h => hb ((h1 _).2 h)
    have hnl : vid q.last ∉ leftIds vid P := fun h => hnb (h2 _ h)
    have eo : ∀ k, OpenId vid (P ++ [.enter q]) k ↔ OpenId vid P k ∨ k = vid q.last := by
      intro k
      simp only [OpenId, enteredIds_append, enteredIds_enter, leftIds_append, leftIds_enter, List.append_nil,
        List.mem_append, List.mem_singleton]
      constructor
      · rintro ⟨h | h, h4⟩
        · exact .inl ⟨h, h4⟩
        · exact .inr h
      · rintro (⟨h4, h5⟩ | rfl)
        · exact ⟨.inl h4, h5⟩
        · exact ⟨.inr rfl, hnl⟩
    obtain ⟨a1, a2, a3, a4⟩ := ih1 (P ++ [.enter q]) (by
        intro k
        rw [enteredIds_append, enteredIds_enter, List.mem_append, List.mem_singleton, ← h1]
        exact or_comm) (by
        intro k hk
        rw [enteredIds_append]
        exact List.mem_append_left _ (h2 k (by simpa using hk))) (by
        intro q' hq' k
        obtain ⟨ed, he, rfl⟩ := mem_children.1 hq'
        rw [SPath.init_snoc, ← q.init_append_last, List.map_append, List.mem_append, h3 q List.mem_cons_self, eo]
        simp)
    have eb : ∀ k, OpenId vid (P ++ [.enter q] ++ acts1 ++ [.leave q]) k ↔ OpenId vid P k := by
      intro k
      have : OpenId vid (P ++ [.enter q] ++ acts1 ++ [.leave q]) k ↔
          OpenId vid (P ++ [.enter q] ++ acts1) k ∧ k ≠ vid q.last := by
        unfold OpenId
        rw [enteredIds_append (b := [.leave q]), leftIds_append (b := [.leave q]), enteredIds_leave, leftIds_leave,
          List.append_nil, List.mem_append, List.mem_singleton, not_or, and_assoc]
      rw [this, a3, eo]
      constructor
      · rintro ⟨h | h, h4⟩
        · exact h
        · exact absurd h h4
      · intro h
        exact ⟨.inl h, fun e => hnb (e ▸ h.1)⟩
    obtain ⟨b1, b2, b3, b4⟩ := ih2 (P ++ [.enter q] ++ acts1 ++ [.leave q]) (by
        intro k
        rw [enteredIds_append (b := [.leave q]), enteredIds_leave, List.append_nil]
        exact a1 k) (by
        intro k hk
        rw [enteredIds_append (b := [.leave q]), enteredIds_leave, List.append_nil]
        rw [leftIds_append (b := [.leave q]), leftIds_leave, List.mem_append, List.mem_singleton] at hk
        rcases hk with hk | rfl
        · exact a2 k hk
        · rw [enteredIds_append, enteredIds_append, enteredIds_enter]
          simp) (by
        intro q' hq' k
        rw [eb]; exact h3 q' (List.mem_cons_of_mem _ hq') k)
    have ea : P ++ [.enter q] ++ acts1 ++ [.leave q] ++ acts2 = P ++ (.enter q :: acts1 ++ .leave q :: acts2) := by simp
    rw [ea] at b1 b2 b3
    refine ⟨b1, b2, fun k => (b3 k).trans (eb k), ?_⟩
    intro pre q' post e'
    cases pre with
    | nil => simp at e'
    | cons a pre =>
      simp only [List.cons_append, List.cons.injEq] at e'
      obtain ⟨rfl, e'⟩ := e'
      rw [append_cons_eq]
      rcases List.append_eq_append_iff.1 e' with ⟨as, rfl, e''⟩ | ⟨bs, e'', e3⟩
      · cases as with
        | nil => simp at e''
        | cons x as =>
          simp only [List.cons_append, List.cons.injEq] at e''
          obtain ⟨rfl, e''⟩ := e''
          have := b4 as q' post e''
          simpa using this
      · cases bs with
        | nil => simp at e3
        | cons x bs =>
          simp only [List.cons_append, List.cons.injEq] at e3
          obtain ⟨rfl, e3⟩ := e3
          exact a4 pre q' bs e''

theorem SPath_init_parent {q : SPath V L} (h : q.isStart = false) : ∃ A, q.init = A ++ [q.parent] := by
  have hne : q.init ≠ [] := by
    intro e
    have := q.init_append_last
    rw [e, List.nil_append] at this
    unfold SPath.verts at this
    obtain ⟨f, st⟩ := q
    cases st with
    | nil => simp [SPath.isStart] at h
    | cons a l => simp at this
  refine ⟨q.init.dropLast, ?_⟩
  unfold SPath.parent
  rw [List.getLast?_eq_getLast_of_ne_nil hne, Option.getD_some, List.dropLast_append_getLast]

theorem not_before {l : List K} (hn : l.Nodup) {A : List K} {k j : K} (hs : (A ++ [k]).Sublist l) (hj : j ∈ A ++ [k]) :
    ¬ Before l k j := by
  rintro ⟨X, Y, rfl, hY⟩
  have hn' := List.nodup_append.1 hn
  have hn2 := List.nodup_cons.1 hn'.2.1
  rcases List.mem_append.1 hj with hj | hj
  · obtain ⟨A1, A2, rfl⟩ := List.append_of_mem hj
    have h2 : [j, k].Sublist (X ++ k :: Y) := by
      refine List.Sublist.trans ?_ hs
      rw [List.append_assoc]
      refine List.Sublist.trans ?_ (List.sublist_append_right A1 _)
      rw [List.cons_append]
      exact List.Sublist.cons₂ _ (List.sublist_append_right A2 [k])
    obtain ⟨B1, B2, e⟩ : ∃ B1 B2, j :: Y = B1 ++ B2 := ⟨_, _, (List.nil_append _).symm⟩
    rw [List.sublist_append_iff] at h2
    obtain ⟨l1, l2, e, h3, h4⟩ := h2
    have hjX : j ∉ X := fun h => hn'.2.2 j h j (List.mem_cons_of_mem _ hY) rfl
    cases l1 with
    | nil =>
      rw [List.nil_append] at e
      subst e
      cases h4 with
      | cons _ h => exact hn2.1 (h.subset (by simp))
      | cons_cons _ h => exact hn2.1 hY
    | cons a l1 =>
      simp only [List.cons_append, List.cons.injEq] at e
      exact hjX (e.1 ▸ h3.subset List.mem_cons_self)
  · rw [List.mem_singleton] at hj
    subst hj
    exact hn2.1 hY

theorem before_total {l : List K} {k j : K} (hk : k ∈ l) (hj : j ∈ l) (hne : k ≠ j) : Before l k j ∨ Before l j k := by
  obtain ⟨A, B, rfl⟩ := List.append_of_mem hk
  rcases List.mem_append.1 hj with h | h
  · obtain ⟨C, D, rfl⟩ := List.append_of_mem h
    exact .inr ⟨C, D ++ k :: B, by simp, by simp⟩
  · rcases List.mem_cons.1 h with h | h
    · exact absurd h.symm hne
    · exact .inl ⟨A, B, rfl, h⟩

theorem before_asymm {l : List K} (hn : l.Nodup) {k j : K} (h : Before l k j) : ¬ Before l j k := by
  obtain ⟨A, B, rfl, hB⟩ := h
  obtain ⟨C, D, rfl⟩ := List.append_of_mem hB
  refine not_before (A := [k]) hn ?_ (by simp)
  refine List.Sublist.trans ?_ (List.sublist_append_right A _)
  exact List.Sublist.cons₂ _ (List.singleton_sublist.2 (by simp))

/-- A path that enters its first vertex again. -/
theorem enteredEvent_eq {q : SPath V L} (h : q.last = q.first → q.isStart = true) :
    enteredEvent q = if q.isStart then .enteringStart else .enteringSuccessor := by
  unfold enteredEvent
  by_cases hs : q.isStart = true
  · rw [if_pos (SPath.last_of_isStart hs), if_pos hs]
  · rw [if_neg (fun e => hs (h e)), if_neg hs]

theorem isStart_of_nodup {q : SPath V L} {vid : V → K} (hn : (q.verts.map vid).Nodup) (h : q.last = q.first) :
    q.isStart = true := by
  by_contra hs
  obtain ⟨f, st⟩ := q
  cases st with
  | nil => simp [SPath.isStart] at hs
  | cons e st =>
    have h1 : (⟨f, e :: st⟩ : SPath V L).last ∈ (e :: st).map Prod.fst := by
      have h2 : (⟨f, e :: st⟩ : SPath V L).last = ((e :: st).map Prod.fst).getLast (by simp) := by
        unfold SPath.last
        simp only
        rw [List.getLast?_eq_getLast_of_ne_nil (by simp)]
        rfl
      rw [h2]; exact List.getLast_mem _
    rw [h] at h1
    simp only [SPath.verts, List.map_cons, List.nodup_cons] at hn
    exact hn.1 (by simpa using List.mem_map_of_mem (f := vid) h1)

section

variable {g : TravGear V K L S M ML} {c : TraceCfg V K L} {already : S} {starts : List V}

open Classical in
/-- In mode `DFS_TREE`, with restrictions for the requested events, the code makes a report for an act exactly if the
specification says so, and with the same event. -/
theorem classify {pre : List (DfsAct V L)} {a : DfsAct V L} (hok : c.Ok) (hr : c.rule = .tree)
    (hf : TrFact g c already starts pre a) (hsub : (a.path.init.map c.vid).Sublist (enteredIds c.vid pre))
    (hfc : c.report .forwardOrCrossEdge = false) (hcb : c.report .crossEdge = true → c.report .backEdge = true)
    (hai : c.computeIndex = true → ∀ k, ¬ g.so.contains already k = true) :
    (shown c (pre, a) = (decide (eventOf c.report c.vid pre a ≠ .none) && c.report (eventOf c.report c.vid pre a))) ∧
    (shown c (pre, a) = true → codeEvent c pre a = eventOf c.report c.vid pre a) := by
  have same : codeEvent c pre a = eventOf c.report c.vid pre a →
      (shown c (pre, a) = (decide (eventOf c.report c.vid pre a ≠ .none) && c.report (eventOf c.report c.vid pre a))) ∧
      (shown c (pre, a) = true → codeEvent c pre a = eventOf c.report c.vid pre a) := by
    intro e
    refine ⟨?_, fun _ => e⟩
    unfold shown
    rw [e]
  have nothing : codeEvent c pre a = .none →
      (eventOf c.report c.vid pre a ≠ .none → c.report (eventOf c.report c.vid pre a) = false) →
      (shown c (pre, a) = (decide (eventOf c.report c.vid pre a ≠ .none) && c.report (eventOf c.report c.vid pre a))) ∧
      (shown c (pre, a) = true → codeEvent c pre a = eventOf c.report c.vid pre a) := by
    intro e1 e2
    have : shown c (pre, a) = false := by unfold shown; simp [e1]
    rw [this]
    refine ⟨?_, by simp⟩
    by_cases h : eventOf c.report c.vid pre a = .none
    · simp [h]
    · simp [h, e2 h]
  have hn := hf.nodup (by rw [hr]; simp)
  cases a with
  | enter q => exact same (enteredEvent_eq (isStart_of_nodup hn))
  | leave q => exact same rfl
  | skip q =>
    cases hs : q.isStart with
    | true => exact same (by simp [codeEvent, eventOf, hs])
    | false =>
      by_cases hsn : c.report .someNonTreeEdge = true
      · exact same (by simp [codeEvent, eventOf, hs, hsn])
      obtain ⟨hg, hopen⟩ := hf.skip hr q rfl
      obtain ⟨A, hA⟩ := SPath_init_parent hs
      have hN := (hf.entN hr).1
      have hback : c.vid q.last ∈ q.init.map c.vid ↔ IsBackEdge c.vid pre q.last := hopen _
      have hpar : c.vid q.parent ∈ enteredIds c.vid pre := hsub.subset (by
        show c.vid q.parent ∈ q.init.map c.vid
        rw [hA]; simp)
      by_cases hb : IsBackEdge c.vid pre q.last
      · have hev : eventOf c.report c.vid pre (.skip q) = .backEdge := by simp [eventOf, hs, hsn, hb]
        cases hrb : c.report .backEdge with
        | true => exact same (by rw [hev]; simp [codeEvent, hs, hsn, hrb, hback.2 hb])
        | false =>
          have hcr : c.report .crossEdge = false := by
            cases h : c.report .crossEdge with
            | false => rfl
            | true => exact absurd (hcb h) (by simp [hrb])
          refine nothing ?_ (fun _ => by rw [hev, hrb])
          have hlt : ¬ indexOf (enteredIds c.vid pre) (c.vid q.parent) < indexOf (enteredIds c.vid pre) (c.vid q.last) := by
            rw [indexOf_lt_iff hN hpar hb.1]
            have hs' : ((A.map c.vid) ++ [c.vid q.parent]).Sublist (enteredIds c.vid pre) := by
              have := hsub
              simp only [DfsAct.path] at this
              rw [hA] at this
              simpa using this
            refine not_before hN hs' ?_
            have := hback.2 hb
            rw [hA] at this
            simpa using this
          simp [codeEvent, hs, hsn, hrb, hcr, hlt]
      · have hnb : ¬ c.vid q.last ∈ q.init.map c.vid := fun h => hb (hback.1 h)
        by_cases hfx : (c.report .forwardEdge || c.report .crossEdge) = true
        · have hae := hai (hok.index hr hfx)
          have hent : c.vid q.last ∈ enteredIds c.vid pre := by
            rcases hg with h | h
            · exact absurd h (hae _)
            · exact h
          have hleft : c.vid q.last ∈ leftIds c.vid pre := by
            by_contra h
            exact hb ⟨hent, h⟩
          have hne : c.vid q.parent ≠ c.vid q.last := by
            intro e
            exact hnb (by rw [← e, hA]; simp)
          by_cases hlt : Before (enteredIds c.vid pre) (c.vid q.parent) (c.vid q.last)
          · have hev : eventOf c.report c.vid pre (.skip q) = .forwardEdge := by
              have : IsForwardEdge c.vid pre q.parent q.last := ⟨hleft, hlt⟩
              simp [eventOf, hs, hsn, hb, hfc, this]
            have hi := (indexOf_lt_iff hN hpar hent).2 hlt
            have hcode : codeEvent c pre (.skip q) = if c.report .forwardEdge then .forwardEdge else .none := by
              simp only [codeEvent, hs, hsn, hnb, hfx, hi, if_true, if_false, Bool.false_eq_true, decide_false,
                Bool.and_false]
            cases hrf : c.report .forwardEdge with
            | true => exact same (by rw [hev, hcode, hrf]; rfl)
            | false => exact nothing (by rw [hcode, hrf]; rfl) (fun _ => by rw [hev, hrf])
          · have hbt : Before (enteredIds c.vid pre) (c.vid q.last) (c.vid q.parent) :=
              (before_total hpar hent hne).resolve_left hlt
            have hev : eventOf c.report c.vid pre (.skip q) = .crossEdge := by
              have h1 : ¬ IsForwardEdge c.vid pre q.parent q.last := fun h => hlt h.2
              have h2 : IsCrossEdge c.vid pre q.parent q.last := ⟨hleft, hbt⟩
              simp [eventOf, hs, hsn, hb, hfc, h1, h2]
            have hi := (indexOf_lt_iff hN hpar hent).not.2 hlt
            have hcode : codeEvent c pre (.skip q) = if c.report .crossEdge then .crossEdge else .none := by
              simp only [codeEvent, hs, hsn, hnb, hfx, hi, if_true, if_false, Bool.false_eq_true, decide_false,
                Bool.and_false]
            cases hrc : c.report .crossEdge with
            | true => exact same (by rw [hev, hcode, hrc]; rfl)
            | false => exact nothing (by rw [hcode, hrc]; rfl) (fun _ => by rw [hev, hrc])
        · have hfx' : c.report .forwardEdge = false ∧ c.report .crossEdge = false := by simpa using hfx
          refine nothing ?_ ?_
          · simp [codeEvent, hs, hsn, hnb, hfx'.1, hfx'.2]
          · intro hne
            by_cases h1 : IsForwardEdge c.vid pre q.parent q.last
            · have hev : eventOf c.report c.vid pre (.skip q) = .forwardEdge := by simp [eventOf, hs, hsn, hb, hfc, h1]
              rw [hev, hfx'.1]
            · by_cases h2 : IsCrossEdge c.vid pre q.parent q.last
              · have hev : eventOf c.report c.vid pre (.skip q) = .crossEdge := by
                  simp [eventOf, hs, hsn, hb, hfc, h1, h2]
                rw [hev, hfx'.2]
              · have hev : eventOf c.report c.vid pre (.skip q) = .none := by simp [eventOf, hs, hsn, hb, hfc, h1, h2]
                exact absurd hev hne

end

end NoGraphs
