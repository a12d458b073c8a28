import Verif.Proofs.DfsFrames
import Mathlib.Data.List.Perm.Subperm
import Mathlib.Data.List.Nodup

/-! More about the recursive search: nesting, existence, and the search of all simple paths. -/

set_option linter.unusedSectionVars false

namespace NoGraphs

open Spec

variable {V K L : Type} [DecidableEq V] [DecidableEq K]
variable {next : V → List (V × L)} {vid : V → K} {rule : DfsRule} {prune : Nat → SPath V L → Bool}
variable {vis vis' : K → Prop} {n n' : Nat} {qs : List (SPath V L)} {acts : List (DfsAct V L)}

/-! ## Nesting -/

theorem Spec.Dfs.nested (h : Dfs next vid rule prune vis n qs acts vis' n') : Nested acts := by
  induction h with
  | nil => exact .nil
  | skip _ _ ih => exact .skip ih
  | prune _ _ _ ih => exact .node .nil ih
  | enter _ _ _ _ ih1 ih2 => exact .node ih1 ih2

/-- Entering and leaving in a list of acts. -/
def inOut (acts : List (DfsAct V L)) : List (Bool × V) :=
  acts.filterMap (fun a => match a with
    | .enter q => some (true, q.last)
    | .leave q => some (false, q.last)
    | .skip _ => none)

theorem inOut_append (a b : List (DfsAct V L)) : inOut (a ++ b) = inOut a ++ inOut b := by simp [inOut]

theorem Spec.Nested.bracketed (h : Nested acts) : Bracketed (inOut acts) := by
  induction h with
  | nil => exact .nil
  | skip _ ih => simpa [inOut] using ih
  | @node q a b _ _ ih1 ih2 =>
    have : inOut (.enter q :: a ++ .leave q :: b) = (true, q.last) :: inOut a ++ (false, q.last) :: inOut b := by
      simp [inOut]
    rw [this]
    exact .node ih1 ih2

theorem Spec.Nested.perm (h : Nested acts) : (leftPaths acts).Perm (entered acts) := by
  induction h with
  | nil => exact .refl _
  | skip _ ih => simpa [leftPaths] using ih
  | @node q a b _ _ ih1 ih2 =>
    have e1 : leftPaths (.enter q :: a ++ .leave q :: b) = leftPaths a ++ q :: leftPaths b := by simp [leftPaths]
    have e2 : entered (.enter q :: a ++ .leave q :: b) = q :: (entered a ++ entered b) := by simp [entered]
    rw [e1, e2]
    exact List.perm_middle.trans (.cons _ (ih1.append ih2))

theorem inOut_enters (acts : List (DfsAct V L)) :
    ((inOut acts).filter (fun x => x.1)).map (fun x => x.2) = (entered acts).map SPath.last := by
  induction acts with
  | nil => rfl
  | cons a acts ih => cases a <;> simpa [inOut, entered] using ih

theorem inOut_leaves (acts : List (DfsAct V L)) :
    ((inOut acts).filter (fun x => !x.1)).map (fun x => x.2) = (leftPaths acts).map SPath.last := by
  induction acts with
  | nil => rfl
  | cons a acts ih => cases a <;> simpa [inOut, leftPaths] using ih

/-! ## Reachable vertices -/

/-- In a depth-first search, each entered vertex is reachable by vertices not already visited. -/
theorem Spec.Dfs.reach {vis0 : K → Prop} {P : V → Prop}
    (h : Dfs next vid .tree prune vis n qs acts vis' n') (h0 : ∀ k, vis0 k → vis k)
    (hq : ∀ q ∈ qs, ¬ vis0 (vid q.last) → Reachable (Allowed next vid vis0) P q.last) :
    ∀ q ∈ entered acts, ¬ vis0 (vid q.last) ∧ Reachable (Allowed next vid vis0) P q.last := by
  induction h with
  | nil => simp
  | skip _ _ ih =>
    simpa using ih h0 (fun q h => hq q (List.mem_cons_of_mem _ h))
  | @prune vis n q qs acts vis' n' hb _ _ ih =>
    have hn : ¬ vis0 (vid q.last) := fun h => hb (h0 _ h)
    intro p hp
    have hp' : p = q ∨ p ∈ entered acts := by simpa [entered] using hp
    rcases hp' with rfl | hp'
    · exact ⟨hn, hq p List.mem_cons_self hn⟩
    · exact ih (fun k h => .inr (h0 k h)) (fun q h => hq q (List.mem_cons_of_mem _ h)) p hp'
  | @enter vis n q qs acts1 vis1 n1 acts2 vis2 n2 hb _ h1 _ ih1 ih2 =>
    have hn : ¬ vis0 (vid q.last) := fun h => hb (h0 _ h)
    have hq0 := hq q List.mem_cons_self hn
    intro p hp
    have hp' : p = q ∨ p ∈ entered acts1 ∨ p ∈ entered acts2 := by simpa [entered] using hp
    rcases hp' with rfl | hp' | hp'
    · exact ⟨hn, hq0⟩
    · refine ih1 (fun k h => .inr (h0 k h)) ?_ p hp'
      intro q' hq' hn'
      obtain ⟨e, he, rfl⟩ := mem_children.1 hq'
      rw [SPath.last_snoc] at hn' ⊢
      exact hq0.step ⟨⟨e.2, he⟩, hn'⟩
    · exact ih2 (fun k h => h1.mono (.inr (h0 k h))) (fun q h => hq q (List.mem_cons_of_mem _ h)) p hp'

/-! ## Existence -/

theorem Spec.Dfs.le (h : Dfs next vid rule prune vis n qs acts vis' n') : n' = n + (entered acts).length := by
  induction h with
  | nil => simp
  | skip _ _ ih => simpa using ih
  | prune _ _ _ ih => simp [entered] at ih ⊢; omega
  | enter _ _ _ _ ih1 ih2 => simp [entered] at ih1 ih2 ⊢; omega

theorem Spec.Dfs.congr_prune {pr : Nat → SPath V L → Bool} (h : Dfs next vid rule prune vis n qs acts vis' n')
    (hp : ∀ m q, m < n' → pr m q = prune m q) : Dfs next vid rule pr vis n qs acts vis' n' := by
  induction h with
  | nil => exact .nil
  | skip hb _ ih => exact .skip hb (ih hp)
  | prune hb hpr h ih =>
    have := h.le
    exact .prune hb (by rw [hp _ _ (by omega)]; exact hpr) (ih hp)
  | enter hb hpr h1 h2 ih1 ih2 =>
    have e1 := h1.le
    have e2 := h2.le
    exact .enter hb (by rw [hp _ _ (by omega)]; exact hpr) (ih1 (fun m q hm => hp m q (by omega))) (ih2 hp)

/-- If finitely many ids can be reached, the depth-first search ends. -/
theorem dfs_exists_tree (prune : Nat → SPath V L → Bool) (vis : K → Prop) (starts : List V)
    (hfin : ∃ ids : List K, ∀ v, Reachable (Allowed next vid vis) (fun v => v ∈ starts ∧ ¬ vis (vid v)) v → vid v ∈ ids) :
    ∃ acts vis' n', Dfs next vid .tree prune vis 0 (starts.map SPath.single) acts vis' n' := by
  obtain ⟨ids, hids⟩ := hfin
  obtain ⟨acts, vis', n', h, -⟩ := Spec.Dfs.exists_of_bound (next := next) (vid := vid) (rule := .tree)
    (prune := fun m q => if m < ids.length then prune m q else true) ids.length
    (fun m q hm => if_neg (by omega)) vis 0 (starts.map SPath.single)
  have hr := h.reach (vis0 := vis) (P := fun v => v ∈ starts ∧ ¬ vis (vid v)) (fun _ h => h) (by
    intro q hq hn
    obtain ⟨v, hv, rfl⟩ := List.mem_map.1 hq
    exact .start ⟨by simpa using hv, hn⟩)
  have hnd := (Spec.Dfs.visited ⟨acts, h, rfl⟩).2.1
  have hle : (entered acts).length ≤ ids.length := by
    have hsub : (entered acts).map (fun q => vid q.last) ⊆ ids := by
      intro k hk
      obtain ⟨q, hq, rfl⟩ := List.mem_map.1 hk
      exact hids _ (hr q hq).2
    simpa using (List.Nodup.subperm hnd hsub).length_le
  refine ⟨acts, vis', n', h.congr_prune (fun m q hm => ?_)⟩
  have := h.le
  rw [if_pos (by omega)]

/-- If finitely many ids can be reached, the search of all simple paths ends. -/
theorem dfs_exists_paths (prune : Nat → SPath V L → Bool) (vis : K → Prop) (starts : List V)
    (hfin : ∃ ids : List K, ∀ v, Reachable (Edge next) (· ∈ starts) v → vid v ∈ ids) :
    ∃ acts vis' n', Dfs next vid .paths prune vis 0 (starts.map SPath.single) acts vis' n' := by
  obtain ⟨ids, hids⟩ := hfin
  have hmem : ∀ q : SPath V L, GPath next starts q → ∀ v ∈ q.verts, vid v ∈ ids := by
    intro q hq v hv
    have key : ∀ (steps : List (V × L)) (s : V), Reachable (Edge next) (· ∈ starts) s → IsPath next s steps →
        ∀ v ∈ s :: steps.map Prod.fst, Reachable (Edge next) (· ∈ starts) v := by
      intro steps
      induction steps with
      | nil => intro s hs _ v hv; rw [List.map_nil, List.mem_singleton] at hv; exact hv ▸ hs
      | cons e r ih =>
        obtain ⟨w, l⟩ := e
        rintro s hs ⟨h1, h2⟩ v hv
        rcases List.mem_cons.1 hv with rfl | hv
        · exact hs
        · exact ih w (hs.step ⟨l, h1⟩) h2 v hv
    exact hids v (key q.steps q.first (.start hq.1) hq.2 v hv)
  have key : ∀ d (qs : List (SPath V L)) (n : Nat) (vis : K → Prop),
      (∀ q ∈ qs, GPath next starts q ∧ (q.init.map vid).Nodup ∧ ids.length < q.verts.length + d) →
      ∃ acts vis' n', Dfs next vid .paths prune vis n qs acts vis' n' := by
    intro d
    induction d with
    | zero =>
      intro qs
      induction qs with
      | nil => intro n vis _; exact ⟨[], vis, n, .nil⟩
      | cons q qs ih =>
        intro n vis hq
        obtain ⟨acts, v', n', h⟩ := ih n vis (fun q h => hq q (List.mem_cons_of_mem _ h))
        obtain ⟨h1, h2, h3⟩ := hq q List.mem_cons_self
        refine ⟨_, v', n', .skip ?_ h⟩
        show vid q.last ∈ q.init.map vid
        by_contra hc
        have hnd : (q.verts.map vid).Nodup := by
          rw [← q.init_append_last, List.map_append, List.nodup_append]
          refine ⟨h2, by simp, ?_⟩
          rintro a ha b hb rfl
          rw [List.map_singleton, List.mem_singleton] at hb
          exact hc (hb ▸ ha)
        have hsub : q.verts.map vid ⊆ ids := by
          intro k hk
          obtain ⟨v, hv, rfl⟩ := List.mem_map.1 hk
          exact hmem q h1 v hv
        have := (List.Nodup.subperm hnd hsub).length_le
        rw [List.length_map] at this
        omega
    | succ d ihd =>
      intro qs
      induction qs with
      | nil => intro n vis _; exact ⟨[], vis, n, .nil⟩
      | cons q qs ih =>
        intro n vis hq
        have hq' : ∀ q ∈ qs, _ := fun q h => hq q (List.mem_cons_of_mem _ h)
        by_cases hb : (DfsRule.paths).Blocks vid vis q
        · obtain ⟨acts, v', n', h⟩ := ih n vis hq'
          exact ⟨_, v', n', .skip hb h⟩
        · cases hp : prune n q with
          | true =>
            obtain ⟨acts, v', n', h⟩ := ih (n + 1) (insertId vis (vid q.last)) hq'
            exact ⟨_, v', n', .prune hb hp h⟩
          | false =>
            obtain ⟨h1, h2, h3⟩ := hq q List.mem_cons_self
            obtain ⟨a1, v1, n1, h4⟩ := ihd (children next q) (n + 1) (insertId vis (vid q.last)) (by
              intro q' hq'
              obtain ⟨e, he, rfl⟩ := mem_children.1 hq'
              refine ⟨h1.snoc he, ?_, ?_⟩
              · rw [SPath.init_snoc, ← q.init_append_last, List.map_append, List.nodup_append]
                refine ⟨h2, by simp, ?_⟩
                rintro a ha b hb' rfl
                rw [List.map_singleton, List.mem_singleton] at hb'
                exact hb (show vid q.last ∈ q.init.map vid from hb' ▸ ha)
              · rw [SPath.verts_snoc', List.length_append, List.length_singleton]; omega)
            obtain ⟨a2, v2, n2, h5⟩ := ih n1 v1 hq'
            exact ⟨_, v2, n2, .enter hb hp h4 h5⟩
  refine key ids.length (starts.map SPath.single) 0 vis ?_
  intro q hq
  obtain ⟨v, hv, rfl⟩ := List.mem_map.1 hq
  exact ⟨.single hv, by simp, by simp [SPath.single, SPath.verts]⟩

/-! ## All simple paths -/

/-- `p` is `q`, or an extension of `q`, by edges of the graph. -/
def Extends (next : V → List (V × L)) (q p : SPath V L) : Prop :=
  p.first = q.first ∧ ∃ st, p.steps = q.steps ++ st ∧ IsPath next q.last st

theorem Extends.child {q p : SPath V L} : Extends next q p ↔ p = q ∨ ∃ e ∈ next q.last, Extends next (q.snoc e.1 e.2) p := by
  obtain ⟨f, st⟩ := p
  constructor
  · rintro ⟨h1, s, h2, h3⟩
    simp only at h1 h2
    cases s with
    | nil =>
      left
      cases q; simp_all
    | cons e r =>
      obtain ⟨w, l⟩ := e
      exact .inr ⟨(w, l), h3.1, h1, r, by simp [SPath.snoc, h2], by rw [SPath.last_snoc]; exact h3.2⟩
  · rintro (rfl | ⟨e, he, h1, s, h2, h3⟩)
    · exact ⟨rfl, [], by simp, trivial⟩
    · rw [SPath.last_snoc] at h3
      exact ⟨h1, e :: s, by simpa [SPath.snoc] using h2, he, h3⟩

theorem Extends.verts_prefix {q p : SPath V L} (h : Extends next q p) : q.verts <+: p.verts := by
  obtain ⟨h1, st, h2, -⟩ := h
  exact ⟨st.map Prod.fst, by simp [SPath.verts, h1, h2]⟩

/-- Two extensions of a path by different edges are not extensions of the same path. -/
theorem Extends.disjoint {q p : SPath V L} {e e' : V × L} (h : Extends next (q.snoc e.1 e.2) p)
    (h' : Extends next (q.snoc e'.1 e'.2) p) : e = e' := by
  obtain ⟨-, st, h2, -⟩ := h
  obtain ⟨-, st', h2', -⟩ := h'
  rw [h2] at h2'
  simp only [SPath.snoc, List.append_assoc, List.append_cancel_left_eq, List.singleton_append, List.cons.injEq] at h2'
  exact h2'.1

/-- What a search of all simple paths enters. -/
theorem Spec.Dfs.simple (h : Dfs next vid .paths noPrune vis n qs acts vis' n')
    (hq : ∀ q ∈ qs, (q.init.map vid).Nodup) (p : SPath V L) :
    p ∈ entered acts ↔ (∃ q ∈ qs, Extends next q p) ∧ (p.verts.map vid).Nodup := by
  induction h with
  | nil => simp
  | @skip vis n q qs acts vis' n' hb _ ih =>
    have := ih (fun q h => hq q (List.mem_cons_of_mem _ h)) 
    simp only [entered_skip, this]
    constructor
    · rintro ⟨⟨q', h1, h2⟩, h3⟩
      exact ⟨⟨q', List.mem_cons_of_mem _ h1, h2⟩, h3⟩
    · rintro ⟨⟨q', h1, h2⟩, h3⟩
      rcases List.mem_cons.1 h1 with rfl | h1
      · exfalso
        obtain ⟨t, ht⟩ := h2.verts_prefix
        rw [← ht, ← q'.init_append_last, List.append_assoc, List.map_append, List.nodup_append] at h3
        exact h3.2.2 _ hb _ (by simp) rfl
      · exact ⟨⟨q', h1, h2⟩, h3⟩
  | prune _ hp => simp [noPrune] at hp
  | @enter vis n q qs acts1 vis1 n1 acts2 vis2 n2 hb _ _ _ ih1 ih2 =>
    have hq0 := hq q List.mem_cons_self
    have hnd : (q.verts.map vid).Nodup := by
      rw [← q.init_append_last, List.map_append, List.nodup_append]
      refine ⟨hq0, by simp, ?_⟩
      rintro a ha b hb' rfl
      rw [List.map_singleton, List.mem_singleton] at hb'
      exact hb (show vid q.last ∈ q.init.map vid from hb' ▸ ha)
    have e1 := ih1 (by
      intro q' hq'
      obtain ⟨e, he, rfl⟩ := mem_children.1 hq'
      rw [SPath.init_snoc]; exact hnd) 
    have e2 := ih2 (fun q h => hq q (List.mem_cons_of_mem _ h)) 
    have e3 : p ∈ entered (.enter q :: acts1 ++ .leave q :: acts2) ↔ p = q ∨ p ∈ entered acts1 ∨ p ∈ entered acts2 := by
      simp [entered]
    rw [e3, e1, e2]
    constructor
    · rintro (rfl | ⟨⟨q', h1, h2⟩, h3⟩ | ⟨⟨q', h1, h2⟩, h3⟩)
      · exact ⟨⟨p, List.mem_cons_self, Extends.child.2 (.inl rfl)⟩, hnd⟩
      · obtain ⟨e, he, rfl⟩ := mem_children.1 h1
        exact ⟨⟨q, List.mem_cons_self, Extends.child.2 (.inr ⟨e, he, h2⟩)⟩, h3⟩
      · exact ⟨⟨q', List.mem_cons_of_mem _ h1, h2⟩, h3⟩
    · rintro ⟨⟨q', h1, h2⟩, h3⟩
      rcases List.mem_cons.1 h1 with rfl | h1
      · rcases Extends.child.1 h2 with h2 | ⟨e, he, h2⟩
        · exact .inl h2
        · exact .inr (.inl ⟨⟨_, mem_children.2 ⟨e, he, rfl⟩, h2⟩, h3⟩)
      · exact .inr (.inr ⟨⟨q', h1, h2⟩, h3⟩)

/-- If the vertices have no parallel edges, each path is entered once. -/
theorem Spec.Dfs.simple_nodup (hn : ∀ v, (next v).Nodup) (h : Dfs next vid .paths noPrune vis n qs acts vis' n')
    (hq : ∀ q ∈ qs, (q.init.map vid).Nodup)
    (hqs : qs.Pairwise (fun a b => ∀ p, ¬ (Extends next a p ∧ Extends next b p))) : (entered acts).Nodup := by
  induction h with
  | nil => simp
  | @skip vis n q qs acts vis' n' hb _ ih =>
    rw [entered_skip]
    exact ih (fun q h => hq q (List.mem_cons_of_mem _ h)) (List.pairwise_cons.1 hqs).2 
  | prune _ hp => simp [noPrune] at hp
  | @enter vis n q qs acts1 vis1 n1 acts2 vis2 n2 hb _ h1 h2 ih1 ih2 =>
    have hq0 := hq q List.mem_cons_self
    have hnd : (q.verts.map vid).Nodup := by
      rw [← q.init_append_last, List.map_append, List.nodup_append]
      refine ⟨hq0, by simp, ?_⟩
      rintro a ha b hb' rfl
      rw [List.map_singleton, List.mem_singleton] at hb'
      exact hb (show vid q.last ∈ q.init.map vid from hb' ▸ ha)
    have hch : ∀ q' ∈ children next q, (q'.init.map vid).Nodup := by
      intro q' hq'
      obtain ⟨e, he, rfl⟩ := mem_children.1 hq'
      rw [SPath.init_snoc]; exact hnd
    have hq2 : ∀ q ∈ qs, (q.init.map vid).Nodup := fun q h => hq q (List.mem_cons_of_mem _ h)
    have hpw : (children next q).Pairwise (fun a b => ∀ p, ¬ (Extends next a p ∧ Extends next b p)) := by
      unfold children
      rw [List.pairwise_map, List.pairwise_reverse]
      refine (hn q.last).imp ?_
      rintro a b hab p ⟨h1, h2⟩
      exact hab (h2.disjoint h1)
    have e1 := ih1 hch hpw 
    have e2 := ih2 hq2 (List.pairwise_cons.1 hqs).2 
    have e3 : entered (.enter q :: acts1 ++ .leave q :: acts2) = q :: (entered acts1 ++ entered acts2) := by
      simp [entered]
    rw [e3, List.nodup_cons, List.nodup_append]
    have s1 := fun p => h1.simple hch p
    have s2 := fun p => h2.simple hq2 p
    have hsep := (List.pairwise_cons.1 hqs).1
    refine ⟨?_, e1, e2, ?_⟩
    · intro hc
      rcases List.mem_append.1 hc with hc | hc
      · obtain ⟨⟨q', h3, h4⟩, -⟩ := (s1 q).1 hc
        obtain ⟨e, he, rfl⟩ := mem_children.1 h3
        obtain ⟨-, st, h5, -⟩ := h4
        have := congrArg List.length h5
        simp [SPath.snoc] at this
      · obtain ⟨⟨q', h3, h4⟩, -⟩ := (s2 q).1 hc
        exact hsep q' h3 q ⟨Extends.child.2 (.inl rfl), h4⟩
    · rintro a ha b hb' rfl
      obtain ⟨⟨q', h3, h4⟩, -⟩ := (s1 a).1 ha
      obtain ⟨⟨q'', h5, h6⟩, -⟩ := (s2 a).1 hb'
      obtain ⟨e, he, rfl⟩ := mem_children.1 h3
      exact hsep q'' h5 a ⟨Extends.child.2 (.inr ⟨e, he, h4⟩), h6⟩

end NoGraphs
