import Verif.Proofs.DfsNested
import Verif.Spec.DfsEvents

/-! Two recursive searches with the same decisions about pruning for the first vertices enter the same first vertices. -/

set_option linter.unusedSectionVars false

namespace NoGraphs

open Spec

variable {V K L : Type} [DecidableEq V] [DecidableEq K]
variable {next : V → List (V × L)} {vid : V → K} {rule : DfsRule} {pr1 pr2 : Nat → SPath V L → Bool}
variable {vis vis1 vis2 : K → Prop} {n n1 n2 : Nat} {qs : List (SPath V L)} {acts1 acts2 : List (DfsAct V L)}

theorem Spec.Dfs.agree (N : Nat) (hag : ∀ m q, m < N → pr1 m q = pr2 m q)
    (h1 : Dfs next vid rule pr1 vis n qs acts1 vis1 n1) :
    ∀ {acts2 vis2 n2}, Dfs next vid rule pr2 vis n qs acts2 vis2 n2 →
      (n1 ≤ N → acts2 = acts1 ∧ vis2 = vis1 ∧ n2 = n1) ∧
      (entered acts1).take (N - n) = (entered acts2).take (N - n) := by
  induction h1 with
  | nil => intro _ _ _ h2; cases h2; exact ⟨fun _ => ⟨rfl, rfl, rfl⟩, rfl⟩
  | skip hb h ih =>
    intro _ _ _ h2
    cases h2 with
    | skip hb' h' =>
      obtain ⟨i1, i2⟩ := ih h'
      refine ⟨fun hn => ?_, by simpa only [entered_skip] using i2⟩
      obtain ⟨rfl, rfl, rfl⟩ := i1 hn
      exact ⟨rfl, rfl, rfl⟩
    | prune hb' => exact absurd hb hb'
    | enter hb' => exact absurd hb hb'
  | @prune vis n q qs acts vis' n' hb hp h ih =>
    intro _ _ _ h2
    cases h2 with
    | skip hb' => exact absurd hb' hb
    | prune hb' hp' h' =>
      obtain ⟨i1, i2⟩ := ih h'
      constructor
      · intro hn
        obtain ⟨rfl, rfl, rfl⟩ := i1 hn
        exact ⟨rfl, rfl, rfl⟩
      · simp only [entered_enter, entered_leave]
        rcases Nat.lt_or_ge n N with hlt | hge
        · rw [show N - n = (N - (n + 1)) + 1 by omega, List.take_succ_cons, List.take_succ_cons, i2]
        · rw [show N - n = 0 by omega]; rfl
    | enter hb' hp' h' h'' =>
      have hge : N ≤ n := by
        by_contra hlt
        rw [hag n q (by omega), hp'] at hp
        cases hp
      have hn := h.le
      exact ⟨fun h => by omega, by rw [show N - n = 0 by omega]; rfl⟩
  | @enter vis n q qs a1 v1 m1 a2 v2 m2 hb hp h h' ih1 ih2 =>
    intro _ _ _ h2
    have hle1 := h.le
    have hle2 := h'.le
    cases h2 with
    | skip hb' => exact absurd hb' hb
    | prune hb' hp' h'' =>
      have hge : N ≤ n := by
        by_contra hlt
        rw [hag n q (by omega), hp'] at hp
        cases hp
      exact ⟨fun h => by omega, by rw [show N - n = 0 by omega]; rfl⟩
    | @enter _ _ _ _ b1 w1 l1 b2 w2 l2 hb' hp' k k' =>
      obtain ⟨i1, i2⟩ := ih1 k
      have kle := k.le
      rcases Nat.lt_or_ge n N with hlt | hge
      · rcases Nat.lt_or_ge N m1 with hgt | hle
        · refine ⟨fun h => by omega, ?_⟩
          have hlen : N - (n + 1) ≤ (entered b1).length := by
            have := congrArg List.length i2
            simp only [List.length_take] at this
            omega
          rw [List.cons_append, List.cons_append, entered_enter, entered_enter, entered_append, entered_append,
            show N - n = (N - (n + 1)) + 1 by omega, List.take_succ_cons, List.take_succ_cons,
            List.take_append_of_le_length (by omega), List.take_append_of_le_length hlen, i2]
        · obtain ⟨rfl, rfl, rfl⟩ := i1 hle
          obtain ⟨j1, j2⟩ := ih2 k'
          constructor
          · intro hn
            obtain ⟨rfl, rfl, rfl⟩ := j1 hn
            exact ⟨rfl, rfl, rfl⟩
          · rw [List.cons_append, List.cons_append, entered_enter, entered_enter, entered_append, entered_append,
              entered_leave, entered_leave, show N - n = (entered b1).length + (N - l1) + 1 by omega,
              List.take_succ_cons, List.take_succ_cons, List.take_length_add_append, List.take_length_add_append, j2]
      · exact ⟨fun h => by omega, by rw [show N - n = 0 by omega]; rfl⟩

/-- Of two beginnings of a search, one is a beginning of the other, as far as entered vertices are concerned. -/
theorem Spec.BeginsDfs.comparable {prune : Nat → SPath V L → Bool} {starts : List V}
    (h1 : BeginsDfs next vid rule prune vis starts acts1) (h2 : BeginsDfs next vid rule prune vis starts acts2)
    (hle : (entered acts1).length ≤ (entered acts2).length) : entered acts1 <+: entered acts2 := by
  obtain ⟨p1, e1, r1, v1, n1, d1⟩ := h1
  obtain ⟨p2, e2, r2, v2, n2, d2⟩ := h2
  have := (Spec.Dfs.agree (entered acts1).length (fun m q hm => by rw [e1 m q hm, e2 m q (by omega)]) d1 d2).2
  rw [Nat.sub_zero, entered_append, entered_append, List.take_left, List.take_append_of_le_length hle] at this
  rw [this]
  exact List.take_prefix _ _

/-- In a depth-first search, the path of an entered vertex leads back to its first vertex only if it is a start vertex. -/
theorem Spec.Dfs.entered_start {prune : Nat → SPath V L → Bool} {vis vis' : K → Prop} {n n' : Nat} {qs : List (SPath V L)}
    {acts : List (DfsAct V L)} (h : Dfs next vid .tree prune vis n qs acts vis' n')
    (hq : ∀ q ∈ qs, q.isStart = true ∨ vis (vid q.first)) :
    ∀ q ∈ entered acts, q.isStart = true ∨ vid q.last ≠ vid q.first := by
  induction h with
  | nil => simp [entered]
  | skip hb _ ih => exact ih (fun q h => hq q (List.mem_cons_of_mem _ h))
  | @prune vis n q qs acts vis' n' hb hp h ih =>
    have hqf : q.isStart = true ∨ vid q.last ≠ vid q.first := by
      rcases hq q List.mem_cons_self with h | h
      · exact .inl h
      · exact .inr fun e => hb (show vis _ by rw [e]; exact h)
    intro p hp
    simp only [entered_enter, entered_leave, List.mem_cons] at hp
    rcases hp with rfl | hp
    · exact hqf
    · exact ih (fun p h => (hq p (List.mem_cons_of_mem _ h)).imp_right .inr) p hp
  | @enter vis n q qs acts1 vis1 n1 acts2 vis2 n2 hb hp h h' ih1 ih2 =>
    have hqf : q.isStart = true ∨ vid q.last ≠ vid q.first := by
      rcases hq q List.mem_cons_self with h | h
      · exact .inl h
      · exact .inr fun e => hb (show vis _ by rw [e]; exact h)
    intro p hp
    simp only [List.cons_append, entered_enter, entered_append, entered_leave, List.mem_cons, List.mem_append] at hp
    rcases hp with rfl | hp | hp
    · exact hqf
    · refine ih1 (fun x hx => ?_) p hp
      obtain ⟨e, -, rfl⟩ := List.mem_map.1 hx
      refine .inr ?_
      show insertId vis (vid q.last) (vid q.first)
      rcases hq q List.mem_cons_self with hs | hs
      · left
        have : q.steps = [] := by simpa [SPath.isStart] using hs
        simp [SPath.last, this]
      · exact .inr hs
    · exact ih2 (fun x hx => (hq x (List.mem_cons_of_mem _ hx)).imp_right fun hv => h.mono (.inr hv)) p hp

/-- In a depth-first search, only the decisions about pruning for such paths matter. -/
theorem Spec.Dfs.congr_start {prune : Nat → SPath V L → Bool} {vis vis' : K → Prop} {n n' : Nat} {qs : List (SPath V L)}
    {acts : List (DfsAct V L)} (h : Dfs next vid .tree prune vis n qs acts vis' n')
    (hq : ∀ q ∈ qs, q.isStart = true ∨ vis (vid q.first))
    (hpr : ∀ n q, (q.isStart = true ∨ vid q.last ≠ vid q.first) → pr1 n q = prune n q) :
    Dfs next vid .tree pr1 vis n qs acts vis' n' := by
  induction h with
  | nil => exact .nil
  | skip hb _ ih => exact .skip hb (ih (fun q h => hq q (List.mem_cons_of_mem _ h)))
  | @prune vis n q qs acts vis' n' hb hp h ih =>
    have hqf : q.isStart = true ∨ vid q.last ≠ vid q.first := by
      rcases hq q List.mem_cons_self with h | h
      · exact .inl h
      · exact .inr fun e => hb (show vis _ by rw [e]; exact h)
    exact .prune hb (by rw [hpr n q hqf, hp]) (ih (fun p h => (hq p (List.mem_cons_of_mem _ h)).imp_right .inr))
  | @enter vis n q qs acts1 vis1 n1 acts2 vis2 n2 hb hp h h' ih1 ih2 =>
    have hqf : q.isStart = true ∨ vid q.last ≠ vid q.first := by
      rcases hq q List.mem_cons_self with h | h
      · exact .inl h
      · exact .inr fun e => hb (show vis _ by rw [e]; exact h)
    refine .enter hb (by rw [hpr n q hqf, hp]) (ih1 fun x hx => ?_)
      (ih2 (fun x hx => (hq x (List.mem_cons_of_mem _ hx)).imp_right fun hv => h.mono (.inr hv)))
    obtain ⟨e, -, rfl⟩ := List.mem_map.1 hx
    refine .inr ?_
    show insertId vis (vid q.last) (vid q.first)
    rcases hq q List.mem_cons_self with hs | hs
    · left
      have : q.steps = [] := by simpa [SPath.isStart] using hs
      simp [SPath.last, this]
    · exact .inr hs

end NoGraphs
