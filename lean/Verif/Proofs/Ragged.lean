import Verif.Spec.Ragged
import Verif.Props.MatrixGadgets

/-! Arrays that are not rectangular. -/

set_option linter.unusedSectionVars false

namespace NoGraphs.Arr

open Spec

variable {α : Type}

theorem firstSizes_limits {n : Nat} {a : ArrContent α n} {dims : List Nat} (h : FirstSizes n a dims) :
    limits n a = .ok (dimLimits dims) ∧ dims.length = n ∧ ∀ d ∈ dims, 0 < d := by
  have key : size n a = .ok (dims.map (fun d : Nat => (d : Int))) ∧ dims.length = n ∧ ∀ d ∈ dims, 0 < d := by
    induction n generalizing dims with
    | zero =>
      have h : dims = [] := h
      subst h
      exact ⟨rfl, rfl, by simp⟩
    | succ n ih =>
      obtain ⟨x, ds, h1, rfl, h2⟩ := h
      obtain ⟨k1, k2, k3⟩ := ih h2
      unfold size
      cases hr : rows a with
      | nil => rw [hr] at h1; simp at h1
      | cons y ys =>
        rw [hr] at h1
        simp only [List.head?_cons, Option.some.injEq] at h1
        subst h1
        refine ⟨?_, by simp [k2], ?_⟩
        · simp only [k1, bind, Except.bind, pure, Except.pure, List.map_cons]
        · intro d hd
          rcases List.mem_cons.1 hd with rfl | hd
          · simp
          · exact k3 d hd
  refine ⟨?_, key.2⟩
  simp only [limits, key.1, bind, Except.bind, pure, Except.pure, dimLimits, List.map_map]
  rfl

/-- Reading, for positions inside some limits. -/
theorem get_hasCell {n : Nat} {a : ArrContent α n} {dims : List Nat} (hl : dims.length = n) {q : Vec}
    (hq : Inside q (dimLimits dims)) :
    (∃ x, get n a q = .ok x ∧ ∀ y, HasCell n a q y ↔ y = x) ∨
    (get n a q = .error .indexError ∧ ∀ y, ¬ HasCell n a q y) := by
  induction n generalizing dims q with
  | zero =>
    obtain rfl : dims = [] := List.length_eq_zero_iff.1 hl
    cases q with
    | nil => exact .inl ⟨_, rfl, fun y => ⟨fun h => h.2.symm, fun h => ⟨rfl, h.symm⟩⟩⟩
    | cons c cs => simp [Inside, dimLimits] at hq
  | succ n ih =>
    cases dims with
    | nil => simp at hl
    | cons d ds =>
      cases q with
      | nil => simp [Inside, dimLimits] at hq
      | cons c cs =>
        obtain ⟨⟨h0, -⟩, hcs⟩ := inside_cons.1 hq
        rw [get_cons _ _ h0]
        have hcell : ∀ y, HasCell (n + 1) a (c :: cs) y ↔ ∃ r, (rows a)[c.toNat]? = some r ∧ HasCell n r cs y := by
          intro y
          constructor
          · rintro ⟨i, q, r, h1, h2, h3⟩
            simp only [List.cons.injEq] at h1
            obtain ⟨rfl, rfl⟩ := h1
            exact ⟨r, by simpa using h2, h3⟩
          · rintro ⟨r, h1, h2⟩
            exact ⟨c.toNat, cs, r, by rw [Int.toNat_of_nonneg h0], h1, h2⟩
        cases hr : (rows a)[c.toNat]? with
        | none =>
          refine .inr ⟨rfl, fun y h => ?_⟩
          obtain ⟨r, h1, -⟩ := (hcell y).1 h
          rw [hr] at h1; simp at h1
        | some r =>
          have hc2 : ∀ y, HasCell (n + 1) a (c :: cs) y ↔ HasCell n r cs y := by
            intro y
            rw [hcell, hr]
            simp
          simp only [hc2]
          exact ih (by simpa using hl) hcs

theorem filterAllowed_split {n : Nat} {a : ArrContent α n} {forbidden : α → Bool} (vs : List Vec) :
    ∃ pre post r, vs = pre ++ post ∧ (∀ v ∈ pre, ∃ x, get n a v = .ok x) ∧ List.Sublist r pre ∧
      (∀ v, v ∈ r ↔ v ∈ pre ∧ ∃ x, get n a v = .ok x ∧ forbidden x = false) ∧
      ((post = [] ∧ filterAllowed n a forbidden vs = (r, none)) ∨
       ∃ v post' e, post = v :: post' ∧ get n a v = .error e ∧ filterAllowed n a forbidden vs = (r, some e)) := by
  induction vs with
  | nil => exact ⟨[], [], [], rfl, by simp, .slnil, by simp, .inl ⟨rfl, rfl⟩⟩
  | cons v vs ih =>
    cases hx : get n a v with
    | error e =>
      exact ⟨[], v :: vs, [], rfl, by simp, .slnil, by simp, .inr ⟨v, vs, e, rfl, hx, by simp only [filterAllowed, hx]⟩⟩
    | ok x =>
      obtain ⟨pre, post, r, rfl, h2, h3, h4, h5⟩ := ih
      refine ⟨v :: pre, post, if forbidden x then r else v :: r, rfl, ?_, ?_, fun w => ?_, ?_⟩
      · intro w hw
        rcases List.mem_cons.1 hw with rfl | hw
        · exact ⟨x, hx⟩
        · exact h2 w hw
      · split
        · exact h3.cons _
        · exact h3.cons_cons _
      · by_cases hf : forbidden x = true
        · rw [if_pos hf, h4, List.mem_cons]
          constructor
          · rintro ⟨h6, h7⟩; exact ⟨.inr h6, h7⟩
          · rintro ⟨rfl | h6, y, hy, hfy⟩
            · rw [hx] at hy; cases hy; rw [hf] at hfy; simp at hfy
            · exact ⟨h6, y, hy, hfy⟩
        · rw [if_neg hf, List.mem_cons, h4, List.mem_cons]
          constructor
          · rintro (rfl | ⟨h6, h7⟩)
            · exact ⟨.inl rfl, x, hx, by simpa using hf⟩
            · exact ⟨.inr h6, h7⟩
          · rintro ⟨rfl | h6, h7⟩
            · exact .inl rfl
            · exact .inr ⟨h6, h7⟩
      · rcases h5 with ⟨h6, h7⟩ | ⟨w, post', e, h6, h7, h8⟩
        · exact .inl ⟨h6, by simp only [List.cons_append, filterAllowed, hx, h7]⟩
        · exact .inr ⟨w, post', e, h6, h7, by simp only [List.cons_append, filterAllowed, hx, h8]⟩

theorem filterWeighted_split {W : Type} {n : Nat} {a : ArrContent α n} {weight : α → Option W} (vs : List Vec) :
    ∃ pre post r, vs = pre ++ post ∧ (∀ v ∈ pre, ∃ x, get n a v = .ok x) ∧ List.Sublist (r.map Prod.fst) pre ∧
      (∀ v w, (v, w) ∈ r ↔ v ∈ pre ∧ ∃ x, get n a v = .ok x ∧ weight x = some w) ∧
      ((post = [] ∧ filterWeighted n a weight vs = (r, none)) ∨
       ∃ v post' e, post = v :: post' ∧ get n a v = .error e ∧ filterWeighted n a weight vs = (r, some e)) := by
  induction vs with
  | nil => exact ⟨[], [], [], rfl, by simp, .slnil, by simp, .inl ⟨rfl, rfl⟩⟩
  | cons v vs ih =>
    cases hx : get n a v with
    | error e =>
      exact ⟨[], v :: vs, [], rfl, by simp, .slnil, by simp, .inr ⟨v, vs, e, rfl, hx, by simp only [filterWeighted, hx]⟩⟩
    | ok x =>
      obtain ⟨pre, post, r, rfl, h2, h3, h4, h5⟩ := ih
      have hpre : ∀ w ∈ v :: pre, ∃ x, get n a w = .ok x := by
        intro w hw
        rcases List.mem_cons.1 hw with rfl | hw
        · exact ⟨x, hx⟩
        · exact h2 w hw
      obtain ⟨r', k1, k2, k3⟩ := filterWeighted_ok (a := a) (weight := weight) hpre
      refine ⟨v :: pre, post, r', rfl, hpre, k2, k3, ?_⟩
      have hr' : r' = (match weight x with | none => r | some w => (v, w) :: r) := by
        obtain ⟨r2, m1, -, -⟩ := filterWeighted_ok (a := a) (weight := weight) h2
        have hr2 : r2 = r := by
          clear k1 k2 k3 hpre
          rcases h5 with ⟨rfl, h7⟩ | ⟨w, post', e, rfl, h7, h8⟩
          · rw [List.append_nil, m1] at h7
            exact congrArg Prod.fst h7
          · have : ∀ l : List Vec, ∀ r2, filterWeighted n a weight l = (r2, none) →
                filterWeighted n a weight (l ++ w :: post') = (r2, some e) := by
              intro l
              induction l with
              | nil => intro r2 h; simp only [filterWeighted, Prod.mk.injEq, and_true] at h; subst h; simp [filterWeighted, h7]
              | cons u l ihl =>
                intro r2 h
                simp only [List.cons_append, filterWeighted] at h ⊢
                split at h
                · simp at h
                · rename_i y hy
                  cases hz : filterWeighted n a weight l with
                  | mk r3 o =>
                    rw [hz] at h
                    have ho : o = none := by
                      cases hw : weight y <;> simp only [hw, Prod.mk.injEq] at h <;> exact h.2
                    subst ho
                    rw [ihl r3 hz]
                    cases hw : weight y <;> simp only [hw, Prod.mk.injEq, and_true] at h ⊢ <;> exact h
            have h9 := this pre r2 m1
            rw [h8] at h9
            exact (congrArg Prod.fst h9).symm
        simp only [filterWeighted, hx, m1, hr2] at k1
        split at k1 <;> simp_all
      rcases h5 with ⟨h6, h7⟩ | ⟨w, post', e, h6, h7, h8⟩
      · left
        refine ⟨h6, ?_⟩
        simp only [List.cons_append, filterWeighted, hx, h7, hr']
        cases weight x <;> rfl
      · refine .inr ⟨w, post', e, h6, h7, ?_⟩
        simp only [List.cons_append, filterWeighted, hx, h8, hr']
        cases weight x <;> rfl

end NoGraphs.Arr
