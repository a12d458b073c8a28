import Verif.Model.MatrixGadgets
import Verif.Spec.Grid
import Mathlib.Tactic.Linarith

/-! Lemmas about positions. -/

namespace NoGraphs

open Spec

namespace Pos

theorem add_eq_zipWith (p q : Vec) : add p q = List.zipWith (· + ·) p q := by
  unfold add
  rw [List.zip, List.map_zipWith]

theorem add_cons (a b : Int) (p q : Vec) : add (a :: p) (b :: q) = (a + b) :: add p q := rfl

theorem add_length {p q : Vec} (h : p.length = q.length) : (add p q).length = p.length := by
  simp [add, h]

theorem add_sub {p q : Vec} (h : p.length = q.length) : add p (sub q p) = q := by
  induction p generalizing q with
  | nil => cases q with
    | nil => rfl
    | cons => simp at h
  | cons a p ih => cases q with
    | nil => simp at h
    | cons b q =>
      have := ih (q := q) (by simpa using h)
      simp only [sub, List.zipWith_cons_cons] at this ⊢
      rw [add_cons, this]
      congr 1; omega

theorem inCuboid_iff {p : Vec} {l : LimitsList} (h : p.length = l.length) : inCuboid p l = true ↔ Inside p l := by
  induction p generalizing l with
  | nil => cases l with
    | nil => simp [inCuboid, Inside]
    | cons => simp at h
  | cons a p ih => cases l with
    | nil => simp at h
    | cons b l =>
      have := ih (l := l) (by simpa using h)
      unfold inCuboid at this ⊢
      unfold Inside at this ⊢
      simp only [List.zip_cons_cons, List.all_cons, Bool.and_eq_true, decide_eq_true_eq, List.forall₂_cons, this]

theorem wrapCoord_ok {c lo hi : Int} (h : lo < hi) :
    ∃ w, wrapCoord c lo hi = .ok w ∧ lo ≤ w ∧ w < hi ∧ ∃ k, w = c + k * (hi - lo) := by
  have hs : hi - lo ≠ 0 := by omega
  have hs' : 0 < hi - lo := by omega
  unfold wrapCoord pyMod
  simp only [if_neg hs]
  by_cases h1 : c < lo
  · simp only [if_pos h1]
    have e1 : Int.fmod (hi - c) (hi - lo) = (hi - c) % (hi - lo) := Int.fmod_eq_emod_of_nonneg _ (by omega)
    have e2 := Int.emod_nonneg (hi - c) hs
    have e3 := Int.emod_lt_of_pos (hi - c) hs'
    have e4 := Int.emod_add_mul_ediv (hi - c) (hi - lo)
    by_cases h2 : (hi - c) % (hi - lo) = 0
    · refine ⟨lo, ?_, Int.le_refl _, h, (hi - c) / (hi - lo) - 1, ?_⟩
      · simp only [bind, Except.bind, pure, Except.pure, e1, h2, Int.sub_zero, Int.le_refl, if_true]
        have : Int.fmod (hi - lo) (hi - lo) = 0 := by
          rw [Int.fmod_eq_emod_of_nonneg _ (by omega)]; exact Int.emod_self
        simp [this]
      · rw [Int.sub_mul, Int.mul_comm ((hi - c) / (hi - lo))]; omega
    · refine ⟨hi - (hi - c) % (hi - lo), ?_, by omega, by omega, (hi - c) / (hi - lo), ?_⟩
      · simp only [bind, Except.bind, pure, Except.pure, e1]
        rw [if_neg (by omega)]
      · rw [Int.mul_comm]; omega
  · simp only [if_neg h1]
    by_cases h2 : hi ≤ c
    · have e1 : Int.fmod (c - lo) (hi - lo) = (c - lo) % (hi - lo) := Int.fmod_eq_emod_of_nonneg _ (by omega)
      have e2 := Int.emod_nonneg (c - lo) hs
      have e3 := Int.emod_lt_of_pos (c - lo) hs'
      have e4 := Int.emod_add_mul_ediv (c - lo) (hi - lo)
      refine ⟨(c - lo) % (hi - lo) + lo, ?_, by omega, by omega, -((c - lo) / (hi - lo)), ?_⟩
      · simp [bind, Except.bind, pure, Except.pure, e1, h2]
      · rw [Int.neg_mul, Int.mul_comm]; omega
    · exact ⟨c, by simp [bind, Except.bind, pure, Except.pure, h2], by omega, by omega, 0, by omega⟩

theorem wrap_cons (a : Int) (p : Vec) (b : Int × Int) (l : LimitsList) :
    wrap (a :: p) (b :: l) = (do let x ← wrapCoord a b.1 b.2; let xs ← wrap p l; pure (x :: xs)) := by
  unfold wrap
  rw [List.zip_cons_cons, List.mapM_cons]

theorem wrap_ok {p : Vec} {l : LimitsList} (h : p.length = l.length) (hne : NonEmpty l) :
    ∃ q, wrap p l = .ok q ∧ Inside q l ∧ SameModulo p q l := by
  induction p generalizing l with
  | nil => cases l with
    | nil => exact ⟨[], rfl, .nil, .nil⟩
    | cons => simp at h
  | cons a p ih => cases l with
    | nil => simp at h
    | cons b l =>
      obtain ⟨q, h1, h2, h3⟩ := ih (l := l) (by simpa using h) (fun x hx => hne x (List.mem_cons_of_mem _ hx))
      obtain ⟨w, h4, h5, h6, h7⟩ := wrapCoord_ok (c := a) (hne b List.mem_cons_self)
      exact ⟨w :: q, by rw [wrap_cons, h4, h1]; rfl, .cons ⟨h5, h6⟩ h2, .cons h7 h3⟩

theorem mod_unique {a b c lo hi : Int} (h1 : lo ≤ b ∧ b < hi) (h2 : lo ≤ c ∧ c < hi)
    (hb : ∃ k, b = a + k * (hi - lo)) (hc : ∃ k, c = a + k * (hi - lo)) : b = c := by
  obtain ⟨k, rfl⟩ := hb
  obtain ⟨m, rfl⟩ := hc
  have : k = m := by
    rcases Int.lt_trichotomy k m with h | h | h
    · have : (k + 1) * (hi - lo) ≤ m * (hi - lo) := Int.mul_le_mul_of_nonneg_right (by omega) (by omega)
      rw [Int.add_mul] at this; omega
    · exact h
    · have : (m + 1) * (hi - lo) ≤ k * (hi - lo) := Int.mul_le_mul_of_nonneg_right (by omega) (by omega)
      rw [Int.add_mul] at this; omega
  rw [this]

theorem sameModulo_unique {p q q' : Vec} {l : LimitsList} (h1 : SameModulo p q l) (h2 : SameModulo p q' l)
    (i1 : Inside q l) (i2 : Inside q' l) : q = q' := by
  induction h1 generalizing q' with
  | nil => cases h2; rfl
  | cons hk _ ih =>
    cases h2 with
    | cons hk' h2 =>
      cases i1 with
      | cons a1 i1 => cases i2 with
        | cons a2 i2 => rw [mod_unique a1 a2 hk hk', ih h2 i1 i2]

theorem mem_products (n : Nat) (v : Vec) :
    v ∈ products n ↔ v.length = n ∧ ∀ c ∈ v, -1 ≤ c ∧ c ≤ 1 := by
  induction n generalizing v with
  | zero =>
    simp only [products, List.mem_singleton]
    constructor
    · rintro rfl; simp
    · rintro ⟨h, -⟩; exact List.length_eq_zero_iff.1 h
  | succ n ih =>
    simp only [products, List.mem_flatMap, List.mem_map]
    constructor
    · rintro ⟨c, hc, w, hw, rfl⟩
      obtain ⟨h1, h2⟩ := (ih w).1 hw
      refine ⟨by simp [h1], fun x hx => ?_⟩
      rcases List.mem_cons.1 hx with rfl | hx
      · simp at hc; omega
      · exact h2 x hx
    · rintro ⟨h1, h2⟩
      cases v with
      | nil => simp at h1
      | cons c w =>
        refine ⟨c, ?_, w, (ih w).2 ⟨by simpa using h1, fun x hx => h2 x (List.mem_cons_of_mem _ hx)⟩, rfl⟩
        have := h2 c List.mem_cons_self
        simp; omega

theorem cons_lt_cons_of (c : Int) {v w : Vec} (h : v < w) : c :: v < c :: w :=
  List.cons_lt_cons_iff.2 (.inr ⟨rfl, h⟩)

theorem products_sorted (n : Nat) : (products n).Pairwise (· < ·) := by
  induction n with
  | zero => simp [products]
  | succ n ih =>
    simp only [products, List.flatMap_cons, List.flatMap_nil, List.append_nil]
    have h1 : ∀ c : Int, ((products n).map (fun v => c :: v)).Pairwise (· < ·) := fun c =>
      List.pairwise_map.2 (ih.imp (fun h => cons_lt_cons_of c h))
    have h2 : ∀ c d : Int, c < d → ∀ x ∈ (products n).map (fun v => c :: v),
        ∀ y ∈ (products n).map (fun v => d :: v), x < y := by
      intro c d h x hx y hy
      obtain ⟨v, -, rfl⟩ := List.mem_map.1 hx
      obtain ⟨w, -, rfl⟩ := List.mem_map.1 hy
      exact List.cons_lt_cons_iff.2 (.inl h)
    rw [List.pairwise_append]
    refine ⟨h1 _, ?_, fun x hx y hy => ?_⟩
    · rw [List.pairwise_append]
      exact ⟨h1 _, h1 _, h2 0 1 (by decide)⟩
    · rcases List.mem_append.1 hy with hy | hy
      · exact h2 (-1) 0 (by decide) x hx y hy
      · exact h2 (-1) 1 (by decide) x hx y hy

theorem count_zero (v : Vec) : (v.length : Int) - (v.count 0 : Int) = (v.filter (fun c => decide (c ≠ 0))).length := by
  induction v with
  | nil => simp
  | cons c v ih =>
    by_cases h : c = 0
    · subst h
      simp only [List.length_cons, List.count_cons_self, List.filter_cons, ne_eq, not_true, decide_false]
      push_cast
      rw [← ih]; omega
    · rw [List.count_cons_of_ne h, List.filter_cons_of_pos (by simpa using h)]
      simp only [List.length_cons]
      push_cast
      rw [← ih]; omega

theorem differences_add {p m : Vec} (h : p.length = m.length) :
    differences p (add p m) = (m.filter (fun c => decide (c ≠ 0))).length := by
  induction p generalizing m with
  | nil => cases m with
    | nil => rfl
    | cons => simp at h
  | cons a p ih => cases m with
    | nil => simp at h
    | cons b m =>
      have := ih (m := m) (by simpa using h)
      unfold differences at this ⊢
      rw [add_cons, List.zip_cons_cons, List.filter_cons, List.filter_cons]
      by_cases hb : b = 0
      · subst hb; simpa using this
      · rw [if_pos (by simpa using hb), if_pos (by simpa using hb)]
        simp only [List.length_cons]
        omega

theorem close_add {p m : Vec} (h : p.length = m.length) :
    Close p (add p m) ↔ ∀ c ∈ m, -1 ≤ c ∧ c ≤ 1 := by
  induction p generalizing m with
  | nil => cases m with
    | nil => simp [Close, add]
    | cons => simp at h
  | cons a p ih => cases m with
    | nil => simp at h
    | cons b m =>
      have := ih (m := m) (by simpa using h)
      unfold Close at this ⊢
      rw [add_cons, List.forall₂_cons, this]
      simp only [List.mem_cons, forall_eq_or_imp]
      constructor
      · rintro ⟨h1, h2⟩; exact ⟨by omega, h2⟩
      · rintro ⟨h1, h2⟩; exact ⟨by omega, h2⟩

theorem add_lt {p v w : Vec} (h1 : p.length = v.length) (h2 : p.length = w.length) (h : v < w) : add p v < add p w := by
  induction p generalizing v w with
  | nil =>
    cases v with
    | nil => cases w with
      | nil => exact h
      | cons => simp at h2
    | cons => simp at h1
  | cons a p ih =>
    cases v with
    | nil => simp at h1
    | cons b v => cases w with
      | nil => simp at h2
      | cons c w =>
        rw [add_cons, add_cons]
        rcases List.cons_lt_cons_iff.1 h with h' | ⟨rfl, h'⟩
        · exact List.cons_lt_cons_iff.2 (.inl (by omega))
        · exact List.cons_lt_cons_iff.2 (.inr ⟨rfl, ih (by simpa using h1) (by simpa using h2) h'⟩)

theorem add_injective {p v w : Vec} (h1 : p.length = v.length) (h2 : p.length = w.length) (h : add p v = add p w) :
    v = w := by
  induction p generalizing v w with
  | nil =>
    cases v with
    | nil => cases w with
      | nil => rfl
      | cons => simp at h2
    | cons => simp at h1
  | cons a p ih =>
    cases v with
    | nil => simp at h1
    | cons b v => cases w with
      | nil => simp at h2
      | cons c w =>
        rw [add_cons, add_cons] at h
        simp only [List.cons.injEq] at h
        rw [ih (by simpa using h1) (by simpa using h2) h.2]
        congr 1; omega

/-- The moves: default options. -/
theorem moves_default (n : Nat) (diagonals zero : Bool) :
    ∃ ms, moves n diagonals zero none = .ok ms ∧ ms.Pairwise (· < ·) ∧
      ∀ v, v ∈ ms ↔ v.length = n ∧ (∀ c ∈ v, -1 ≤ c ∧ c ≤ 1) ∧
        ((v.filter (fun c => decide (c ≠ 0))).length = 1 ∨
          (diagonals = true ∧ 1 < (v.filter (fun c => decide (c ≠ 0))).length) ∨
          (zero = true ∧ (v.filter (fun c => decide (c ≠ 0))).length = 0)) := by
  refine ⟨_, rfl, (products_sorted n).filter _, fun v => ?_⟩
  simp only [List.mem_filter, mem_products, Bool.and_eq_true, decide_eq_true_eq]
  constructor
  · rintro ⟨⟨h1, h2⟩, h3, h4⟩
    rw [← h1, count_zero] at h3 h4
    refine ⟨h1, h2, ?_⟩
    have := List.length_filter_le (fun c => decide (c ≠ 0)) v
    generalize (v.filter (fun c => decide (c ≠ 0))).length = k at *
    cases zero <;> cases diagonals <;> simp at h3 h4 ⊢ <;> omega
  · rintro ⟨h1, h2, h3⟩
    rw [← h1, count_zero]
    refine ⟨⟨rfl, h2⟩, ?_⟩
    have := List.length_filter_le (fun c => decide (c ≠ 0)) v
    generalize (v.filter (fun c => decide (c ≠ 0))).length = k at *
    cases zero <;> cases diagonals <;> simp at h3 ⊢ <;> omega

/-- Neighbors without limits. -/
theorem neighbors_unlimited (p : Vec) (ms : List Vec) : neighbors p none false ms = (ms.map (add p), none) := by
  induction ms with
  | nil => rfl
  | cons m ms ih => simp [neighbors, ih]

theorem neighbors_inside (p : Vec) (l : LimitsList) (ms : List Vec) :
    neighbors p (some l) false ms = ((ms.map (add p)).filter (fun n => inCuboid n l), none) := by
  induction ms with
  | nil => rfl
  | cons m ms ih =>
    simp only [neighbors, ih, Bool.false_eq_true, if_false, List.map_cons, List.filter_cons]

theorem neighbors_wrapped {p : Vec} {l : LimitsList} (h : p.length = l.length) (hne : NonEmpty l) {ms : List Vec}
    (hms : ∀ m ∈ ms, m.length = p.length) :
    ∃ ns, neighbors p (some l) true ms = (ns, none) ∧
      List.Forall₂ (fun m q => Inside q l ∧ SameModulo (add p m) q l) ms ns := by
  induction ms with
  | nil => exact ⟨[], rfl, .nil⟩
  | cons m ms ih =>
    obtain ⟨ns, h1, h2⟩ := ih (fun m hm => hms m (List.mem_cons_of_mem _ hm))
    have hl := hms m List.mem_cons_self
    obtain ⟨q, h3, h4, h5⟩ := wrap_ok (p := add p m) (l := l) (by rw [add_length hl.symm]; exact h) hne
    exact ⟨q :: ns, by simp [neighbors, h3, h1], .cons ⟨h4, h5⟩ h2⟩

theorem adjacent_iff {n : Nat} {diagonals zero : Bool} {ms : List Vec}
    (hms : ∀ v, v ∈ ms ↔ v.length = n ∧ (∀ c ∈ v, -1 ≤ c ∧ c ≤ 1) ∧
        ((v.filter (fun c => decide (c ≠ 0))).length = 1 ∨
          (diagonals = true ∧ 1 < (v.filter (fun c => decide (c ≠ 0))).length) ∨
          (zero = true ∧ (v.filter (fun c => decide (c ≠ 0))).length = 0)))
    {p : Vec} (hp : p.length = n) (q : Vec) : q ∈ ms.map (add p) ↔ Adjacent diagonals zero p q := by
  rw [List.mem_map]
  constructor
  · rintro ⟨m, hm, rfl⟩
    obtain ⟨h1, h2, h3⟩ := (hms m).1 hm
    have hl : p.length = m.length := by omega
    exact ⟨(close_add hl).2 h2, by rw [differences_add hl]; exact h3⟩
  · rintro ⟨h1, h2⟩
    have hlen : p.length = q.length := h1.length_eq
    have hl : p.length = (sub q p).length := by simp [sub, hlen]
    have he := add_sub hlen
    rw [← he] at h1 h2
    refine ⟨sub q p, (hms _).2 ⟨by omega, (close_add hl).1 h1, ?_⟩, he⟩
    rw [differences_add hl] at h2
    exact h2

end Pos

end NoGraphs
