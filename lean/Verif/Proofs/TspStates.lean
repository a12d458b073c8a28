import Verif.Model.Tsp
import Verif.Spec.Tsp
import Verif.Spec.Weighted

/-! Traveling salesman: bit sets, and the edges of the state graph. -/

set_option linter.unusedSectionVars false

namespace NoGraphs

open Spec

/-! ## Sets as bit masks -/

theorem testBit_sub_two_pow {m k : Nat} (hk : m.testBit k = true) (i : Nat) :
    (m - 2 ^ k).testBit i = (m.testBit i && decide (i ≠ k)) := by
  induction k generalizing m i with
  | zero =>
    have hodd : m % 2 = 1 := by simpa [Nat.testBit_zero] using hk
    cases i with
    | zero => simp only [Nat.testBit_zero, pow_zero]; have : (m - 1) % 2 = 0 := by omega
              simp [this]
    | succ j =>
      simp only [Nat.testBit_succ, pow_zero]
      have : (m - 1) / 2 = m / 2 := by omega
      simp [this]
  | succ k ih =>
    rw [Nat.testBit_succ] at hk
    have h2 : 2 ^ (k + 1) = 2 * 2 ^ k := by rw [Nat.pow_succ, Nat.mul_comm]
    have hle : 2 ^ k ≤ m / 2 := Nat.ge_two_pow_of_testBit hk
    cases i with
    | zero =>
      simp only [Nat.testBit_zero]
      have : (m - 2 ^ (k + 1)) % 2 = m % 2 := by omega
      simp [this]
    | succ j =>
      simp only [Nat.testBit_succ]
      have : (m - 2 ^ (k + 1)) / 2 = m / 2 - 2 ^ k := by omega
      rw [this, ih hk]
      simp

theorem testBit_add_two_pow {m k : Nat} (hk : m.testBit k = false) (i : Nat) :
    (m + 2 ^ k).testBit i = (m.testBit i || decide (i = k)) := by
  induction k generalizing m i with
  | zero =>
    have heven : m % 2 = 0 := by
      simp only [Nat.testBit_zero, decide_eq_false_iff_not] at hk; omega
    cases i with
    | zero => simp only [Nat.testBit_zero, pow_zero]; have : (m + 1) % 2 = 1 := by omega
              simp [this]
    | succ j =>
      simp only [Nat.testBit_succ, pow_zero]
      have : (m + 1) / 2 = m / 2 := by omega
      simp [this]
  | succ k ih =>
    rw [Nat.testBit_succ] at hk
    have h2 : 2 ^ (k + 1) = 2 * 2 ^ k := by rw [Nat.pow_succ, Nat.mul_comm]
    cases i with
    | zero =>
      simp only [Nat.testBit_zero]
      have : (m + 2 ^ (k + 1)) % 2 = m % 2 := by omega
      simp [this]
    | succ j =>
      simp only [Nat.testBit_succ]
      have : (m + 2 ^ (k + 1)) / 2 = m / 2 + 2 ^ k := by omega
      rw [this, ih hk]
      simp

theorem mem_highBits {fuel mask : Nat} (h : mask ≤ fuel) (t : Nat) :
    t ∈ highBits fuel mask ↔ mask.testBit t = true := by
  induction fuel generalizing mask with
  | zero =>
    have : mask = 0 := by omega
    subst this
    simp [highBits]
  | succ fuel ih =>
    unfold highBits
    split
    · rename_i h0; subst h0; simp
    · rename_i h0
      have hb : mask.testBit mask.log2 = true := Nat.testBit_log2 h0
      have hpos : 0 < 2 ^ mask.log2 := Nat.two_pow_pos _
      rw [List.mem_cons, Nat.one_shiftLeft, ih (by omega), testBit_sub_two_pow hb]
      by_cases ht : t = mask.log2
      · subst ht; simp [hb]
      · simp [ht]

/-- The loop takes each vertex once. -/
theorem highBits_nodup {fuel mask : Nat} (h : mask ≤ fuel) : (highBits fuel mask).Nodup := by
  induction fuel generalizing mask with
  | zero => exact List.nodup_nil
  | succ fuel ih =>
    unfold highBits
    split
    · exact List.nodup_nil
    · rename_i h0
      have hb : mask.testBit mask.log2 = true := Nat.testBit_log2 h0
      have hpos : 0 < 2 ^ mask.log2 := Nat.two_pow_pos _
      have hle : mask - 1 <<< mask.log2 ≤ fuel := by rw [Nat.one_shiftLeft]; omega
      refine List.nodup_cons.2 ⟨fun hm => ?_, ih hle⟩
      rw [mem_highBits hle, Nat.one_shiftLeft, testBit_sub_two_pow hb] at hm
      simp at hm

theorem foldl_or_testBit (l : List Nat) (a t : Nat) :
    (l.foldl (· ||| ·) a).testBit t = (a.testBit t || l.any (fun x => x.testBit t)) := by
  induction l generalizing a with
  | nil => simp
  | cons x l ih => rw [List.foldl_cons, ih, Nat.testBit_or, List.any_cons, Bool.or_assoc]

variable {G : Type} [AddCommGroup G] [LinearOrder G]
variable {n : Nat} {weight : Nat → Nat → Option G}

theorem tspAdjacent_testBit (v t : Nat) :
    (tspAdjacent n weight v).testBit t = true ↔ t < n ∧ v ≠ t ∧ (weight v t).isSome = true := by
  unfold tspAdjacent
  rw [foldl_or_testBit, Nat.zero_testBit, Bool.false_or, List.any_map, List.any_eq_true]
  constructor
  · rintro ⟨x, hx, h⟩
    simp only [Function.comp_apply] at h
    split at h
    · rename_i hc
      rw [Nat.one_shiftLeft, Nat.testBit_two_pow] at h
      have : x = t := by simpa using h
      subst this
      exact ⟨List.mem_range.1 hx, hc.1, hc.2⟩
    · simp at h
  · rintro ⟨h1, h2, h3⟩
    refine ⟨t, List.mem_range.2 h1, ?_⟩
    simp only [Function.comp_apply]
    rw [if_pos ⟨h2, h3⟩, Nat.one_shiftLeft]
    simp [Nat.testBit_two_pow]

/-- The edges of the forward direction. -/
theorem mem_tspNextF {s : Nat} {y : Nat × WithTop G × Unit} :
    y ∈ tspNextF n weight s ↔ ∃ t w, (if s / n = 0 then 1 else s / n).testBit t = true ∧ t < n ∧ s % n ≠ t ∧
      weight (s % n) t = some w ∧ y = (t + ((if s / n = 0 then 1 else s / n) - 2 ^ t) * n, (w : WithTop G), ()) := by
  unfold tspNextF
  simp only [Nat.one_shiftLeft, pow_zero, List.mem_filterMap, mem_highBits (le_refl _), Nat.testBit_and, Bool.and_eq_true,
    tspAdjacent_testBit, Option.map_eq_some_iff]
  constructor
  · rintro ⟨t, ⟨h1, h2, h3, -⟩, w, h5, h6⟩
    exact ⟨t, w, h1, h2, h3, h5, h6.symm⟩
  · rintro ⟨t, w, h1, h2, h3, h5, h6⟩
    exact ⟨t, ⟨h1, h2, h3, by rw [h5]; rfl⟩, w, h5, h6.symm⟩

/-- The edges of the backward direction. -/
theorem mem_tspNextB {s : Nat} {y : Nat × WithTop G × Unit} :
    y ∈ tspNextB n weight s ↔ ∃ f w,
      (if 2 ^ n - 1 - s / n ≠ 1 then 2 ^ n - 1 - s / n - 1 else 2 ^ n - 1 - s / n).testBit f = true ∧ f < n ∧ s % n ≠ f ∧
      weight (s % n) f = some w ∧
      y = (f + (if s % n = 0 then s / n else s / n + 2 ^ (s % n)) * n, (w : WithTop G), ()) := by
  unfold tspNextB
  simp only [Nat.one_shiftLeft, pow_zero, List.mem_filterMap, mem_highBits (le_refl _), Nat.testBit_and, Bool.and_eq_true,
    tspAdjacent_testBit, Option.map_eq_some_iff]
  constructor
  · rintro ⟨t, ⟨h1, h2, h3, -⟩, w, h5, h6⟩
    exact ⟨t, w, h1, h2, h3, h5, h6.symm⟩
  · rintro ⟨t, w, h1, h2, h3, h5, h6⟩
    exact ⟨t, ⟨h1, h2, h3, by rw [h5]; rfl⟩, w, h5, h6.symm⟩

/-! ## States -/

theorem enc_mod {v R : Nat} (hv : v < n) : (v + R * n) % n = v := by
  rw [Nat.add_mul_mod_self_right, Nat.mod_eq_of_lt hv]

theorem enc_div {v R : Nat} (hv : v < n) : (v + R * n) / n = R := by
  rw [Nat.add_mul_div_right _ _ (by omega), Nat.div_eq_of_lt hv, Nat.zero_add]

theorem enc_eq (s : Nat) : s % n + s / n * n = s := by
  rw [Nat.mul_comm]; exact Nat.mod_add_div s n

/-- The states that occur: a vertex and a set of vertices still to visit, without the start vertex and
the current vertex; at the start vertex, all or no vertices are still to visit. -/
structure TspValid (n s : Nat) : Prop where
  lt : s / n < 2 ^ n
  zero : (s / n).testBit 0 = false
  cur : (s / n).testBit (s % n) = false
  ends : s % n = 0 → s / n = 0 ∨ s / n = 2 ^ n - 2

instance (s : Nat) : Decidable (TspValid n s) :=
  decidable_of_iff (s / n < 2 ^ n ∧ (s / n).testBit 0 = false ∧ (s / n).testBit (s % n) = false ∧
    (s % n = 0 → s / n = 0 ∨ s / n = 2 ^ n - 2))
    ⟨fun ⟨a, b, c, d⟩ => ⟨a, b, c, d⟩, fun ⟨a, b, c, d⟩ => ⟨a, b, c, d⟩⟩

theorem testBit_lt {R t : Nat} (hR : R < 2 ^ n) (h : R.testBit t = true) : t < n := by
  by_contra hc
  have h1 := Nat.ge_two_pow_of_testBit h
  have h2 : 2 ^ n ≤ 2 ^ t := Nat.pow_le_pow_right (by omega) (by omega)
  omega

theorem full_testBit (hn : 1 ≤ n) (i : Nat) : (2 ^ n - 2).testBit i = (decide (i < n) && decide (i ≠ 0)) := by
  have h1 : 1 < 2 ^ n := Nat.one_lt_two_pow (by omega)
  have := Nat.testBit_two_pow_sub_succ (x := 1) h1 i
  rw [show 2 ^ n - 2 = 2 ^ n - (1 + 1) from rfl, this]
  congr 1
  cases i with
  | zero => rfl
  | succ j => simp [Nat.testBit_succ]

theorem tspStart_eq : tspStart n = 0 + (2 ^ n - 2) * n := by
  unfold tspStart
  simp only [Nat.one_shiftLeft, pow_zero]
  rfl

theorem tspStart_valid (hn : 2 ≤ n) : TspValid n (tspStart n) := by
  have hp : 0 < 2 ^ n := Nat.two_pow_pos n
  have h1 : tspStart n / n = 2 ^ n - 2 := by rw [tspStart_eq, enc_div (by omega)]
  have h2 : tspStart n % n = 0 := by rw [tspStart_eq, enc_mod (by omega)]
  refine ⟨by rw [h1]; omega, ?_, ?_, fun _ => .inr h1⟩
  · rw [h1, full_testBit (by omega)]; simp
  · rw [h1, h2, full_testBit (by omega)]; simp

theorem tspGoal_valid : TspValid n 0 := by
  refine ⟨by rw [Nat.zero_div]; exact Nat.two_pow_pos n, ?_, ?_, fun _ => .inl ?_⟩ <;> simp

/-- The forward edges of a valid state: to a vertex that is still to visit, or, if there is none, to the start vertex. -/
theorem tspNextF_valid (hn : 2 ≤ n) {s : Nat} (hs : TspValid n s) {y : Nat × WithTop G × Unit} :
    y ∈ tspNextF n weight s ↔
      (s / n = 0 ∧ s % n ≠ 0 ∧ ∃ w, weight (s % n) 0 = some w ∧ y = (0, (w : WithTop G), ())) ∨
      (s / n ≠ 0 ∧ ∃ t w, (s / n).testBit t = true ∧ weight (s % n) t = some w ∧
        y = (t + (s / n - 2 ^ t) * n, (w : WithTop G), ())) := by
  rw [mem_tspNextF]
  by_cases h0 : s / n = 0
  · simp only [h0, if_true, ne_eq, not_true_eq_false, false_and, or_false, true_and]
    constructor
    · rintro ⟨t, w, h1, h2, h3, h4, h5⟩
      have ht : t = 0 := by
        cases t with
        | zero => rfl
        | succ t => simp [Nat.testBit_succ] at h1
      subst ht
      exact ⟨h3, w, h4, by simpa using h5⟩
    · rintro ⟨h3, w, h4, h5⟩
      exact ⟨0, w, by simp, by omega, h3, h4, by simpa using h5⟩
  · simp only [h0, if_false, ne_eq, not_false_eq_true, false_and, false_or, true_and]
    constructor
    · rintro ⟨t, w, h1, h2, h3, h4, h5⟩
      exact ⟨t, w, h1, h4, h5⟩
    · rintro ⟨t, w, h1, h4, h5⟩
      refine ⟨t, w, h1, testBit_lt hs.lt h1, fun he => ?_, h4, h5⟩
      have := hs.cur
      rw [he, h1] at this
      cases this

/-- The backward edges of a valid state. -/
theorem tspNextB_valid (hn : 2 ≤ n) {s : Nat} (hs : TspValid n s) {y : Nat × WithTop G × Unit} :
    y ∈ tspNextB n weight s ↔ ∃ f w, f < n ∧ f ≠ 0 ∧ f ≠ s % n ∧ (s / n).testBit f = false ∧
      weight (s % n) f = some w ∧
      y = (f + (if s % n = 0 then s / n else s / n + 2 ^ (s % n)) * n, (w : WithTop G), ()) := by
  rw [mem_tspNextB]
  have hc : ∀ i, (2 ^ n - 1 - s / n).testBit i = (decide (i < n) && !(s / n).testBit i) := by
    intro i
    have := Nat.testBit_two_pow_sub_succ hs.lt i
    rw [show 2 ^ n - 1 - s / n = 2 ^ n - (s / n + 1) by omega]
    exact this
  by_cases h1 : 2 ^ n - 1 - s / n = 1
  · have hfull : s / n = 2 ^ n - 2 := by
      have h2 := hs.lt
      generalize 2 ^ n = p at h1 h2 ⊢
      generalize s / n = q at h1 h2 ⊢
      omega
    have hv : s % n = 0 := by
      have := hs.cur
      rw [hfull, full_testBit (by omega)] at this
      have hlt : s % n < n := Nat.mod_lt _ (by omega)
      simpa [hlt] using this
    simp only [h1, ne_eq, not_true_eq_false, if_false]
    constructor
    · rintro ⟨f, w, q1, q2, q3, -⟩
      cases f with
      | zero => exact absurd hv q3
      | succ f => simp [Nat.testBit_succ] at q1
    · rintro ⟨f, w, q1, q2, q3, q4, -⟩
      rw [hfull, full_testBit (by omega)] at q4
      simp [q1, q2] at q4
  · simp only [ne_eq, h1, not_false_eq_true, if_true]
    have h0 : (2 ^ n - 1 - s / n).testBit 0 = true := by rw [hc, hs.zero]; simp; omega
    have hbit : ∀ f, (2 ^ n - 1 - s / n - 1).testBit f = ((2 ^ n - 1 - s / n).testBit f && decide (f ≠ 0)) :=
      testBit_sub_two_pow (k := 0) h0
    constructor
    · rintro ⟨f, w, q1, q2, q3, q4, q5⟩
      rw [hbit, hc] at q1
      simp only [ne_eq, decide_not, Bool.and_eq_true, decide_eq_true_eq, Bool.not_eq_eq_eq_not, Bool.not_true,
        decide_eq_false_iff_not] at q1
      exact ⟨f, w, q2, q1.2, fun h => q3 h.symm, q1.1.2, q4, q5⟩
    · rintro ⟨f, w, q1, q2, q3, q4, q5, q6⟩
      refine ⟨f, w, ?_, q1, fun h => q3 h.symm, q5, q6⟩
      rw [hbit, hc]
      simp [q1, q2, q4]

/-- Forward edges lead to valid states, and never to the start state. -/
theorem tspNextF_target (hn : 2 ≤ n) {s : Nat} (hs : TspValid n s) {y : Nat × WithTop G × Unit}
    (hy : y ∈ tspNextF n weight s) : TspValid n y.1 ∧ y.1 ≠ tspStart n := by
  rcases (tspNextF_valid hn hs).1 hy with ⟨-, -, w, -, rfl⟩ | ⟨h0, t, w, h1, -, rfl⟩
  · refine ⟨tspGoal_valid, fun h => ?_⟩
    have h' : (0 : Nat) / n = tspStart n / n := by rw [← h]
    rw [tspStart_eq, enc_div (by omega), Nat.zero_div] at h'
    have : 2 ^ 2 ≤ 2 ^ n := Nat.pow_le_pow_right (by omega) hn
    omega
  · have ht : t < n := testBit_lt hs.lt h1
    have ht0 : t ≠ 0 := by rintro rfl; rw [hs.zero] at h1; cases h1
    constructor
    · refine ⟨?_, ?_, ?_, ?_⟩
      · rw [enc_div ht]; exact lt_of_le_of_lt (Nat.sub_le _ _) hs.lt
      · rw [enc_div ht, testBit_sub_two_pow h1, hs.zero]; rfl
      · rw [enc_div ht, enc_mod ht, testBit_sub_two_pow h1]; simp
      · rw [enc_mod ht]; exact fun h => absurd h ht0
    · intro h
      have h' : (t + (s / n - 2 ^ t) * n) % n = tspStart n % n := by rw [← h]
      rw [tspStart_eq, enc_mod ht, enc_mod (by omega)] at h'
      exact ht0 h'

/-- Backward edges of valid states lead to valid states, and there is an opposite forward edge. -/
theorem tspNextB_sound (hn : 2 ≤ n) {s u : Nat} (hs : TspValid n s) {x : WithTop G} {l : Unit}
    (hy : (u, x, l) ∈ tspNextB n (fun v w => weight w v) s) :
    TspValid n u ∧ (s, x, l) ∈ tspNextF n weight u := by
  obtain ⟨f, w, hf, hf0, hfs, hfR, hw, he⟩ := (tspNextB_valid hn hs).1 hy
  simp only [Prod.mk.injEq] at he
  obtain ⟨rfl, rfl, -⟩ := he
  have hvlt : s % n < n := Nat.mod_lt _ (by omega)
  by_cases hv : s % n = 0
  · rw [if_pos hv]
    have hR0 : s / n = 0 := by
      rcases hs.ends hv with h | h
      · exact h
      · rw [h, full_testBit (by omega)] at hfR
        simp [hf, hf0] at hfR
    have hval : TspValid n (f + s / n * n) := by
      refine ⟨?_, ?_, ?_, ?_⟩
      · rw [enc_div hf]; exact hs.lt
      · rw [enc_div hf]; exact hs.zero
      · rw [enc_div hf, enc_mod hf]; exact hfR
      · rw [enc_mod hf]; exact fun h => absurd h hf0
    refine ⟨hval, (tspNextF_valid hn hval).2 (.inl ⟨by rw [enc_div hf]; exact hR0, by rw [enc_mod hf]; exact hf0, w, ?_, ?_⟩)⟩
    · rw [enc_mod hf, ← hv]; exact hw
    · have : s = 0 := by rw [← enc_eq (n := n) s, hv, hR0]; simp
      rw [this]
  · rw [if_neg hv]
    have hadd := testBit_add_two_pow hs.cur
    have hlt : s / n + 2 ^ (s % n) < 2 ^ n := by
      apply Nat.lt_pow_two_of_testBit
      intro i hi
      rw [hadd]
      have h1 : (s / n).testBit i = false := by
        by_contra hc
        have := testBit_lt hs.lt (by simpa using hc)
        omega
      simp [h1]; omega
    have hval : TspValid n (f + (s / n + 2 ^ (s % n)) * n) := by
      refine ⟨?_, ?_, ?_, ?_⟩
      · rw [enc_div hf]; exact hlt
      · rw [enc_div hf, hadd, hs.zero]; simp; omega
      · rw [enc_div hf, enc_mod hf, hadd, hfR]; simpa using hfs
      · rw [enc_mod hf]; exact fun h => absurd h hf0
    refine ⟨hval, (tspNextF_valid hn hval).2 (.inr ⟨?_, s % n, w, ?_, ?_, ?_⟩)⟩
    · rw [enc_div hf]; exact fun h => absurd (Nat.two_pow_pos (s % n)) (by rw [(Nat.add_eq_zero_iff.1 h).2]; exact lt_irrefl _)
    · rw [enc_div hf, hadd]; simp
    · rw [enc_mod hf]; exact hw
    · rw [enc_div hf, Nat.add_sub_cancel, enc_eq]

/-- Forward edges from other states than the start state are contained in the backward edges. -/
theorem tspNextB_complete (hn : 2 ≤ n) {s u : Nat} (hs : TspValid n s) (hne : s ≠ tspStart n) {x : WithTop G} {l : Unit}
    (hy : (u, x, l) ∈ tspNextF n weight s) :
    (s, x, l) ∈ tspNextB n (fun v w => weight w v) u := by
  have hu := (tspNextF_target hn hs hy).1
  rw [tspNextB_valid hn hu]
  have hvlt : s % n < n := Nat.mod_lt _ (by omega)
  rcases (tspNextF_valid hn hs).1 hy with ⟨h0, hv, w, hw, he⟩ | ⟨h0, t, w, h1, hw, he⟩
  · simp only [Prod.mk.injEq] at he
    obtain ⟨rfl, rfl, -⟩ := he
    refine ⟨s % n, w, hvlt, hv, by simpa using hv, by simp, by simpa using hw, ?_⟩
    have := enc_eq (n := n) s
    rw [h0] at this
    simp at this ⊢
    exact this.symm
  · simp only [Prod.mk.injEq] at he
    obtain ⟨rfl, rfl, -⟩ := he
    have ht : t < n := testBit_lt hs.lt h1
    have ht0 : t ≠ 0 := by rintro rfl; rw [hs.zero] at h1; cases h1
    have hv : s % n ≠ 0 := by
      intro hv
      rcases hs.ends hv with h | h
      · exact h0 h
      · apply hne
        rw [tspStart_eq, ← h, ← hv, enc_eq]
    refine ⟨s % n, w, hvlt, hv, ?_, ?_, ?_, ?_⟩
    · rw [enc_mod ht]
      intro he
      have := hs.cur
      rw [he, h1] at this
      cases this
    · rw [enc_div ht, testBit_sub_two_pow h1, hs.cur]; rfl
    · rw [enc_mod ht]; exact hw
    · rw [enc_mod ht, enc_div ht, if_neg ht0, Nat.sub_add_cancel (Nat.ge_two_pow_of_testBit h1), enc_eq]

end NoGraphs
