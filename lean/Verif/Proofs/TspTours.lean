import Verif.Proofs.TspStates
import Mathlib.Algebra.Order.Group.Unbundled.Basic
import Mathlib.Algebra.Order.Monoid.Defs
import Mathlib.Tactic.Abel

/-! Traveling salesman: walks of the state graph and round trips; changes of weights. -/

set_option linter.unusedSectionVars false

namespace NoGraphs

open Spec

section

variable {G : Type} [AddCommGroup G] [LinearOrder G]
variable {n : Nat} {weight : Nat → Nat → Option G}

/-- The vertices of a set. -/
def bitsOf (n R : Nat) : List Nat := (List.range n).filter (fun t => R.testBit t)

theorem mem_bitsOf {R t : Nat} : t ∈ bitsOf n R ↔ t < n ∧ R.testBit t = true := by
  simp [bitsOf]

theorem bitsOf_nodup (R : Nat) : (bitsOf n R).Nodup := List.nodup_range.filter _

theorem bitsOf_zero : bitsOf n 0 = [] := by simp [bitsOf]

theorem bitsOf_eq_nil {R : Nat} (hR : R < 2 ^ n) (h : bitsOf n R = []) : R = 0 := by
  apply Nat.eq_of_testBit_eq
  intro i
  rw [Nat.zero_testBit]
  by_contra hc
  have hc : R.testBit i = true := by simpa using hc
  have : i ∈ bitsOf n R := mem_bitsOf.2 ⟨testBit_lt hR hc, hc⟩
  rw [h] at this
  cases this

theorem bitsOf_sub {R t : Nat} (hR : R < 2 ^ n) (ht : R.testBit t = true) :
    (t :: bitsOf n (R - 2 ^ t)).Perm (bitsOf n R) := by
  rw [List.perm_ext_iff_of_nodup ?_ (bitsOf_nodup R)]
  · intro i
    rw [List.mem_cons, mem_bitsOf, mem_bitsOf, testBit_sub_two_pow ht]
    by_cases hi : i = t
    · subst hi; simp [ht, testBit_lt hR ht]
    · simp [hi]
  · refine List.nodup_cons.2 ⟨fun h => ?_, bitsOf_nodup _⟩
    rw [mem_bitsOf, testBit_sub_two_pow ht] at h
    simp at h

theorem bitsOf_full (hn : 2 ≤ n) : (0 :: bitsOf n (2 ^ n - 2)).Perm (List.range n) := by
  rw [List.perm_ext_iff_of_nodup ?_ List.nodup_range]
  · intro i
    rw [List.mem_cons, mem_bitsOf, full_testBit (by omega), List.mem_range]
    simp only [ne_eq, decide_not, Bool.and_eq_true, decide_eq_true_eq, Bool.not_eq_eq_eq_not, Bool.not_true,
      decide_eq_false_iff_not]
    omega
  · refine List.nodup_cons.2 ⟨fun h => ?_, bitsOf_nodup _⟩
    rw [mem_bitsOf, full_testBit (by omega)] at h
    simp at h

theorem tspNextF_goal (hn : 2 ≤ n) : tspNextF n weight 0 = [] := by
  rw [List.eq_nil_iff_forall_not_mem]
  intro y hy
  rcases (tspNextF_valid hn tspGoal_valid).1 hy with ⟨-, h, -⟩ | ⟨h, -⟩
  · simp at h
  · simp at h

/-- Walks from a state to the goal state visit the vertices that are still to visit. -/
theorem tsp_walk_trip (hn : 2 ≤ n) {s : Nat} {steps : List (Nat × Unit)} {x : WithTop G}
    (hw : IsWPath (tspNextF n weight) s steps x) (hs : TspValid n s) (hs0 : s ≠ 0)
    (hlast : (s :: steps.map Prod.fst).getLast? = some 0) :
    ∃ rest len, steps.map (fun e => e.1 % n) = rest ++ [0] ∧ rest.Perm (bitsOf n (s / n)) ∧
      pathWeight weight (s % n :: rest ++ [0]) = some len ∧ x = (len : WithTop G) := by
  induction hw with
  | nil => simp at hlast; exact absurd hlast hs0
  | @cons u v y l rest w hedge hrest ih =>
    rcases (tspNextF_valid hn hs).1 hedge with ⟨h0, hv, w1, hw1, he⟩ | ⟨h0, t, w1, h1, hw1, he⟩
    · simp only [Prod.mk.injEq] at he
      obtain ⟨rfl, rfl, -⟩ := he
      have hnil : rest = [] ∧ w = 0 := by
        cases hrest with
        | nil => exact ⟨rfl, rfl⟩
        | cons h _ => rw [tspNextF_goal hn] at h; cases h
      obtain ⟨rfl, rfl⟩ := hnil
      refine ⟨[], w1, by simp, by rw [h0, bitsOf_zero], ?_, by simp⟩
      simp [pathWeight, hw1]
    · simp only [Prod.mk.injEq] at he
      obtain ⟨rfl, rfl, -⟩ := he
      have ht : t < n := testBit_lt hs.lt h1
      have ht0 : t ≠ 0 := by rintro rfl; rw [hs.zero] at h1; cases h1
      obtain ⟨rest', len, q1, q2, q3, q4⟩ := ih (tspNextF_target hn hs hedge).1 (by omega) (by simpa using hlast)
      rw [enc_div ht] at q2
      rw [enc_mod ht] at q3
      refine ⟨t :: rest', w1 + len, ?_, ?_, ?_, ?_⟩
      · simp only [List.map_cons, enc_mod ht, q1, List.cons_append]
      · exact (q2.cons t).trans (bitsOf_sub hs.lt h1)
      · simp only [List.cons_append] at q3 ⊢
        simp only [pathWeight, hw1, q3]
      · rw [q4]; simp

/-- And back: a path through the vertices that are still to visit is shown by a walk. -/
theorem tsp_trip_walk (hn : 2 ≤ n) (rest : List Nat) {s : Nat} {len : G} (hs : TspValid n s) (hs0 : s ≠ 0)
    (hp : rest.Perm (bitsOf n (s / n))) (hw : pathWeight weight (s % n :: rest ++ [0]) = some len) :
    ∃ steps : List (Nat × Unit), IsWPath (tspNextF n weight) s steps (len : WithTop G) ∧
      (s :: steps.map Prod.fst).getLast? = some 0 ∧ steps.map (fun e => e.1 % n) = rest ++ [0] := by
  induction rest generalizing s len with
  | nil =>
    have h0 : s / n = 0 := bitsOf_eq_nil hs.lt (List.nil_perm.1 hp)
    have hv : s % n ≠ 0 := by
      intro hv
      apply hs0
      rw [← enc_eq (n := n) s, hv, h0]; simp
    simp only [List.cons_append, List.nil_append, pathWeight] at hw
    cases hw0 : weight (s % n) 0 with
    | none => rw [hw0] at hw; simp at hw
    | some w =>
      rw [hw0] at hw
      simp only [add_zero, Option.some.injEq] at hw
      subst hw
      refine ⟨[(0, ())], ?_, by simp, by simp⟩
      have h := (tspNextF_valid (weight := weight) hn hs (y := (0, (w : WithTop G), ()))).2 (.inl ⟨h0, hv, w, hw0, rfl⟩)
      have := IsWPath.cons h (.nil (next := tspNextF n weight))
      simpa using this
  | cons t rest ih =>
    have hmem : t ∈ bitsOf n (s / n) := hp.subset List.mem_cons_self
    obtain ⟨ht, h1⟩ := mem_bitsOf.1 hmem
    have h0 : s / n ≠ 0 := by intro h; rw [h] at h1; simp at h1
    have ht0 : t ≠ 0 := by rintro rfl; rw [hs.zero] at h1; cases h1
    simp only [List.cons_append, pathWeight] at hw
    cases hw1 : weight (s % n) t with
    | none => rw [hw1] at hw; simp at hw
    | some w =>
      rw [hw1] at hw
      cases hw2 : pathWeight weight (t :: (rest ++ [0])) with
      | none => rw [hw2] at hw; simp at hw
      | some len' =>
        rw [hw2] at hw
        simp only [Option.some.injEq] at hw
        subst hw
        have h := (tspNextF_valid (weight := weight) hn hs (y := (t + (s / n - 2 ^ t) * n, (w : WithTop G), ()))).2
          (.inr ⟨h0, t, w, h1, hw1, rfl⟩)
        obtain ⟨steps, q1, q2, q3⟩ := ih (s := t + (s / n - 2 ^ t) * n) (len := len') (tspNextF_target hn hs h).1 (by omega)
          (by
            rw [enc_div ht]
            exact (hp.trans (bitsOf_sub hs.lt h1).symm).cons_inv)
          (by rw [enc_mod ht]; exact hw2)
        refine ⟨(t + (s / n - 2 ^ t) * n, ()) :: steps, ?_, ?_, ?_⟩
        · have := IsWPath.cons h q1
          simpa using this
        · simpa using q2
        · simp only [List.map_cons, enc_mod ht, q3, List.cons_append]

/-- A walk is determined by its vertices. -/
theorem tsp_walk_unique (hn : 2 ≤ n) {s : Nat} {a b : List (Nat × Unit)} {x y : WithTop G}
    (ha : IsWPath (tspNextF n weight) s a x) (hb : IsWPath (tspNextF n weight) s b y) (hs : TspValid n s)
    (he : a.map (fun e => e.1 % n) = b.map (fun e => e.1 % n)) : a = b := by
  induction ha generalizing b y with
  | nil => simpa using he.symm
  | @cons u v z l rest w hedge hrest ih =>
    cases hb with
    | nil => simp at he
    | @cons _ v' z' l' rest' w' hedge' hrest' =>
      simp only [List.map_cons, List.cons.injEq] at he
      have hv : v = v' := by
        rcases (tspNextF_valid hn hs).1 hedge with ⟨h0, -, w1, -, e⟩ | ⟨h0, t, w1, h1, -, e⟩ <;>
          rcases (tspNextF_valid hn hs).1 hedge' with ⟨h0', -, w1', -, e'⟩ | ⟨h0', t', w1', h1', -, e'⟩ <;>
          simp only [Prod.mk.injEq] at e e' <;> obtain ⟨rfl, -⟩ := e <;> obtain ⟨rfl, -⟩ := e'
        · rfl
        · exact absurd h0 h0'
        · exact absurd h0' h0
        · have := he.1
          rw [enc_mod (testBit_lt hs.lt h1), enc_mod (testBit_lt hs.lt h1')] at this
          rw [this]
      subst hv
      rw [ih hrest' (tspNextF_target hn hs hedge).1 he.2]

theorem tspStart_ne (hn : 2 ≤ n) : tspStart n ≠ 0 := by
  intro h
  have h' : tspStart n / n = 0 / n := by rw [h]
  rw [tspStart_eq, enc_div (by omega), Nat.zero_div] at h'
  have : 2 ^ 2 ≤ 2 ^ n := Nat.pow_le_pow_right (by omega) hn
  omega

theorem tspStart_mod (hn : 2 ≤ n) : tspStart n % n = 0 := by rw [tspStart_eq, enc_mod (by omega)]

theorem tspStart_div (hn : 2 ≤ n) : tspStart n / n = 2 ^ n - 2 := by rw [tspStart_eq, enc_div (by omega)]

/-- A walk from the start state to the goal state shows a round trip. -/
theorem tsp_trip_of_walk (hn : 2 ≤ n) {steps : List (Nat × Unit)} {x : WithTop G}
    (hw : IsWPath (tspNextF n weight) (tspStart n) steps x)
    (hlast : (tspStart n :: steps.map Prod.fst).getLast? = some 0) :
    ∃ len : G, x = (len : WithTop G) ∧ steps.length = n ∧
      IsRoundTrip weight (List.range n) ((tspStart n :: steps.map Prod.fst).map (fun v => v % n)) len := by
  obtain ⟨rest, len, h1, h2, h3, h4⟩ := tsp_walk_trip hn hw (tspStart_valid hn) (tspStart_ne hn) hlast
  rw [tspStart_div hn] at h2
  rw [tspStart_mod hn] at h3
  have hmap : (tspStart n :: steps.map Prod.fst).map (fun v => v % n) = 0 :: rest ++ [0] := by
    simp only [List.map_cons, List.map_map, tspStart_mod hn, List.cons_append]
    rw [← h1]; rfl
  have hperm : (0 :: rest).Perm (List.range n) := (h2.cons 0).trans (bitsOf_full hn)
  refine ⟨len, h4, ?_, 0, rest, hmap, hperm, by rw [hmap]; exact h3⟩
  have l1 := congrArg List.length h1
  have l2 := hperm.length_eq
  simp at l1 l2
  omega

/-- A round trip that begins with vertex 0 is shown by exactly one walk from the start state to the goal state. -/
theorem tsp_walk_of_trip (hn : 2 ≤ n) {path : List Nat} {len : G} (ht : IsRoundTrip weight (List.range n) path len)
    (h0 : path.head? = some 0) :
    ∃ steps : List (Nat × Unit), IsWPath (tspNextF n weight) (tspStart n) steps (len : WithTop G) ∧
      (tspStart n :: steps.map Prod.fst).getLast? = some 0 ∧
      (tspStart n :: steps.map Prod.fst).map (fun v => v % n) = path := by
  obtain ⟨first, rest, rfl, hp, hw⟩ := ht
  simp only [List.cons_append, List.head?_cons, Option.some.injEq] at h0
  subst h0
  obtain ⟨steps, q1, q2, q3⟩ := tsp_trip_walk hn rest (tspStart_valid hn) (tspStart_ne hn)
    (by rw [tspStart_div hn]; exact (hp.trans (bitsOf_full hn).symm).cons_inv)
    (by rw [tspStart_mod hn]; exact hw)
  refine ⟨steps, q1, q2, ?_⟩
  simp only [List.map_cons, List.map_map, tspStart_mod hn, List.cons_append]
  rw [← q3]; rfl

/-! ## Round trips can begin at each of their vertices -/

theorem pathWeight_append {V : Type} {w : V → V → Option G} (a : List V) (v : V) (b : List V) :
    pathWeight w (a ++ v :: b) =
      match pathWeight w (a ++ [v]), pathWeight w (v :: b) with
      | some x, some y => some (x + y)
      | _, _ => none := by
  induction a with
  | nil => simp [pathWeight]; cases pathWeight w (v :: b) <;> simp
  | cons u a ih =>
    cases a with
    | nil =>
      simp only [List.cons_append, List.nil_append, pathWeight]
      cases w u v <;> cases pathWeight w (v :: b) <;> simp
    | cons u' a =>
      simp only [List.cons_append, pathWeight] at ih ⊢
      rw [ih]
      cases w u u' with
      | none => simp
      | some x =>
        cases pathWeight w (u' :: (a ++ [v])) with
        | none => simp
        | some y =>
          cases pathWeight w (v :: b) with
          | none => simp
          | some z => simp [add_assoc]

/-- Rotation of a round trip. -/
theorem roundTrip_rotate {V : Type} {w : V → V → Option G} {vs path : List V} {len : G} (h : IsRoundTrip w vs path len) {v : V}
    (hv : v ∈ vs) : ∃ path', IsRoundTrip w vs path' len ∧ path'.head? = some v := by
  obtain ⟨first, rest, rfl, hp, hw⟩ := h
  have hmem : v ∈ first :: rest := hp.symm.subset hv
  obtain ⟨a, b, hab⟩ := List.append_of_mem hmem
  cases a with
  | nil =>
    simp only [List.nil_append, List.cons.injEq] at hab
    obtain ⟨rfl, rfl⟩ := hab
    exact ⟨_, ⟨first, rest, rfl, hp, hw⟩, rfl⟩
  | cons f a =>
    simp only [List.cons_append, List.cons.injEq] at hab
    obtain ⟨rfl, rfl⟩ := hab
    refine ⟨v :: (b ++ first :: a) ++ [v], ⟨v, b ++ first :: a, rfl, ?_, ?_⟩, rfl⟩
    · refine List.Perm.trans ?_ hp
      have : (v :: (b ++ first :: a)).Perm ((first :: a) ++ (v :: b)) := by
        rw [← List.cons_append]; exact List.perm_append_comm
      exact this
    · have e1 : first :: (a ++ v :: b) ++ [first] = (first :: a) ++ v :: (b ++ [first]) := by simp
      have e2 : v :: (b ++ first :: a) ++ [v] = (v :: b) ++ first :: (a ++ [v]) := by simp
      rw [e1, pathWeight_append] at hw
      rw [e2, pathWeight_append]
      have e3 : (first :: a) ++ [v] = first :: (a ++ [v]) := rfl
      have e4 : v :: (b ++ [first]) = (v :: b) ++ [first] := rfl
      rw [e3, e4] at hw
      revert hw
      cases pathWeight w (first :: (a ++ [v])) <;> cases pathWeight w ((v :: b) ++ [first]) <;> simp
      intro hw
      rw [add_comm]; exact hw

/-! ## Renaming vertices -/

theorem pathWeight_map {V U : Type} {w : V → V → Option G} {w' : U → U → Option G} (f : V → U) (p : List V)
    (h : ∀ a ∈ p, ∀ b ∈ p, w' (f a) (f b) = w a b) : pathWeight w' (p.map f) = pathWeight w p := by
  induction p with
  | nil => rfl
  | cons a p ih =>
    cases p with
    | nil => rfl
    | cons b p =>
      have := ih (fun x hx y hy => h x (List.mem_cons_of_mem _ hx) y (List.mem_cons_of_mem _ hy))
      simp only [List.map_cons] at this ⊢
      simp only [pathWeight, this, h a (by simp) b (by simp)]

end

/-! ## Changes of weights -/

section

variable {G V : Type} [AddCommGroup G] [LinearOrder G] [IsOrderedAddMonoid G]

/-- Changed lengths: each edge contributes the offset. -/
theorem pathWeight_change {w : V → V → Option G} (neg : Bool) (off : G) (p : List V) :
    pathWeight (fun a b => (w a b).map (fun x => (if neg then 0 - x else x) + off)) p =
      (pathWeight w p).map (fun l => (if neg then 0 - l else l) + (p.length - 1) • off) := by
  induction p with
  | nil => simp [pathWeight]
  | cons a p ih =>
    cases p with
    | nil => simp [pathWeight]
    | cons b p =>
      simp only [pathWeight, ih]
      cases w a b with
      | none => simp
      | some x =>
        cases pathWeight w (b :: p) with
        | none => simp
        | some l =>
          simp only [Option.map_some, Option.some.injEq, List.length_cons, Nat.add_sub_cancel]
          rw [succ_nsmul]
          split
          · simp only [zero_sub, neg_add]; abel
          · abel

theorem foldl_min_le (l : List G) (a : G) : l.foldl min a ≤ a ∧ ∀ x ∈ l, l.foldl min a ≤ x := by
  induction l generalizing a with
  | nil => simp
  | cons b l ih =>
    obtain ⟨h1, h2⟩ := ih (min a b)
    refine ⟨h1.trans (min_le_left _ _), ?_⟩
    intro x hx
    rcases List.mem_cons.1 hx with rfl | hx
    · exact h1.trans (min_le_right _ _)
    · exact h2 x hx

theorem minOrZero_le {l : List G} {x : G} (hx : x ∈ l) : minOrZero l ≤ x := by
  cases l with
  | nil => cases hx
  | cons a l =>
    rcases List.mem_cons.1 hx with rfl | hx
    · exact (foldl_min_le l x).1
    · exact (foldl_min_le l a).2 x hx

theorem subtractTimes_coe (l off : G) (k : Nat) : subtractTimes (l : WithTop G) off k = ((l - k • off : G) : WithTop G) := by
  induction k generalizing l with
  | zero => simp [subtractTimes]
  | succ k ih =>
    unfold subtractTimes
    have : topSub (l : WithTop G) off = ((l - off : G) : WithTop G) := rfl
    rw [this, ih]
    congr 1
    rw [succ_nsmul]; abel

theorem undoWeightChanges_coe (l off : G) (k : Nat) (neg : Bool) :
    undoWeightChanges (((if neg then 0 - l else l) + k • off : G) : WithTop G) k neg off = (l : WithTop G) := by
  unfold undoWeightChanges
  simp only [subtractTimes_coe]
  have h : (if neg then 0 - l else l) + k • off - k • off = (if neg then 0 - l else l) := by abel
  rw [h]
  cases neg with
  | false => rfl
  | true =>
    have : (((0 - l : G) : WithTop G)).map (fun x => 0 - x) = ((0 - (0 - l) : G) : WithTop G) := rfl
    simp only [if_true, this]
    congr 1
    abel

theorem mem_weights {graph : List (List (Option G))} {v u : Nat} {x : G} (h : matrixGet graph v u = some x) :
    x ∈ graph.flatMap (fun edges => edges.filterMap id) := by
  unfold matrixGet at h
  simp only [List.getD_eq_getElem?_getD] at h
  cases hr : graph[v]? with
  | none => rw [hr] at h; simp at h
  | some row =>
    rw [hr] at h
    simp only [Option.getD_some] at h
    cases hx : row[u]? with
    | none => rw [hx] at h; simp at h
    | some y =>
      rw [hx] at h
      simp only [Option.getD_some] at h
      subst h
      exact List.mem_flatMap.2 ⟨row, List.mem_of_getElem? hr, List.mem_filterMap.2 ⟨_, List.mem_of_getElem? hx, rfl⟩⟩

/-- Changed weights are not negative. -/
theorem tspWeight_nonneg {graph : List (List (Option G))} {fl : Bool} {v u : Nat} {x : G}
    (h : tspWeight graph (tspChanges graph fl).1 (tspChanges graph fl).2.1 v u = some x) : 0 ≤ x := by
  unfold tspWeight at h
  obtain ⟨y, hy, rfl⟩ := Option.map_eq_some_iff.1 h
  have hmem := mem_weights hy
  cases fl with
  | false =>
    simp only [tspChanges, weightChangesForNegativeWeights, Bool.false_eq_true, if_false]
    have h1 := minOrZero_le hmem
    have h2 := (min_le_right (0 : G) (minOrZero (graph.flatMap (fun edges => edges.filterMap id)))).trans h1
    rw [zero_sub, ← sub_eq_add_neg]
    exact sub_nonneg.2 h2
  | true =>
    simp only [tspChanges, weightChangesForFindLongest, if_true]
    have h1 := minOrZero_le (List.mem_map.2 ⟨y, hmem, rfl⟩ : (0 - y) ∈ (graph.flatMap (fun edges => edges.filterMap id)).map (fun w => 0 - w))
    have h2 := (min_le_right (0 : G) _).trans h1
    rw [zero_sub (min _ _), ← sub_eq_add_neg]
    exact sub_nonneg.2 h2

end

end NoGraphs
