import Verif.Model.Gear
import Verif.Proofs.GearCollections

/-! Laws of gear operations, and proofs that all modelled collections satisfy them. -/

namespace NoGraphs

variable {S K M X W : Type}

/-- The laws of a vertex set. -/
structure SetOps.Lawful [DecidableEq K] (o : SetOps S K) : Prop where
  contains_empty : ∀ k, o.contains o.empty k = false
  contains_add : ∀ s k j, o.contains (o.add s k) j = (decide (j = k) || o.contains s j)
  checkAdd_fst : ∀ s k, (o.checkAdd s k).1 = o.contains s k
  contains_checkAdd : ∀ s k j, o.contains (o.checkAdd s k).2 j = (decide (j = k) || o.contains s j)
  drop_ok : ∀ s k, o.contains s k = true →
    ∃ s', o.drop s k = .ok s' ∧ ∀ j, o.contains s' j = (!decide (j = k) && o.contains s j)
  mustContain_none : ∀ s k, o.mustContain s k = none → o.contains s k = false
  mustContain_some : ∀ s k b, o.mustContain s k = some b → b = o.contains s k

/-- The laws of a mapping for values that satisfy `valid`. -/
structure MapOps.Lawful [DecidableEq K] (o : MapOps M K X) (valid : X → Prop) : Prop where
  get_empty : ∀ k, o.get? o.empty k = none
  get_set : ∀ m k x j, valid x → o.get? (o.set m k x) j = if j = k then some x else o.get? m j
  raw_of_get : ∀ m k x, o.get? m k = some x → o.raw m k = some (some x)

/-- The laws of a distance mapping with infinity value `inf`. -/
structure DistOps.Lawful [DecidableEq K] [LinearOrder W] (o : DistOps M K W) (inf : W) : Prop where
  get_empty : ∀ k, o.get o.empty k = inf
  get_set : ∀ m k w j, o.get (o.set m k w) j = if j = k then w else o.get m j
  improve_none : ∀ m k w, w < inf → (o.improve m k w = none ↔ o.get m k ≤ w)
  improve_some : ∀ m k w m', w < inf → o.improve m k w = some m' →
    ∀ j, o.get m' j = if j = k then w else o.get m j
  get_setDefault_ne : ∀ m k w j, j ≠ k → o.get (o.setDefault m k w) j = o.get m j
  get_setDefault : ∀ m k w, o.get (o.setDefault m k w) k = o.get m k ∨
    (o.get m k = inf ∧ o.get (o.setDefault m k w) k = w)

theorem SetOps.Lawful.contains_discard [DecidableEq K] {o : SetOps S K} (h : o.Lawful) (s : S) (k : K)
    (hk : o.contains s k = true) (j : K) : o.contains (o.discard s k) j = (!decide (j = k) && o.contains s j) := by
  obtain ⟨s', hs, hj⟩ := h.drop_ok s k hk
  unfold SetOps.discard
  rw [hs]; exact hj j

theorem SetOps.Lawful.contains_addAll [DecidableEq K] {o : SetOps S K} (h : o.Lawful) (s : S)
    (ks : List K) (j : K) : o.contains (o.addAll s ks) j = (decide (j ∈ ks) || o.contains s j) := by
  unfold SetOps.addAll
  induction ks generalizing s with
  | nil => simp
  | cons k ks ih =>
    rw [List.foldl_cons, ih, h.contains_add]
    by_cases h1 : j = k <;> by_cases h2 : j ∈ ks <;> simp [h1, h2]

theorem hashSet_lawful [DecidableEq K] : (hashSet (K := K)).Lawful where
  contains_empty := by simp [hashSet]
  contains_add s k j := by
    simp only [hashSet]
    by_cases hk : k ∈ s
    · simp only [hk, if_true]
      by_cases h : j = k
      · subst h; simp [hk]
      · simp [h]
    · simp only [hk, if_false]
      by_cases h : j = k <;> simp [h]
  checkAdd_fst s k := by
    simp only [hashSet]
    by_cases hk : k ∈ s <;> simp [hk]
  contains_checkAdd s k j := by
    simp only [hashSet]
    by_cases hk : k ∈ s
    · simp only [hk, if_true]
      by_cases h : j = k
      · subst h; simp [hk]
      · simp [h]
    · simp only [hk, if_false]
      by_cases h : j = k <;> simp [h]
  drop_ok s k _ := ⟨_, rfl, fun j => by
    simp only [hashSet]
    by_cases h : j = k <;> simp [h]⟩
  mustContain_none s k := by simp [hashSet]
  mustContain_some s k b h := by simp [hashSet] at h ⊢; exact h.symm

theorem boolSeqSet_lawful (p : SeqParams Nat) (h0 : p.default = 0) (hp : p.Ok) (pre : Nat) :
    (boolSeqSet p pre).Lawful where
  contains_empty k := by
    simp only [boolSeqSet]
    rw [BoolSet.contains_nat p h0]
    have : seqVal p (List.replicate pre p.default) k = 0 := by
      unfold seqVal; rw [List.getElem?_replicate]; split <;> simp [h0]
    simp [this]
  contains_add s k j := BoolSet.contains_add p h0 hp s k j
  checkAdd_fst s k := (BoolSet.checkAdd_spec p h0 hp s k).1
  contains_checkAdd s k j := (BoolSet.checkAdd_spec p h0 hp s k).2 j
  drop_ok s k hk := by
    have hlt : k < s.length := by
      by_contra hn
      simp only [boolSeqSet] at hk
      rw [BoolSet.contains_nat p h0] at hk
      simp [seqVal, List.getElem?_eq_none (by omega : s.length ≤ k), h0] at hk
    refine ⟨s.set k 0, by simp [boolSeqSet, BoolSet.drop, seqSet, hlt], fun j => ?_⟩
    have := BoolSet.contains_discard s k j
    simpa [BoolSet.discard, seqSet, hlt, boolSeqSet] using this
  mustContain_none s k h := by
    simp only [boolSeqSet, Option.map_eq_none_iff, seqGet] at h ⊢
    rw [BoolSet.contains_nat p h0]
    simp [seqVal, h, h0]
  mustContain_some s k b h := by
    simp only [boolSeqSet, Option.map_eq_some_iff, seqGet] at h ⊢
    rcases h with ⟨v, hv, rfl⟩
    rw [BoolSet.contains_nat p h0]
    simp [seqVal, hv]

/-- Subtracting a bit that is set clears it and no other bit. -/
theorem testBit_sub_mask (v b i : Nat) (h : v.testBit b = true) :
    (1 <<< b) ≤ v ∧ (v - 1 <<< b).testBit i = (!decide (b = i) && v.testBit i) := by
  rw [Nat.one_shiftLeft]
  have hle : 2 ^ b ≤ v := Nat.ge_two_pow_of_testBit h
  refine ⟨hle, ?_⟩
  have hr : v % 2 ^ b < 2 ^ b := Nat.mod_lt _ (Nat.two_pow_pos b)
  have hv : v = 2 ^ b * (v / 2 ^ b) + v % 2 ^ b := (Nat.div_add_mod _ _).symm
  have hodd : v / 2 ^ b % 2 = 1 := by
    simpa [Nat.testBit_eq_decide_div_mod_eq] using h
  have hs : v - 2 ^ b = 2 ^ b * (v / 2 ^ b - 1) + v % 2 ^ b := by
    have h1 : 2 ^ b * (v / 2 ^ b - 1) = 2 ^ b * (v / 2 ^ b) - 2 ^ b := by rw [Nat.mul_sub, Nat.mul_one]
    have h2 : 2 ^ b ≤ 2 ^ b * (v / 2 ^ b) := Nat.le_mul_of_pos_right _ (Nat.pos_of_ne_zero fun e => by simp [e] at hodd)
    omega
  generalize v / 2 ^ b = a at *
  generalize v % 2 ^ b = r at *
  rw [hs, hv, Nat.testBit_two_pow_mul_add _ hr, Nat.testBit_two_pow_mul_add _ hr]
  by_cases hi : i < b
  · have hb : b ≠ i := by omega
    simp [hi, hb]
  · simp only [hi, if_false]
    by_cases hb : b = i
    · subst hb
      simp only [Nat.sub_self, decide_true, Bool.not_true, Bool.false_and, Nat.testBit_zero]
      simp; omega
    · obtain ⟨n, hn⟩ : ∃ n, i - b = n + 1 := ⟨i - b - 1, by omega⟩
      rw [hn, Nat.testBit_add_one, Nat.testBit_add_one, (by omega : (a - 1) / 2 = a / 2)]
      simp [hb]

/-- The inlined removal removes the key if it is contained. -/
theorem BitSet.drop_ok (p : SeqParams Nat) (h0 : p.default = 0) (s : List Nat) (k : Nat)
    (hk : BitSet.contains s (k : Int) = true) :
    ∃ s', BitSet.drop s k = .ok s' ∧
      ∀ j : Nat, BitSet.contains s' (j : Int) = (!decide (j = k) && BitSet.contains s (j : Int)) := by
  rw [BitSet.contains_nat p h0] at hk
  have hlt : k / 8 < s.length := by
    by_contra hn
    simp [seqVal, List.getElem?_eq_none (by omega : s.length ≤ k / 8), h0] at hk
  have hv : seqVal p s (k / 8) = s[k / 8] := by simp [seqVal, hlt]
  rw [hv] at hk
  refine ⟨s.set (k / 8) (s[k / 8] - 1 <<< (k % 8)), ?_, fun j => ?_⟩
  · simp only [BitSet.drop, seqGet, List.getElem?_eq_getElem hlt]
    rw [if_neg (by have := (testBit_sub_mask _ _ 0 hk).1; omega)]
  · rw [BitSet.contains_nat p h0, BitSet.contains_nat p h0, set_val p _ _ _ hlt]
    by_cases h1 : j / 8 = k / 8
    · simp only [h1, if_true]
      rw [(testBit_sub_mask _ _ _ hk).2, hv]
      by_cases h2 : j % 8 = k % 8
      · have : j = k := BitSet.same_key.2 ⟨h1, h2⟩
        simp [this]
      · have : j ≠ k := fun e => h2 (by rw [e])
        simp [this, Ne.symm h2]
    · have : j ≠ k := fun e => h1 (by rw [e])
      simp [h1, this]

theorem bitSeqSet_lawful (p : SeqParams Nat) (h0 : p.default = 0) (hp : p.Ok) (pre : Nat) :
    (bitSeqSet p pre).Lawful where
  contains_empty k := by
    simp only [bitSeqSet]
    rw [BitSet.contains_nat p h0]
    have : seqVal p (List.replicate pre p.default) (k / 8) = 0 := by
      unfold seqVal; rw [List.getElem?_replicate]; split <;> simp [h0]
    simp [this]
  contains_add s k j := BitSet.contains_add p h0 hp s k j
  checkAdd_fst s k := (BitSet.checkAdd_spec p h0 hp s k).1
  contains_checkAdd s k j := (BitSet.checkAdd_spec p h0 hp s k).2 j
  drop_ok s k hk := BitSet.drop_ok p h0 s k hk
  mustContain_none s k h := by
    simp only [bitSeqSet, Option.map_eq_none_iff, seqGet] at h ⊢
    rw [BitSet.contains_nat p h0]
    simp [seqVal, h, h0]
  mustContain_some s k b h := by
    simp only [bitSeqSet, Option.map_eq_some_iff, seqGet] at h ⊢
    rcases h with ⟨v, hv, rfl⟩
    rw [BitSet.contains_nat p h0]
    simp only [seqVal, hv, Option.getD_some]
    exact BitSet.and_shift_ne_zero v (k % 8)

theorem dictMap_lawful [DecidableEq K] : (dictMap (K := K) (X := X)).Lawful (fun _ => True) where
  get_empty _ := rfl
  get_set _ _ _ _ _ := rfl
  raw_of_get m k x h := by simp only [dictMap] at h ⊢; simp [h]

theorem seqGet_of_getItem {α : Type} [DecidableEq α] (p : SeqParams α) (m : List α) (k : Nat) (x : α)
    (h : SeqMap.getItem p m k = some x) : seqGet m k = some x := by
  unfold SeqMap.getItem at h
  split at h
  · exact h
  · simp at h

theorem seqVal_replicate {α : Type} (p : SeqParams α) (pre k : Nat) :
    seqVal p (List.replicate pre p.default) k = p.default := by
  unfold seqVal; rw [List.getElem?_replicate]; split <;> simp

theorem listMap_lawful [DecidableEq X] (p : SeqParams (Option X)) (h0 : p.default = none) (hp : p.Ok)
    (pre : Nat) : (listMap p pre).Lawful (fun _ => True) where
  get_empty k := by
    simp only [listMap]
    rw [SeqMap.getItem_eq, seqVal_replicate]; simp
  get_set m k x j _ := by
    simp only [listMap, SeqMap.setItem]
    rw [SeqMap.getItem_eq, SeqMap.getItem_eq, setOrExtend_val p hp]
    by_cases h : j = k <;> simp [h, h0]
  raw_of_get m k x h := by
    simp only [listMap] at h ⊢
    rw [Option.join_eq_some_iff] at h
    exact seqGet_of_getItem p m k _ h

theorem arrayMap_lawful [DecidableEq X] (p : SeqParams X) (hp : p.Ok)
    (pre : Nat) : (arrayMap p pre).Lawful (fun x => x ≠ p.default) where
  get_empty k := by
    simp only [arrayMap]
    rw [SeqMap.getItem_eq, seqVal_replicate]; simp
  get_set m k x j hx := by
    simp only [arrayMap, SeqMap.setItem]
    rw [SeqMap.getItem_eq, SeqMap.getItem_eq, setOrExtend_val p hp]
    by_cases h : j = k <;> simp [h, hx]
  raw_of_get m k x h := by
    simp only [arrayMap] at h ⊢
    rw [seqGet_of_getItem p m k _ h]; rfl

theorem dictDist_lawful [DecidableEq K] [LinearOrder W] (inf : W) :
    (dictDist (K := K) inf).Lawful inf where
  get_empty _ := rfl
  get_set m k w j := by
    simp only [dictDist]; split <;> simp
  improve_none m k w _ := by
    simp only [dictDist]; split <;> simp_all
  improve_some m k w m' _ h j := by
    simp only [dictDist] at h ⊢
    split at h
    · simp at h
    · simp only [Option.some.injEq] at h
      subst h
      by_cases hj : j = k <;> simp [hj]
  get_setDefault_ne m k w j hj := by
    simp only [dictDist]; split <;> simp [hj]
  get_setDefault m k w := by
    simp only [dictDist]
    cases h : m k <;> simp [h]

theorem seqDist_lawful [LinearOrder W] (p : SeqParams W) (hp : p.Ok) (pre : Nat) :
    (seqDist p pre).Lawful p.default where
  get_empty k := seqVal_replicate p pre k
  get_set m k w j := setOrExtend_val p hp m k w j
  improve_none m k w hw := by
    simp only [seqDist, seqGet]
    cases hg : m[k]? with
    | none => simp; exact hw
    | some v =>
      have hlt : k < m.length := by
        rcases List.getElem?_eq_some_iff.1 hg with ⟨h, _⟩; exact h
      simp only [Option.getD_some]
      split
      · simp_all
      · rename_i hv
        simp [seqSet_some _ _ _ hlt]
        exact lt_of_not_ge hv
  improve_some m k w m' hw h j := by
    simp only [seqDist, seqGet] at h ⊢
    cases hg : m[k]? with
    | none =>
      rw [hg] at h
      simp only [Option.some.injEq] at h
      subst h
      exact extendAndSet_val p hp m k w j
    | some v =>
      rw [hg] at h
      have hlt : k < m.length := by
        rcases List.getElem?_eq_some_iff.1 hg with ⟨h, _⟩; exact h
      simp only [seqSet_some _ _ _ hlt] at h
      split at h
      · simp at h
      · simp only [Option.some.injEq] at h
        subst h
        exact set_val p m k w hlt j
  get_setDefault_ne m k w j hj := by
    have := SeqMap.updateDefault1_val p hp m k w j
    simp only [seqDist]
    change seqVal p _ j = seqVal p m j
    rw [this, if_neg (fun h => hj h.1)]
  get_setDefault m k w := by
    have := SeqMap.updateDefault1_val p hp m k w k
    simp only [seqDist]
    change seqVal p _ k = seqVal p m k ∨ (seqVal p m k = p.default ∧ seqVal p _ k = w)
    rw [this]
    by_cases h : seqVal p m k = p.default
    · right; exact ⟨h, by rw [if_pos ⟨rfl, h⟩]⟩
    · left; rw [if_neg (fun h' => h h'.2)]

end NoGraphs
