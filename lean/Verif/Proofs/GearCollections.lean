import Verif.Model.GearCollections

/-! Helper lemmas for `Verif.Model.GearCollections`. -/

namespace NoGraphs

variable {α : Type}

/-- The parameters are usable: extending by an empty template would loop forever. -/
def SeqParams.Ok (p : SeqParams α) : Prop := p.byTemplate = true → 0 < p.extendSize

/-- Value of a key, gaps outside the sequence read as default. -/
def seqVal (p : SeqParams α) (data : List α) (key : Nat) : α := (data[key]?).getD p.default

theorem extendLoop_val (p : SeqParams α) (n : Nat) (fuel target : Nat) (data : List α) (k : Nat) :
    seqVal p (extendLoop (List.replicate n p.default) fuel target data) k = seqVal p data k := by
  induction fuel generalizing data with
  | zero => rfl
  | succ f ih =>
    unfold extendLoop
    split
    · rw [ih]
      unfold seqVal
      rw [List.getElem?_append]
      split
      · rfl
      · rename_i h1 h2
        rw [List.getElem?_replicate]
        have : data[k]? = none := by simp; omega
        rw [this]
        split <;> rfl
    · rfl

theorem extendLoop_length (n : Nat) (hn : 0 < n) (d : α) (fuel target : Nat) (data : List α)
    (hf : target ≤ fuel + data.length) :
    target ≤ (extendLoop (List.replicate n d) fuel target data).length := by
  induction fuel generalizing data with
  | zero => simpa [extendLoop] using hf
  | succ f ih =>
    unfold extendLoop
    split
    · apply ih; simp; omega
    · omega

theorem getElem?_set_eq' (l : List α) (k j : Nat) (v : α) (h : k < l.length) :
    (l.set k v)[j]? = if j = k then some v else l[j]? := by
  rw [List.getElem?_set]
  by_cases hj : k = j
  · subst hj; simp [h]
  · simp [hj, Ne.symm hj]

theorem extendAndSet_val (p : SeqParams α) (hp : p.Ok) (data : List α) (key : Nat) (v : α) (k : Nat) :
    seqVal p (extendAndSet p data key v) k = if k = key then v else seqVal p data k := by
  unfold extendAndSet
  simp only
  split
  · rename_i ht
    have hlen := extendLoop_length p.extendSize (hp ht) p.default (key + 1 + p.extendSize)
      (key + 1 + p.extendSize) data (by omega)
    have hv := extendLoop_val p p.extendSize (key + 1 + p.extendSize) (key + 1 + p.extendSize) data k
    unfold seqVal at hv ⊢
    rw [getElem?_set_eq' _ _ _ _ (by omega)]
    split
    · rfl
    · exact hv
  · unfold seqVal
    rw [getElem?_set_eq' _ _ _ _ (by simp; omega)]
    split
    · rfl
    · rw [List.getElem?_append]
      split
      · rfl
      · rename_i h1 h2 h3
        have : data[k]? = none := by simp; omega
        rw [this, List.getElem?_replicate]
        split <;> rfl

theorem seqSet_some (data : List α) (key : Nat) (v : α) (h : key < data.length) :
    seqSet data key v = some (data.set key v) := by simp [seqSet, h]

theorem seqSet_none (data : List α) (key : Nat) (v : α) (h : ¬ key < data.length) :
    seqSet data key v = none := by simp [seqSet, h]

theorem set_val (p : SeqParams α) (data : List α) (key : Nat) (v : α) (h : key < data.length) (k : Nat) :
    seqVal p (data.set key v) k = if k = key then v else seqVal p data k := by
  unfold seqVal
  rw [getElem?_set_eq' _ _ _ _ h]
  split <;> rfl

theorem setOrExtend_val (p : SeqParams α) (hp : p.Ok) (data : List α) (key : Nat) (v : α) (k : Nat) :
    seqVal p (setOrExtend p data key v) k = if k = key then v else seqVal p data k := by
  unfold setOrExtend
  by_cases h : key < data.length
  · simp only [seqSet_some _ _ _ h]
    exact set_val p data key v h k
  · simp only [seqSet_none _ _ _ h]
    exact extendAndSet_val p hp data key v k

/-- All stored values satisfy a predicate. -/
theorem extendLoop_forall (P : α → Prop) (t : List α) (ht : ∀ x ∈ t, P x) (fuel target : Nat)
    (data : List α) (hd : ∀ x ∈ data, P x) : ∀ x ∈ extendLoop t fuel target data, P x := by
  induction fuel generalizing data with
  | zero => exact hd
  | succ f ih =>
    unfold extendLoop
    split
    · apply ih
      intro x hx
      rcases List.mem_append.1 hx with h | h
      · exact hd x h
      · exact ht x h
    · exact hd

theorem set_forall (P : α → Prop) (data : List α) (hd : ∀ x ∈ data, P x) (k : Nat) (v : α) (hv : P v) :
    ∀ x ∈ data.set k v, P x := by
  intro x hx
  rcases List.mem_or_eq_of_mem_set hx with h | h
  · exact hd x h
  · exact h ▸ hv

theorem extendAndSet_forall (P : α → Prop) (p : SeqParams α) (hdef : P p.default) (data : List α)
    (hd : ∀ x ∈ data, P x) (key : Nat) (v : α) (hv : P v) :
    ∀ x ∈ extendAndSet p data key v, P x := by
  unfold extendAndSet
  apply set_forall P _ _ _ _ hv
  split
  · apply extendLoop_forall P _ _ _ _ _ hd
    intro x hx
    rw [List.eq_of_mem_replicate hx]; exact hdef
  · intro x hx
    rcases List.mem_append.1 hx with h | h
    · exact hd x h
    · rw [List.eq_of_mem_replicate h]; exact hdef

/-! ### Boolean sets -/

namespace BoolSet

theorem contains_nat (p : SeqParams Nat) (h0 : p.default = 0) (data : List Nat) (k : Nat) :
    contains data (k : Int) = (seqVal p data k != 0) := by
  unfold contains seqVal seqGet
  have : ¬ ((k : Int) < 0) := by omega
  simp only [this, if_false, Int.toNat_natCast]
  cases data[k]? <;> simp [h0]

theorem contains_neg (data : List Nat) (k : Int) (h : k < 0) : contains data k = false := by
  simp [contains, h]

theorem contains_add (p : SeqParams Nat) (h0 : p.default = 0) (hp : p.Ok) (data : List Nat) (k j : Nat) :
    contains (add p data k) (j : Int) = (decide (j = k) || contains data (j : Int)) := by
  rw [contains_nat p h0, contains_nat p h0, add, setOrExtend_val p hp]
  by_cases h : j = k <;> simp [h]

theorem contains_discard (data : List Nat) (k j : Nat) :
    contains (discard data k) (j : Int) = (!decide (j = k) && contains data (j : Int)) := by
  let p : SeqParams Nat := ⟨0, 1, false⟩
  rw [contains_nat p rfl, contains_nat p rfl]
  unfold discard
  by_cases h : k < data.length
  · simp only [seqSet_some _ _ _ h]
    rw [set_val p _ _ _ h]
    by_cases hj : j = k <;> simp [hj]
  · simp only [seqSet_none _ _ _ h]
    by_cases hj : j = k
    · subst hj
      have : data[j]? = none := by simp; omega
      simp [seqVal, this, p]
    · simp [hj]

theorem contains_update (p : SeqParams Nat) (h0 : p.default = 0) (hp : p.Ok) (keys : List Nat)
    (data : List Nat) (j : Nat) :
    contains (updateFromKeys p data keys) (j : Int) = (decide (j ∈ keys) || contains data (j : Int)) := by
  unfold updateFromKeys
  induction keys generalizing data with
  | nil => simp
  | cons k ks ih =>
    rw [List.foldl_cons, ih]
    have := contains_add p h0 hp data k j
    unfold add at this
    rw [this]
    by_cases h1 : j = k <;> by_cases h2 : j ∈ ks <;> simp [h1, h2]

theorem checkAdd_spec (p : SeqParams Nat) (h0 : p.default = 0) (hp : p.Ok) (data : List Nat) (k : Nat) :
    (checkAdd p data k).1 = contains data (k : Int) ∧
    ∀ j : Nat, contains (checkAdd p data k).2 (j : Int) = (decide (j = k) || contains data (j : Int)) := by
  have hget : seqGet data k = data[k]? := rfl
  rw [contains_nat p h0]
  constructor
  · unfold checkAdd seqVal
    rw [hget]
    cases h : data[k]? with
    | none => simp [h0]
    | some v => by_cases hv : v = 0 <;> simp [hv]
  · intro j
    rw [contains_nat p h0, contains_nat p h0]
    unfold checkAdd
    rw [hget]
    cases h : data[k]? with
    | none =>
      simp only
      rw [extendAndSet_val p hp]
      by_cases hj : j = k <;> simp [hj]
    | some v =>
      have hlt : k < data.length := by
        rcases List.getElem?_eq_some_iff.1 h with ⟨h, _⟩; exact h
      by_cases hv : v = 0
      · simp only [hv, bne_self_eq_false, Bool.false_eq_true, if_false, seqSet_some _ _ _ hlt,
          Option.getD_some]
        rw [set_val p _ _ _ hlt]
        by_cases hj : j = k <;> simp [hj]
      · have : (v != 0) = true := by simp [hv]
        simp only [this, if_true]
        by_cases hj : j = k
        · subst hj; simp [seqVal, h, hv]
        · simp [hj]

theorem mem_iterFrom (data : List Nat) (pos k : Nat) :
    k ∈ iterFrom pos data ↔ pos ≤ k ∧ (data[k - pos]?).getD 0 ≠ 0 := by
  induction data generalizing pos with
  | nil => simp [iterFrom]
  | cons v rest ih =>
    unfold iterFrom
    by_cases hk : k = pos
    · subst hk
      by_cases hv : v = 0 <;> simp [hv, ih]
      omega
    · have e : pos < k → (v :: rest)[k - pos]? = rest[k - (pos + 1)]? := by
        intro h
        have : k - pos = (k - (pos + 1)) + 1 := by omega
        rw [this, List.getElem?_cons_succ]
      by_cases hv : v = 0
      · simp only [hv, bne_self_eq_false, Bool.false_eq_true, if_false, ih]
        constructor
        · rintro ⟨h1, h2⟩
          subst hv
          exact ⟨by omega, by rw [e (by omega)]; exact h2⟩
        · rintro ⟨h1, h2⟩
          subst hv
          rw [e (by omega)] at h2
          exact ⟨by omega, h2⟩
      · have hv' : (v != 0) = true := by simp [hv]
        simp only [hv', if_true, List.mem_cons, hk, false_or, ih]
        constructor
        · rintro ⟨h1, h2⟩
          exact ⟨by omega, by rw [e (by omega)]; exact h2⟩
        · rintro ⟨h1, h2⟩
          rw [e (by omega)] at h2
          exact ⟨by omega, h2⟩

theorem iterFrom_sorted (data : List Nat) (pos : Nat) : (iterFrom pos data).Pairwise (· < ·) := by
  induction data generalizing pos with
  | nil => simp [iterFrom]
  | cons v rest ih =>
    unfold iterFrom
    split
    · rw [List.pairwise_cons]
      refine ⟨?_, ih _⟩
      intro b hb
      have := (mem_iterFrom rest (pos + 1) b).1 hb
      omega
    · exact ih _

theorem length_iterFrom (data : List Nat) (pos : Nat) : (iterFrom pos data).length = len data := by
  induction data generalizing pos with
  | nil => simp [iterFrom, len]
  | cons v rest ih =>
    unfold iterFrom
    by_cases hv : v = 0
    · simp only [hv, bne_self_eq_false, Bool.false_eq_true, if_false, ih]
      simp [len]
    · have hv' : (v != 0) = true := by simp [hv]
      simp only [hv', if_true, List.length_cons, ih]
      simp [len, hv']; omega

theorem mem_iter (data : List Nat) (k : Nat) : k ∈ iter data ↔ contains data (k : Int) = true := by
  unfold iter
  rw [mem_iterFrom, contains_nat ⟨0, 1, false⟩ rfl]
  simp [seqVal]

end BoolSet

/-! ### Bit sets -/

namespace BitSet

theorem and_shift_ne_zero (v b : Nat) : ((v &&& (1 <<< b)) != 0) = v.testBit b := by
  have h : (v &&& (1 <<< b)) = if v.testBit b then 2 ^ b else 0 := by
    apply Nat.eq_of_testBit_eq
    intro i
    rw [Nat.testBit_and, Nat.one_shiftLeft, Nat.testBit_two_pow]
    by_cases hi : b = i
    · subst hi; cases hv : v.testBit b <;> simp [Nat.testBit_two_pow_self]
    · cases hv : v.testBit b <;> simp [hi]
  rw [h]
  cases v.testBit b <;> simp

theorem contains_nat (p : SeqParams Nat) (h0 : p.default = 0) (data : List Nat) (k : Nat) :
    contains data (k : Int) = (seqVal p data (k / 8)).testBit (k % 8) := by
  unfold contains seqVal seqGet
  have : ¬ ((k : Int) < 0) := by omega
  simp only [this, if_false, Int.toNat_natCast]
  cases data[k / 8]? with
  | none => simp [h0]
  | some v =>
    simp only [Option.getD_some]
    rw [and_shift_ne_zero]
    by_cases hv : v = 0 <;> simp [hv]

theorem contains_neg (data : List Nat) (k : Int) (h : k < 0) : contains data k = false := by
  simp [contains, h]

theorem same_key {k j : Nat} : k = j ↔ k / 8 = j / 8 ∧ k % 8 = j % 8 := by omega

theorem testBit_or_mask (v b i : Nat) : (v ||| (1 <<< b)).testBit i = (v.testBit i || decide (b = i)) := by
  rw [Nat.testBit_or, Nat.one_shiftLeft, Nat.testBit_two_pow]

theorem testBit_mask (b i : Nat) : (1 <<< b).testBit i = decide (b = i) := by
  rw [Nat.one_shiftLeft, Nat.testBit_two_pow]

theorem contains_set_or (p : SeqParams Nat) (h0 : p.default = 0) (data : List Nat) (k v : Nat)
    (h : data[k / 8]? = some v) (j : Nat) :
    contains (data.set (k / 8) (v ||| (1 <<< (k % 8)))) (j : Int)
      = (decide (j = k) || contains data (j : Int)) := by
  have hlt : k / 8 < data.length := by
    rcases List.getElem?_eq_some_iff.1 h with ⟨h, _⟩; exact h
  rw [contains_nat p h0, contains_nat p h0, set_val p _ _ _ hlt]
  by_cases h1 : j / 8 = k / 8
  · simp only [h1, if_true, testBit_or_mask]
    have : seqVal p data (k / 8) = v := by simp [seqVal, h]
    rw [this]
    by_cases h2 : j % 8 = k % 8
    · have : j = k := same_key.2 ⟨h1, h2⟩
      simp [this]
    · have : j ≠ k := fun e => h2 (by rw [e])
      simp [this, Ne.symm h2]
  · have : j ≠ k := fun e => h1 (by rw [e])
    simp [h1, this]

theorem contains_extend (p : SeqParams Nat) (h0 : p.default = 0) (hp : p.Ok) (data : List Nat) (k : Nat)
    (h : data[k / 8]? = none) (j : Nat) :
    contains (extendAndSet p data (k / 8) (1 <<< (k % 8))) (j : Int)
      = (decide (j = k) || contains data (j : Int)) := by
  rw [contains_nat p h0, contains_nat p h0, extendAndSet_val p hp]
  by_cases h1 : j / 8 = k / 8
  · simp only [h1, if_true, testBit_mask]
    have : seqVal p data (k / 8) = 0 := by simp [seqVal, h, h0]
    rw [this]
    by_cases h2 : j % 8 = k % 8
    · have : j = k := same_key.2 ⟨h1, h2⟩
      simp [this]
    · have : j ≠ k := fun e => h2 (by rw [e])
      simp [this, Ne.symm h2]
  · have : j ≠ k := fun e => h1 (by rw [e])
    simp [h1, this]

theorem contains_add (p : SeqParams Nat) (h0 : p.default = 0) (hp : p.Ok) (data : List Nat) (k j : Nat) :
    contains (add p data k) (j : Int) = (decide (j = k) || contains data (j : Int)) := by
  unfold add
  simp only [seqGet]
  cases h : data[k / 8]? with
  | none => exact contains_extend p h0 hp data k h j
  | some v =>
    have hlt : k / 8 < data.length := by
      rcases List.getElem?_eq_some_iff.1 h with ⟨h, _⟩; exact h
    simp only [seqSet_some _ _ _ hlt, Option.getD_some]
    exact contains_set_or p h0 data k v h j

theorem contains_update (p : SeqParams Nat) (h0 : p.default = 0) (hp : p.Ok) (keys : List Nat)
    (data : List Nat) (j : Nat) :
    contains (updateFromKeys p data keys) (j : Int) = (decide (j ∈ keys) || contains data (j : Int)) := by
  unfold updateFromKeys
  induction keys generalizing data with
  | nil => simp
  | cons k ks ih =>
    rw [List.foldl_cons, ih, contains_add p h0 hp data k j]
    by_cases h1 : j = k <;> by_cases h2 : j ∈ ks <;> simp [h1, h2]

theorem checkAdd_spec (p : SeqParams Nat) (h0 : p.default = 0) (hp : p.Ok) (data : List Nat) (k : Nat) :
    (checkAdd p data k).1 = contains data (k : Int) ∧
    ∀ j : Nat, contains (checkAdd p data k).2 (j : Int) = (decide (j = k) || contains data (j : Int)) := by
  unfold checkAdd
  simp only [seqGet]
  cases h : data[k / 8]? with
  | none =>
    refine ⟨?_, fun j => contains_extend p h0 hp data k h j⟩
    rw [contains_nat p h0]; simp [seqVal, h, h0]
  | some v =>
    have hlt : k / 8 < data.length := by
      rcases List.getElem?_eq_some_iff.1 h with ⟨h, _⟩; exact h
    have hc : contains data (k : Int) = v.testBit (k % 8) := by
      rw [contains_nat p h0]; simp [seqVal, h]
    simp only [and_shift_ne_zero]
    cases hb : v.testBit (k % 8) with
    | true =>
      simp only [if_true]
      refine ⟨by rw [hc, hb], fun j => ?_⟩
      by_cases hj : j = k
      · subst hj; simp [hc, hb]
      · simp [hj]
    | false =>
      simp only [Bool.false_eq_true, if_false, seqSet_some _ _ _ hlt, Option.getD_some]
      exact ⟨by rw [hc, hb], fun j => contains_set_or p h0 data k v h j⟩

theorem testBit_clear (b i : Nat) (hb : b < 8) (hi : i < 8) :
    (255 - (1 <<< b)).testBit i = !decide (b = i) := by
  have : ∀ b < 8, ∀ i < 8, (255 - (1 <<< b)).testBit i = !decide (b = i) := by decide
  exact this b hb i hi

theorem contains_discard (data : List Nat) (k j : Nat) :
    contains (discard data k) (j : Int) = (!decide (j = k) && contains data (j : Int)) := by
  let p : SeqParams Nat := ⟨0, 1, false⟩
  unfold discard
  simp only [seqGet]
  cases h : data[k / 8]? with
  | none =>
    simp only
    by_cases hj : j = k
    · subst hj; rw [contains_nat p rfl]; simp [seqVal, h, p]
    · simp [hj]
  | some v =>
    have hlt : k / 8 < data.length := by
      rcases List.getElem?_eq_some_iff.1 h with ⟨h, _⟩; exact h
    simp only [seqSet_some _ _ _ hlt, Option.getD_some]
    rw [contains_nat p rfl, contains_nat p rfl, set_val p _ _ _ hlt]
    by_cases h1 : j / 8 = k / 8
    · simp only [h1, if_true, Nat.testBit_and]
      rw [testBit_clear _ _ (by omega) (by omega)]
      have : seqVal p data (k / 8) = v := by simp [seqVal, h]
      rw [this]
      by_cases h2 : j % 8 = k % 8
      · have : j = k := same_key.2 ⟨h1, h2⟩
        simp [this]
      · have : j ≠ k := fun e => h2 (by rw [e])
        simp [this, Ne.symm h2]
    · have : j ≠ k := fun e => h1 (by rw [e])
      simp [h1, this]

theorem iterByte_eq (hi v : Nat) :
    iterByte hi v = ((List.range 8).filter (fun i => v.testBit i)).map (fun i => hi + i) := by
  have e : [(0, 1), (1, 2), (2, 4), (3, 8), (4, 16), (5, 32), (6, 64), (7, 128)]
      = (List.range 8).map (fun i => (i, 1 <<< i)) := by decide
  unfold iterByte
  rw [e, List.filter_map, List.map_map]
  have : ((fun lm : Nat × Nat => (v &&& lm.2) != 0) ∘ fun i => (i, 1 <<< i))
      = fun i => v.testBit i := by
    funext i; simp only [Function.comp]; exact and_shift_ne_zero v i
  rw [this]
  rfl

theorem mem_iterByte (hi v k : Nat) :
    k ∈ iterByte hi v ↔ hi ≤ k ∧ k - hi < 8 ∧ v.testBit (k - hi) = true := by
  rw [iterByte_eq, List.mem_map]
  constructor
  · rintro ⟨i, hi', rfl⟩
    rw [List.mem_filter, List.mem_range] at hi'
    refine ⟨by omega, by omega, ?_⟩
    rw [Nat.add_sub_cancel_left]; exact hi'.2
  · rintro ⟨h1, h2, h3⟩
    exact ⟨k - hi, by rw [List.mem_filter, List.mem_range]; exact ⟨h2, h3⟩, by omega⟩

theorem mem_iterFrom (data : List Nat) (pos k : Nat) :
    k ∈ iterFrom pos data ↔
      pos ≤ k ∧ ((data[(k - pos) / 8]?).getD 0).testBit ((k - pos) % 8) = true := by
  induction data generalizing pos with
  | nil => simp [iterFrom]
  | cons v rest ih =>
    unfold iterFrom
    have hv : (if v != 0 then iterByte pos v else []) = iterByte pos v := by
      by_cases hv : v = 0
      · subst hv
        have : iterByte pos 0 = [] := by rw [iterByte_eq]; simp
        simp [this]
      · simp [hv]
    rw [hv, List.mem_append, mem_iterByte, ih]
    by_cases h : pos + 8 ≤ k
    · have e1 : (k - pos) / 8 = (k - (pos + 8)) / 8 + 1 := by omega
      have e2 : (k - pos) % 8 = (k - (pos + 8)) % 8 := by omega
      rw [e1, e2, List.getElem?_cons_succ]
      constructor
      · rintro (h' | h')
        · omega
        · exact ⟨by omega, h'.2⟩
      · rintro ⟨_, h'⟩; exact Or.inr ⟨h, h'⟩
    · by_cases h2 : pos ≤ k
      · have e1 : (k - pos) / 8 = 0 := by omega
        have e2 : (k - pos) % 8 = k - pos := by omega
        rw [e1, e2]
        simp only [List.getElem?_cons_zero, Option.getD_some]
        constructor
        · rintro (h' | h')
          · exact ⟨h2, h'.2.2⟩
          · omega
        · rintro ⟨_, h'⟩; exact Or.inl ⟨h2, by omega, h'⟩
      · constructor
        · rintro (h' | h') <;> omega
        · rintro ⟨_, _⟩; omega

theorem iterFrom_sorted (data : List Nat) (pos : Nat) : (iterFrom pos data).Pairwise (· < ·) := by
  induction data generalizing pos with
  | nil => simp [iterFrom]
  | cons v rest ih =>
    unfold iterFrom
    rw [List.pairwise_append]
    refine ⟨?_, ih _, ?_⟩
    · split
      · rw [iterByte_eq, List.pairwise_map]
        exact (List.Pairwise.sublist List.filter_sublist List.pairwise_lt_range).imp
          (by intro a b h; omega)
      · simp
    · intro a ha b hb
      have hb' := ((mem_iterFrom rest (pos + 8) b).1 hb).1
      split at ha
      · have := (mem_iterByte pos v a).1 ha; omega
      · simp at ha

theorem bitCount_eq (v : Nat) (hv : v < 256) :
    bitCount v = ((List.range 8).filter (fun i => v.testBit i)).length := by
  have : ∀ v < 256, bitCount v = ((List.range 8).filter (fun i => v.testBit i)).length := by
    decide +kernel
  exact this v hv

theorem length_iterFrom (data : List Nat) (h : ∀ v ∈ data, v < 256) (pos : Nat) :
    (iterFrom pos data).length = len data := by
  induction data generalizing pos with
  | nil => simp [iterFrom, len]
  | cons v rest ih =>
    unfold iterFrom
    rw [List.length_append, ih (fun x hx => h x (List.mem_cons_of_mem _ hx))]
    have hb := bitCount_eq v (h v List.mem_cons_self)
    have : (if v != 0 then iterByte pos v else []).length = bitCount v := by
      by_cases hv : v = 0
      · subst hv; rfl
      · simp only [bne_iff_ne, ne_eq, hv, not_false_eq_true, if_true]
        rw [hb, iterByte_eq, List.length_map]
    rw [this]
    simp [len]

theorem mem_iter (data : List Nat) (k : Nat) : k ∈ iter data ↔ contains data (k : Int) = true := by
  unfold iter
  rw [mem_iterFrom, contains_nat ⟨0, 1, false⟩ rfl]
  simp [seqVal]

/-! bytes stay bytes -/

theorem mask_lt (k : Nat) : 1 <<< (k % 8) < 256 := by
  have : ∀ b < 8, 1 <<< b < 256 := by decide
  exact this _ (by omega)

theorem or_lt (a b : Nat) (ha : a < 256) (hb : b < 256) : a ||| b < 256 :=
  Nat.or_lt_two_pow (n := 8) ha hb

theorem add_bytes (p : SeqParams Nat) (h0 : p.default = 0) (data : List Nat) (h : ∀ v ∈ data, v < 256)
    (k : Nat) : ∀ v ∈ add p data k, v < 256 := by
  unfold add
  simp only [seqGet]
  cases hg : data[k / 8]? with
  | none => exact extendAndSet_forall _ p (by rw [h0]; omega) data h _ _ (mask_lt k)
  | some v =>
    have hlt : k / 8 < data.length := by
      rcases List.getElem?_eq_some_iff.1 hg with ⟨h, _⟩; exact h
    simp only [seqSet_some _ _ _ hlt, Option.getD_some]
    exact set_forall _ data h _ _ (or_lt _ _ (h v (List.mem_of_getElem? hg)) (mask_lt k))

theorem discard_bytes (data : List Nat) (h : ∀ v ∈ data, v < 256) (k : Nat) :
    ∀ v ∈ discard data k, v < 256 := by
  unfold discard
  simp only [seqGet]
  cases hg : data[k / 8]? with
  | none => exact h
  | some v =>
    have hlt : k / 8 < data.length := by
      rcases List.getElem?_eq_some_iff.1 hg with ⟨h, _⟩; exact h
    simp only [seqSet_some _ _ _ hlt, Option.getD_some]
    refine set_forall (· < 256) data h _ _ ?_
    exact Nat.lt_of_le_of_lt Nat.and_le_left (h v (List.mem_of_getElem? hg))

theorem update_bytes (p : SeqParams Nat) (h0 : p.default = 0) (keys data : List Nat)
    (h : ∀ v ∈ data, v < 256) : ∀ v ∈ updateFromKeys p data keys, v < 256 := by
  unfold updateFromKeys
  induction keys generalizing data with
  | nil => exact h
  | cons k ks ih => rw [List.foldl_cons]; exact ih _ (add_bytes p h0 data h k)

theorem checkAdd_bytes (p : SeqParams Nat) (h0 : p.default = 0) (data : List Nat)
    (h : ∀ v ∈ data, v < 256) (k : Nat) : ∀ v ∈ (checkAdd p data k).2, v < 256 := by
  unfold checkAdd
  simp only [seqGet]
  cases hg : data[k / 8]? with
  | none => exact extendAndSet_forall _ p (by rw [h0]; omega) data h _ _ (mask_lt k)
  | some v =>
    have hlt : k / 8 < data.length := by
      rcases List.getElem?_eq_some_iff.1 hg with ⟨h, _⟩; exact h
    simp only [seqSet_some _ _ _ hlt, Option.getD_some]
    split
    · exact h
    · exact set_forall (· < 256) data h _ _ (or_lt _ _ (h v (List.mem_of_getElem? hg)) (mask_lt k))

end BitSet

/-! ### Mappings -/

namespace SeqMap

variable [DecidableEq α]

theorem contains_nat (p : SeqParams α) (data : List α) (k : Nat) :
    contains p data (k : Int) = (seqVal p data k != p.default) := by
  unfold contains seqVal seqGet
  have : ¬ ((k : Int) < 0) := by omega
  simp only [this, if_false, Int.toNat_natCast]
  cases data[k]? <;> simp

theorem getItem_eq (p : SeqParams α) (data : List α) (k : Nat) :
    getItem p data k = if seqVal p data k = p.default then none else some (seqVal p data k) := by
  unfold getItem
  rw [contains_nat]
  by_cases h : seqVal p data k = p.default
  · simp [h]
  · simp only [bne_iff_ne, ne_eq, h, not_false_eq_true, if_true, if_false]
    unfold seqGet
    unfold seqVal at h ⊢
    cases hd : data[k]? with
    | none => rw [hd] at h; simp at h
    | some v => simp

theorem delItem_val (p : SeqParams α) (data : List α) (k j : Nat) :
    seqVal p (delItem p data k) j = if j = k then p.default else seqVal p data j := by
  unfold delItem
  rw [contains_nat]
  by_cases h : seqVal p data k = p.default
  · simp only [h, bne_self_eq_false, Bool.false_eq_true, if_false]
    split
    · next e => rw [e, h]
    · rfl
  · have hlt : k < data.length := by
      apply Decidable.byContradiction
      intro hn
      apply h
      have : data[k]? = none := by simp; omega
      simp [seqVal, this]
    simp only [bne_iff_ne, ne_eq, h, not_false_eq_true, if_true, seqSet_some _ _ _ hlt, Option.getD_some]
    exact set_val p data k _ hlt j

theorem updateDefault1_val (p : SeqParams α) (hp : p.Ok) (data : List α) (k : Nat) (v : α) (j : Nat) :
    seqVal p (updateDefault1 p data k v) j =
      if j = k ∧ seqVal p data k = p.default then v else seqVal p data j := by
  unfold updateDefault1
  simp only [seqGet]
  cases hg : data[k]? with
  | none =>
    simp only
    rw [extendAndSet_val p hp]
    have : seqVal p data k = p.default := by simp [seqVal, hg]
    simp [this]
  | some w =>
    have hlt : k < data.length := by
      rcases List.getElem?_eq_some_iff.1 hg with ⟨h, _⟩; exact h
    have hw : seqVal p data k = w := by simp [seqVal, hg]
    simp only
    rw [hw]
    split
    · next e =>
      simp only [seqSet_some _ _ _ hlt, Option.getD_some, e, and_true]
      exact set_val p data k v hlt j
    · next e => simp [e]

theorem mem_iterFrom (p : SeqParams α) (data : List α) (pos k : Nat) :
    k ∈ iterFrom p pos data ↔ pos ≤ k ∧ (data[k - pos]?).getD p.default ≠ p.default := by
  induction data generalizing pos with
  | nil => simp [iterFrom]
  | cons v rest ih =>
    unfold iterFrom
    by_cases hk : k = pos
    · subst hk
      by_cases hv : v = p.default <;> simp [hv, ih]
      omega
    · have e : pos < k → (v :: rest)[k - pos]? = rest[k - (pos + 1)]? := by
        intro h
        have : k - pos = (k - (pos + 1)) + 1 := by omega
        rw [this, List.getElem?_cons_succ]
      have key : k ∈ iterFrom p (pos + 1) rest ↔
          pos ≤ k ∧ ((v :: rest)[k - pos]?).getD p.default ≠ p.default := by
        rw [ih]
        constructor
        · rintro ⟨h1, h2⟩
          exact ⟨by omega, by rw [e (by omega)]; exact h2⟩
        · rintro ⟨h1, h2⟩
          rw [e (by omega)] at h2
          exact ⟨by omega, h2⟩
      by_cases hv : v = p.default
      · simp only [bne_iff_ne, ne_eq, hv, not_true_eq_false, if_false]
        rw [← hv]; rw [← hv] at key; exact key
      · simp only [bne_iff_ne, ne_eq, hv, not_false_eq_true, if_true, List.mem_cons, hk, false_or]
        exact key

theorem iterFrom_sorted (p : SeqParams α) (data : List α) (pos : Nat) :
    (iterFrom p pos data).Pairwise (· < ·) := by
  induction data generalizing pos with
  | nil => simp [iterFrom]
  | cons v rest ih =>
    unfold iterFrom
    split
    · rw [List.pairwise_cons]
      refine ⟨?_, ih _⟩
      intro b hb
      have := (mem_iterFrom p rest (pos + 1) b).1 hb
      omega
    · exact ih _

theorem length_iterFrom (p : SeqParams α) (data : List α) (pos : Nat) :
    (iterFrom p pos data).length = len p data := by
  induction data generalizing pos with
  | nil => simp [iterFrom, len]
  | cons v rest ih =>
    unfold iterFrom
    by_cases hv : v = p.default
    · simp only [hv, bne_self_eq_false, Bool.false_eq_true, if_false, ih]
      simp [len]
    · have hv' : (v != p.default) = true := by simp [hv]
      simp only [hv', if_true, List.length_cons, ih]
      simp [len, hv']; omega

theorem mem_iter (p : SeqParams α) (data : List α) (k : Nat) :
    k ∈ iter p data ↔ contains p data (k : Int) = true := by
  unfold iter
  rw [mem_iterFrom, contains_nat]
  simp [seqVal]

end SeqMap
end NoGraphs
