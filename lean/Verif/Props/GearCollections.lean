import Verif.Spec.Collections
import Verif.Proofs.GearCollections

/-! # Properties C35, C36, C37, C38: the gear collections -/

namespace NoGraphs

open Spec

/-- Run an operation history on a boolean sequence; collects the answers. Dispatch to the modelled
methods of `VertexSetWrappingSequenceNoBitPacking` (`_gear_collections.py` 865-920). -/
def BoolSet.step (p : SeqParams Nat) (data : List Nat) : SetOp → List Nat × Option Bool
  | .add k => (BoolSet.add p data k, none)
  | .discard k => (BoolSet.discard data k, none)
  | .updateFromKeys ks => (BoolSet.updateFromKeys p data ks, none)
  | .checkAdd k => ((BoolSet.checkAdd p data k).2, some (BoolSet.checkAdd p data k).1)

/-- The same for `VertexSetWrappingSequenceBitPacking` (`_gear_collections.py` 923-1001). -/
def BitSet.step (p : SeqParams Nat) (data : List Nat) : SetOp → List Nat × Option Bool
  | .add k => (BitSet.add p data k, none)
  | .discard k => (BitSet.discard data k, none)
  | .updateFromKeys ks => (BitSet.updateFromKeys p data ks, none)
  | .checkAdd k => ((BitSet.checkAdd p data k).2, some (BitSet.checkAdd p data k).1)

/-- The same for `VertexMappingWrappingSequence` (`_gear_collections.py` 1007-1125). -/
def SeqMap.step {α : Type} [DecidableEq α] (p : SeqParams α) (data : List α) : MapOp α → List α
  | .set k v => SeqMap.setItem p data k v
  | .del k => SeqMap.delItem p data k
  | .updateFromKeysValues kvs => SeqMap.updateFromKeysValues p data kvs
  | .updateDefault kvs => SeqMap.updateDefault p data kvs

/-- Run a history with a step function, collecting answers. -/
def runHist {S O : Type} (step : S → O → S × Option Bool) (s : S) : List O → S × List (Option Bool)
  | [] => (s, [])
  | o :: os =>
    let (s', a) := step s o
    let (s'', as) := runHist step s' os
    (s'', a :: as)

theorem BoolSet.sim (p : SeqParams Nat) (h0 : p.default = 0) (hp : p.Ok) (ops : List SetOp)
    (data : List Nat) (s : Finset Nat) (h : ∀ k : Nat, BoolSet.contains data (k : Int) = true ↔ k ∈ s) :
    (runHist (BoolSet.step p) data ops).2 = (runHist setStep s ops).2 ∧
    ∀ k : Nat, BoolSet.contains (runHist (BoolSet.step p) data ops).1 (k : Int) = true ↔
      k ∈ (runHist setStep s ops).1 := by
  induction ops generalizing data s with
  | nil => exact ⟨rfl, h⟩
  | cons o os ih =>
    have hb : ∀ k : Nat, BoolSet.contains data (k : Int) = decide (k ∈ s) := by
      intro k; rw [Bool.eq_iff_iff, h k]; simp
    have key : (BoolSet.step p data o).2 = (setStep s o).2 ∧
        ∀ k : Nat, BoolSet.contains (BoolSet.step p data o).1 (k : Int) = true ↔ k ∈ (setStep s o).1 := by
      cases o with
      | add k =>
        refine ⟨rfl, fun j => ?_⟩
        simp only [BoolSet.step, setStep, BoolSet.contains_add p h0 hp, hb]
        simp
      | discard k =>
        refine ⟨rfl, fun j => ?_⟩
        simp only [BoolSet.step, setStep, BoolSet.contains_discard, hb]
        simp
      | updateFromKeys ks =>
        refine ⟨rfl, fun j => ?_⟩
        simp only [BoolSet.step, setStep, BoolSet.contains_update p h0 hp, hb]
        simp [or_comm]
      | checkAdd k =>
        have := BoolSet.checkAdd_spec p h0 hp data k
        refine ⟨by simp only [BoolSet.step, setStep, this.1, hb], fun j => ?_⟩
        simp only [BoolSet.step, setStep, this.2, hb]
        simp
    have := ih _ _ key.2
    simp only [runHist]
    exact ⟨by rw [key.1, this.1], this.2⟩

theorem BitSet.sim (p : SeqParams Nat) (h0 : p.default = 0) (hp : p.Ok) (ops : List SetOp)
    (data : List Nat) (hd : ∀ v ∈ data, v < 256) (s : Finset Nat)
    (h : ∀ k : Nat, BitSet.contains data (k : Int) = true ↔ k ∈ s) :
    (runHist (BitSet.step p) data ops).2 = (runHist setStep s ops).2 ∧
    (∀ v ∈ (runHist (BitSet.step p) data ops).1, v < 256) ∧
    ∀ k : Nat, BitSet.contains (runHist (BitSet.step p) data ops).1 (k : Int) = true ↔
      k ∈ (runHist setStep s ops).1 := by
  induction ops generalizing data s with
  | nil => exact ⟨rfl, hd, h⟩
  | cons o os ih =>
    have hb : ∀ k : Nat, BitSet.contains data (k : Int) = decide (k ∈ s) := by
      intro k; rw [Bool.eq_iff_iff, h k]; simp
    have key : (BitSet.step p data o).2 = (setStep s o).2 ∧
        (∀ v ∈ (BitSet.step p data o).1, v < 256) ∧
        ∀ k : Nat, BitSet.contains (BitSet.step p data o).1 (k : Int) = true ↔ k ∈ (setStep s o).1 := by
      cases o with
      | add k =>
        refine ⟨rfl, BitSet.add_bytes p h0 data hd k, fun j => ?_⟩
        simp only [BitSet.step, setStep, BitSet.contains_add p h0 hp, hb]
        simp
      | discard k =>
        refine ⟨rfl, BitSet.discard_bytes data hd k, fun j => ?_⟩
        simp only [BitSet.step, setStep, BitSet.contains_discard, hb]
        simp
      | updateFromKeys ks =>
        refine ⟨rfl, BitSet.update_bytes p h0 ks data hd, fun j => ?_⟩
        simp only [BitSet.step, setStep, BitSet.contains_update p h0 hp, hb]
        simp [or_comm]
      | checkAdd k =>
        have := BitSet.checkAdd_spec p h0 hp data k
        refine ⟨by simp only [BitSet.step, setStep, this.1, hb], BitSet.checkAdd_bytes p h0 data hd k,
          fun j => ?_⟩
        simp only [BitSet.step, setStep, this.2, hb]
        simp
    have := ih _ key.2.1 _ key.2.2
    simp only [runHist]
    exact ⟨by rw [key.1, this.1], this.2⟩

theorem card_of_sorted (l : List Nat) (h : l.Pairwise (· < ·)) (s : Finset Nat)
    (hm : ∀ k, k ∈ l ↔ k ∈ s) : l.length = s.card := by
  have hn : l.Nodup := h.imp (by intro a b hab; omega)
  have : l.toFinset = s := by ext k; simp [hm]
  rw [← this, List.toFinset_card_of_nodup hn]

/-- **C35.** For every pre-allocated capacity `pre`, every extension setting (a template must not be
empty), all initial keys and every history of operations: the answers of the operations are those of
a mathematical set, and afterwards `in` (for every integer, negative ones included), iteration
(ascending, without repetition) and `len` agree with that set. -/
theorem C35_boolean_sequence_is_set (p : SeqParams Nat) (h0 : p.default = 0)
    (hp : p.byTemplate = true → 0 < p.extendSize) (pre : Nat) (keys : List Nat) (ops : List SetOp) :
    let impl := runHist (BoolSet.step p) (BoolSet.updateFromKeys p (List.replicate pre 0) keys) ops
    let spec := runHist setStep keys.toFinset ops
    impl.2 = spec.2 ∧
    (∀ k : Int, BoolSet.contains impl.1 k = true ↔ 0 ≤ k ∧ k.toNat ∈ spec.1) ∧
    (BoolSet.iter impl.1).Pairwise (· < ·) ∧
    (∀ k : Nat, k ∈ BoolSet.iter impl.1 ↔ k ∈ spec.1) ∧
    BoolSet.len impl.1 = spec.1.card := by
  have h := BoolSet.sim p h0 hp ops (BoolSet.updateFromKeys p (List.replicate pre 0) keys)
    keys.toFinset (by
      intro k
      rw [BoolSet.contains_update p h0 hp, BoolSet.contains_nat p h0]
      have : seqVal p (List.replicate pre 0) k = 0 := by
        unfold seqVal; rw [List.getElem?_replicate]; split <;> simp [h0]
      simp [this])
  have hm : ∀ k : Nat, k ∈ BoolSet.iter (runHist (BoolSet.step p)
      (BoolSet.updateFromKeys p (List.replicate pre 0) keys) ops).1 ↔
      k ∈ (runHist setStep keys.toFinset ops).1 := fun k => by rw [BoolSet.mem_iter]; exact h.2 k
  refine ⟨h.1, ?_, BoolSet.iterFrom_sorted _ 0, hm, ?_⟩
  · intro k
    by_cases hk : k < 0
    · rw [BoolSet.contains_neg _ _ hk]; simp; intro; omega
    · obtain ⟨n, rfl⟩ : ∃ n : Nat, k = n := ⟨k.toNat, by omega⟩
      rw [h.2]; simp
  · rw [← BoolSet.length_iterFrom _ 0]
    exact card_of_sorted _ (BoolSet.iterFrom_sorted _ 0) _ hm

/-- **C36.** The same for the bit-packed set. -/
theorem C36_bit_packed_sequence_is_set (p : SeqParams Nat) (h0 : p.default = 0)
    (hp : p.byTemplate = true → 0 < p.extendSize) (pre : Nat) (keys : List Nat) (ops : List SetOp) :
    let impl := runHist (BitSet.step p) (BitSet.updateFromKeys p (List.replicate pre 0) keys) ops
    let spec := runHist setStep keys.toFinset ops
    impl.2 = spec.2 ∧
    (∀ k : Int, BitSet.contains impl.1 k = true ↔ 0 ≤ k ∧ k.toNat ∈ spec.1) ∧
    (BitSet.iter impl.1).Pairwise (· < ·) ∧
    (∀ k : Nat, k ∈ BitSet.iter impl.1 ↔ k ∈ spec.1) ∧
    BitSet.len impl.1 = spec.1.card ∧
    (∀ byte ∈ impl.1, byte < 256) := by
  have hpre : ∀ v ∈ List.replicate pre 0, v < 256 := by
    intro v hv; rw [List.eq_of_mem_replicate hv]; omega
  have h := BitSet.sim p h0 hp ops (BitSet.updateFromKeys p (List.replicate pre 0) keys)
    (BitSet.update_bytes p h0 keys _ hpre)
    keys.toFinset (by
      intro k
      rw [BitSet.contains_update p h0 hp, BitSet.contains_nat p h0]
      have : seqVal p (List.replicate pre 0) (k / 8) = 0 := by
        unfold seqVal; rw [List.getElem?_replicate]; split <;> simp [h0]
      simp [this])
  have hm : ∀ k : Nat, k ∈ BitSet.iter (runHist (BitSet.step p)
      (BitSet.updateFromKeys p (List.replicate pre 0) keys) ops).1 ↔
      k ∈ (runHist setStep keys.toFinset ops).1 := fun k => by rw [BitSet.mem_iter]; exact h.2.2 k
  refine ⟨h.1, ?_, BitSet.iterFrom_sorted _ 0, hm, ?_, h.2.1⟩
  · intro k
    by_cases hk : k < 0
    · rw [BitSet.contains_neg _ _ hk]; simp; intro; omega
    · obtain ⟨n, rfl⟩ : ∃ n : Nat, k = n := ⟨k.toNat, by omega⟩
      rw [h.2.2]; simp
  · rw [← BitSet.length_iterFrom _ h.2.1 0]
    exact card_of_sorted _ (BitSet.iterFrom_sorted _ 0) _ hm

/-- Non-vacuity: a template setting as in the gears, keys beyond the allocated length, all kinds of operations. -/
example :
    let p : SeqParams Nat := ⟨0, 2, true⟩
    (p.default = 0 ∧ (p.byTemplate = true → 0 < p.extendSize)) ∧
    (runHist (BitSet.step p) (BitSet.updateFromKeys p [0] [3]) [.checkAdd 17, .discard 3, .checkAdd 17]).2
      = [some false, none, some true] := by decide

section Mapping
variable {α : Type} [DecidableEq α]

theorem SeqMap.getItem_assign (p : SeqParams α) (d d' : List α) (k : Nat) (v : α) (hv : v ≠ p.default)
    (h : ∀ j, seqVal p d' j = if j = k then v else seqVal p d j) :
    SeqMap.getItem p d' = assign (SeqMap.getItem p d) k v := by
  funext j
  unfold assign
  rw [SeqMap.getItem_eq, SeqMap.getItem_eq, h j]
  by_cases hj : j = k <;> simp [hj, hv]

theorem SeqMap.sim (p : SeqParams α) (hp : p.Ok) (ops : List (MapOp α)) (data : List α)
    (hv : ∀ o ∈ ops, ∀ v ∈ o.values, v ≠ p.default) :
    SeqMap.getItem p (ops.foldl (SeqMap.step p) data) = ops.foldl mapStep (SeqMap.getItem p data) := by
  induction ops generalizing data with
  | nil => rfl
  | cons o os ih =>
    rw [List.foldl_cons, List.foldl_cons, ih _ (fun o' ho' => hv o' (List.mem_cons_of_mem _ ho'))]
    congr 1
    have hvo := hv o List.mem_cons_self
    cases o with
    | set k v =>
      exact SeqMap.getItem_assign p _ _ k v (hvo v (by simp [MapOp.values]))
        (fun j => setOrExtend_val p hp data k v j)
    | del k =>
      funext j
      simp only [SeqMap.step, mapStep]
      rw [SeqMap.getItem_eq, SeqMap.getItem_eq, SeqMap.delItem_val]
      by_cases hj : j = k <;> simp [hj]
    | updateFromKeysValues kvs =>
      simp only [SeqMap.step, mapStep, SeqMap.updateFromKeysValues]
      simp only [MapOp.values] at hvo
      clear hv ih
      induction kvs generalizing data with
      | nil => rfl
      | cons kv rest ih2 =>
        rw [List.foldl_cons, List.foldl_cons, ih2 _ (fun v h => hvo v (by simp at h ⊢; exact Or.inr h))]
        congr 1
        exact SeqMap.getItem_assign p _ _ kv.1 kv.2 (hvo kv.2 (by simp))
          (fun j => setOrExtend_val p hp data kv.1 kv.2 j)
    | updateDefault kvs =>
      simp only [SeqMap.step, mapStep, SeqMap.updateDefault]
      simp only [MapOp.values] at hvo
      clear hv ih
      induction kvs generalizing data with
      | nil => rfl
      | cons kv rest ih2 =>
        rw [List.foldl_cons, List.foldl_cons, ih2 _ (fun v h => hvo v (by simp at h ⊢; exact Or.inr h))]
        congr 1
        have hval := SeqMap.updateDefault1_val p hp data kv.1 kv.2
        by_cases hd : seqVal p data kv.1 = p.default
        · have hn : (SeqMap.getItem p data kv.1).isNone = true := by
            rw [SeqMap.getItem_eq]; simp [hd]
          rw [if_pos hn]
          exact SeqMap.getItem_assign p _ _ kv.1 kv.2 (hvo kv.2 (by simp))
            (fun j => by rw [hval j]; simp [hd])
        · have hn : ¬ (SeqMap.getItem p data kv.1).isNone = true := by
            rw [SeqMap.getItem_eq]; simp [hd]
          rw [if_neg hn]
          funext j
          rw [SeqMap.getItem_eq, SeqMap.getItem_eq, hval j]
          simp [hd]

/-- **C37.** For every pre-allocated capacity, extension setting, initial content and history of
operations whose assigned values differ from the default value (the gears exclude the default value
from the possible values): lookup agrees with the mathematical partial map (`none`: `KeyError`),
`in` holds exactly for the keys with a value (never for negative integers), iteration is ascending and
gives exactly these keys, and `len` is their number. -/
theorem C37_sequence_mapping_is_map (p : SeqParams α) (hp : p.byTemplate = true → 0 < p.extendSize)
    (pre : Nat) (ops : List (MapOp α)) (hv : ∀ o ∈ ops, ∀ v ∈ o.values, v ≠ p.default) :
    let impl := ops.foldl (SeqMap.step p) (List.replicate pre p.default)
    let spec := ops.foldl mapStep (fun _ => none)
    (∀ k : Nat, SeqMap.getItem p impl k = spec k) ∧
    (∀ k : Int, SeqMap.contains p impl k = true ↔ 0 ≤ k ∧ (spec k.toNat).isSome) ∧
    (SeqMap.iter p impl).Pairwise (· < ·) ∧
    (∀ k : Nat, k ∈ SeqMap.iter p impl ↔ (spec k).isSome) ∧
    (∀ s : Finset Nat, (∀ k, k ∈ s ↔ (spec k).isSome) → SeqMap.len p impl = s.card) := by
  have h := SeqMap.sim p hp ops (List.replicate pre p.default) hv
  have hempty : SeqMap.getItem p (List.replicate pre p.default) = fun _ => none := by
    funext k
    rw [SeqMap.getItem_eq]
    have : seqVal p (List.replicate pre p.default) k = p.default := by
      unfold seqVal; rw [List.getElem?_replicate]; split <;> simp
    simp [this]
  rw [hempty] at h
  have hc : ∀ k : Nat, SeqMap.contains p (ops.foldl (SeqMap.step p) (List.replicate pre p.default)) (k : Int)
      = true ↔ ((ops.foldl mapStep (fun _ => none)) k).isSome := by
    intro k
    rw [← h, SeqMap.getItem_eq, SeqMap.contains_nat]
    by_cases hk : seqVal p (ops.foldl (SeqMap.step p) (List.replicate pre p.default)) k = p.default <;>
      simp [hk]
  have hm : ∀ k : Nat, k ∈ SeqMap.iter p (ops.foldl (SeqMap.step p) (List.replicate pre p.default)) ↔
      ((ops.foldl mapStep (fun _ => none)) k).isSome := fun k => by rw [SeqMap.mem_iter]; exact hc k
  refine ⟨fun k => by rw [h], ?_, SeqMap.iterFrom_sorted p _ 0, hm, ?_⟩
  · intro k
    by_cases hk : k < 0
    · have : SeqMap.contains p (ops.foldl (SeqMap.step p) (List.replicate pre p.default)) k = false := by
        simp [SeqMap.contains, hk]
      rw [this]; simp; intro; omega
    · obtain ⟨n, rfl⟩ : ∃ n : Nat, k = n := ⟨k.toNat, by omega⟩
      rw [hc]; simp
  · intro s hs
    rw [← SeqMap.length_iterFrom p _ 0]
    exact card_of_sorted _ (SeqMap.iterFrom_sorted p _ 0) _ (fun k => by rw [hs]; exact hm k)

end Mapping

/-- Non-vacuity of C37: array with maximal value 255 as gap value, template of size 2. -/
example :
    let p : SeqParams Nat := ⟨255, 2, true⟩
    let ops : List (MapOp Nat) := [.set 5 1, .updateDefault [(5, 2), (9, 3)], .del 5, .set 0 7]
    ((p.byTemplate = true → 0 < p.extendSize) ∧ (∀ o ∈ ops, ∀ v ∈ o.values, v ≠ p.default)) ∧
    SeqMap.iter p (ops.foldl (SeqMap.step p) []) = [0, 9] := by decide

end NoGraphs
