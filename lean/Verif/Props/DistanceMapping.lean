import Verif.Model.DefaultDict
import Verif.Proofs.Gear
import Verif.Props.GearCollections

/-! # Distance mappings of gears: C38 -/

namespace NoGraphs

open Spec

section
variable {K W : Type} [DecidableEq K]

/-- The effect of the operations on the modelled dict (a `KeyError` of `del` leaves it as it is). -/
def DefaultDict.step (items : List (K × W)) : DistOp K W → List (K × W)
  | .set k w => DefaultDict.setItem items k w
  | .del k => match DefaultDict.delItem items k with | .ok d => d | .error _ => items
  | .setDefault k w => DefaultDict.setDefault items k w

namespace DefaultDict

theorem find?_cons (kv : K × W) (items : List (K × W)) (k : K) :
    find? (kv :: items) k = if kv.1 = k then some kv.2 else find? items k := by
  unfold find?
  rw [List.find?_cons]
  by_cases h : kv.1 = k <;> simp [h]

theorem find?_append (items items' : List (K × W)) (k : K) :
    find? (items ++ items') k = (find? items k).or (find? items' k) := by
  induction items with
  | nil => simp [find?]
  | cons kv items ih =>
    rw [List.cons_append, find?_cons, find?_cons, ih]
    split <;> simp

theorem find?_setItem (items : List (K × W)) (k : K) (w : W) (j : K) :
    find? (setItem items k w) j = if j = k then some w else find? items j := by
  unfold setItem
  split
  · rename_i hs
    have key : ∀ items : List (K × W), find? (items.map (fun kv => if kv.1 = k then (kv.1, w) else kv)) j =
        if j = k then (find? items k).map (fun _ => w) else find? items j := by
      intro items
      induction items with
      | nil => simp [find?]
      | cons kv items ih =>
        rw [List.map_cons, find?_cons, find?_cons, find?_cons, ih]
        by_cases h1 : kv.1 = k
        · by_cases h2 : j = k
          · simp [h1, h2]
          · have : ¬ k = j := fun h => h2 h.symm
            simp [h1, h2, this]
        · by_cases h2 : j = k
          · subst h2; simp [h1]
          · simp [h1, h2]
    rw [key]
    obtain ⟨v, hv⟩ := Option.isSome_iff_exists.1 hs
    simp [hv]
  · rename_i hs
    rw [find?_append, find?_cons]
    by_cases h : j = k
    · subst h
      have : find? items j = none := by simpa using hs
      simp [this]
    · have : ¬ k = j := fun h' => h h'.symm
      simp [h, this, find?]

theorem find?_filter (items : List (K × W)) (k j : K) :
    find? (items.filter (fun kv => decide (kv.1 ≠ k))) j = if j = k then none else find? items j := by
  induction items with
  | nil => simp [find?]
  | cons kv items ih =>
    rw [List.filter_cons]
    by_cases h1 : kv.1 = k
    · simp only [h1, ne_eq, not_true_eq_false, decide_false, Bool.false_eq_true, ↓reduceIte]
      rw [ih, find?_cons]
      by_cases h2 : j = k
      · simp [h2]
      · have : ¬ k = j := fun h => h2 h.symm
        simp [h1, h2, this]
    · simp only [ne_eq, h1, not_false_eq_true, decide_true, ↓reduceIte]
      rw [find?_cons, find?_cons, ih]
      by_cases h2 : j = k
      · subst h2; simp [h1]
      · simp [h2]

theorem find?_step (items : List (K × W)) (m : K → Option W) (h : ∀ k, find? items k = m k) (op : DistOp K W) :
    ∀ k, find? (step items op) k = distStep m op k := by
  intro j
  cases op with
  | set k w => simp only [step, distStep]; rw [find?_setItem, h]
  | del k =>
    simp only [step, distStep, delItem]
    split
    · rename_i d hd
      split at hd
      · cases hd; rw [find?_filter, h]
      · cases hd
    · rename_i e hd
      split at hd
      · cases hd
      · rename_i hn
        have : find? items k = none := by simpa using hn
        by_cases hj : j = k
        · subst hj; simp [this]
        · simp [hj, h]
  | setDefault k w =>
    simp only [step, distStep, setDefault, h]
    split
    · rw [h]
    · rw [find?_setItem, h]

theorem find?_hist (ops : List (DistOp K W)) (items : List (K × W)) (m : K → Option W)
    (h : ∀ k, find? items k = m k) : ∀ k, find? (ops.foldl step items) k = ops.foldl distStep m k := by
  induction ops generalizing items m with
  | nil => exact h
  | cons op ops ih => exact ih _ _ (find?_step items m h op)

end DefaultDict

/-- **C38 for gears with hash based collections.** After any history of operations, reading any key returns the value
that a mathematical map has for it, and the infinity value if there is none; the read never fails, and it does not
change the mapping. -/
theorem C38_hash_based (inf : W) (initial : List (K × W)) (ops : List (DistOp K W)) (key : K) :
    let mapping := ops.foldl DefaultDict.step (DefaultDict.create initial)
    let spec := ops.foldl distStep (initial.foldl (fun m kv => distStep m (.set kv.1 kv.2)) (fun _ => none))
    DefaultDict.getItem inf mapping key = .ok ((spec key).getD inf, mapping) := by
  intro mapping spec
  have h0 : ∀ k, DefaultDict.find? (DefaultDict.create initial) k =
      initial.foldl (fun m kv => distStep m (.set kv.1 kv.2)) (fun _ => none) k := by
    have : ∀ (l : List (K × W)) items (m : K → Option W), (∀ k, DefaultDict.find? items k = m k) →
        ∀ k, DefaultDict.find? (l.foldl (fun d kv => DefaultDict.setItem d kv.1 kv.2) items) k =
          l.foldl (fun m kv => distStep m (.set kv.1 kv.2)) m k := by
      intro l
      induction l with
      | nil => intro items m h; exact h
      | cons kv l ih => intro items m h; exact ih _ _ (DefaultDict.find?_step items m h (.set kv.1 kv.2))
    exact this initial [] _ (fun k => rfl)
  have h := DefaultDict.find?_hist ops _ _ h0 key
  show DefaultDict.getItem inf mapping key = _
  unfold DefaultDict.getItem
  rw [show DefaultDict.find? mapping key = spec key from h]
  cases spec key <;> rfl

end

/-- **C38, partial, for gears with sequence based collections**, stored distances other than infinity. After any history
of operations, a key with a value reads as this value. A key without value raises `KeyError`, and does not read as
infinity as the gear protocol demands (see `C38_counterexample`). Only the direct read of the
underlying sequence that the traversals use gives infinity. -/
theorem C38_sequence_based_partial {W : Type} [LinearOrder W] (p : SeqParams W)
    (hp : p.byTemplate = true → 0 < p.extendSize) (pre : Nat) (ops : List (MapOp W))
    (hv : ∀ op ∈ ops, ∀ w ∈ op.values, w ≠ p.default) (key : Nat) :
    let mapping := ops.foldl (SeqMap.step p) (List.replicate pre p.default)
    let spec := ops.foldl mapStep (fun _ => none)
    (∀ w, spec key = some w → SeqMap.getItemE p mapping key = .ok (w, mapping)) ∧
    (spec key = none → SeqMap.getItemE p mapping key = .error .keyError) ∧
    (seqDist p pre).get mapping key = (spec key).getD p.default := by
  intro mapping spec
  have h : SeqMap.getItem p mapping key = spec key := (C37_sequence_mapping_is_map p hp pre ops hv).1 key
  refine ⟨fun w hw => ?_, fun hn => ?_, ?_⟩
  · unfold SeqMap.getItemE
    rw [h, hw]
  · unfold SeqMap.getItemE
    rw [h, hn]
  · rw [← h, SeqMap.getItem_eq]
    show (mapping[key]?).getD p.default = _
    rw [show (mapping[key]?).getD p.default = seqVal p mapping key from rfl]
    by_cases hk : seqVal p mapping key = p.default <;> simp [hk]

/-- **C38 is violated** by gears with sequence based collections: in a distance mapping with the distance 5 for vertex 0
(the gear has extension size 1024, infinity value 1000), the read of vertex 7 raises `KeyError`. -/
theorem C38_counterexample :
    let p : SeqParams Nat := ⟨1000, 1024, false⟩
    let mapping := [MapOp.set 0 5].foldl (SeqMap.step p) []
    SeqMap.getItemE p mapping 0 = .ok (5, mapping) ∧ SeqMap.getItemE p mapping 7 = .error .keyError := by
  intro p mapping
  have h := C38_sequence_based_partial p (by simp [p]) 0 [MapOp.set 0 5] (by simp [MapOp.values, p])
  exact ⟨(h 0).1 5 rfl, (h 7).2.1 rfl⟩

/-- Non-vacuity: a history with a deleted key, a missing key, and a key that is set twice. -/
example :
    let mapping := [DistOp.set 'a' 3, .set 'b' 4, .del 'a', .setDefault 'b' 9, .setDefault 'c' 2, .set 'c' 1].foldl
      DefaultDict.step (DefaultDict.create [('z', 0), ('z', 8)])
    mapping = [('z', 8), ('b', 4), ('c', 1)] ∧
    (DefaultDict.getItem 99 mapping 'a').toOption = some (99, mapping) ∧
    (DefaultDict.getItem 99 mapping 'b').toOption = some (4, mapping) := by decide

example :
    let p : SeqParams Nat := ⟨1000, 2, true⟩
    let ops : List (MapOp Nat) := [.set 5 1, .updateDefault [(5, 2), (9, 3)], .del 5, .set 0 7]
    ((p.byTemplate = true → 0 < p.extendSize) ∧ (∀ o ∈ ops, ∀ v ∈ o.values, v ≠ p.default)) ∧
    (SeqMap.getItemE p (ops.foldl (SeqMap.step p) []) 9).toOption.map Prod.fst = some 3 ∧
    (SeqMap.getItemE p (ops.foldl (SeqMap.step p) []) 5).toOption.map Prod.fst = none := by decide

end NoGraphs
