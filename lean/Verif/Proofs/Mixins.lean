import Verif.Model.Mixins
import Verif.Spec.Mixins
import Verif.Proofs.GearCollections

/-! # Proofs about the inherited methods of the gear collections -/

namespace NoGraphs

open Spec

set_option linter.unusedSectionVars false

/-- The laws of the methods the mixins build on, on the states fulfilling `inv`. -/
structure KeySet.Lawful {σ : Type} (S : KeySet σ) (inv : σ → Prop) : Prop where
  inv_from : ∀ l, inv (S.fromIterable l)
  inv_add : ∀ d k, inv d → inv (S.add d k)
  inv_discard : ∀ d k, inv d → inv (S.discard d k)
  contains_from : ∀ l k, S.contains (S.fromIterable l) k = decide (k ∈ l)
  contains_add : ∀ d k j, S.contains (S.add d k) j = (decide (j = k) || S.contains d j)
  contains_discard : ∀ d k j, S.contains (S.discard d k) j = (!decide (j = k) && S.contains d j)
  sorted : ∀ d, (S.iter d).Pairwise (· < ·)
  mem_iter : ∀ d k, k ∈ S.iter d ↔ S.contains d k = true
  len_eq : ∀ d, inv d → S.len d = (S.iter d).length

theorem boolKeySet_lawful (p : SeqParams Nat) (h0 : p.default = 0) (hp : p.Ok) (pre : Nat) :
    (boolKeySet p pre).Lawful (fun _ => True) where
  inv_from _ := trivial
  inv_add _ _ _ := trivial
  inv_discard _ _ _ := trivial
  contains_from l k := by
    show BoolSet.contains ((boolKeySet p pre).fromIterable l) (k : Int) = _
    rw [show (boolKeySet p pre).fromIterable l = BoolSet.updateFromKeys p (BoolSet.updateFromKeys p (List.replicate pre 0) []) l
      from rfl, BoolSet.contains_update p h0 hp, BoolSet.contains_update p h0 hp, BoolSet.contains_nat p h0]
    have : seqVal p (List.replicate pre 0) k = 0 := by
      unfold seqVal; rw [List.getElem?_replicate]; split <;> simp [h0]
    simp [this]
  contains_add d k j := BoolSet.contains_add p h0 hp d k j
  contains_discard d k j := BoolSet.contains_discard d k j
  sorted d := BoolSet.iterFrom_sorted d 0
  mem_iter d k := BoolSet.mem_iter d k
  len_eq d _ := (BoolSet.length_iterFrom d 0).symm

theorem bitKeySet_lawful (p : SeqParams Nat) (h0 : p.default = 0) (hp : p.Ok) (pre : Nat) :
    (bitKeySet p pre).Lawful (fun d => ∀ v ∈ d, v < 256) where
  inv_from l := BitSet.update_bytes p h0 l _ (BitSet.update_bytes p h0 [] _ (by
    intro v hv; rw [List.eq_of_mem_replicate hv]; omega))
  inv_add d k h := BitSet.add_bytes p h0 d h k
  inv_discard d k h := BitSet.discard_bytes d h k
  contains_from l k := by
    show BitSet.contains ((bitKeySet p pre).fromIterable l) (k : Int) = _
    rw [show (bitKeySet p pre).fromIterable l = BitSet.updateFromKeys p (BitSet.updateFromKeys p (List.replicate pre 0) []) l
      from rfl, BitSet.contains_update p h0 hp, BitSet.contains_update p h0 hp, BitSet.contains_nat p h0]
    have : seqVal p (List.replicate pre 0) (k / 8) = 0 := by
      unfold seqVal; rw [List.getElem?_replicate]; split <;> simp [h0]
    simp [this]
  contains_add d k j := BitSet.contains_add p h0 hp d k j
  contains_discard d k j := BitSet.contains_discard d k j
  sorted d := BitSet.iterFrom_sorted d 0
  mem_iter d k := BitSet.mem_iter d k
  len_eq d h := (BitSet.length_iterFrom d h 0).symm

theorem sorted_eq_ascending {l : List Nat} (h : l.Pairwise (· < ·)) {s : Finset Nat} (hm : ∀ k, k ∈ l ↔ k ∈ s) :
    l = ascending s := by
  have hn : l.Nodup := h.imp (by intro a b hab; omega)
  have e : l.toFinset = s := by ext k; simp [hm]
  unfold ascending
  refine List.Perm.eq_of_pairwise (le := (· ≤ ·)) (fun a b _ _ h1 h2 => by omega) (h.imp (by intro a b; omega))
    (Finset.pairwise_sort _ _) ?_
  rw [← e]
  exact ((List.toFinset_toList hn).symm.trans (by exact (Finset.sort_perm_toList _ _).symm))

namespace KeySet.Lawful

variable {σ : Type} {S : KeySet σ} {inv : σ → Prop} (L : S.Lawful inv)

/-- The collection stands for the set. -/
def Rep (S : KeySet σ) (inv : σ → Prop) (d : σ) (s : Finset Nat) : Prop := inv d ∧ ∀ k, S.contains d k = true ↔ k ∈ s

theorem Rep.congr {S : KeySet σ} {inv : σ → Prop} {d : σ} {s t : Finset Nat} (h : Rep S inv d s) (e : ∀ k, k ∈ s ↔ k ∈ t) :
    Rep S inv d t := ⟨h.1, fun k => (h.2 k).trans (e k)⟩

include L

theorem rep_from (l : List Nat) : Rep S inv (S.fromIterable l) l.toFinset :=
  ⟨L.inv_from l, fun k => by rw [L.contains_from]; simp⟩

theorem rep_add {d : σ} {s : Finset Nat} (h : Rep S inv d s) (k : Nat) : Rep S inv (S.add d k) (insert k s) :=
  ⟨L.inv_add d k h.1, fun j => by rw [L.contains_add]; simp [h.2]⟩

theorem rep_discard {d : σ} {s : Finset Nat} (h : Rep S inv d s) (k : Nat) : Rep S inv (S.discard d k) (s.erase k) :=
  ⟨L.inv_discard d k h.1, fun j => by rw [L.contains_discard]; simp [h.2]⟩

theorem iter_eq {d : σ} {s : Finset Nat} (h : Rep S inv d s) : S.iter d = ascending s :=
  sorted_eq_ascending (L.sorted d) (fun k => by rw [L.mem_iter, h.2])

theorem mem_iter' {d : σ} {s : Finset Nat} (h : Rep S inv d s) (k : Nat) : k ∈ S.iter d ↔ k ∈ s := by
  rw [L.mem_iter, h.2]

theorem len_card {d : σ} {s : Finset Nat} (h : Rep S inv d s) : S.len d = s.card := by
  rw [L.len_eq d h.1, L.iter_eq h]; simp [ascending]

theorem contains_eq {d : σ} {s : Finset Nat} (h : Rep S inv d s) (k : Nat) : S.contains d k = decide (k ∈ s) := by
  rw [Bool.eq_iff_iff, h.2]; simp

theorem nodup_iter (d : σ) : (S.iter d).Nodup := (L.sorted d).imp (by intro a b hab; omega)

theorem rep_discards (l : List Nat) {d : σ} {s : Finset Nat} (h : Rep S inv d s) :
    Rep S inv (l.foldl S.discard d) (s \ l.toFinset) := by
  induction l generalizing d s with
  | nil => simpa using h
  | cons k l ih =>
    have := ih (L.rep_discard h k)
    rw [List.foldl_cons]
    convert this using 1
    ext j; simp only [Finset.mem_sdiff, List.mem_toFinset, List.mem_cons, Finset.mem_erase]; tauto

theorem rep_adds (l : List Nat) {d : σ} {s : Finset Nat} (h : Rep S inv d s) :
    Rep S inv (l.foldl S.add d) (s ∪ l.toFinset) := by
  induction l generalizing d s with
  | nil => simpa using h
  | cons k l ih =>
    have := ih (L.rep_add h k)
    rw [List.foldl_cons]
    convert this using 1
    ext j; simp only [Finset.mem_union, List.mem_toFinset, List.mem_cons, Finset.mem_insert]; tauto

theorem rep_toggle {d : σ} {s : Finset Nat} (h : Rep S inv d s) (k : Nat) :
    Rep S inv (S.toggle d k) (symmDiff s {k}) := by
  unfold KeySet.toggle
  split
  next hc =>
    convert L.rep_discard h k using 1
    have := (h.2 k).1 hc
    ext j; simp only [Finset.mem_symmDiff, Finset.mem_singleton, Finset.mem_erase]
    by_cases hj : j = k
    · subst hj; simp [this]
    · simp [hj]
  next hc =>
    convert L.rep_add h k using 1
    have := mt (h.2 k).2 hc
    ext j; simp only [Finset.mem_symmDiff, Finset.mem_singleton, Finset.mem_insert]
    by_cases hj : j = k
    · subst hj; simp [this]
    · simp [hj]

theorem rep_toggles (l : List Nat) (hl : l.Nodup) {d : σ} {s : Finset Nat} (h : Rep S inv d s) :
    Rep S inv (l.foldl S.toggle d) (symmDiff s l.toFinset) := by
  induction l generalizing d s with
  | nil => exact Rep.congr h (fun k => by simp [Finset.mem_symmDiff])
  | cons k l ih =>
    have := ih (List.nodup_cons.1 hl).2 (L.rep_toggle h k)
    have hk := (List.nodup_cons.1 hl).1
    rw [List.foldl_cons]
    convert this using 1
    rw [symmDiff_assoc]
    congr 1
    ext j
    simp only [List.toFinset_cons, Finset.mem_insert, List.mem_toFinset, Finset.mem_symmDiff, Finset.mem_singleton]
    by_cases hj : j = k
    · subst hj; simp [hk]
    · simp [hj]

theorem pop_eq {d : σ} {s : Finset Nat} (h : Rep S inv d s) :
    (s = ∅ ∧ S.pop d = none) ∨ ∃ hs : s.Nonempty, S.pop d = some (s.min' hs, S.discard d (s.min' hs)) := by
  unfold KeySet.pop
  have hsort := L.sorted d
  have hm := L.mem_iter' h
  rcases hi : S.iter d with _ | ⟨k, rest⟩
  · left
    rw [hi] at hm
    exact ⟨by ext j; simp [← hm j], rfl⟩
  · right
    rw [hi] at hm hsort
    have hk : k ∈ s := (hm k).1 (by simp)
    refine ⟨⟨k, hk⟩, ?_⟩
    have : s.min' ⟨k, hk⟩ = k := by
      refine le_antisymm (Finset.min'_le _ _ hk) (Finset.le_min' _ _ _ (fun j hj => ?_))
      rcases List.mem_cons.1 ((hm j).2 hj) with e | e
      · omega
      · have := (List.pairwise_cons.1 hsort).1 j e; omega
    simp only [this]

theorem clearLoop_eq (fuel : Nat) {d : σ} {s : Finset Nat} (h : Rep S inv d s) (hf : s.card < fuel) :
    ∃ d', S.clearLoop fuel d = some d' ∧ Rep S inv d' ∅ := by
  induction fuel generalizing d s with
  | zero => omega
  | succ f ih =>
    unfold KeySet.clearLoop
    rcases L.pop_eq h with ⟨he, hp⟩ | ⟨hs, hp⟩
    · rw [hp]; subst he; exact ⟨d, rfl, h⟩
    · rw [hp]
      refine ih (L.rep_discard h _) ?_
      rw [Finset.card_erase_of_mem (Finset.min'_mem s hs)]
      have := Finset.card_pos.2 hs
      omega

theorem clear_eq {d : σ} {s : Finset Nat} (h : Rep S inv d s) : ∃ d', S.clear d = some d' ∧ Rep S inv d' ∅ := by
  refine L.clearLoop_eq _ h ?_
  rw [← L.len_eq d h.1, L.len_card h]; omega

end KeySet.Lawful

theorem KeySet.allIn_iff (l : List Nat) (has : Nat → Bool) : KeySet.allIn l has = true ↔ ∀ k ∈ l, has k = true := by
  induction l with
  | nil => simp [KeySet.allIn]
  | cons e l ih =>
    unfold KeySet.allIn
    cases h : has e <;> simp [h, ih]

/-- An operand of the specification as an operand of the model. -/
def argOperand : Arg → Operand
  | .self => .self
  | .set l => .set l
  | .iterable l => .iterable l

namespace KeySet.Lawful

variable {σ : Type} {S : KeySet σ} {inv : σ → Prop} (L : S.Lawful inv)
include L

theorem operand_mem {d : σ} {s : Finset Nat} (h : Rep S inv d s) (a : Arg) (k : Nat) :
    k ∈ S.iterOperand d (argOperand a) ↔ k ∈ a.toFinset s := by
  cases a <;> simp [argOperand, KeySet.iterOperand, Arg.toFinset, L.mem_iter' h]

theorem toSet_spec {d : σ} {s : Finset Nat} (h : Rep S inv d s) (a : Arg) (ha : a.Ok) :
    (∀ k, k ∈ (S.toSet d (argOperand a)).elems ↔ k ∈ a.toFinset s) ∧
    (∀ k, (S.toSet d (argOperand a)).has k = true ↔ k ∈ a.toFinset s) ∧
    (S.toSet d (argOperand a)).size = (a.toFinset s).card ∧ (S.toSet d (argOperand a)).elems.Nodup := by
  cases a with
  | self => exact ⟨L.mem_iter' h, h.2, L.len_card h, L.nodup_iter d⟩
  | set l =>
    refine ⟨fun k => by simp [argOperand, KeySet.toSet, Arg.toFinset], fun k => by simp [argOperand, KeySet.toSet, Arg.toFinset],
      (List.toFinset_card_of_nodup ha).symm, ha⟩
  | iterable l =>
    have hr := L.rep_from l
    exact ⟨L.mem_iter' hr, hr.2, L.len_card hr, L.nodup_iter _⟩

theorem isSet_eq (a : Arg) : KeySet.isSet (argOperand a) = a.isSet := by cases a <;> rfl

theorem le_eq {d : σ} {s : Finset Nat} (h : Rep S inv d s) (a : Arg) (ha : a.Ok) (hs : a.isSet = true) :
    S.le d (argOperand a) = some (decide (s ⊆ a.toFinset s)) := by
  obtain ⟨_, h2, h3, _⟩ := L.toSet_spec h a ha
  unfold KeySet.le
  rw [L.isSet_eq, hs]
  simp only [Bool.not_true, Bool.false_eq_true, if_false, Option.some.injEq]
  rw [L.len_card h, h3]
  split
  next hc =>
    symm; rw [decide_eq_false_iff_not]; intro hsub
    have := Finset.card_le_card hsub; omega
  next hc =>
    rw [Bool.eq_iff_iff, KeySet.allIn_iff]
    simp only [decide_eq_true_eq, L.mem_iter' h, h2]
    exact Iff.rfl

theorem ge_eq {d : σ} {s : Finset Nat} (h : Rep S inv d s) (a : Arg) (ha : a.Ok) (hs : a.isSet = true) :
    S.ge d (argOperand a) = some (decide (a.toFinset s ⊆ s)) := by
  obtain ⟨h1, _, h3, _⟩ := L.toSet_spec h a ha
  unfold KeySet.ge
  rw [L.isSet_eq, hs]
  simp only [Bool.not_true, Bool.false_eq_true, if_false, Option.some.injEq]
  rw [L.len_card h, h3]
  split
  next hc =>
    symm; rw [decide_eq_false_iff_not]; intro hsub
    have := Finset.card_le_card hsub; omega
  next hc =>
    rw [Bool.eq_iff_iff, KeySet.allIn_iff]
    simp only [decide_eq_true_eq, h1, h.2]
    exact Iff.rfl

theorem lt_eq {d : σ} {s : Finset Nat} (h : Rep S inv d s) (a : Arg) (ha : a.Ok) (hs : a.isSet = true) :
    S.lt d (argOperand a) = some (decide (s ⊂ a.toFinset s)) := by
  obtain ⟨_, _, h3, _⟩ := L.toSet_spec h a ha
  unfold KeySet.lt
  rw [L.isSet_eq, hs]
  simp only [Bool.not_true, Bool.false_eq_true, if_false]
  rw [L.len_card h, h3]
  split
  next hc =>
    rw [L.le_eq h a ha hs]
    congr 1
    rw [Bool.eq_iff_iff]
    simp only [decide_eq_true_eq, Finset.ssubset_iff_subset_ne]
    exact ⟨fun hsub => ⟨hsub, fun e => by rw [← e] at hc; omega⟩, fun hsub => hsub.1⟩
  next hc =>
    congr 1; symm; rw [decide_eq_false_iff_not]; intro hsub
    exact hc (Finset.card_lt_card hsub)

theorem gt_eq {d : σ} {s : Finset Nat} (h : Rep S inv d s) (a : Arg) (ha : a.Ok) (hs : a.isSet = true) :
    S.gt d (argOperand a) = some (decide (a.toFinset s ⊂ s)) := by
  obtain ⟨_, _, h3, _⟩ := L.toSet_spec h a ha
  unfold KeySet.gt
  rw [L.isSet_eq, hs]
  simp only [Bool.not_true, Bool.false_eq_true, if_false]
  rw [L.len_card h, h3]
  split
  next hc =>
    rw [L.ge_eq h a ha hs]
    congr 1
    rw [Bool.eq_iff_iff]
    simp only [decide_eq_true_eq, Finset.ssubset_iff_subset_ne]
    exact ⟨fun hsub => ⟨hsub, fun e => by rw [e] at hc; omega⟩, fun hsub => hsub.1⟩
  next hc =>
    congr 1; symm; rw [decide_eq_false_iff_not]; intro hsub
    exact hc (Finset.card_lt_card hsub)

theorem eq_eq {d : σ} {s : Finset Nat} (h : Rep S inv d s) (a : Arg) (ha : a.Ok) (hs : a.isSet = true) :
    S.eq d (argOperand a) = some (decide (s = a.toFinset s)) := by
  obtain ⟨_, _, h3, _⟩ := L.toSet_spec h a ha
  unfold KeySet.eq
  rw [L.isSet_eq, hs]
  simp only [Bool.not_true, Bool.false_eq_true, if_false]
  rw [L.len_card h, h3]
  split
  next hc =>
    rw [L.le_eq h a ha hs]
    congr 1
    rw [Bool.eq_iff_iff]
    simp only [decide_eq_true_eq]
    exact ⟨fun hsub => Finset.eq_of_subset_of_card_le hsub (by omega), fun e => e.subset⟩
  next hc =>
    congr 1; symm; rw [decide_eq_false_iff_not]; intro e
    exact hc (by rw [← e])

theorem disjoint_eq {d : σ} {s : Finset Nat} (h : Rep S inv d s) (a : Arg) :
    S.isdisjoint d (argOperand a) = decide (Disjoint s (a.toFinset s)) := by
  have key : ∀ l, S.disjointLoop d l = true ↔ ∀ k ∈ l, k ∉ s := by
    intro l
    induction l with
    | nil => simp [KeySet.disjointLoop]
    | cons e l ih =>
      unfold KeySet.disjointLoop
      rw [L.contains_eq h]
      by_cases he : e ∈ s <;> simp [he, ih]
  unfold KeySet.isdisjoint
  rw [Bool.eq_iff_iff, key]
  simp only [decide_eq_true_eq, L.operand_mem h, Finset.disjoint_right]

theorem rep_and {d : σ} {s : Finset Nat} (h : Rep S inv d s) (a : Arg) :
    Rep S inv (S.and d (argOperand a)) (s ∩ a.toFinset s) := by
  unfold KeySet.and
  refine Rep.congr (L.rep_from _) (fun k => ?_)
  simp only [Finset.mem_inter, List.mem_toFinset, List.mem_filter, L.operand_mem h, h.2]
  tauto

theorem rep_or {d : σ} {s : Finset Nat} (h : Rep S inv d s) (a : Arg) :
    Rep S inv (S.or d (argOperand a)) (s ∪ a.toFinset s) := by
  unfold KeySet.or
  refine Rep.congr (L.rep_from _) (fun k => ?_)
  simp only [Finset.mem_union, List.mem_toFinset, List.mem_append, L.operand_mem h, L.mem_iter' h]

theorem rep_sub {d : σ} {s : Finset Nat} (h : Rep S inv d s) (a : Arg) (ha : a.Ok) :
    Rep S inv (S.sub d (argOperand a)) (s \ a.toFinset s) := by
  obtain ⟨_, h2, _, _⟩ := L.toSet_spec h a ha
  unfold KeySet.sub
  refine Rep.congr (L.rep_from _) (fun k => ?_)
  simp only [Finset.mem_sdiff, List.mem_toFinset, List.mem_filter, L.mem_iter' h, Bool.not_eq_true', ← h2 k,
    Bool.not_eq_true]

theorem rep_rsub {d : σ} {s : Finset Nat} (h : Rep S inv d s) (a : Arg) (ha : a.Ok) :
    Rep S inv (S.rsub d (argOperand a)) (a.toFinset s \ s) := by
  obtain ⟨h1, _, _, _⟩ := L.toSet_spec h a ha
  unfold KeySet.rsub
  refine Rep.congr (L.rep_from _) (fun k => ?_)
  simp only [Finset.mem_sdiff, List.mem_toFinset, List.mem_filter, h1, Bool.not_eq_true', ← h.2 k, Bool.not_eq_true]

theorem rep_xor {d : σ} {s : Finset Nat} (h : Rep S inv d s) (a : Arg) (ha : a.Ok) :
    Rep S inv (S.xor d (argOperand a)) (symmDiff s (a.toFinset s)) := by
  obtain ⟨h1, h2, _, _⟩ := L.toSet_spec h a ha
  have hf := L.rep_from ((S.iter d).filter (fun k => !(S.toSet d (argOperand a)).has k))
  unfold KeySet.xor
  refine Rep.congr (L.rep_or hf (.set ((S.toSet d (argOperand a)).elems.filter (fun k => !S.contains d k)))) (fun k => ?_)
  rw [show (Arg.set ((S.toSet d (argOperand a)).elems.filter (fun k => !S.contains d k))).toFinset
      ((S.iter d).filter (fun k => !(S.toSet d (argOperand a)).has k)).toFinset
    = ((S.toSet d (argOperand a)).elems.filter (fun k => !S.contains d k)).toFinset from rfl]
  simp only [Finset.mem_symmDiff, Finset.mem_union, List.mem_toFinset, List.mem_filter, L.mem_iter' h, h1,
    Bool.not_eq_true', ← h2 k, ← h.2 k, Bool.not_eq_true]

theorem rep_iand {d : σ} {s : Finset Nat} (h : Rep S inv d s) (a : Arg) (ha : a.Ok) :
    Rep S inv (S.iand d (argOperand a)) (s ∩ a.toFinset s) := by
  unfold KeySet.iand
  refine Rep.congr (L.rep_discards (S.iter (S.sub d (argOperand a))) h) (fun k => ?_)
  simp only [Finset.mem_inter, Finset.mem_sdiff, List.mem_toFinset, L.mem_iter' (L.rep_sub h a ha)]
  tauto

theorem rep_ior {d : σ} {s : Finset Nat} (h : Rep S inv d s) (a : Arg) :
    Rep S inv (S.ior d (argOperand a)) (s ∪ a.toFinset s) := by
  unfold KeySet.ior
  refine Rep.congr (L.rep_adds (S.iterOperand d (argOperand a)) h) (fun k => ?_)
  simp only [Finset.mem_union, List.mem_toFinset, L.operand_mem h]

theorem rep_isub {d : σ} {s : Finset Nat} (h : Rep S inv d s) (a : Arg) :
    ∃ d', S.isub d (argOperand a) = some d' ∧ Rep S inv d' (s \ a.toFinset s) := by
  cases a with
  | self =>
    obtain ⟨d', e, hr⟩ := L.clear_eq h
    exact ⟨d', e, by simpa [Arg.toFinset] using hr⟩
  | set l => exact ⟨_, rfl, L.rep_discards l h⟩
  | iterable l => exact ⟨_, rfl, L.rep_discards l h⟩

theorem rep_ixor {d : σ} {s : Finset Nat} (h : Rep S inv d s) (a : Arg) (ha : a.Ok) :
    ∃ d', S.ixor d (argOperand a) = some d' ∧ Rep S inv d' (symmDiff s (a.toFinset s)) := by
  have key : ∀ l : List Nat, l.Nodup → (∀ k, k ∈ l ↔ k ∈ a.toFinset s) →
      Rep S inv (l.foldl S.toggle d) (symmDiff s (a.toFinset s)) := by
    intro l hn hm
    exact Rep.congr (L.rep_toggles l hn h) (fun k => by simp [Finset.mem_symmDiff, hm])
  obtain ⟨h1, _, _, h4⟩ := L.toSet_spec h a ha
  cases a with
  | self =>
    obtain ⟨d', e, hr⟩ := L.clear_eq h
    exact ⟨d', e, by simpa [Arg.toFinset] using hr⟩
  | set l => exact ⟨_, rfl, key _ h4 h1⟩
  | iterable l => exact ⟨_, rfl, key _ h4 h1⟩

end KeySet.Lawful

/-! ## Mappings -/

namespace SeqMap

variable {α : Type} [DecidableEq α] (p : SeqParams α)

theorem mem_iter_getItem (data : List α) (k : Nat) : k ∈ iter p data ↔ (getItem p data k).isSome := by
  rw [mem_iter, contains_nat, getItem_eq]
  by_cases h : seqVal p data k = p.default <;> simp [h]

theorem mapM_getItem (data : List α) (l : List Nat) (h : ∀ k ∈ l, (getItem p data k).isSome) :
    ∃ its, l.mapM (fun k => (getItem p data k).map (fun v => (k, v))) = some its ∧ its.map Prod.fst = l ∧
      (∀ kv ∈ its, getItem p data kv.1 = some kv.2) ∧
      l.mapM (fun k => getItem p data k) = some (its.map Prod.snd) := by
  induction l with
  | nil => exact ⟨[], rfl, rfl, by simp, rfl⟩
  | cons k l ih =>
    obtain ⟨its, e, e1, e2, e3⟩ := ih (fun j hj => h j (List.mem_cons_of_mem _ hj))
    obtain ⟨v, hv⟩ := Option.isSome_iff_exists.1 (h k List.mem_cons_self)
    refine ⟨(k, v) :: its, ?_, by simp [e1], ?_, ?_⟩
    · rw [List.mapM_cons, e, hv]; rfl
    · intro kv hkv
      rcases List.mem_cons.1 hkv with rfl | hkv
      · exact hv
      · exact e2 kv hkv
    · rw [List.mapM_cons, e3, hv]; rfl

theorem items_spec (data : List α) :
    ∃ its, items p data = some its ∧ IsItems (getItem p data) its ∧ its.map Prod.fst = iter p data ∧
      values p data = some (its.map Prod.snd) := by
  obtain ⟨its, e, e1, e2, e3⟩ := mapM_getItem p data (iter p data) (fun k hk => (mem_iter_getItem p data k).1 hk)
  refine ⟨its, e, ⟨by rw [e1]; exact iterFrom_sorted p data 0, fun k v => ⟨fun h => e2 _ h, fun h => ?_⟩⟩, e1, e3⟩
  have hk : k ∈ its.map Prod.fst := by rw [e1]; exact (mem_iter_getItem p data k).2 (by rw [h]; rfl)
  obtain ⟨kv, hkv, rfl⟩ := List.mem_map.1 hk
  have := e2 kv hkv
  rw [h] at this
  rw [show (kv.1, v) = kv from by rw [Option.some.inj this]]
  exact hkv

theorem getItem_delItem (data : List α) (k : Nat) :
    getItem p (delItem p data k) = without (getItem p data) k := by
  funext j
  unfold without
  rw [getItem_eq, getItem_eq, delItem_val]
  by_cases hj : j = k <;> simp [hj]

theorem getItem_setItem (hp : p.Ok) (data : List α) (k : Nat) (v : α) (hv : v ≠ p.default) :
    getItem p (setItem p data k v) = assign (getItem p data) k v := by
  funext j
  unfold assign
  rw [getItem_eq, getItem_eq, setItem, setOrExtend_val p hp]
  by_cases hj : j = k <;> simp [hj, hv]

theorem popitem_spec (data : List α) :
    ((∀ k, getItem p data k = none) ∧ iter p data = [] ∧ popitem p data = none) ∨
    ∃ k v, getItem p data k = some v ∧ (∀ j < k, getItem p data j = none) ∧
      popitem p data = some ((k, v), delItem p data k) ∧
      (iter p (delItem p data k)).length < (iter p data).length := by
  have hs := iterFrom_sorted p data 0
  have hm := mem_iter_getItem p data
  have hsome : ∀ j, getItem p data j ≠ none ↔ j ∈ iter p data := fun j => by
    rw [hm]; cases getItem p data j <;> simp
  unfold popitem
  rcases hi : iter p data with _ | ⟨k, rest⟩
  · left
    refine ⟨fun k => ?_, rfl, rfl⟩
    by_contra hk
    have := (hsome k).1 hk
    rw [hi] at this; simp at this
  · right
    have hk : k ∈ iter p data := by rw [hi]; simp
    obtain ⟨v, hv⟩ := Option.isSome_iff_exists.1 ((hm k).1 hk)
    have hs' : (k :: rest).Pairwise (· < ·) := by rw [← hi]; exact hs
    refine ⟨k, v, hv, fun j hj => ?_, by simp only [hv], ?_⟩
    · by_contra hjn
      have := (hsome j).1 hjn
      rw [hi] at this
      rcases List.mem_cons.1 this with e | e
      · omega
      · have := (List.pairwise_cons.1 hs').1 j e; omega
    · have hs2 := iterFrom_sorted p (delItem p data k) 0
      have hn2 : (iter p (delItem p data k)).Nodup := hs2.imp (by intro a b hab; omega)
      rw [← hi]
      have hsub : iter p (delItem p data k) ⊆ (iter p data).erase k := by
        intro j hj
        rw [mem_iter_getItem, getItem_delItem] at hj
        unfold without at hj
        by_cases e : j = k
        · simp [e] at hj
        · simp only [e, if_false] at hj
          exact (List.mem_erase_of_ne e).2 ((hm j).2 hj)
      have := (List.subperm_of_subset hn2 hsub).length_le
      rw [List.length_erase_of_mem hk] at this
      have := List.length_pos_of_mem hk
      omega

theorem clearLoop_spec (fuel : Nat) (data : List α) (hf : (iter p data).length < fuel) :
    ∃ data', clearLoop p fuel data = some data' ∧ getItem p data' = fun _ => none := by
  induction fuel generalizing data with
  | zero => omega
  | succ f ih =>
    unfold clearLoop
    rcases popitem_spec p data with ⟨hn, _, hp⟩ | ⟨k, v, _, _, hp, hl⟩
    · rw [hp]; exact ⟨data, rfl, funext hn⟩
    · rw [hp]; exact ih _ (by omega)

end SeqMap

end NoGraphs
