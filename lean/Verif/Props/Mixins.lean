import Verif.Proofs.Mixins

/-! # Property C78: the inherited methods of the gear collections -/

namespace NoGraphs

open Spec

/-- Dispatch of an operation to the modelled methods (`_gear_collections.py` 788-1001 and the mixins). -/
def KeySet.call {σ : Type} (S : KeySet σ) (d : σ) : SetCall → σ × SetAnswer
  | .add k => (S.add d k, .unit)
  | .discard k => (S.discard d k, .unit)
  | .contains k => (d, .bool (S.contains d k))
  | .len => (d, .num (S.len d))
  | .iterate => (d, .elems (S.iter d))
  | .le a => (d, match S.le d (argOperand a) with | some b => .bool b | none => .notImplemented)
  | .lt a => (d, match S.lt d (argOperand a) with | some b => .bool b | none => .notImplemented)
  | .ge a => (d, match S.ge d (argOperand a) with | some b => .bool b | none => .notImplemented)
  | .gt a => (d, match S.gt d (argOperand a) with | some b => .bool b | none => .notImplemented)
  | .eq a => (d, match S.eq d (argOperand a) with | some b => .bool b | none => .notImplemented)
  | .isdisjoint a => (d, .bool (S.isdisjoint d (argOperand a)))
  | .and a => (d, .elems (S.iter (S.and d (argOperand a))))
  | .or a => (d, .elems (S.iter (S.or d (argOperand a))))
  | .sub a => (d, .elems (S.iter (S.sub d (argOperand a))))
  | .rsub a => (d, .elems (S.iter (S.rsub d (argOperand a))))
  | .xor a => (d, .elems (S.iter (S.xor d (argOperand a))))
  | .remove k => match S.remove d k with | some d' => (d', .unit) | none => (d, .keyError)
  | .pop => match S.pop d with | some (k, d') => (d', .num k) | none => (d, .keyError)
  | .clear => match S.clear d with | some d' => (d', .unit) | none => (d, .diverges)
  | .ior a => (S.ior d (argOperand a), .unit)
  | .iand a => (S.iand d (argOperand a), .unit)
  | .isub a => match S.isub d (argOperand a) with | some d' => (d', .unit) | none => (d, .diverges)
  | .ixor a => match S.ixor d (argOperand a) with | some d' => (d', .unit) | none => (d, .diverges)

/-- A history of operations. -/
def KeySet.calls {σ : Type} (S : KeySet σ) (d : σ) : List SetCall → σ × List SetAnswer
  | [] => (d, [])
  | c :: cs => ((S.calls (S.call d c).1 cs).1, (S.call d c).2 :: (S.calls (S.call d c).1 cs).2)

namespace KeySet.Lawful

variable {σ : Type} {S : KeySet σ} {inv : σ → Prop} (L : S.Lawful inv)
include L

theorem call_spec {d : σ} {s : Finset Nat} (h : Rep S inv d s) (c : SetCall) (hc : c.Ok) :
    Rep S inv (S.call d c).1 (setCall s c).1 ∧ (S.call d c).2 = (setCall s c).2 := by
  have hcmp : ∀ a : Arg, a.isSet = false →
      S.le d (argOperand a) = none ∧ S.lt d (argOperand a) = none ∧ S.ge d (argOperand a) = none ∧
      S.gt d (argOperand a) = none ∧ S.eq d (argOperand a) = none := by
    intro a ha
    have : KeySet.isSet (argOperand a) = false := by rw [L.isSet_eq, ha]
    simp [KeySet.le, KeySet.lt, KeySet.ge, KeySet.gt, KeySet.eq, this]
  cases c with
  | add k => exact ⟨L.rep_add h k, rfl⟩
  | discard k => exact ⟨L.rep_discard h k, rfl⟩
  | contains k => exact ⟨h, by simp only [KeySet.call, setCall, L.contains_eq h]⟩
  | len => exact ⟨h, by simp only [KeySet.call, setCall, L.len_card h]⟩
  | iterate => exact ⟨h, by simp only [KeySet.call, setCall, L.iter_eq h]⟩
  | le a =>
    refine ⟨h, ?_⟩
    simp only [KeySet.call, setCall, Spec.compare]
    cases ha : a.isSet
    · rw [(hcmp a ha).1]; rfl
    · rw [L.le_eq h a hc ha]; rfl
  | lt a =>
    refine ⟨h, ?_⟩
    simp only [KeySet.call, setCall, Spec.compare]
    cases ha : a.isSet
    · rw [(hcmp a ha).2.1]; rfl
    · rw [L.lt_eq h a hc ha]; rfl
  | ge a =>
    refine ⟨h, ?_⟩
    simp only [KeySet.call, setCall, Spec.compare]
    cases ha : a.isSet
    · rw [(hcmp a ha).2.2.1]; rfl
    · rw [L.ge_eq h a hc ha]; rfl
  | gt a =>
    refine ⟨h, ?_⟩
    simp only [KeySet.call, setCall, Spec.compare]
    cases ha : a.isSet
    · rw [(hcmp a ha).2.2.2.1]; rfl
    · rw [L.gt_eq h a hc ha]; rfl
  | eq a =>
    refine ⟨h, ?_⟩
    simp only [KeySet.call, setCall, Spec.compare]
    cases ha : a.isSet
    · rw [(hcmp a ha).2.2.2.2]; rfl
    · rw [L.eq_eq h a hc ha]; rfl
  | isdisjoint a => exact ⟨h, by simp only [KeySet.call, setCall, L.disjoint_eq h]⟩
  | and a => exact ⟨h, by simp only [KeySet.call, setCall, L.iter_eq (L.rep_and h a)]⟩
  | or a => exact ⟨h, by simp only [KeySet.call, setCall, L.iter_eq (L.rep_or h a)]⟩
  | sub a => exact ⟨h, by simp only [KeySet.call, setCall, L.iter_eq (L.rep_sub h a hc)]⟩
  | rsub a => exact ⟨h, by simp only [KeySet.call, setCall, L.iter_eq (L.rep_rsub h a hc)]⟩
  | xor a => exact ⟨h, by simp only [KeySet.call, setCall, L.iter_eq (L.rep_xor h a hc)]⟩
  | remove k =>
    simp only [KeySet.call, setCall, KeySet.remove, L.contains_eq h]
    by_cases hk : k ∈ s
    · simp only [hk, decide_true, Bool.not_true, Bool.false_eq_true, if_false, if_true]
      exact ⟨L.rep_discard h k, trivial⟩
    · simp only [hk, decide_false, Bool.not_false, if_true, if_false]
      exact ⟨h, trivial⟩
  | pop =>
    simp only [KeySet.call, setCall]
    rcases L.pop_eq h with ⟨he, hp⟩ | ⟨hs, hp⟩
    · subst he
      rw [hp, dif_neg (by simp)]
      exact ⟨h, rfl⟩
    · rw [hp, dif_pos hs]
      exact ⟨L.rep_discard h _, rfl⟩
  | clear =>
    obtain ⟨d', e, hr⟩ := L.clear_eq h
    simp only [KeySet.call, setCall, e]
    exact ⟨hr, trivial⟩
  | ior a => exact ⟨L.rep_ior h a, rfl⟩
  | iand a => exact ⟨L.rep_iand h a hc, rfl⟩
  | isub a =>
    obtain ⟨d', e, hr⟩ := L.rep_isub h a
    simp only [KeySet.call, setCall, e]
    exact ⟨hr, trivial⟩
  | ixor a =>
    obtain ⟨d', e, hr⟩ := L.rep_ixor h a hc
    simp only [KeySet.call, setCall, e]
    exact ⟨hr, trivial⟩

theorem calls_spec {d : σ} {s : Finset Nat} (h : Rep S inv d s) (cs : List SetCall) (hc : ∀ c ∈ cs, c.Ok) :
    (S.calls d cs).2 = (setCalls s cs).2 ∧ Rep S inv (S.calls d cs).1 (setCalls s cs).1 := by
  induction cs generalizing d s with
  | nil => exact ⟨rfl, h⟩
  | cons c cs ih =>
    have hs := L.call_spec h c (hc c List.mem_cons_self)
    have := ih hs.1 (fun c' hc' => hc c' (List.mem_cons_of_mem _ hc'))
    exact ⟨by simp only [KeySet.calls, setCalls, hs.2, this.1], this.2⟩

end KeySet.Lawful

/-- **C78, boolean sequence.** A set collection of a gear "for integer vertex ids", without bit packing, behaves as a
mathematical set under every history of all the operations a Python mutable set has (operators with sets, with other
iterables and with itself, comparisons, in-place operators, `pop`, `remove`, `clear`, …): each operation gives the answer of
the mathematical set, in particular it ends, raises `KeyError` only where it should, and new sets contain what they
should. -/
theorem C78_boolean_sequence (p : SeqParams Nat) (h0 : p.default = 0) (hp : p.byTemplate = true → 0 < p.extendSize)
    (pre : Nat) (keys : List Nat) (cs : List SetCall) (hc : ∀ c ∈ cs, c.Ok) :
    ((boolKeySet p pre).calls (BoolSet.updateFromKeys p (List.replicate pre 0) keys) cs).2
      = (setCalls keys.toFinset cs).2 :=
  ((boolKeySet_lawful p h0 hp pre).calls_spec ((boolKeySet_lawful p h0 hp pre).rep_from keys) cs hc).1

/-- **C78, bit packing.** The same for the set collection with bit packing. -/
theorem C78_bit_packed_sequence (p : SeqParams Nat) (h0 : p.default = 0) (hp : p.byTemplate = true → 0 < p.extendSize)
    (pre : Nat) (keys : List Nat) (cs : List SetCall) (hc : ∀ c ∈ cs, c.Ok) :
    ((bitKeySet p pre).calls (BitSet.updateFromKeys p (List.replicate pre 0) keys) cs).2
      = (setCalls keys.toFinset cs).2 :=
  ((bitKeySet_lawful p h0 hp pre).calls_spec ((bitKeySet_lawful p h0 hp pre).rep_from keys) cs hc).1

/-- **C78, results.** The new set an operator gives behaves as a mathematical set in the same way, under each further history
of operations. (Stated for both collections: `S` is one of the two, `d` any state a history has led to.) -/
theorem C78_results (p : SeqParams Nat) (h0 : p.default = 0) (hp : p.byTemplate = true → 0 < p.extendSize)
    (pre : Nat) (keys : List Nat) (cs cs' : List SetCall) (hc : ∀ c ∈ cs, c.Ok) (hc' : ∀ c ∈ cs', c.Ok) (a : Arg) (ha : a.Ok)
    (S : KeySet (List Nat)) (hS : S = boolKeySet p pre ∨ S = bitKeySet p pre) :
    let d := (S.calls (S.fromIterable keys) cs).1
    let s := (setCalls keys.toFinset cs).1
    (S.calls (S.and d (argOperand a)) cs').2 = (setCalls (s ∩ a.toFinset s) cs').2 ∧
    (S.calls (S.or d (argOperand a)) cs').2 = (setCalls (s ∪ a.toFinset s) cs').2 ∧
    (S.calls (S.sub d (argOperand a)) cs').2 = (setCalls (s \ a.toFinset s) cs').2 ∧
    (S.calls (S.rsub d (argOperand a)) cs').2 = (setCalls (a.toFinset s \ s) cs').2 ∧
    (S.calls (S.xor d (argOperand a)) cs').2 = (setCalls (symmDiff s (a.toFinset s)) cs').2 := by
  obtain ⟨inv, L⟩ : ∃ inv, S.Lawful inv := by
    rcases hS with rfl | rfl
    · exact ⟨_, boolKeySet_lawful p h0 hp pre⟩
    · exact ⟨_, bitKeySet_lawful p h0 hp pre⟩
  have h := (L.calls_spec (L.rep_from keys) cs hc).2
  exact ⟨(L.calls_spec (L.rep_and h a) cs' hc').1, (L.calls_spec (L.rep_or h a) cs' hc').1,
    (L.calls_spec (L.rep_sub h a ha) cs' hc').1, (L.calls_spec (L.rep_rsub h a ha) cs' hc').1,
    (L.calls_spec (L.rep_xor h a ha) cs' hc').1⟩

/-- A history with all kinds of operands; keys beyond the allocated length. -/
def exSetCalls : List SetCall :=
  [.or (.iterable [17, 3, 17]), .xor (.set [3, 4]), .ixor (.set [5, 3]), .iterate, .isub (.iterable [5, 9]), .pop, .pop,
    .remove 4, .le (.iterable [4]), .ixor .self, .len]

/-- Non-vacuity of C78: settings of the gears, and the hypotheses hold for a history with all kinds of operands. -/
example :
    let p : SeqParams Nat := ⟨0, 2, true⟩
    (p.default = 0 ∧ (p.byTemplate = true → 0 < p.extendSize)) ∧
    (∀ c ∈ exSetCalls, c.Ok) ∧
    ((bitKeySet p 1).calls (BitSet.updateFromKeys p (List.replicate 1 0) [3, 20]) exSetCalls).2
      = [.elems [3, 17, 20], .elems [4, 20], .unit, .elems [5, 20], .unit, .num 20, .keyError, .keyError, .notImplemented,
        .unit, .num 0] := by
  refine ⟨⟨rfl, fun _ => by decide⟩, ?_, ?_⟩
  · simp [exSetCalls, SetCall.Ok, Arg.Ok]
  · decide +kernel

section Mapping

variable {α : Type} [DecidableEq α]

/-- Dispatch of an operation to the modelled methods (`_gear_collections.py` 1007-1125 and the mixins). -/
def SeqMap.call (p : SeqParams α) (d : List α) : MapCall α → List α × MapAnswer α
  | .set k v => (SeqMap.setItem p d k v, .unit)
  | .del k => (SeqMap.delItem p d k, .unit)
  | .lookup k => (d, match SeqMap.getItem p d k with | some v => .value (some v) | none => .keyError)
  | .get k dflt => (d, .value (SeqMap.get p d k dflt))
  | .contains k => (d, .bool (SeqMap.contains p d (k : Int)))
  | .len => (d, .num (SeqMap.len p d))
  | .keys => (d, .keys (SeqMap.keys p d))
  | .items => (d, match SeqMap.items p d with | some l => .items l | none => .keyError)
  | .values => (d, match SeqMap.values p d with | some l => .values l | none => .keyError)
  | .pop k => match SeqMap.pop p d k with | some (v, d') => (d', .value (some v)) | none => (d, .keyError)
  | .popDefault k dflt => ((SeqMap.popDefault p d k dflt).2, .value (some (SeqMap.popDefault p d k dflt).1))
  | .popitem => match SeqMap.popitem p d with | some ((k, v), d') => (d', .item k v) | none => (d, .keyError)
  | .clear => match SeqMap.clear p d with | some d' => (d', .unit) | none => (d, .diverges)
  | .update kvs => (SeqMap.update p d kvs, .unit)
  | .setdefault k dflt => ((SeqMap.setdefault p d k dflt).2, .value (some (SeqMap.setdefault p d k dflt).1))
  | .eq l => (d, match SeqMap.eq p d l with | some b => .bool b | none => .keyError)

/-- A history of operations. -/
def SeqMap.calls (p : SeqParams α) (d : List α) : List (MapCall α) → List α × List (MapAnswer α)
  | [] => (d, [])
  | c :: cs =>
    ((SeqMap.calls p (SeqMap.call p d c).1 cs).1, (SeqMap.call p d c).2 :: (SeqMap.calls p (SeqMap.call p d c).1 cs).2)

theorem without_self {m : Nat → Option α} {k : Nat} (h : m k = none) : without m k = m := by
  funext j
  unfold without
  by_cases e : j = k
  · subst e; simp [h]
  · simp [e]

theorem SeqMap.eq_spec (p : SeqParams α) (d : List α) (l : List (Nat × α)) (hl : (l.map Prod.fst).Nodup) :
    ∃ b, SeqMap.eq p d l = some b ∧ (b = true ↔ ∀ k v, (k, v) ∈ l ↔ SeqMap.getItem p d k = some v) := by
  obtain ⟨its, e, ⟨hs, hi⟩, _, _⟩ := SeqMap.items_spec p d
  unfold SeqMap.eq
  rw [e]
  refine ⟨_, rfl, ?_⟩
  have hn : its.Nodup := List.Nodup.of_map Prod.fst (hs.imp (by intro a b; omega))
  have hnl : l.Nodup := List.Nodup.of_map Prod.fst hl
  simp only [Bool.and_eq_true, beq_iff_eq, List.all_eq_true, decide_eq_true_eq]
  constructor
  · rintro ⟨h1, h2⟩ k v
    rw [← hi]
    have hperm : its.Perm l := (List.subperm_of_subset hn h2).perm_of_length_le (by omega)
    exact hperm.mem_iff.symm
  · intro h
    have hsub : ∀ kv, kv ∈ its ↔ kv ∈ l := fun kv => by
      have := h kv.1 kv.2
      rw [← hi] at this
      exact this.symm
    have hperm : its.Perm l := (List.perm_ext_iff_of_nodup hn hnl).2 hsub
    exact ⟨hperm.length_eq, fun kv hkv => (hsub kv).1 hkv⟩

theorem SeqMap.call_spec (p : SeqParams α) (hp : p.Ok) (d : List α) (c : MapCall α) (hc : c.Ok)
    (hv : ∀ v ∈ c.assigned, v ≠ p.default) :
    MapCallSpec (SeqMap.getItem p d) c (SeqMap.getItem p (SeqMap.call p d c).1) (SeqMap.call p d c).2 := by
  obtain ⟨its, e, hi, e1, e3⟩ := SeqMap.items_spec p d
  cases c with
  | set k v => exact ⟨SeqMap.getItem_setItem p hp d k v (hv v (by simp [MapCall.assigned])), rfl⟩
  | del k => exact ⟨SeqMap.getItem_delItem p d k, rfl⟩
  | lookup k => exact ⟨rfl, rfl⟩
  | get k dflt => exact ⟨rfl, rfl⟩
  | contains k =>
    refine ⟨rfl, ?_⟩
    simp only [SeqMap.call]
    congr 1
    rw [Bool.eq_iff_iff, ← SeqMap.mem_iter, SeqMap.mem_iter_getItem]
  | len =>
    refine ⟨rfl, its, hi, ?_⟩
    simp only [SeqMap.call]
    congr 1
    rw [← SeqMap.length_iterFrom p d 0]
    show (SeqMap.iter p d).length = _
    rw [← e1, List.length_map]
  | keys => exact ⟨rfl, its, hi, by simp only [SeqMap.call, SeqMap.keys, e1]⟩
  | items => exact ⟨rfl, its, hi, by simp only [SeqMap.call, e]⟩
  | values => exact ⟨rfl, its, hi, by simp only [SeqMap.call, e3]⟩
  | pop k =>
    simp only [SeqMap.call, SeqMap.pop, MapCallSpec]
    cases h : SeqMap.getItem p d k with
    | none => exact ⟨(without_self h).symm, rfl⟩
    | some v => exact ⟨SeqMap.getItem_delItem p d k, rfl⟩
  | popDefault k dflt =>
    simp only [SeqMap.call, SeqMap.popDefault, MapCallSpec]
    cases h : SeqMap.getItem p d k with
    | none => exact ⟨(without_self h).symm, rfl⟩
    | some v => exact ⟨SeqMap.getItem_delItem p d k, rfl⟩
  | popitem =>
    simp only [SeqMap.call, MapCallSpec]
    rcases SeqMap.popitem_spec p d with ⟨hn, _, hpop⟩ | ⟨k, v, hk, hmin, hpop, _⟩
    · left; rw [hpop]; exact ⟨hn, rfl, rfl⟩
    · right; rw [hpop]; exact ⟨k, v, hk, hmin, SeqMap.getItem_delItem p d k, rfl⟩
  | clear =>
    obtain ⟨d', e', hd'⟩ := SeqMap.clearLoop_spec p ((SeqMap.iter p d).length + 1) d (by omega)
    simp only [SeqMap.call, MapCallSpec, SeqMap.clear, e']
    exact ⟨hd', trivial⟩
  | update kvs =>
    simp only [SeqMap.call, MapCallSpec, SeqMap.update, and_true]
    simp only [MapCall.assigned] at hv
    clear its e hi e1 e3 hc
    induction kvs generalizing d with
    | nil => rfl
    | cons kv rest ih =>
      rw [List.foldl_cons, List.foldl_cons, ih _ (fun v h => hv v (by simp at h ⊢; exact Or.inr h))]
      congr 1
      exact SeqMap.getItem_setItem p hp d kv.1 kv.2 (hv kv.2 (by simp))
  | setdefault k dflt =>
    simp only [SeqMap.call, SeqMap.setdefault, MapCallSpec]
    cases h : SeqMap.getItem p d k with
    | none => exact ⟨SeqMap.getItem_setItem p hp d k dflt (hv dflt (by simp [MapCall.assigned])), rfl⟩
    | some v => exact ⟨rfl, rfl⟩
  | eq l =>
    obtain ⟨b, eb, hb⟩ := SeqMap.eq_spec p d l hc
    exact ⟨rfl, b, by simp only [SeqMap.call, eb], hb⟩

theorem SeqMap.calls_spec (p : SeqParams α) (hp : p.Ok) (d : List α) (cs : List (MapCall α)) (hc : ∀ c ∈ cs, c.Ok)
    (hv : ∀ c ∈ cs, ∀ v ∈ c.assigned, v ≠ p.default) :
    MapCallsSpec (SeqMap.getItem p d) cs (SeqMap.getItem p (SeqMap.calls p d cs).1) (SeqMap.calls p d cs).2 := by
  induction cs generalizing d with
  | nil => exact .nil _
  | cons c cs ih =>
    exact .cons (SeqMap.call_spec p hp d c (hc c List.mem_cons_self) (hv c List.mem_cons_self))
      (ih _ (fun c' h => hc c' (List.mem_cons_of_mem _ h)) (fun c' h => hv c' (List.mem_cons_of_mem _ h)))

/-- **C78, mappings.** A mapping collection of a gear "for integer vertex ids" behaves as a mathematical partial map under
every history of all the operations a Python mutable mapping has, if the value that stands for "no value" is never
assigned: each operation gives the answer of the mathematical map, ends, and raises `KeyError` only where it should (`del`
never does). `m'` is the map at the end. -/
theorem C78_mapping (p : SeqParams α) (hp : p.byTemplate = true → 0 < p.extendSize) (pre : Nat) (cs : List (MapCall α))
    (hc : ∀ c ∈ cs, c.Ok) (hv : ∀ c ∈ cs, ∀ v ∈ c.assigned, v ≠ p.default) :
    ∃ m', MapCallsSpec (fun _ => none) cs m' (SeqMap.calls p (List.replicate pre p.default) cs).2 := by
  have h := SeqMap.calls_spec p hp (List.replicate pre p.default) cs hc hv
  have hempty : SeqMap.getItem p (List.replicate pre p.default) = fun _ => none := by
    funext k
    rw [SeqMap.getItem_eq]
    have : seqVal p (List.replicate pre p.default) k = p.default := by
      unfold seqVal; rw [List.getElem?_replicate]; split <;> simp
    simp [this]
  rw [hempty] at h
  exact ⟨_, h⟩

end Mapping

/-- A history of operations on a mapping. -/
def exMapCalls : List (MapCall Nat) :=
  [.set 5 1, .setdefault 5 2, .setdefault 9 3, .update [(0, 7), (5, 8)], .items, .pop 9, .pop 9, .eq [(5, 8), (0, 7)], .popitem,
    .clear, .len]

/-- Non-vacuity of C78 for mappings: array with maximal value 255 as gap value, template of size 2. -/
example :
    let p : SeqParams Nat := ⟨255, 2, true⟩
    (p.byTemplate = true → 0 < p.extendSize) ∧ (∀ c ∈ exMapCalls, c.Ok) ∧
    (∀ c ∈ exMapCalls, ∀ v ∈ c.assigned, v ≠ p.default) ∧
    (SeqMap.calls p [255] exMapCalls).2
      = [.unit, .value (some 1), .value (some 3), .unit, .items [(0, 7), (5, 8), (9, 3)], .value (some 3), .keyError,
        .bool true, .item 0 7, .unit, .num 0] := by
  refine ⟨by decide, ?_, by decide, by decide +kernel⟩
  simp [exMapCalls, MapCall.Ok]

end NoGraphs
