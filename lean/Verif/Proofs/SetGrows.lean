import Verif.Proofs.Gear

/-! For which ids the inlined membership test that must not run out of range is in range. -/

namespace NoGraphs

variable {S K : Type}

/-- The ids in range of a vertex set only grow, and contain all ids that were added. -/
structure SetOps.Grows (o : SetOps S K) : Prop where
  add_self : ∀ s k, (o.mustContain (o.add s k) k).isSome
  add : ∀ s k j, (o.mustContain s j).isSome → (o.mustContain (o.add s k) j).isSome
  drop : ∀ s s' k j, o.drop s k = .ok s' → (o.mustContain s j).isSome → (o.mustContain s' j).isSome

theorem SetOps.Grows.discard {o : SetOps S K} (h : o.Grows) (s : S) (k j : K) (hj : (o.mustContain s j).isSome) :
    (o.mustContain (o.discard s k) j).isSome := by
  unfold SetOps.discard
  split
  · rename_i s' hs; exact h.drop _ _ _ _ hs hj
  · exact hj

theorem hashSet_grows [DecidableEq K] : (hashSet (K := K)).Grows where
  add_self _ _ := rfl
  add _ _ _ _ := rfl
  drop _ _ _ _ _ _ := rfl

theorem extendAndSet_length (p : SeqParams Nat) (hp : p.Ok) (data : List Nat) (k v : Nat)
    (h : data.length ≤ k) : data.length ≤ (extendAndSet p data k v).length ∧
      k < (extendAndSet p data k v).length := by
  unfold extendAndSet
  simp only [List.length_set]
  split
  · rename_i hb
    have h0 := hp hb
    have key : ∀ fuel (d : List Nat) target, target ≤ fuel + d.length →
        d.length ≤ (extendLoop (List.replicate p.extendSize p.default) fuel target d).length ∧
        target ≤ (extendLoop (List.replicate p.extendSize p.default) fuel target d).length := by
      intro fuel
      induction fuel with
      | zero => intro d target h; simp [extendLoop]; omega
      | succ fuel ih =>
        intro d target h
        unfold extendLoop
        split
        · have := ih (d ++ List.replicate p.extendSize p.default) target (by simp; omega)
          simp at this ⊢; omega
        · exact ⟨Nat.le_refl _, by omega⟩
    have := key (k + 1 + p.extendSize) data (k + 1 + p.extendSize) (by omega)
    omega
  · simp only [List.length_append, List.length_replicate]; omega

theorem seqSet_getD_length (data : List Nat) (k v : Nat) : ((seqSet data k v).getD data).length = data.length := by
  unfold seqSet; split <;> simp

theorem boolSeqSet_grows (p : SeqParams Nat) (hp : p.Ok) (pre : Nat) : (boolSeqSet p pre).Grows := by
  have hm : ∀ (s : List Nat) j, ((boolSeqSet p pre).mustContain s j).isSome ↔ j < s.length := by
    intro s j; simp [boolSeqSet, seqGet]
  have hadd : ∀ (s : List Nat) k, s.length ≤ ((boolSeqSet p pre).add s k).length ∧
      k < ((boolSeqSet p pre).add s k).length := by
    intro s k
    simp only [boolSeqSet, BoolSet.add, setOrExtend]
    by_cases h : k < s.length
    · simp [seqSet, h]
    · simp only [seqSet, if_neg h]; exact extendAndSet_length p hp s k 1 (by omega)
  refine ⟨fun s k => (hm _ _).2 (hadd s k).2, fun s k j h => (hm _ _).2 ?_, fun s s' k j e h => (hm _ _).2 ?_⟩
  · have := (hm _ _).1 h; have := (hadd s k).1; omega
  · have := (hm _ _).1 h
    simp only [boolSeqSet, BoolSet.drop, seqSet] at e
    by_cases hk : k < s.length <;> simp only [hk, if_true, if_false, Except.ok.injEq, reduceCtorEq] at e
    subst e; simpa using this

theorem bitSeqSet_grows (p : SeqParams Nat) (hp : p.Ok) (pre : Nat) : (bitSeqSet p pre).Grows := by
  have hm : ∀ (s : List Nat) j, ((bitSeqSet p pre).mustContain s j).isSome ↔ j / 8 < s.length := by
    intro s j; simp [bitSeqSet, seqGet]
  have hadd : ∀ (s : List Nat) k, s.length ≤ ((bitSeqSet p pre).add s k).length ∧
      k / 8 < ((bitSeqSet p pre).add s k).length := by
    intro s k
    simp only [bitSeqSet, BitSet.add, seqGet]
    by_cases h : k / 8 < s.length
    · simp only [List.getElem?_eq_getElem h, seqSet_getD_length]; exact ⟨Nat.le_refl _, h⟩
    · rw [List.getElem?_eq_none (by omega)]
      exact extendAndSet_length p hp s (k / 8) _ (by omega)
  refine ⟨fun s k => (hm _ _).2 (hadd s k).2, fun s k j h => (hm _ _).2 ?_, fun s s' k j e h => (hm _ _).2 ?_⟩
  · have := (hm _ _).1 h; have := (hadd s k).1; omega
  · have := (hm _ _).1 h
    simp only [bitSeqSet, BitSet.drop, seqGet] at e
    split at e
    · simp at e
    · split at e <;> simp only [Except.ok.injEq, reduceCtorEq] at e
      subst e; simpa using this

end NoGraphs
