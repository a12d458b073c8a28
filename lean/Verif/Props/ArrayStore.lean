import Verif.Proofs.ArrayStore

/-! # Mutable copies of arrays: C82 -/

set_option linter.unusedSectionVars false

namespace NoGraphs

open Spec

variable {α : Type}

/-- The action does not assign to a list of the copy, except by an assignment to the copy with the right number of
coordinates. -/
def ActOk (own : Nat → Prop) (d : Nat) : StoreAct α → Prop
  | .write p _ => p.length = d
  | .assign k _ _ => ¬ own k
  | .create _ => True

theorem assign_frame {H H' : Store α} {k : Nat} {i : Int} {x : PyVal α} (h : H.assign (.ref k) i x = .ok H') :
    H'.length = H.length ∧ ∀ a, a ≠ k → H'[a]? = H[a]? := by
  simp only [Store.assign] at h
  rcases hk : H[k]? with _ | o <;> simp only [hk] at h
  · simp at h
  · split at h
    · rcases hx : Arr.pySetIndex o.items i x with _ | items <;> simp only [hx] at h
      · simp at h
      · simp only [Except.ok.injEq] at h
        subst h
        exact ⟨by simp, fun a ha => by simp [Ne.symm ha]⟩
    · simp at h

theorem next_owned {dims : List Nat} (hd : dims ≠ []) {r : PyVal α} {P : Nat → Prop} {H : Store α}
    {cont : List Nat → PyVal α} (h : Owned H dims r P cont) (hP : ∀ a, P a → a < H.length) {a : StoreAct α}
    (ha : ActOk P dims.length a) :
    Owned (a.next r H) dims r P (fun cell => lastWritten dims cell [a] (cont cell)) ∧ H.length ≤ (a.next r H).length := by
  unfold StoreAct.next
  cases a with
  | write p x =>
    have hp : p ≠ [] := by
      rintro rfl
      cases dims with
      | nil => exact hd rfl
      | cons _ _ => simp [ActOk] at ha
    have := h.set x ha hp
    simp only [StoreAct.run, lastWritten, List.foldl_cons, List.foldl_nil]
    rcases hc : cellOf dims p with _ | cell
    · rw [hc] at this
      simp only [this]
      exact ⟨by simpa using h, Nat.le_refl _⟩
    · rw [hc] at this
      obtain ⟨H', k1, k2, -, k3⟩ := this
      simp only [k1]
      refine ⟨k3.congr (fun _ _ => rfl) (fun c _ => ?_), Nat.le_of_eq k2.symm⟩
      simp [eq_comm]
  | assign k i x =>
    simp only [StoreAct.run, lastWritten, List.foldl_cons, List.foldl_nil]
    rcases hr : H.assign (.ref k) i x with _ | H'
    · exact ⟨h, Nat.le_refl _⟩
    · obtain ⟨h1, h2⟩ := assign_frame hr
      exact ⟨h.congr (fun a hPa => h2 a (fun e => ha (e ▸ hPa))) (fun _ _ => rfl), by simp only [h1]; exact Nat.le_refl _⟩
  | create o =>
    simp only [StoreAct.run, lastWritten, List.foldl_cons, List.foldl_nil]
    exact ⟨h.congr (fun a hPa => List.getElem?_append_left (hP a hPa)) (fun _ _ => rfl), by simp⟩

theorem lastWritten_append (dims cell : List Nat) (l l' : List (StoreAct α)) (x : PyVal α) :
    lastWritten dims cell (l ++ l') x = lastWritten dims cell l' (lastWritten dims cell l x) := by
  simp [lastWritten]

theorem runActs_owned {dims : List Nat} (hd : dims ≠ []) {r : PyVal α} {P : Nat → Prop} :
    ∀ (acts : List (StoreAct α)) {H : Store α} {cont : List Nat → PyVal α}, Owned H dims r P cont →
      (∀ a, P a → a < H.length) → (∀ a ∈ acts, ActOk P dims.length a) →
      Owned (runActs r H acts) dims r P (fun cell => lastWritten dims cell acts (cont cell))
  | [], _, _, h, _, _ => h
  | a :: acts, H, cont, h, hP, ha => by
    obtain ⟨h1, h2⟩ := next_owned hd h hP (ha a (by simp))
    have := runActs_owned hd acts h1 (fun b hb => Nat.lt_of_lt_of_le (hP b hb) h2) (fun b hb => ha b (by simp [hb]))
    exact this

/-- What an assignment does with the object. -/
def assignTo (i : Int) (x : PyVal α) (o : PySeq α) : PySeq α :=
  if o.isList then
    match Arr.pySetIndex o.items i x with
    | none => o
    | some items => { o with items := items }
  else o

theorem assign_next (r : PyVal α) (H : Store α) (k : Nat) (i : Int) (x : PyVal α) :
    (StoreAct.assign k i x).next r H = H.modify k (assignTo i x) := by
  apply List.ext_getElem?
  intro a
  rw [List.getElem?_modify]
  simp only [StoreAct.next, StoreAct.run, Store.assign]
  rcases hk : H[k]? with _ | o
  · simp only
    by_cases hak : k = a
    · subst hak
      simp [hk]
    · simp [hak]
  · have hlt := (List.getElem?_eq_some_iff.1 hk).1
    by_cases hl : o.isList = true
    · rcases hx : Arr.pySetIndex o.items i x with _ | items
      · simp only [hl, hx, if_true]
        by_cases hak : k = a
        · subst hak
          simp [hk, assignTo, hl, hx]
        · simp [hak]
      · simp only [hl, hx, if_true]
        by_cases hak : k = a
        · subst hak
          have hk' : H[k] = o := (List.getElem?_eq_some_iff.1 hk).2
          simp [hk', assignTo, hl, hx, hlt]
        · simp [hak]
    · simp only [hl]
      by_cases hak : k = a
      · subst hak
        simp [hk, assignTo, hl]
      · simp [hak]

/-- Assignments to the copy do not change other objects, and they do not change what other actions do. -/
theorem runActs_outside {dims : List Nat} (hd : dims ≠ []) {r : PyVal α} {P : Nat → Prop} :
    ∀ (acts : List (StoreAct α)) {H H2 : Store α} {cont : List Nat → PyVal α}, Owned H dims r P cont →
      (∀ a, P a → a < H.length) → (∀ a ∈ acts, ActOk P dims.length a) → H2.length = H.length →
      (∀ a, ¬ P a → H[a]? = H2[a]?) →
      ∀ a, ¬ P a → (runActs r H acts)[a]? = (runActs r H2 (acts.filter isOutside))[a]?
  | [], _, _, _, _, _, _, _, he => he
  | act :: acts, H, H2, cont, h, hP, ha, hl, he => by
    obtain ⟨h1, h2⟩ := next_owned hd h hP (ha act (by simp))
    have hP' : ∀ b, P b → b < (act.next r H).length := fun b hb => Nat.lt_of_lt_of_le (hP b hb) h2
    have ha' : ∀ b ∈ acts, ActOk P dims.length b := fun b hb => ha b (by simp [hb])
    have hact := ha act (by simp)
    cases act with
    | write p x =>
      rw [List.filter_cons_of_neg (by simp [isOutside])]
      have hp : p ≠ [] := by
        rintro rfl
        cases dims with
        | nil => exact hd rfl
        | cons _ _ => simp [ActOk] at hact
      have hs := h.set x hact hp
      refine runActs_outside hd acts h1 hP' ha' ?_ ?_
      · simp only [StoreAct.next, StoreAct.run]
        rcases hc : cellOf dims p with _ | cell
        · rw [hc] at hs
          simp only [hs, hl]
        · rw [hc] at hs
          obtain ⟨H', k1, k2, -⟩ := hs
          simp only [k1, hl, k2]
      · intro b hb
        simp only [StoreAct.next, StoreAct.run]
        rcases hc : cellOf dims p with _ | cell
        · rw [hc] at hs
          simp only [hs]
          exact he b hb
        · rw [hc] at hs
          obtain ⟨H', k1, -, k3, -⟩ := hs
          simp only [k1]
          rw [k3 b hb]
          exact he b hb
    | assign k i x =>
      rw [List.filter_cons_of_pos (by simp [isOutside])]
      refine runActs_outside hd acts h1 hP' ha' ?_ ?_
      · simp only [assign_next, List.length_modify, hl]
      · intro b hb
        simp only [assign_next, List.getElem?_modify, he b hb]
    | create o =>
      rw [List.filter_cons_of_pos (by simp [isOutside])]
      refine runActs_outside hd acts h1 hP' ha' ?_ ?_
      · simp [StoreAct.next, StoreAct.run, hl]
      · intro b hb
        simp only [StoreAct.next, StoreAct.run]
        by_cases hbl : b < H.length
        · rw [List.getElem?_append_left hbl, List.getElem?_append_left (by omega)]
          exact he b hb
        · rw [List.getElem?_append_right (by omega), List.getElem?_append_right (by omega), hl]

/-- **C82.** `mutable_copy` of an array of any number of dimensions, whose sequences may be immutable, and may contain the
same row object several times, gives an array of the same size and content, and changes nothing that existed before. From
then on, the program may do any assignments to the copy, and to other objects, in any order. Then:

* Reading from the copy gives what has been written to the cell by assignments to the copy last, or the content that the
  original array had when the copy was made. In particular, an assignment changes only one cell.
* Assignments to cells of the copy succeed, and they raise an `IndexError` outside of the array.
* All other objects, including those of the original array, are as if there were no assignments to the copy.
* The size of the copy is always that of the original array. -/
theorem C82_mutable_copy (H : Store α) (v : PyVal α) (dims : List Nat) (hd : dims ≠ []) (hr : RectIn H v dims) :
    ∃ H' copy, mutableCopy H v dims.length = .ok (H', copy) ∧ (∀ k < H.length, H'[k]? = H[k]?) ∧
      ∀ acts : List (StoreAct α),
        (∀ p x, .write p x ∈ acts → p.length = dims.length) →
        (∀ k i x, .assign k i x ∈ acts → k < H.length ∨ H'.length ≤ k) →
        let now := runActs copy H' acts
        (∀ p, p.length = dims.length →
          match cellOf dims p with
          | none => now.getItem copy p = .error .indexError ∧ H.getItem v p = .error .indexError ∧
              ∀ x, now.setItem copy p x = .error .indexError
          | some cell => ∃ x, H.getItem v p = .ok x ∧ now.getItem copy p = .ok (lastWritten dims cell acts x) ∧
              ∀ y, ∃ H'', now.setItem copy p y = .ok H'') ∧
        (∀ k, k < H.length ∨ H'.length ≤ k → now[k]? = (runActs copy H' (acts.filter isOutside))[k]?) ∧
        ((∀ n ∈ dims, 0 < n) → now.size dims.length copy = H.size dims.length v) := by
  classical
  have hex : ∀ c, ∃ x, InCell dims c → H.getItem v (c.map Int.ofNat) = .ok x := by
    intro c
    by_cases hc : InCell dims c
    · have := hr.get (p := c.map Int.ofNat) (by simp [hc.length])
      rw [cellOf_nat hc] at this
      obtain ⟨x, hx, -⟩ := this
      exact ⟨x, fun _ => hx⟩
    · exact ⟨v, fun h => absurd h hc⟩
  obtain ⟨cont, hcont⟩ := Classical.axiomOfChoice hex
  obtain ⟨N, copy, e, own⟩ := writable_owned dims H v cont hd hr (fun c hc => hcont c hc)
  refine ⟨H ++ N, copy, e, fun k hk => List.getElem?_append_left hk, ?_⟩
  intro acts hw ha now
  have hok : ∀ a ∈ acts, ActOk (fun a => H.length ≤ a ∧ a < (H ++ N).length) dims.length a := by
    intro a hm
    cases a with
    | write p x => exact hw p x hm
    | assign k i x =>
      have := ha k i x hm
      simp only [ActOk]
      omega
    | create o => trivial
  have hnow : Owned now dims copy _ _ := runActs_owned hd acts own (fun a ha => ha.2) hok
  refine ⟨fun p hp => ?_, fun k hk => ?_, fun hpos => ?_⟩
  · have hpne : p ≠ [] := by
      rintro rfl
      cases dims with
      | nil => exact hd rfl
      | cons _ _ => simp at hp
    have h1 := hr.get hp
    have h2 := hnow.get hp
    have h3 := fun y => hnow.set y hp hpne
    rcases hc : cellOf dims p with _ | cell <;> simp only [hc] at h1 h2 h3
    · exact ⟨h2, h1, h3⟩
    · obtain ⟨x, h4, h5⟩ := h1
      have := hcont cell (cellOf_inCell hc)
      rw [this, Except.ok.injEq] at h5
      subst h5
      exact ⟨_, h4, h2, fun y => ⟨_, (h3 y).choose_spec.1⟩⟩
  · exact runActs_outside hd acts own (fun a ha => ha.2) hok rfl (fun _ _ => rfl) k (by omega)
  · rw [hnow.rect.size hpos, hr.size hpos]

/-- **C82.** Assignments to the copy do not change the original array. -/
theorem C82_original_unchanged (H : Store α) (v : PyVal α) (dims : List Nat) (hd : dims ≠ []) (hr : RectIn H v dims)
    (H' : Store α) (copy : PyVal α) (hc : mutableCopy H v dims.length = .ok (H', copy)) (writes : List (Vec × PyVal α))
    (hw : ∀ w ∈ writes, w.1.length = dims.length) (p : Vec) (hp : p.length = dims.length) :
    (runActs copy H' (writes.map (fun w => .write w.1 w.2))).getItem v p = H.getItem v p := by
  obtain ⟨H1, copy1, e, hpre, h⟩ := C82_mutable_copy H v dims hd hr
  rw [hc, Except.ok.injEq, Prod.mk.injEq] at e
  obtain ⟨rfl, rfl⟩ := e
  obtain ⟨-, h2, -⟩ := h (writes.map (fun w => .write w.1 w.2))
    (by
      intro p x hm
      obtain ⟨w, hm, hw'⟩ := List.mem_map.1 hm
      simp only [StoreAct.write.injEq] at hw'
      rw [← hw'.1]
      exact hw w hm)
    (by
      intro k i x hm
      obtain ⟨w, -, hw'⟩ := List.mem_map.1 hm
      simp at hw')
  have hf : (writes.map (fun w => StoreAct.write w.1 w.2)).filter isOutside = ([] : List (StoreAct α)) := by
    rw [List.filter_eq_nil_iff]
    intro a ha
    obtain ⟨w, -, rfl⟩ := List.mem_map.1 ha
    simp [isOutside]
  rw [hf] at h2
  refine hr.getItem_same (fun k hk => ?_) hp
  rw [h2 k (.inl hk)]
  exact hpre k hk

/-! ## Non-vacuity: an array of two references to the same row `[0, 0]`, and an array of tuples -/

/-- `row = [0, 0]; shared = [row, row]; tuples = ((1, 2, 3), (4, 5, 6))` -/
def exStore : Store Nat :=
  [⟨true, [.atom 0, .atom 0]⟩, ⟨true, [.ref 0, .ref 0]⟩,
   ⟨false, [.atom 1, .atom 2, .atom 3]⟩, ⟨false, [.atom 4, .atom 5, .atom 6]⟩, ⟨false, [.ref 2, .ref 3]⟩]

example : RectIn exStore (.ref 1) [2, 2] ∧ RectIn exStore (.ref 4) [2, 3] := by
  refine ⟨⟨1, _, rfl, rfl, rfl, ?_⟩, ⟨4, _, rfl, rfl, rfl, ?_⟩⟩
  · intro x hx
    simp only [List.mem_cons, List.not_mem_nil, or_false, or_self] at hx
    subst hx
    exact ⟨0, _, rfl, rfl, rfl, fun _ _ => trivial⟩
  · intro x hx
    simp only [List.mem_cons, List.not_mem_nil, or_false] at hx
    rcases hx with rfl | rfl
    · exact ⟨2, _, rfl, rfl, rfl, fun _ _ => trivial⟩
    · exact ⟨3, _, rfl, rfl, rfl, fun _ _ => trivial⟩

/-- The original: an assignment changes two cells, since the rows are the same object; tuples cannot be changed. -/
example : (exStore.setItem (.ref 1) [0, 1] (.atom 7)).bind (fun H => H.getItem (.ref 1) [1, 1]) = .ok (.atom 7) ∧
    exStore.setItem (.ref 4) [0, 1] (.atom 7) = .error .typeError := ⟨rfl, rfl⟩

/-- The copy: an assignment changes one cell, here with a negative coordinate. -/
example : (mutableCopy exStore (.ref 1) 2).bind (fun c => (c.1.setItem c.2 [0, -1] (.atom 7)).bind (fun H =>
      (H.getItem c.2 [0, 1]).bind (fun x => (H.getItem c.2 [1, 1]).bind (fun y => (H.getItem (.ref 1) [0, 1]).map
        (fun z => (x, y, z)))))) = .ok (.atom 7, .atom 0, .atom 0) ∧
    (mutableCopy exStore (.ref 4) 2).bind (fun c => (c.1.setItem c.2 [1, 2] (.atom 7)).bind (fun H =>
      (H.getItem c.2 [1, 2]).bind (fun x => (H.getItem (.ref 4) [1, 2]).map (fun y => (x, y))))) =
      .ok (.atom 7, .atom 6) := ⟨rfl, rfl⟩

end NoGraphs
