import Verif.Spec.ArrayStore

/-! # Proofs about arrays over a store of sequence objects -/

set_option linter.unusedSectionVars false

namespace NoGraphs

open Spec

variable {α : Type}

/-- The index that a coordinate means. -/
def coordOf (n : Nat) (c : Int) : Option Nat :=
  if 0 ≤ c ∧ c < n then some c.toNat else if -n ≤ c ∧ c < 0 then some (c + n).toNat else none

theorem coordOf_lt {n : Nat} {c : Int} {i : Nat} (h : coordOf n c = some i) : i < n := by
  unfold coordOf at h
  split at h
  · simp only [Option.some.injEq] at h
    omega
  · split at h
    · simp only [Option.some.injEq] at h
      omega
    · simp at h

theorem coordOf_nat {n i : Nat} (h : i < n) : coordOf n (Int.ofNat i) = some i := by
  unfold coordOf
  rw [if_pos ⟨Int.natCast_nonneg i, Int.ofNat_lt.2 h⟩]
  simp

theorem pyIndex_coord {X : Type} (l : List X) (c : Int) : pyIndex l c = (coordOf l.length c).bind (fun i => l[i]?) := by
  unfold pyIndex coordOf
  split_ifs <;> first | rfl | (exfalso; omega) | skip
  · simp only [Option.bind_none, List.getElem?_eq_none_iff]
    omega
  · rw [Int.add_comm]
    rfl

theorem pySetIndex_coord {X : Type} (l : List X) (c : Int) (x : X) :
    Arr.pySetIndex l c x = (coordOf l.length c).map (fun i => l.set i x) := by
  unfold Arr.pySetIndex coordOf
  split_ifs <;> first | rfl | (exfalso; omega) | skip
  rw [Int.add_comm]
  rfl

theorem cellOf_cons (n : Nat) (dims : List Nat) (c : Int) (cs : List Int) :
    cellOf (n :: dims) (c :: cs) = (coordOf n c).bind (fun i => (cellOf dims cs).map (i :: ·)) := by
  unfold coordOf
  rw [cellOf]
  split
  · rfl
  · split <;> rfl

/-- The cell is inside an array with these sizes. -/
def InCell : List Nat → List Nat → Prop
  | [], [] => True
  | n :: dims, i :: c => i < n ∧ InCell dims c
  | _, _ => False

theorem cellOf_inCell : ∀ {dims : List Nat} {p : List Int} {cell : List Nat}, cellOf dims p = some cell → InCell dims cell
  | [], [], cell, h => by
    simp only [cellOf, Option.some.injEq] at h
    subst h
    trivial
  | [], _ :: _, _, h => by simp [cellOf] at h
  | _ :: _, [], _, h => by simp [cellOf] at h
  | n :: dims, c :: cs, cell, h => by
    rw [cellOf_cons] at h
    obtain ⟨i, h1, h2⟩ := Option.bind_eq_some_iff.1 h
    obtain ⟨c', h3, rfl⟩ := Option.map_eq_some_iff.1 h2
    exact ⟨coordOf_lt h1, cellOf_inCell h3⟩

theorem cellOf_nat : ∀ {dims cell : List Nat}, InCell dims cell → cellOf dims (cell.map Int.ofNat) = some cell
  | [], [], _ => rfl
  | [], _ :: _, h => h.elim
  | _ :: _, [], h => h.elim
  | n :: dims, i :: c, h => by
    rw [List.map_cons, cellOf_cons, coordOf_nat h.1, cellOf_nat h.2]
    rfl

/-- The value is an array of lists with these sizes; `P` holds for the addresses of its lists, none of which occurs twice;
`cont` is the content of its cells. -/
def Owned (H : Store α) : List Nat → PyVal α → (Nat → Prop) → (List Nat → PyVal α) → Prop
  | [], v, _, cont => v = cont []
  | n :: dims, v, P, cont => ∃ k o, v = .ref k ∧ H[k]? = some o ∧ o.isList = true ∧ o.items.length = n ∧ P k ∧
      ∃ Q : Nat → Nat → Prop, (∀ i j a, Q i a → Q j a → i = j) ∧ (∀ i a, Q i a → P a ∧ a ≠ k) ∧
      ∀ i x, o.items[i]? = some x → Owned H dims x (Q i) (fun c => cont (i :: c))

theorem Owned.congr {H H' : Store α} : ∀ {dims : List Nat} {v : PyVal α} {P : Nat → Prop} {cont cont' : List Nat → PyVal α},
    Owned H dims v P cont → (∀ a, P a → H'[a]? = H[a]?) → (∀ c, InCell dims c → cont' c = cont c) →
    Owned H' dims v P cont'
  | [], v, P, cont, cont', h, _, hc => by
    simp only [Owned] at h ⊢
    rw [h, hc [] trivial]
  | n :: dims, v, P, cont, cont', h, hH, hc => by
    obtain ⟨k, o, rfl, h2, h3, h4, h5, Q, h6, h7, h8⟩ := h
    refine ⟨k, o, rfl, by rw [hH k h5, h2], h3, h4, h5, Q, h6, h7, fun i x hx => ?_⟩
    have hi : i < n := by
      rw [← h4]
      exact (List.getElem?_eq_some_iff.1 hx).1
    exact Owned.congr (h8 i x hx) (fun a ha => hH a (h7 i a ha).1) (fun c hc' => hc _ ⟨hi, hc'⟩)

theorem Owned.mono {H : Store α} {P P' : Nat → Prop} {dims : List Nat} {v : PyVal α} {cont : List Nat → PyVal α}
    (h : Owned H dims v P cont) (hP : ∀ a, P a → P' a) : Owned H dims v P' cont := by
  cases dims with
  | nil => exact h
  | cons n dims =>
    obtain ⟨k, o, h1, h2, h3, h4, h5, Q, h6, h7, h8⟩ := h
    exact ⟨k, o, h1, h2, h3, h4, hP _ h5, Q, h6, fun i a ha => ⟨hP _ (h7 i a ha).1, (h7 i a ha).2⟩, h8⟩

theorem Owned.rect {H : Store α} : ∀ {dims : List Nat} {v : PyVal α} {P : Nat → Prop} {cont : List Nat → PyVal α},
    Owned H dims v P cont → RectIn H v dims
  | [], _, _, _, _ => trivial
  | n :: dims, v, P, cont, h => by
    obtain ⟨k, o, rfl, h2, h3, h4, h5, Q, h6, h7, h8⟩ := h
    refine ⟨k, o, rfl, h2, h4, fun x hx => ?_⟩
    obtain ⟨i, hi⟩ := List.getElem?_of_mem hx
    exact (h8 i x hi).rect

/-- Reading from an array of lists. -/
theorem Owned.get {H : Store α} : ∀ {dims : List Nat} {v : PyVal α} {P : Nat → Prop} {cont : List Nat → PyVal α} {p : Vec},
    Owned H dims v P cont → p.length = dims.length →
    H.getItem v p = match cellOf dims p with
      | none => .error .indexError
      | some cell => .ok (cont cell)
  | [], v, P, cont, [], h, _ => by
    simp only [Owned] at h
    simp [Store.getItem, cellOf, h]
  | n :: dims, v, P, cont, c :: cs, h, hp => by
    obtain ⟨k, o, rfl, h2, h3, h4, h5, Q, h6, h7, h8⟩ := h
    rw [cellOf_cons]
    simp only [Store.getItem, Store.index, h2, pyIndex_coord, h4]
    rcases hi : coordOf n c with _ | i
    · rfl
    · have hlt : i < o.items.length := by
        rw [h4]
        exact coordOf_lt hi
      have hx := List.getElem?_eq_getElem hlt
      simp only [Option.bind_some, hx]
      have := (h8 i _ hx).get (p := cs) (by simpa using hp)
      simp only [bind, Except.bind]
      rw [this]
      rcases cellOf dims cs with _ | c' <;> rfl
  | [], _, _, _, _ :: _, _, hp => by simp at hp
  | _ :: _, _, _, _, [], _, hp => by simp at hp

/-- Writing to an array of lists. -/
theorem Owned.set {H : Store α} (x : PyVal α) : ∀ {dims : List Nat} {v : PyVal α} {P : Nat → Prop}
    {cont : List Nat → PyVal α} {p : Vec},
    Owned H dims v P cont → p.length = dims.length → p ≠ [] →
    match cellOf dims p with
    | none => H.setItem v p x = .error .indexError
    | some cell => ∃ H', H.setItem v p x = .ok H' ∧ H'.length = H.length ∧ (∀ a, ¬ P a → H'[a]? = H[a]?) ∧
        Owned H' dims v P (fun c => if c = cell then x else cont c)
  | [], _, _, _, [], _, _, hne => absurd rfl hne
  | [], _, _, _, _ :: _, _, hp, _ => by simp at hp
  | _ :: _, _, _, _, [], _, hp, _ => by simp at hp
  | [n], v, P, cont, [c], h, hp, _ => by
    obtain ⟨k, o, rfl, h2, h3, h4, h5, Q, h6, h7, h8⟩ := h
    rw [cellOf_cons]
    have hk : k < H.length := (List.getElem?_eq_some_iff.1 h2).1
    simp only [Store.setItem, Store.assign, h2, h3, if_true, pySetIndex_coord, h4]
    rcases hi : coordOf n c with _ | i
    · simp
    · have hlt : i < o.items.length := by
        rw [h4]
        exact coordOf_lt hi
      simp only [cellOf, Option.map_some, Option.bind_some]
      refine ⟨_, rfl, by simp, fun a ha => ?_, ?_⟩
      · have : k ≠ a := fun e => ha (e ▸ h5)
        simp [this]
      · refine ⟨k, { o with items := o.items.set i x }, rfl, by simp [hk, h3], h3, by simpa using h4, h5, Q, h6, h7,
          fun j y hy => ?_⟩
        simp only [List.getElem?_set] at hy
        simp only [Owned]
        by_cases hij : i = j
        · subst hij
          simp only [if_true, hlt] at hy
          simp only [Option.some.injEq] at hy
          simp [← hy]
        · simp only [hij, if_false] at hy
          have := h8 j y hy
          simp only [Owned] at this
          rw [if_neg (by simpa using Ne.symm hij), this]
  | n :: m :: dims, v, P, cont, c :: c' :: cs, h, hp, _ => by
    obtain ⟨k, o, rfl, h2, h3, h4, h5, Q, h6, h7, h8⟩ := h
    rw [cellOf_cons]
    simp only [Store.setItem, Store.index, h2, pyIndex_coord, h4]
    rcases hi : coordOf n c with _ | i
    · rfl
    · have hlt : i < o.items.length := by
        rw [h4]
        exact coordOf_lt hi
      have hx := List.getElem?_eq_getElem hlt
      simp only [Option.bind_some, hx]
      have := (h8 i _ hx).set x (p := c' :: cs) (by simpa using hp) (by simp)
      simp only [bind, Except.bind]
      rcases hcell : cellOf (m :: dims) (c' :: cs) with _ | cell
      · rw [hcell] at this
        exact this
      · rw [hcell] at this
        obtain ⟨H', k1, k2, k3, k4⟩ := this
        simp only [Option.map_some]
        refine ⟨H', k1, k2, fun a ha => k3 a (fun hq => ha (h7 i a hq).1), k, o, rfl, ?_, h3, h4, h5, Q, h6, h7,
          fun j y hy => ?_⟩
        · rw [k3 k (fun hq => (h7 i k hq).2 rfl), h2]
        · by_cases hij : j = i
          · subst hij
            rw [hx, Option.some.injEq] at hy
            subst hy
            exact k4.congr (fun _ _ => rfl) (fun c _ => by simp)
          · refine (h8 j y hy).congr (fun a ha => k3 a (fun hq => hij (h6 _ _ _ ha hq))) (fun c _ => ?_)
            simp [hij]
  | [_], _, _, _, _ :: _ :: _, _, hp, _ => by simp at hp
  | _ :: _ :: _, _, _, _, [_], _, hp, _ => by simp at hp

/-- The size of an array. -/
theorem Spec.RectIn.size {H : Store α} : ∀ {dims : List Nat} {v : PyVal α}, RectIn H v dims → (∀ n ∈ dims, 0 < n) →
    H.size dims.length v = .ok (dims.map Int.ofNat)
  | [], _, _, _ => rfl
  | n :: dims, v, h, hpos => by
    obtain ⟨k, o, rfl, h2, h3, h4⟩ := h
    have h0 : 0 < o.items.length := by
      rw [h3]
      exact hpos n (by simp)
    have hx := List.getElem?_eq_getElem h0
    have := (h4 _ (List.getElem_mem h0)).size (fun m hm => hpos m (by simp [hm]))
    simp only [List.length_cons, Store.size, Store.iterate, h2, Store.index, pyIndex, Int.le_refl, if_true, Int.toNat_zero, hx,
      bind, Except.bind, this, pure, Except.pure, h3, List.map_cons, Int.ofNat_eq_natCast]

/-- More objects do not change an array. -/
theorem Spec.RectIn.append {H : Store α} (N : Store α) : ∀ {dims : List Nat} {v : PyVal α}, RectIn H v dims → RectIn (H ++ N) v dims
  | [], _, _ => trivial
  | n :: dims, v, h => by
    obtain ⟨k, o, rfl, h2, h3, h4⟩ := h
    have hk : k < H.length := (List.getElem?_eq_some_iff.1 h2).1
    exact ⟨k, o, rfl, by rw [List.getElem?_append_left hk, h2], h3, fun x hx => (h4 x hx).append N⟩

/-- Each cell of an array has a content. -/
theorem Spec.RectIn.get {H : Store α} : ∀ {dims : List Nat} {v : PyVal α} {p : Vec}, RectIn H v dims → p.length = dims.length →
    match cellOf dims p with
    | none => H.getItem v p = .error .indexError
    | some cell => ∃ x, H.getItem v p = .ok x ∧ H.getItem v (cell.map Int.ofNat) = .ok x
  | [], v, [], _, _ => ⟨v, rfl, rfl⟩
  | n :: dims, v, c :: cs, h, hp => by
    obtain ⟨k, o, rfl, h2, h3, h4⟩ := h
    rw [cellOf_cons]
    simp only [Store.getItem, Store.index, h2, pyIndex_coord, h3]
    rcases hi : coordOf n c with _ | i
    · rfl
    · have hlt : i < o.items.length := by
        rw [h3]
        exact coordOf_lt hi
      have hx := List.getElem?_eq_getElem hlt
      simp only [Option.bind_some, hx, bind, Except.bind]
      have := (h4 _ (List.getElem_mem hlt)).get (p := cs) (by simpa using hp)
      rcases hc : cellOf dims cs with _ | c'
      · rw [hc] at this
        exact this
      · rw [hc] at this
        obtain ⟨x, k1, k2⟩ := this
        refine ⟨x, k1, ?_⟩
        simp only [List.map_cons, Store.getItem, Store.index, h2, pyIndex_coord, h3, coordOf_nat (coordOf_lt hi), Option.bind_some,
          hx, bind, Except.bind]
        exact k2
  | [], _, _ :: _, _, hp => by simp at hp
  | _ :: _, _, [], _, hp => by simp at hp

theorem Spec.RectIn.getItem_same {H H' : Store α} (hH : ∀ k < H.length, H'[k]? = H[k]?) : ∀ {dims : List Nat} {v : PyVal α}
    {p : Vec}, RectIn H v dims → p.length = dims.length → H'.getItem v p = H.getItem v p
  | [], v, [], _, _ => rfl
  | n :: dims, v, c :: cs, h, hp => by
    obtain ⟨k, o, rfl, h2, h3, h4⟩ := h
    have hk : k < H.length := (List.getElem?_eq_some_iff.1 h2).1
    simp only [Store.getItem, Store.index, hH k hk, h2]
    rcases hx : pyIndex o.items c with _ | x
    · rfl
    · simp only [bind, Except.bind]
      refine (h4 x ?_).getItem_same hH (by simpa using hp)
      rw [pyIndex_coord] at hx
      obtain ⟨i, -, hx⟩ := Option.bind_eq_some_iff.1 hx
      exact List.mem_of_getElem? hx
  | [], _, _ :: _, _, hp => by simp at hp
  | _ :: _, _, [], _, hp => by simp at hp

theorem Spec.RectIn.getItem_append {H : Store α} (N : Store α) {dims : List Nat} {v : PyVal α} {p : Vec} (h : RectIn H v dims)
    (hp : p.length = dims.length) : (H ++ N).getItem v p = H.getItem v p :=
  h.getItem_same (fun _ hk => List.getElem?_append_left hk) hp

/-- `cont` is the content of the cells of the array `v`. -/
def Shows (H : Store α) (v : PyVal α) (dims : List Nat) (cont : List Nat → PyVal α) : Prop :=
  ∀ c, InCell dims c → H.getItem v (c.map Int.ofNat) = .ok (cont c)

theorem InCell.length : ∀ {dims c : List Nat}, InCell dims c → c.length = dims.length
  | [], [], _ => rfl
  | [], _ :: _, h => h.elim
  | _ :: _, [], h => h.elim
  | _ :: _, _ :: _, h => by simp [h.2.length]

/-- The elements of an array that shows `cont`. -/
theorem Shows.sub {H : Store α} {k : Nat} {o : PySeq α} {n : Nat} {dims : List Nat} {cont : List Nat → PyVal α}
    (h : Shows H (.ref k) (n :: dims) cont) (hk : H[k]? = some o) (hn : o.items.length = n) {i : Nat} {x : PyVal α}
    (hx : o.items[i]? = some x) : Shows H x dims (fun c => cont (i :: c)) := by
  intro c hc
  have hi : i < n := by
    rw [← hn]
    exact (List.getElem?_eq_some_iff.1 hx).1
  have := h (i :: c) ⟨hi, hc⟩
  simpa only [List.map_cons, Store.getItem, Store.index, hk, pyIndex_coord, hn, coordOf_nat hi, Option.bind_some, hx, bind,
    Except.bind] using this

theorem collect_owned {dims : List Nat} {f : Store α → PyVal α → Except PyErr (Store α × PyVal α)}
    (hf : ∀ H v cont, RectIn H v dims → Shows H v dims cont → ∃ N r, f H v = .ok (H ++ N, r) ∧
      Owned (H ++ N) dims r (fun a => H.length ≤ a ∧ a < (H ++ N).length) cont) :
    ∀ (items : List (PyVal α)) (H : Store α) (conts : Nat → List Nat → PyVal α), (∀ x ∈ items, RectIn H x dims) →
      (∀ i x, items[i]? = some x → Shows H x dims (conts i)) →
      ∃ N ys, Store.collect f H items = .ok (H ++ N, ys) ∧ ys.length = items.length ∧
        ∃ Q : Nat → Nat → Prop, (∀ i j a, Q i a → Q j a → i = j) ∧
          (∀ i a, Q i a → H.length ≤ a ∧ a < (H ++ N).length) ∧
          ∀ i y, ys[i]? = some y → Owned (H ++ N) dims y (Q i) (conts i)
  | [], H, conts, _, _ => ⟨[], [], by simp [Store.collect], rfl, fun _ _ => False, by simp, by simp, by simp⟩
  | x :: xs, H, conts, h1, h2 => by
    obtain ⟨N1, y, e1, o1⟩ := hf H x (conts 0) (h1 x (by simp)) (h2 0 x (by simp))
    obtain ⟨N2, ys, e2, hl, Q, q1, q2, q3⟩ := collect_owned hf xs (H ++ N1) (fun i => conts (i + 1))
      (fun z hz => (h1 z (by simp [hz])).append N1) (fun i z hz c hc => by
        rw [RectIn.getItem_append N1 (h1 z (List.mem_cons_of_mem _ (List.mem_of_getElem? hz))) (by simp [hc.length])]
        exact h2 (i + 1) z (by simpa using hz) c hc)
    refine ⟨N1 ++ N2, y :: ys, ?_, by simp [hl], fun i a => match i with
      | 0 => H.length ≤ a ∧ a < (H ++ N1).length
      | i + 1 => Q i a, ?_, ?_, ?_⟩
    · simp only [Store.collect, e1, bind, Except.bind, e2, pure, Except.pure, List.append_assoc]
    · intro i j a hi hj
      rcases i with _ | i <;> rcases j with _ | j <;> simp only at hi hj
      · rfl
      · have := (q2 j a hj).1
        omega
      · have := (q2 i a hi).1
        omega
      · rw [q1 i j a hi hj]
    · intro i a hi
      rcases i with _ | i <;> simp only at hi
      · simp only [List.length_append] at hi ⊢
        omega
      · have := q2 i a hi
        simp only [List.length_append] at this ⊢
        omega
    · intro i z hz
      rw [← List.append_assoc]
      rcases i with _ | i
      · simp only [List.getElem?_cons_zero, Option.some.injEq] at hz
        subst hz
        exact o1.congr (fun a ha => List.getElem?_append_left ha.2) (fun _ _ => rfl)
      · simp only [List.getElem?_cons_succ] at hz
        exact q3 i z hz

/-- `mutable_copy` creates an array of new lists with the same content. -/
theorem writable_owned : ∀ (dims : List Nat) (H : Store α) (v : PyVal α) (cont : List Nat → PyVal α), dims ≠ [] →
    RectIn H v dims → Shows H v dims cont → ∃ N r, Store.writable dims.length H v = .ok (H ++ N, r) ∧
      Owned (H ++ N) dims r (fun a => H.length ≤ a ∧ a < (H ++ N).length) cont
  | [], _, _, _, h, _, _ => absurd rfl h
  | [n], H, v, cont, _, h, hs => by
    obtain ⟨k, o, rfl, h2, h3, h4⟩ := h
    refine ⟨[⟨true, o.items⟩], .ref H.length, ?_, H.length, ⟨true, o.items⟩, rfl, by simp, rfl, h3, by simp,
      fun _ _ => False, by simp, by simp, fun i x hx => ?_⟩
    · simp only [List.length_singleton, Store.writable, Store.iterate, h2, bind, Except.bind, pure, Except.pure, Store.newList]
    · have := hs.sub h2 h3 hx [] trivial
      simp only [List.map_nil, Store.getItem, Except.ok.injEq] at this
      exact this
  | n :: m :: dims, H, v, cont, _, h, hs => by
    obtain ⟨k, o, rfl, h2, h3, h4⟩ := h
    obtain ⟨N, ys, e, hl, Q, q1, q2, q3⟩ := collect_owned (f := Store.writable (dims.length + 1))
      (fun H v cont hr hs => writable_owned (m :: dims) H v cont (by simp) hr hs) o.items H
      (fun i c => cont (i :: c)) h4 (fun i x hx => hs.sub h2 h3 hx)
    refine ⟨N ++ [⟨true, ys⟩], .ref (H ++ N).length, ?_, (H ++ N).length, ⟨true, ys⟩, rfl, ?_, rfl, hl.trans h3, ?_, Q, q1,
      ?_, ?_⟩
    · simp only [List.length_cons, Store.writable, Store.iterate, h2, bind, Except.bind, e, pure, Except.pure, Store.newList,
        List.append_assoc]
    · rw [← List.append_assoc]
      simp
    · simp only [List.length_append, List.length_singleton]
      omega
    · intro i a hq
      have := q2 i a hq
      simp only [List.length_append, List.length_singleton] at this ⊢
      omega
    · intro i x hx
      rw [← List.append_assoc]
      exact (q3 i x hx).congr (fun a ha => List.getElem?_append_left (q2 i a ha).2) (fun _ _ => rfl)

end NoGraphs
