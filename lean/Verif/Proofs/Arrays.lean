import Verif.Proofs.MatrixGadgets
import Verif.Spec.Arrays

/-! Lemmas about arrays. -/

namespace NoGraphs

open Spec

namespace Arr

variable {α : Type}

theorem rect_length {n : Nat} {a : ArrContent α n} {dims : List Nat} (h : Rect n a dims) : dims.length = n := by
  cases n with
  | zero => rw [show dims = [] from h]; rfl
  | succ n => obtain ⟨d, ds, rfl, h1, -⟩ := h; simp [h1]

theorem pyIndex_nonneg {X : Type} (l : List X) {c : Int} (h : 0 ≤ c) : pyIndex l c = l[c.toNat]? := by
  simp [pyIndex, h]

theorem get_cons {n : Nat} (a : ArrContent α (n + 1)) {c : Int} (cs : Vec) (h : 0 ≤ c) :
    get (n + 1) a (c :: cs) = match (rows a)[c.toNat]? with
      | none => .error .indexError
      | some x => get n x cs := by
  simp only [get, pyIndex_nonneg _ h]
  cases (rows a)[c.toNat]? <;> rfl

theorem inside_cons {c : Int} {cs : Vec} {d : Nat} {ds : List Nat} :
    Inside (c :: cs) (dimLimits (d :: ds)) ↔ (0 ≤ c ∧ c < d) ∧ Inside cs (dimLimits ds) := by
  simp [Inside, dimLimits]

theorem rows_ofRows {n : Nat} (l : List (ArrContent α n)) : rows (ofRows l) = l := rfl

theorem get_inside {n : Nat} {a : ArrContent α n} {dims : List Nat} (hr : Rect n a dims) {v : Vec}
    (hv : Inside v (dimLimits dims)) : ∃ x, get n a v = .ok x := by
  induction n generalizing dims v with
  | zero => exact ⟨a, rfl⟩
  | succ n ih =>
    obtain ⟨d, ds, rfl, h1, h2, h3⟩ := hr
    cases v with
    | nil => simp [Inside, dimLimits] at hv
    | cons c cs =>
      obtain ⟨⟨h4, h5⟩, h6⟩ := inside_cons.1 hv
      rw [get_cons a cs h4]
      have hlt : c.toNat < (rows a).length := by omega
      rw [List.getElem?_eq_getElem hlt]
      exact ih (h3 _ (List.getElem_mem hlt)) h6

theorem inside_of_get {n : Nat} {a : ArrContent α n} {dims : List Nat} (hr : Rect n a dims) {v : Vec}
    (hl : v.length = n) (hn : ∀ c ∈ v, 0 ≤ c) {x : α} (h : get n a v = .ok x) : Inside v (dimLimits dims) := by
  induction n generalizing dims v with
  | zero =>
    rw [show dims = [] from hr, List.length_eq_zero_iff.1 hl]
    exact .nil
  | succ n ih =>
    obtain ⟨d, ds, rfl, h1, h2, h3⟩ := hr
    cases v with
    | nil => simp at hl
    | cons c cs =>
      have hc := hn c List.mem_cons_self
      rw [get_cons a cs hc] at h
      refine inside_cons.2 ?_
      by_cases hlt : c.toNat < (rows a).length
      · rw [List.getElem?_eq_getElem hlt] at h
        exact ⟨⟨hc, by omega⟩, ih (h3 _ (List.getElem_mem hlt)) (by simpa using hl)
          (fun y hy => hn y (List.mem_cons_of_mem _ hy)) h⟩
      · rw [List.getElem?_eq_none (by omega)] at h
        simp at h

theorem mem_itemsIn (n : Nat) (a : ArrContent α (n + 1)) (v : Vec) (x : α) :
    (v, x) ∈ itemsIn n a ↔ v.length = n + 1 ∧ (∀ c ∈ v, 0 ≤ c) ∧ get (n + 1) a v = .ok x := by
  induction n generalizing v with
  | zero =>
    simp only [itemsIn, List.mem_map]
    constructor
    · rintro ⟨p, hp, he⟩
      simp only [Prod.mk.injEq] at he
      obtain ⟨rfl, rfl⟩ := he
      refine ⟨rfl, by simp, ?_⟩
      rw [get_cons a [] (by simp)]
      rw [Int.toNat_natCast, List.mem_zipIdx_iff_getElem?.1 hp]
      rfl
    · rintro ⟨h1, h2, h3⟩
      cases v with
      | nil => simp at h1
      | cons c cs =>
        have hcs : cs = [] := List.length_eq_zero_iff.1 (by simpa using h1)
        subst hcs
        have hc := h2 c List.mem_cons_self
        rw [get_cons a [] hc] at h3
        cases hx : (rows a)[c.toNat]? with
        | none => rw [hx] at h3; simp at h3
        | some y =>
          rw [hx] at h3
          have hyx : cell y = x := by simpa [get] using h3
          subst hyx
          refine ⟨(y, c.toNat), List.mem_zipIdx_iff_getElem?.2 hx, ?_⟩
          simp [Int.toNat_of_nonneg hc]
  | succ n ih =>
    simp only [itemsIn, List.mem_flatMap, List.mem_map]
    constructor
    · rintro ⟨p, hp, q, hq, he⟩
      simp only [Prod.mk.injEq] at he
      obtain ⟨rfl, rfl⟩ := he
      obtain ⟨h1, h2, h3⟩ := (ih p.1 q.1).1 hq
      refine ⟨by simp [h1], fun c hc => ?_, ?_⟩
      · rcases List.mem_cons.1 hc with rfl | hc
        · simp
        · exact h2 c hc
      · rw [get_cons a q.1 (by simp), Int.toNat_natCast, List.mem_zipIdx_iff_getElem?.1 hp]
        exact h3
    · rintro ⟨h1, h2, h3⟩
      cases v with
      | nil => simp at h1
      | cons c cs =>
        have hc := h2 c List.mem_cons_self
        rw [get_cons a cs hc] at h3
        cases hx : (rows a)[c.toNat]? with
        | none => rw [hx] at h3; simp at h3
        | some y =>
          rw [hx] at h3
          refine ⟨(y, c.toNat), List.mem_zipIdx_iff_getElem?.2 hx, (cs, x), (ih y cs).2 ⟨by simpa using h1,
            fun z hz => h2 z (List.mem_cons_of_mem _ hz), h3⟩, ?_⟩
          simp [Int.toNat_of_nonneg hc]

theorem zipIdx_sorted {X : Type} (l : List X) (k : Nat) : (l.zipIdx k).Pairwise (fun p q => p.2 < q.2) := by
  induction l generalizing k with
  | nil => simp
  | cons x l ih =>
    rw [List.zipIdx_cons, List.pairwise_cons]
    refine ⟨fun p hp => ?_, ih (k + 1)⟩
    have := (List.mem_zipIdx hp).1
    simp only; omega

theorem itemsIn_sorted (n : Nat) (a : ArrContent α (n + 1)) : ((itemsIn n a).map Prod.fst).Pairwise (· < ·) := by
  induction n with
  | zero =>
    simp only [itemsIn, List.map_map]
    refine List.pairwise_map.2 ((zipIdx_sorted _ 0).imp (fun {p q} h => ?_))
    exact List.cons_lt_cons_iff.2 (.inl (by exact_mod_cast h))
  | succ n ih =>
    simp only [itemsIn, List.map_flatMap, List.map_map]
    rw [List.pairwise_flatMap]
    refine ⟨fun p _ => ?_, (zipIdx_sorted _ 0).imp (fun {p q} h x hx y hy => ?_)⟩
    · have := ih p.1
      rw [List.pairwise_map] at this ⊢
      exact this.imp (fun h => Pos.cons_lt_cons_of _ h)
    · obtain ⟨v, -, rfl⟩ := List.mem_map.1 hx
      obtain ⟨w, -, rfl⟩ := List.mem_map.1 hy
      exact List.cons_lt_cons_iff.2 (.inl (by exact_mod_cast h))

/-- Finding content is filtering the items. -/
theorem findIn_eq (content : α → Bool) (n : Nat) (a : ArrContent α (n + 1)) :
    findIn content n a = ((itemsIn n a).filter (fun p => content p.2)).map Prod.fst := by
  induction n with
  | zero =>
    simp only [findIn, itemsIn]
    generalize (rows a).zipIdx = l
    induction l with
    | nil => rfl
    | cons p l ih =>
      rw [List.flatMap_cons, ih, List.map_cons, List.filter_cons]
      split <;> simp
  | succ n ih =>
    simp only [findIn, itemsIn]
    generalize (rows a).zipIdx = l
    induction l with
    | nil => rfl
    | cons p l ihl =>
      rw [List.flatMap_cons, List.flatMap_cons, ihl, List.filter_append, List.map_append, ih]
      congr 1
      simp [List.filter_map, Function.comp_def]

theorem size_rect {n : Nat} {a : ArrContent α n} {dims : List Nat} (hr : Rect n a dims) (hpos : ∀ d ∈ dims, 0 < d) :
    size n a = .ok (dims.map (fun d : Nat => (d : Int))) := by
  induction n generalizing dims with
  | zero => rw [show dims = [] from hr]; rfl
  | succ n ih =>
    obtain ⟨d, ds, rfl, h1, h2, h3⟩ := hr
    have hd := hpos d List.mem_cons_self
    simp only [size]
    cases hl : (rows a) with
    | nil => rw [hl] at h2; simp at h2; omega
    | cons x xs =>
      rw [hl] at h2 h3
      have := ih (dims := ds) (h3 x List.mem_cons_self) (fun d hd => hpos d (List.mem_cons_of_mem _ hd))
      simp only [this, bind, Except.bind, pure, Except.pure, List.map_cons, ← h2]

theorem limits_rect {n : Nat} {a : ArrContent α n} {dims : List Nat} (hr : Rect n a dims) (hpos : ∀ d ∈ dims, 0 < d) :
    limits n a = .ok (dimLimits dims) := by
  simp only [limits, size_rect hr hpos, bind, Except.bind, pure, Except.pure, dimLimits, List.map_map]
  rfl

theorem set_rect {n : Nat} {a : ArrContent α n} {dims : List Nat} (hr : Rect n a dims) {v : Vec}
    (hv : Inside v (dimLimits dims)) (x : α) :
    ∃ a', set n a v x = .ok a' ∧ Rect n a' dims ∧ get n a' v = .ok x ∧
      ∀ w, Inside w (dimLimits dims) → w ≠ v → get n a' w = get n a w := by
  induction n generalizing dims v with
  | zero =>
    rw [show dims = [] from hr] at hv ⊢
    refine ⟨ofCell x, rfl, rfl, rfl, fun w hw hne => ?_⟩
    cases hv; cases hw
    exact absurd rfl hne
  | succ n ih =>
    obtain ⟨d, ds, rfl, h1, h2, h3⟩ := hr
    cases v with
    | nil => simp [Inside, dimLimits] at hv
    | cons c cs =>
      obtain ⟨⟨h4, h5⟩, h6⟩ := inside_cons.1 hv
      have hlt : c.toNat < (rows a).length := by omega
      obtain ⟨y', g1, g2, g3, g4⟩ := ih (h3 _ (List.getElem_mem hlt)) h6
      have hset : set (n + 1) a (c :: cs) x =
          .ok (ofRows ((rows a).set c.toNat y')) := by
        simp only [set, pyIndex_nonneg _ h4, List.getElem?_eq_getElem hlt, g1, bind, Except.bind, pySetIndex, h4,
          if_true, hlt]
      refine ⟨_, hset, ⟨d, ds, rfl, h1, ?_, fun z hz => ?_⟩, ?_, fun w hw hne => ?_⟩
      · exact (List.length_set ..).trans h2
      · rcases List.mem_or_eq_of_mem_set hz with hz | rfl
        · exact h3 z hz
        · exact g2
      · rw [get_cons _ cs h4]
        simp only [rows_ofRows, List.getElem?_set_self hlt]
        exact g3
      · cases w with
        | nil => simp [Inside, dimLimits] at hw
        | cons e es =>
          obtain ⟨⟨h7, h8⟩, h9⟩ := inside_cons.1 hw
          rw [get_cons _ es h7, get_cons _ es h7]
          by_cases hec : c.toNat = e.toNat
          · have : e = c := by omega
            subst this
            simp only [rows_ofRows, List.getElem?_set_self hlt, List.getElem?_eq_getElem hlt]
            exact g4 es h9 (fun h => hne (by rw [h]))
          · simp only [rows_ofRows, List.getElem?_set_ne hec]

theorem filterAllowed_ok {n : Nat} {a : ArrContent α n} {forbidden : α → Bool} {vs : List Vec}
    (h : ∀ v ∈ vs, ∃ x, get n a v = .ok x) :
    ∃ r, filterAllowed n a forbidden vs = (r, none) ∧ List.Sublist r vs ∧
      ∀ v, v ∈ r ↔ v ∈ vs ∧ ∃ x, get n a v = .ok x ∧ forbidden x = false := by
  induction vs with
  | nil => exact ⟨[], rfl, .slnil, by simp⟩
  | cons v vs ih =>
    obtain ⟨r, h1, h2, h3⟩ := ih (fun w hw => h w (List.mem_cons_of_mem _ hw))
    obtain ⟨x, hx⟩ := h v List.mem_cons_self
    simp only [filterAllowed, hx, h1]
    by_cases hf : forbidden x = true
    · simp only [hf, if_true]
      refine ⟨r, rfl, h2.cons _, fun w => ?_⟩
      rw [h3, List.mem_cons]
      constructor
      · rintro ⟨h4, h5⟩; exact ⟨.inr h4, h5⟩
      · rintro ⟨rfl | h4, h5⟩
        · obtain ⟨y, hy, hfy⟩ := h5
          rw [hx] at hy
          cases hy
          rw [hf] at hfy; simp at hfy
        · exact ⟨h4, h5⟩
    · simp only [hf]
      refine ⟨v :: r, rfl, h2.cons_cons _, fun w => ?_⟩
      rw [List.mem_cons, h3, List.mem_cons]
      constructor
      · rintro (rfl | ⟨h4, h5⟩)
        · exact ⟨.inl rfl, x, hx, by simpa using hf⟩
        · exact ⟨.inr h4, h5⟩
      · rintro ⟨rfl | h4, h5⟩
        · exact .inl rfl
        · exact .inr ⟨h4, h5⟩

theorem filterWeighted_ok {W : Type} {n : Nat} {a : ArrContent α n} {weight : α → Option W} {vs : List Vec}
    (h : ∀ v ∈ vs, ∃ x, get n a v = .ok x) :
    ∃ r, filterWeighted n a weight vs = (r, none) ∧ List.Sublist (r.map Prod.fst) vs ∧
      ∀ v w, (v, w) ∈ r ↔ v ∈ vs ∧ ∃ x, get n a v = .ok x ∧ weight x = some w := by
  induction vs with
  | nil => exact ⟨[], rfl, .slnil, by simp⟩
  | cons v vs ih =>
    obtain ⟨r, h1, h2, h3⟩ := ih (fun w hw => h w (List.mem_cons_of_mem _ hw))
    obtain ⟨x, hx⟩ := h v List.mem_cons_self
    simp only [filterWeighted, hx, h1]
    cases hf : weight x with
    | none =>
      refine ⟨r, rfl, h2.cons _, fun u w => ?_⟩
      rw [h3, List.mem_cons]
      constructor
      · rintro ⟨h4, h5⟩; exact ⟨.inr h4, h5⟩
      · rintro ⟨rfl | h4, h5⟩
        · obtain ⟨y, hy, hfy⟩ := h5
          rw [hx] at hy
          cases hy
          rw [hf] at hfy; simp at hfy
        · exact ⟨h4, h5⟩
    | some w0 =>
      refine ⟨(v, w0) :: r, rfl, h2.cons_cons _, fun u w => ?_⟩
      rw [List.mem_cons, h3, List.mem_cons]
      constructor
      · rintro (h4 | ⟨h4, h5⟩)
        · simp only [Prod.mk.injEq] at h4
          obtain ⟨rfl, rfl⟩ := h4
          exact ⟨.inl rfl, x, hx, hf⟩
        · exact ⟨.inr h4, h5⟩
      · rintro ⟨rfl | h4, h5⟩
        · obtain ⟨y, hy, hfy⟩ := h5
          rw [hx] at hy
          cases hy
          rw [hf] at hfy
          cases hfy
          exact .inl rfl
        · exact .inr ⟨h4, h5⟩

end Arr

end NoGraphs
