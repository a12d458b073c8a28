import Mathlib.Data.List.Perm.Basic
import Verif.Model.HeapArray
import Verif.Proofs.Heap

/-! The algorithms of `heapq` refine the sorted list. -/

set_option linter.unusedSectionVars false

namespace NoGraphs

variable {W X : Type} [LinearOrder W]

theorem HEntry.le_refl (a : HEntry W X) : a.le a := .inr ⟨rfl, Int.le_refl _⟩

theorem tupleLt_ok {a b : HEntry W X} (h : a.no ≠ b.no) : tupleLt a b = .ok (decide (¬ b.le a)) := by
  unfold tupleLt HEntry.le
  split
  · rename_i hk
    simp only [hk, lt_irrefl, false_or, true_and]
    congr 1
    simp
  · rename_i hk
    congr 1
    rcases lt_or_gt_of_ne hk with h' | h'
    · simp [h', h'.not_gt, Ne.symm hk]
    · simp [h', h'.not_gt]

/-! ## Positions -/

/-- `j` is below `r` in the tree of positions, or equal to it. -/
inductive Desc (r : Nat) : Nat → Prop
  | refl : Desc r r
  | step {j} : 0 < j → Desc r ((j - 1) / 2) → Desc r j

theorem Desc.le {r j : Nat} (h : Desc r j) : r ≤ j := by
  induction h with
  | refl => exact Nat.le_refl _
  | step hj _ ih => omega

theorem Desc.up {r j : Nat} (h : Desc r j) (hr : r < j) : Desc r ((j - 1) / 2) := by
  cases h with
  | refl => omega
  | step _ h => exact h

theorem Desc.zero (j : Nat) : Desc 0 j := by
  induction j using Nat.strongRecOn with
  | _ j ih =>
    rcases Nat.eq_zero_or_pos j with rfl | hj
    · exact .refl
    · exact .step hj (ih _ (by omega))

theorem set_set_perm {α : Type} {l : List α} {i j : Nat} (hij : i ≠ j) (hi : i < l.length) (hj : j < l.length) (x : α) :
    ((l.set i l[j]).set j x).Perm (l.set i x) := by
  have h1 : ((l.set i l[j]).set j x).Perm (x :: (l.set i l[j]).eraseIdx j) :=
    List.set_perm_cons_eraseIdx (by simpa using hj) x
  have h2 : (l.set i x).Perm (x :: l.eraseIdx i) := List.set_perm_cons_eraseIdx hi x
  have h3 : (l.set i l[j]).Perm (l[j] :: l.eraseIdx i) := List.set_perm_cons_eraseIdx hi l[j]
  have h4 : ((l.set i l[j])[j]'(by simpa using hj) :: (l.set i l[j]).eraseIdx j).Perm (l.set i l[j]) :=
    List.getElem_cons_eraseIdx_perm (by simpa using hj)
  rw [List.getElem_set_ne hij] at h4
  have h5 := (List.perm_cons _).1 (h4.trans h3)
  exact h1.trans ((h5.cons x).trans h2.symm)

/-- The elements below position `start` are in heap order. -/
def HeapFrom (h : List (HEntry W X)) (start : Nat) : Prop :=
  ∀ j a b, 0 < j → start ≤ (j - 1) / 2 → h[(j - 1) / 2]? = some a → h[j]? = some b → a.le b

/-- ... except for the element at `pos` and its parent. -/
def HeapBut (h : List (HEntry W X)) (start pos : Nat) : Prop :=
  ∀ j a b, 0 < j → j ≠ pos → start ≤ (j - 1) / 2 → h[(j - 1) / 2]? = some a → h[j]? = some b → a.le b

theorem nodup_no_ne {l : List (HEntry W X)} (hn : (l.map HEntry.no).Nodup) {i j : Nat} {a b : HEntry W X} (hij : i ≠ j)
    (ha : l[i]? = some a) (hb : l[j]? = some b) : a.no ≠ b.no := by
  intro he
  have h1 : (l.map HEntry.no)[i]? = some a.no := by simp [ha]
  have h2 : (l.map HEntry.no)[j]? = some b.no := by simp [hb]
  have hi : i < (l.map HEntry.no).length := by
    have := (List.getElem?_eq_some_iff.1 h1).1; exact this
  exact hij ((List.getElem?_inj hi hn).1 (by rw [h1, h2, he]))

/-! ## `_siftdown` -/

theorem siftdownLoop_spec (x : HEntry W X) (start : Nat) : ∀ (pos : Nat) (h : List (HEntry W X)), pos < h.length →
    Desc start pos → ((h.set pos x).map HEntry.no).Nodup → HeapBut (h.set pos x) start pos →
    (∀ j a b, 0 < j → (j - 1) / 2 = pos → start < pos → (h.set pos x)[(pos - 1) / 2]? = some a →
      (h.set pos x)[j]? = some b → a.le b) →
    ∃ h', siftdownLoop h x start pos = .ok h' ∧ h'.Perm (h.set pos x) ∧ HeapFrom h' start := by
  intro pos
  induction pos using Nat.strongRecOn with
  | _ pos ih =>
  intro h hpos hd hn hb hg
  unfold siftdownLoop
  by_cases hs : start < pos
  · rw [if_pos hs]
    have hq : (pos - 1) / 2 < pos := by omega
    have hql : (pos - 1) / 2 < h.length := by omega
    have hkx : ∀ i, (h.set pos x)[i]? = if i = pos then some x else h[i]? := by
      intro i
      rw [List.getElem?_set]
      by_cases hi : pos = i
      · subst hi; simp [hpos]
      · simp [hi, Ne.symm hi]
    have hqv : h[(pos - 1) / 2]? = some h[(pos - 1) / 2] := List.getElem?_eq_getElem hql
    have hne : x.no ≠ (h[(pos - 1) / 2]).no :=
      nodup_no_ne hn (i := pos) (j := (pos - 1) / 2) (by omega) (by simp [hkx])
        (by rw [hkx, if_neg (by omega), hqv])
    rw [hqv]
    simp only [tupleLt_ok hne]
    generalize hp : h[(pos - 1) / 2] = p at *
    by_cases hle : p.le x
    · have : decide (¬ p.le x) = false := by simp [hle]
      rw [this]
      refine ⟨_, rfl, .refl _, ?_⟩
      intro j a b hj hst ha hb'
      by_cases hjp : j = pos
      · subst hjp
        rw [hkx, if_neg (by omega), hqv] at ha
        rw [hkx, if_pos rfl] at hb'
        cases ha; cases hb'
        exact hle
      · exact hb j a b hj hjp hst ha hb'
    · have : decide (¬ p.le x) = true := by simp [hle]
      rw [this]
      have hxp : x.le p := (HEntry.le_total x p).resolve_right hle
      have hperm : ((h.set pos p).set ((pos - 1) / 2) x).Perm (h.set pos x) := by
        rw [← hp]
        exact set_set_perm (by omega) hpos hql x
      have hk1 : ∀ i, ((h.set pos p).set ((pos - 1) / 2) x)[i]? =
          if i = (pos - 1) / 2 then some x else if i = pos then some p else h[i]? := by
        intro i
        rw [List.getElem?_set]
        by_cases hi : (pos - 1) / 2 = i
        · rw [if_pos hi, if_pos hi.symm, if_pos (by simpa using hql)]
        · rw [if_neg hi, if_neg (Ne.symm hi), List.getElem?_set]
          by_cases hi' : pos = i
          · subst hi'; simp [hpos]
          · simp [hi', Ne.symm hi']
      have hhq : ∀ j b, 0 < j → (j - 1) / 2 = (pos - 1) / 2 → j ≠ pos → h[j]? = some b → p.le b := by
        intro j b hj hjq hjp hb'
        refine hb j p b hj hjp ?_ ?_ ?_
        · rw [hjq]; exact (hd.up hs).le
        · rw [hjq, hkx, if_neg (by omega), hqv]
        · rw [hkx, if_neg hjp, hb']
      obtain ⟨h', e1, e2, e3⟩ := ih ((pos - 1) / 2) hq (h.set pos p) (by simpa using hql) (hd.up hs)
        (((hperm.map _).nodup_iff).2 hn) (by
          intro j a b hj hjq hst ha hb'
          rw [hk1] at ha hb'
          rw [if_neg hjq] at hb'
          by_cases hjp : j = pos
          · subst hjp
            rw [if_pos rfl] at ha hb'
            cases ha; cases hb'
            exact hxp
          · rw [if_neg hjp] at hb'
            by_cases h1 : (j - 1) / 2 = (pos - 1) / 2
            · rw [if_pos h1] at ha
              cases ha
              exact HEntry.le_trans hxp (hhq j b hj h1 hjp hb')
            · rw [if_neg h1] at ha
              by_cases h2 : (j - 1) / 2 = pos
              · rw [if_pos h2] at ha
                cases ha
                refine hg j _ b hj h2 hs ?_ (by rw [hkx, if_neg hjp, hb'])
                rw [hkx, if_neg (by omega), hqv]
              · rw [if_neg h2] at ha
                exact hb j a b hj hjp hst (by rw [hkx, if_neg h2, ha]) (by rw [hkx, if_neg hjp, hb'])) (by
          intro j a b hj hjq hsq ha hb'
          have hqq : a.le p := by
            rw [hk1, if_neg (by omega), if_neg (by omega)] at ha
            refine hb ((pos - 1) / 2) a p (by omega) (by omega) ((hd.up hs).up hsq).le ?_ ?_
            · rw [hkx, if_neg (by omega), ha]
            · rw [hkx, if_neg (by omega), hqv]
          rw [hk1, if_neg (by omega)] at hb'
          by_cases hjp : j = pos
          · rw [if_pos hjp] at hb'
            cases hb'
            exact hqq
          · rw [if_neg hjp] at hb'
            exact HEntry.le_trans hqq (hhq j b hj hjq hjp hb'))
      exact ⟨h', e1, e2.trans hperm, e3⟩
  · rw [if_neg hs]
    have : pos = start := by have := hd.le; omega
    subst this
    refine ⟨_, rfl, .refl _, ?_⟩
    intro j a b hj hst ha hb'
    exact hb j a b hj (by omega) hst ha hb'

theorem siftdown_spec {h : List (HEntry W X)} {start pos : Nat} {x : HEntry W X} (hx : h[pos]? = some x) (hd : Desc start pos)
    (hn : (h.map HEntry.no).Nodup) (hb : HeapBut h start pos)
    (hleaf : h.length ≤ 2 * pos + 1) :
    ∃ h', siftdown h start pos = .ok h' ∧ h'.Perm h ∧ HeapFrom h' start := by
  obtain ⟨hpos, hxv⟩ := List.getElem?_eq_some_iff.1 hx
  have hset : h.set pos x = h := by rw [← hxv]; exact List.set_getElem_self hpos
  unfold siftdown
  rw [hx]
  obtain ⟨h', e1, e2, e3⟩ := siftdownLoop_spec x start pos h hpos hd (by rw [hset]; exact hn) (by rw [hset]; exact hb) (by
    intro j a b hj hjp hs ha hb'
    rw [hset] at hb'
    have := (List.getElem?_eq_some_iff.1 hb').1
    omega)
  exact ⟨h', e1, by rw [hset] at e2; exact e2, e3⟩

/-! ## `_siftup` -/

theorem smallerChild_spec {h : List (HEntry W X)} {pos : Nat} (hc : 2 * pos + 1 < h.length)
    (hn : ∀ a b, h[2 * pos + 1]? = some a → h[2 * pos + 1 + 1]? = some b → a.no ≠ b.no) :
    ∃ c v, smallerChild h (2 * pos + 1) = .ok c ∧ (c = 2 * pos + 1 ∨ c = 2 * pos + 2) ∧ h[c]? = some v ∧
      ∀ j b, 0 < j → (j - 1) / 2 = pos → h[j]? = some b → v.le b := by
  unfold smallerChild
  have ha : h[2 * pos + 1]? = some h[2 * pos + 1] := List.getElem?_eq_getElem hc
  by_cases hr : 2 * pos + 1 + 1 < h.length
  · have hb : h[2 * pos + 1 + 1]? = some h[2 * pos + 1 + 1] := List.getElem?_eq_getElem hr
    have hne := hn _ _ ha hb
    rw [if_pos hr, ha, hb]
    simp only [tupleLt_ok hne]
    by_cases hle : (h[2 * pos + 1 + 1]).le h[2 * pos + 1]
    · have : decide (¬ (h[2 * pos + 1 + 1]).le h[2 * pos + 1]) = false := by simp [hle]
      rw [this]
      refine ⟨_, _, rfl, .inr rfl, hb, ?_⟩
      intro j b hj hjp hjb
      have : j = 2 * pos + 1 ∨ j = 2 * pos + 1 + 1 := by omega
      rcases this with rfl | rfl
      · rw [ha] at hjb; cases hjb; exact hle
      · rw [hb] at hjb; cases hjb; exact HEntry.le_refl _
    · have : decide (¬ (h[2 * pos + 1 + 1]).le h[2 * pos + 1]) = true := by simp [hle]
      rw [this]
      refine ⟨_, _, rfl, .inl rfl, ha, ?_⟩
      intro j b hj hjp hjb
      have : j = 2 * pos + 1 ∨ j = 2 * pos + 1 + 1 := by omega
      rcases this with rfl | rfl
      · rw [ha] at hjb; cases hjb; exact HEntry.le_refl _
      · rw [hb] at hjb; cases hjb; exact (HEntry.le_total _ _).resolve_right hle
  · rw [if_neg hr]
    refine ⟨_, _, rfl, .inl rfl, ha, ?_⟩
    intro j b hj hjp hjb
    have hjl := (List.getElem?_eq_some_iff.1 hjb).1
    have : j = 2 * pos + 1 := by omega
    subst this
    rw [ha] at hjb; cases hjb; exact HEntry.le_refl _

theorem siftupLoop_spec (x : HEntry W X) (start : Nat) : ∀ (n : Nat) (h : List (HEntry W X)) (pos : Nat),
    h.length - pos = n → pos < h.length → Desc start pos → ((h.set pos x).map HEntry.no).Nodup →
    (∀ j a b, 0 < j → j ≠ pos → (j - 1) / 2 ≠ pos → start ≤ (j - 1) / 2 → h[(j - 1) / 2]? = some a → h[j]? = some b →
      a.le b) →
    (∀ j a b, 0 < j → (j - 1) / 2 = pos → start < pos → h[(pos - 1) / 2]? = some a → h[j]? = some b → a.le b) →
    ∃ h' p, siftupLoop h pos = .ok (h', p) ∧ p < h'.length ∧ h'.length ≤ 2 * p + 1 ∧ Desc start p ∧
      (h'.set p x).Perm (h.set pos x) ∧ HeapBut (h'.set p x) start p := by
  intro n
  induction n using Nat.strongRecOn with
  | _ n ih =>
  intro h pos hlen hpos hd hn hb hg
  have hkx : ∀ i, (h.set pos x)[i]? = if i = pos then some x else h[i]? := by
    intro i
    rw [List.getElem?_set]
    by_cases hi : pos = i
    · subst hi; simp [hpos]
    · simp [hi, Ne.symm hi]
  unfold siftupLoop
  by_cases hc : 2 * pos + 1 < h.length
  · rw [if_pos hc]
    obtain ⟨c, v, e1, hcc, hcv, hmin⟩ := smallerChild_spec hc (fun a b ha hb' =>
      nodup_no_ne hn (i := 2 * pos + 1) (j := 2 * pos + 1 + 1) (by omega) (by rw [hkx, if_neg (by omega), ha])
        (by rw [hkx, if_neg (by omega), hb']))
    obtain ⟨hcl, hcv'⟩ := List.getElem?_eq_some_iff.1 hcv
    have hcp : (c - 1) / 2 = pos := by omega
    have hperm : ((h.set pos v).set c x).Perm (h.set pos x) := by
      rw [← hcv']
      exact set_set_perm (by omega) hpos hcl x
    have hk1 : ∀ i, (h.set pos v)[i]? = if i = pos then some v else h[i]? := by
      intro i
      rw [List.getElem?_set]
      by_cases hi : pos = i
      · subst hi; simp [hpos]
      · simp [hi, Ne.symm hi]
    have hcpos : 0 < c := by omega
    obtain ⟨h', p, r1, r2, r3, r4, r5, r6⟩ := ih ((h.set pos v).length - c) (by simp only [List.length_set]; omega)
      (h.set pos v) c rfl (by simpa using hcl) (.step hcpos (by rw [hcp]; exact hd))
      (((hperm.map _).nodup_iff).2 hn) (by
        intro j a b hj hjc hjp hst ha hb'
        rw [hk1] at ha hb'
        by_cases h1 : j = pos
        · rw [if_pos h1] at hb'
          rw [if_neg (by omega)] at ha
          cases hb'
          subst h1
          have hsj : start < j := by omega
          exact hg c a v hcpos hcp hsj ha hcv
        · rw [if_neg h1] at hb'
          by_cases h2 : (j - 1) / 2 = pos
          · rw [if_pos h2] at ha
            cases ha
            exact hmin j b hj h2 hb'
          · rw [if_neg h2] at ha
            exact hb j a b hj h1 h2 hst ha hb') (by
        intro j a b hj hjc hsc ha hb'
        rw [hk1] at ha hb'
        rw [if_pos hcp] at ha
        rw [if_neg (by omega)] at hb'
        cases ha
        refine hb j v b hj (by omega) (by omega) ?_ (by rw [hjc]; exact hcv) hb'
        rw [hjc]; omega)
    refine ⟨h', p, ?_, r2, r3, r4, r5.trans hperm, r6⟩
    split
    · rename_i e he; rw [e1] at he; cases he
    · rename_i c' he
      rw [e1] at he
      cases he
      rw [hcv]
      exact r1
  · rw [if_neg hc]
    refine ⟨h, pos, rfl, hpos, by omega, hd, .refl _, ?_⟩
    intro j a b hj hjp hst ha hb'
    have hjl := (List.getElem?_eq_some_iff.1 hb').1
    simp only [List.length_set] at hjl
    rw [hkx, if_neg (by omega)] at ha
    rw [hkx, if_neg hjp] at hb'
    exact hb j a b hj hjp (by omega) hst ha hb'

theorem siftup_spec {h : List (HEntry W X)} {pos : Nat} (hpos : pos < h.length) (hn : (h.map HEntry.no).Nodup)
    (hb : HeapFrom h (pos + 1)) : ∃ h', siftup h pos = .ok h' ∧ h'.Perm h ∧ HeapFrom h' pos := by
  have hset : h.set pos h[pos] = h := List.set_getElem_self hpos
  obtain ⟨h', p, r1, r2, r3, r4, r5, r6⟩ := siftupLoop_spec h[pos] pos _ h pos rfl hpos .refl (by rw [hset]; exact hn)
    (fun j a b hj hjp hjq hst ha hb' => hb j a b hj (by omega) ha hb') (fun j a b hj hjp hs => absurd hs (Nat.lt_irrefl _))
  rw [hset] at r5
  obtain ⟨h'', e1, e2, e3⟩ := siftdown_spec (h := h'.set p h[pos]) (start := pos) (pos := p) (x := h[pos])
    (by simp [r2]) r4 (((r5.map _).nodup_iff).2 hn) r6 (by simpa using r3)
  refine ⟨h'', ?_, e2.trans r5, e3⟩
  unfold siftup
  rw [List.getElem?_eq_getElem hpos]
  simp only [r1]
  exact e1

/-! ## The operations -/

/-- The list `h` of `heapq` and the sorted list `l` hold the same elements, with different numbers. -/
structure HqRel (h l : List (HEntry W X)) : Prop where
  heap : HeapFrom h 0
  perm : h.Perm l
  sorted : l.Pairwise HEntry.le
  nodup : (l.map HEntry.no).Nodup

theorem hqPush_rel {h l : List (HEntry W X)} (hr : HqRel h l) {e : HEntry W X} (he : ∀ f ∈ l, f.no ≠ e.no) :
    ∃ h', hqPush h e = .ok h' ∧ HqRel h' (heapPush l e) := by
  have hp1 : (h ++ [e]).Perm (heapPush l e) :=
    (List.perm_append_singleton e h).trans ((hr.perm.cons e).trans (heapPush_perm l e).symm)
  have hn : ((heapPush l e).map HEntry.no).Nodup := by
    rw [((heapPush_perm l e).map _).nodup_iff, List.map_cons, List.nodup_cons]
    refine ⟨fun hm => ?_, hr.nodup⟩
    obtain ⟨f, hf, hfe⟩ := List.mem_map.1 hm
    exact he f hf hfe
  obtain ⟨h', e1, e2, e3⟩ := siftdown_spec (h := h ++ [e]) (start := 0) (pos := h.length) (x := e) (by simp) (Desc.zero _)
    (((hp1.map _).nodup_iff).2 hn) (by
      intro j a b hj hjp hst ha hb'
      have hjl := (List.getElem?_eq_some_iff.1 hb').1
      simp only [List.length_append, List.length_cons, List.length_nil] at hjl
      rw [List.getElem?_append_left (by omega)] at ha hb'
      exact hr.heap j a b hj (Nat.zero_le _) ha hb') (by simp; omega)
  exact ⟨h', e1, ⟨e3, e2.trans hp1, heapPush_sorted e hr.sorted, hn⟩⟩

theorem HeapFrom.root {h : List (HEntry W X)} (hh : HeapFrom h 0) {t : HEntry W X} (ht : h[0]? = some t) :
    ∀ (j : Nat) (b : HEntry W X), h[j]? = some b → t.le b := by
  intro j
  induction j using Nat.strongRecOn with
  | _ j ih =>
    intro b hb
    rcases Nat.eq_zero_or_pos j with rfl | hj
    · rw [ht] at hb; cases hb; exact HEntry.le_refl _
    · have hjl := (List.getElem?_eq_some_iff.1 hb).1
      have ha : h[(j - 1) / 2]? = some (h[(j - 1) / 2]'(by omega)) := List.getElem?_eq_getElem _
      exact HEntry.le_trans (ih _ (by omega) _ ha) (hh j _ b hj (Nat.zero_le _) ha hb)

theorem HqRel.head {h l : List (HEntry W X)} {e t : HEntry W X} (hr : HqRel h (e :: l)) (ht : h[0]? = some t) : t = e := by
  have hmem : t ∈ e :: l := hr.perm.mem_iff.1 (List.mem_of_getElem? ht)
  rcases List.mem_cons.1 hmem with h1 | h1
  · exact h1
  · exfalso
    have het : e.le t := (List.pairwise_cons.1 hr.sorted).1 t h1
    obtain ⟨j, hj⟩ := List.getElem?_of_mem (hr.perm.mem_iff.2 (List.mem_cons_self (a := e) (l := l)))
    have hte : t.le e := hr.heap.root ht j e hj
    have hno : e.no = t.no := by
      unfold HEntry.le at het hte
      rcases het with h | ⟨h, h'⟩ <;> rcases hte with g | ⟨g, g'⟩
      · exact absurd g h.not_gt
      · rw [g] at h; exact absurd h (lt_irrefl _)
      · rw [h] at g; exact absurd g (lt_irrefl _)
      · omega
    have hn := hr.nodup
    rw [List.map_cons, List.nodup_cons] at hn
    exact hn.1 (hno ▸ List.mem_map_of_mem h1)

theorem hqPop_rel {h l : List (HEntry W X)} {e : HEntry W X} (hr : HqRel h (e :: l)) :
    ∃ h', hqPop h = .ok (e, h') ∧ HqRel h' l := by
  have hne : h ≠ [] := by
    rintro rfl
    exact absurd hr.perm.length_eq (by simp)
  have hlast : h.getLast? = some (h.getLast hne) := List.getLast?_eq_some_getLast hne
  have happ : h.dropLast ++ [h.getLast hne] = h := List.dropLast_concat_getLast hne
  have hsl : l.Pairwise HEntry.le := (List.pairwise_cons.1 hr.sorted).2
  have hnl : (l.map HEntry.no).Nodup := by
    have := hr.nodup
    rw [List.map_cons, List.nodup_cons] at this
    exact this.2
  unfold hqPop
  rw [hlast]
  generalize h.getLast hne = last at *
  rcases hd : h.dropLast with _ | ⟨top, r⟩
  · rw [hd] at happ
    simp only [List.nil_append] at happ
    rw [← happ] at hr
    have h1 := hr.head (t := last) (by simp)
    have hl : l = [] := by
      have := hr.perm.length_eq
      simp only [List.length_cons, List.length_nil] at this
      exact List.eq_nil_of_length_eq_zero (by omega)
    subst h1 hl
    exact ⟨[], rfl, ⟨fun j a b _ _ _ hb => by simp at hb, .refl _, .nil, by simp⟩⟩
  · rw [hd] at happ
    have htop : h[0]? = some top := by rw [← happ]; simp
    have h1 := hr.head htop
    subst h1
    have hp0 : (r ++ [last]).Perm l := by
      have := hr.perm
      rw [← happ] at this
      exact (List.perm_cons _).1 this
    have hset : (top :: r).set 0 last = last :: r := rfl
    have hp1 : (last :: r).Perm l := (List.perm_append_singleton last r).symm.trans hp0
    obtain ⟨h', e1, e2, e3⟩ := siftup_spec (h := last :: r) (pos := 0) (by simp) (((hp1.map _).nodup_iff).2 hnl) (by
      intro j a b hj hst ha hb'
      have hjl := (List.getElem?_eq_some_iff.1 hb').1
      have hj1 : ∀ i, 0 < i → i < (last :: r).length → (last :: r)[i]? = h[i]? := by
        intro i hi hil
        rw [← happ]
        obtain ⟨i, rfl⟩ := Nat.exists_eq_add_of_lt hi
        simp only [List.length_cons] at hil
        simp only [Nat.zero_add, List.cons_append, List.getElem?_cons_succ]
        rw [List.getElem?_append_left (by omega)]
      rw [hj1 _ (by omega) (by omega)] at ha
      rw [hj1 _ (by omega) (by omega)] at hb'
      exact hr.heap j a b hj (Nat.zero_le _) ha hb')
    simp only [hset, e1]
    exact ⟨h', rfl, ⟨e3, e2.trans hp1, hsl, hnl⟩⟩

theorem hqHeapifyLoop_spec (i : Nat) (h : List (HEntry W X)) (hi : i ≤ h.length) (hn : (h.map HEntry.no).Nodup)
    (hh : HeapFrom h i) : ∃ h', hqHeapifyLoop i h = .ok h' ∧ h'.Perm h ∧ HeapFrom h' 0 := by
  induction i generalizing h with
  | zero => exact ⟨h, rfl, .refl _, hh⟩
  | succ i ih =>
    obtain ⟨h1, e1, e2, e3⟩ := siftup_spec (pos := i) (by omega) hn hh
    obtain ⟨h2, f1, f2, f3⟩ := ih h1 (by rw [e2.length_eq]; omega) (((e2.map _).nodup_iff).2 hn) e3
    refine ⟨h2, ?_, f2.trans e2, f3⟩
    unfold hqHeapifyLoop
    simp only [e1]
    exact f1

theorem hqHeapify_rel {l : List (HEntry W X)} (hn : (l.map HEntry.no).Nodup) :
    ∃ h', hqHeapify l = .ok h' ∧ HqRel h' (heapify l) := by
  obtain ⟨h', e1, e2, e3⟩ := hqHeapifyLoop_spec (l.length / 2) l (by omega) hn (by
    intro j a b hj hst ha hb'
    have := (List.getElem?_eq_some_iff.1 hb').1
    omega)
  exact ⟨h', e1, ⟨e3, e2.trans (heapify_perm l).symm, heapify_sorted l,
    (((heapify_perm l).map _).nodup_iff).2 hn⟩⟩

theorem HqRel.nil_left {l : List (HEntry W X)} (hr : HqRel [] l) : l = [] := by
  have := hr.perm.length_eq
  exact List.eq_nil_of_length_eq_zero (by simpa using this.symm)

theorem HqRel.nil_right {h : List (HEntry W X)} (hr : HqRel h []) : h = [] := by
  have := hr.perm.length_eq
  exact List.eq_nil_of_length_eq_zero (by simpa using this)

end NoGraphs
