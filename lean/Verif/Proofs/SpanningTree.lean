import Mathlib.Data.List.Forall2
import Mathlib.Data.List.Induction
import Mathlib.Data.List.Perm.Subperm
import Verif.Spec.SpanningTree

/-! Lightest edges one after the other give a minimum spanning tree. -/

set_option linter.unusedSectionVars false

namespace NoGraphs

open Spec

variable {V K L W : Type} [DecidableEq K]

theorem Spec.Joins.symm {vid : V → K} {f : V × V × W} {j k : K} (h : Joins vid f j k) : Joins vid f k j := h.elim .inr .inl

theorem Spec.Linked.trans {vid : V → K} {F : List (V × V × W)} {j k m : K} (h1 : Linked vid F j k) (h2 : Linked vid F k m) :
    Linked vid F j m := by
  induction h1 with
  | refl => exact h2
  | step hf hj _ ih => exact .step hf hj (ih h2)

theorem Spec.Linked.symm {vid : V → K} {F : List (V × V × W)} {j k : K} (h : Linked vid F j k) : Linked vid F k j := by
  induction h with
  | refl => exact .refl
  | step hf hj _ ih => exact ih.trans (.step hf hj.symm .refl)

theorem Spec.Linked.mono {vid : V → K} {F F' : List (V × V × W)} {j k : K} (h : Linked vid F j k) (hF : ∀ f ∈ F, f ∈ F') :
    Linked vid F' j k := by
  induction h with
  | refl => exact .refl
  | step hf hj _ ih => exact .step (hF _ hf) hj ih

/-- On the way from a vertex outside `A` to one in `A`, there is an edge that crosses the border, and the way to it does
not need this edge. -/
theorem exists_crossing {vid : V → K} {F : List (V × V × W)} {A : K → Prop} {j k : K} (h : Linked vid F j k) (hj : ¬ A j)
    (hk : A k) : ∃ f ∈ F, ∃ b a, Joins vid f b a ∧ ¬ A b ∧ A a ∧
      ∀ F0 : List (V × V × W), (∀ f' ∈ F, f' ≠ f → f' ∈ F0) → Linked vid F0 j b := by
  induction h with
  | refl => exact absurd hk hj
  | @step g j m k hg hjm _ ih =>
    by_cases hm : A m
    · exact ⟨g, hg, j, m, hjm, hj, hm, fun _ _ => .refl⟩
    · obtain ⟨f, hf, b, a, h1, h2, h3, h4⟩ := ih hm hk
      refine ⟨f, hf, b, a, h1, h2, h3, fun F0 hF0 => .step (hF0 g hg ?_) hjm (h4 F0 hF0)⟩
      rintro rfl
      rcases hjm with ⟨e1, e2⟩ | ⟨e1, e2⟩ <;> rcases h1 with ⟨e3, e4⟩ | ⟨e3, e4⟩ <;> subst e1 e2 <;>
        first | exact hm (e3 ▸ h3) | exact hm (e4 ▸ h3) | exact hj (e3 ▸ h3) | exact hj (e4 ▸ h3)

/-- An edge on the way from a vertex `j` outside `A` to `A` can be removed: then, each vertex that was connected to `A`
is connected to `A` or to `j`. -/
theorem exchange {vid : V → K} {F : List (V × V × W)} {A : K → Prop} {j : K} (hj : ¬ A j) (h : ∃ k, A k ∧ Linked vid F j k) :
    ∃ F1 f F2, F = F1 ++ f :: F2 ∧ (∃ b a, Joins vid f b a ∧ ¬ A b ∧ A a) ∧
      ∀ m, (∃ k, A k ∧ Linked vid F m k) → ∃ k, (A k ∨ k = j) ∧ Linked vid (F1 ++ F2) m k := by
  obtain ⟨k, hk, hl⟩ := h
  obtain ⟨f, hf, b, a, h1, h2, h3, h4⟩ := exists_crossing hl hj hk
  obtain ⟨F1, F2, rfl⟩ := List.append_of_mem hf
  have hjb := h4 (F1 ++ F2) (fun f' hf' hne => by
    simp only [List.mem_append, List.mem_cons] at hf' ⊢
    tauto)
  refine ⟨F1, f, F2, rfl, ⟨b, a, h1, h2, h3⟩, ?_⟩
  rintro m ⟨k', hk', hl'⟩
  clear hl h4 hk
  induction hl' with
  | refl => exact ⟨_, .inl hk', .refl⟩
  | @step g m m' k' hg hj' _ ih =>
    by_cases hm : A m
    · exact ⟨m, .inl hm, .refl⟩
    · have hg' : g = f ∨ g ∈ F1 ++ F2 := by
        simp only [List.mem_append, List.mem_cons] at hg ⊢
        tauto
      rcases hg' with rfl | hg'
      · have hmb : m = b := by
          rcases hj' with ⟨e1, e2⟩ | ⟨e1, e2⟩ <;> rcases h1 with ⟨e3, e4⟩ | ⟨e3, e4⟩ <;> subst e1 e2 <;>
            first | exact e3 | exact e4 | exact absurd (by rw [e3]; exact h3) hm | exact absurd (by rw [e4]; exact h3) hm
        subst hmb
        exact ⟨j, .inr rfl, hjb.symm⟩
      · obtain ⟨k, h5, h6⟩ := ih hk'
        exact ⟨k, h5, .step hg' hj' h6⟩

section
variable [LinearOrder W] {next : V → List (V × W × L)} {vid : V → K}

theorem mem_outEdges {us : List V} {e : V × V × W × L} : e ∈ outEdges next us ↔ e.1 ∈ us ∧ e.2 ∈ next e.1 := by
  simp only [outEdges, List.mem_flatMap, List.mem_map]
  constructor
  · rintro ⟨u, hu, a, ha, rfl⟩; exact ⟨hu, ha⟩
  · rintro ⟨h1, h2⟩; exact ⟨e.1, h1, e.2, h2, rfl⟩

theorem mem_leavingEdges {us : List V} {e : V × V × W × L} :
    e ∈ leavingEdges next vid us ↔ e.1 ∈ us ∧ e.2 ∈ next e.1 ∧ vid e.2.1 ∉ us.map vid := by
  rw [leavingEdges, List.mem_filter, mem_outEdges, decide_eq_true_eq, and_assoc]

theorem Spec.FirstLightest.mem {l : List (V × V × W × L)} {e : V × V × W × L} (h : FirstLightest l e) : e ∈ l := by
  obtain ⟨A, B, rfl, -⟩ := h; simp

theorem Spec.FirstLightest.le {l : List (V × V × W × L)} {e f : V × V × W × L} (h : FirstLightest l e) (hf : f ∈ l) :
    e.2.2.1 ≤ f.2.2.1 := by
  obtain ⟨A, B, rfl, h1, h2⟩ := h
  rcases List.mem_append.1 hf with hf | hf
  · exact le_of_lt (h1 f hf)
  · rcases List.mem_cons.1 hf with rfl | hf
    · exact le_refl _
    · exact h2 f hf

theorem Spec.FirstLightest.unique {l : List (V × V × W × L)} {e f : V × V × W × L} (h : FirstLightest l e) (h' : FirstLightest l f) :
    e = f := by
  obtain ⟨A, B, rfl, h1, h2⟩ := h
  obtain ⟨A', B', e', h1', h2'⟩ := h'
  rcases List.append_eq_append_iff.1 e' with ⟨X, rfl, hX⟩ | ⟨X, rfl, hX⟩
  · cases X with
    | nil => simpa using (List.cons.inj hX).1
    | cons x X =>
      simp only [List.cons_append, List.cons.injEq] at hX
      obtain ⟨rfl, rfl⟩ := hX
      exact absurd (h1' e (by simp)) (not_lt.2 (h2 f (by simp)))
  · cases X with
    | nil => simpa using (List.cons.inj hX).1.symm
    | cons x X =>
      simp only [List.cons_append, List.cons.injEq] at hX
      obtain ⟨rfl, rfl⟩ := hX
      exact absurd (h1 f (by simp)) (not_lt.2 (h2' e (by simp)))

theorem Spec.PrimSeq.nil {starts : List V} : PrimSeq next vid starts ([] : List (V × V × W × L)) := by
  intro T1 e T2 h; simp at h

theorem Spec.PrimSeq.head {starts : List V} {e : V × V × W × L} {T : List (V × V × W × L)}
    (h : PrimSeq next vid starts (e :: T)) : FirstLightest (leavingEdges next vid starts) e := by
  have := h [] e T rfl
  simpa using this

theorem Spec.PrimSeq.tail {starts : List V} {e : V × V × W × L} {T : List (V × V × W × L)}
    (h : PrimSeq next vid starts (e :: T)) : PrimSeq next vid (starts ++ [e.2.1]) T := by
  rintro T1 f T2 rfl
  have := h (e :: T1) f T2 rfl
  simpa using this

theorem Spec.PrimSeq.snoc {starts : List V} {e : V × V × W × L} {T : List (V × V × W × L)}
    (h : PrimSeq next vid starts T) (he : FirstLightest (leavingEdges next vid (starts ++ T.map (fun e => e.2.1))) e) :
    PrimSeq next vid starts (T ++ [e]) := by
  intro T1 f T2 hT
  rcases List.eq_nil_or_concat T2 with rfl | ⟨T2', g, rfl⟩
  · obtain ⟨rfl, hfe⟩ := List.append_inj' hT rfl
    simp only [List.cons.injEq, and_true] at hfe
    subst hfe; exact he
  · rw [List.concat_eq_append, ← List.cons_append, ← List.append_assoc] at hT
    obtain ⟨rfl, -⟩ := List.append_inj' hT rfl
    exact h T1 f T2' rfl

/-- The reached vertices are pairwise different, and the edges start at vertices reached before. -/
theorem Spec.PrimSeq.facts {starts : List V} {T : List (V × V × W × L)} (h : PrimSeq next vid starts T) :
    (∀ T1 e T2, T = T1 ++ e :: T2 → e.2 ∈ next e.1 ∧ e.1 ∈ starts ++ T1.map (fun e => e.2.1) ∧
      vid e.2.1 ∉ (starts ++ T1.map (fun e => e.2.1)).map vid) ∧
    (T.map (fun e => vid e.2.1)).Nodup ∧ ∀ e ∈ T, vid e.2.1 ∉ starts.map vid := by
  have h1 : ∀ T1 e T2, T = T1 ++ e :: T2 → e.2 ∈ next e.1 ∧ e.1 ∈ starts ++ T1.map (fun e => e.2.1) ∧
      vid e.2.1 ∉ (starts ++ T1.map (fun e => e.2.1)).map vid := by
    intro T1 e T2 hT
    have := mem_leavingEdges.1 (h T1 e T2 hT).mem
    exact ⟨this.2.1, this.1, this.2.2⟩
  refine ⟨h1, ?_, ?_⟩
  · clear h
    induction T using List.reverseRecOn with
    | nil => simp
    | append_singleton T e ih =>
      rw [List.map_append, List.nodup_append]
      refine ⟨ih (fun T1 f T2 hT => h1 T1 f (T2 ++ [e]) (by rw [hT]; simp)), by simp, ?_⟩
      intro a ha b hb hab
      simp only [List.map_cons, List.map_nil, List.mem_singleton] at hb
      subst hab hb
      apply (h1 T e [] rfl).2.2
      rw [List.map_append, List.mem_append, List.map_map]
      exact .inr ha
  · intro e he hs
    obtain ⟨T1, T2, hT⟩ := List.append_of_mem he
    apply (h1 T1 e T2 hT).2.2
    rw [List.map_append, List.mem_append]
    exact .inl hs

/-- Each of the edges can be paired with an edge of any other connecting collection of edges. -/
theorem Spec.PrimSeq.pairing (hsym : WSymmetric next) (hc : WCompat next vid) {T : List (V × V × W × L)} :
    ∀ {starts : List V} {F : List (V × V × W)}, PrimSeq next vid starts T → GraphEdges next F →
      (∀ e ∈ T, ∃ k, k ∈ starts.map vid ∧ Linked vid F (vid e.2.1) k) →
      ∃ F' : List (V × V × W), F'.Subperm F ∧ List.Forall₂ (fun e f => e.2.2.1 ≤ f.2.2) T F' := by
  induction T with
  | nil => intro starts F _ _ _; exact ⟨[], List.nil_subperm, .nil⟩
  | cons e T ih =>
    intro starts F h hF hlink
    have hhead := h.head
    have hm := mem_leavingEdges.1 hhead.mem
    obtain ⟨F1, f, F2, rfl, ⟨b, a, h1, h2, h3⟩, h4⟩ := exchange (A := fun k => k ∈ starts.map vid) hm.2.2
      (hlink e List.mem_cons_self)
    obtain ⟨F', h5, h6⟩ := ih (F := F1 ++ F2) h.tail
      (fun g hg => hF g (by simp only [List.mem_append, List.mem_cons] at hg ⊢; tauto))
      (fun g hg => by
        obtain ⟨k, hk, hl⟩ := h4 _ (hlink g (List.mem_cons_of_mem _ hg))
        refine ⟨k, ?_, hl⟩
        rw [List.map_append, List.mem_append]
        rcases hk with hk | rfl
        · exact .inl hk
        · exact .inr (by simp))
    refine ⟨f :: F', ?_, .cons ?_ h6⟩
    · exact (List.subperm_cons f |>.2 h5).trans (List.perm_middle.symm.subperm)
    · have hfe := hF f (by simp)
      have : ∃ p q, WEdge next p q f.2.2 ∧ vid p = a ∧ vid q = b := by
        rcases h1 with ⟨e1, e2⟩ | ⟨e1, e2⟩
        · exact ⟨_, _, hsym _ _ _ hfe, e2, e1⟩
        · exact ⟨_, _, hfe, e1, e2⟩
      obtain ⟨p, q, hpq, rfl, rfl⟩ := this
      obtain ⟨s, hs, hsp⟩ := List.mem_map.1 h3
      obtain ⟨q', ⟨l, hl⟩, hq'⟩ := hc p s q f.2.2 hsp.symm hpq
      have := hhead.le (f := (s, q', f.2.2, l)) (mem_leavingEdges.2 ⟨hs, hl, by rw [hq']; exact h2⟩)
      exact this

end

end NoGraphs
