import Verif.Proofs.Walks

/-! Walks in forests are unique. -/

namespace NoGraphs

open Spec

variable {V K L : Type}

theorem nodup_map_inj {α β : Type} {f : α → β} {l : List α} (h : (l.map f).Nodup) {a b : α}
    (ha : a ∈ l) (hb : b ∈ l) (e : f a = f b) : a = b := by
  induction l with
  | nil => simp at ha
  | cons x l ih =>
    simp only [List.map_cons, List.nodup_cons, List.mem_map, not_exists, not_and] at h
    rcases List.mem_cons.1 ha with rfl | ha' <;> rcases List.mem_cons.1 hb with rfl | hb'
    · rfl
    · exact absurd e.symm (h.1 b hb')
    · exact absurd e (h.1 a ha')
    · exact ih h.2 ha' hb'

theorem Spec.IsForest.walk_unique {next : V → List (V × L)} {vid : V → K} {starts : List V}
    (hf : IsForest next vid starts) {n m : Nat} {v v' : V}
    (h : WalkN (Edge next) (· ∈ starts) n v) (h' : WalkN (Edge next) (· ∈ starts) m v')
    (e : vid v = vid v') : n = m ∧ v = v' := by
  induction h generalizing m v' with
  | @start v hs =>
    cases h' with
    | start hs' => exact ⟨rfl, nodup_map_inj hf.starts_nodup hs hs' e⟩
    | step hu he =>
      exact absurd (e ▸ List.mem_map.2 ⟨v, hs, rfl⟩) (hf.no_edge_to_start _ _ ⟨_, hu⟩ he)
  | @step n u v hu he ih =>
    cases h' with
    | start hs' =>
      exact absurd (e ▸ List.mem_map.2 ⟨v', hs', rfl⟩) (hf.no_edge_to_start _ _ ⟨_, hu⟩ he)
    | @step m' u' _ hu' he' =>
      have huu : u = u' := hf.one_parent u u' v v' ⟨_, hu⟩ ⟨_, hu'⟩ he he' e
      subst huu
      obtain ⟨hn, -⟩ := ih hu' rfl
      obtain ⟨l, hl⟩ := he
      obtain ⟨l', hl'⟩ := he'
      have := nodup_map_inj (f := fun e : V × L => vid e.1) (hf.children_nodup u ⟨_, hu⟩) hl hl' e
      simp only [Prod.mk.injEq] at this
      exact ⟨by omega, this.1⟩

end NoGraphs
