import Verif.Spec.Graph
import Verif.Proofs.Stored
import Mathlib.Data.Nat.Find

/-! Lemmas about walks and about paths stored in collections. -/

set_option linter.unusedSectionVars false

namespace NoGraphs

open Spec

section Walks

variable {V K L : Type}

theorem exists_isDepth {E : V → V → Prop} {S : V → Prop} {vid : V → K} {n : Nat} {v : V}
    (h : WalkN E S n v) : ∃ d v', vid v' = vid v ∧ d ≤ n ∧ IsDepth E S vid v' d := by
  classical
  have hex : ∃ m, ∃ v', WalkN E S m v' ∧ vid v' = vid v := ⟨n, v, h, rfl⟩
  obtain ⟨v', hw, hv⟩ := Nat.find_spec hex
  refine ⟨Nat.find hex, v', hv, Nat.find_min' hex ⟨v, h, rfl⟩, hw, ?_⟩
  intro m w hm hwv
  exact Nat.find_min' hex ⟨w, hm, hwv.trans hv⟩

theorem Spec.IsDepth.unique {E : V → V → Prop} {S : V → Prop} {vid : V → K} {v w : V} {d e : Nat}
    (h1 : IsDepth E S vid v d) (h2 : IsDepth E S vid w e) (hv : vid v = vid w) : d = e :=
  Nat.le_antisymm (h1.2 _ _ h2.1 hv.symm) (h2.2 _ _ h1.1 hv)

theorem Spec.WalkN.reachable {E : V → V → Prop} {S : V → Prop} {n : Nat} {v : V} (h : WalkN E S n v) :
    Reachable E S v := ⟨n, h⟩

theorem Spec.Reachable.step {E : V → V → Prop} {S : V → Prop} {u v : V} (h : Reachable E S u) (e : E u v) :
    Reachable E S v := by
  obtain ⟨n, h⟩ := h
  exact ⟨n + 1, .step h e⟩

theorem Spec.Reachable.start {E : V → V → Prop} {S : V → Prop} {v : V} (h : S v) : Reachable E S v :=
  ⟨0, .start h⟩

/-- Induction over reachability. -/
theorem Spec.Reachable.induct {E : V → V → Prop} {S : V → Prop} {P : V → Prop} (h0 : ∀ v, S v → P v)
    (hs : ∀ u v, Reachable E S u → P u → E u v → P v) {v : V} (h : Reachable E S v) : P v := by
  obtain ⟨n, h⟩ := h
  induction h with
  | start h => exact h0 _ h
  | step hw he ih => exact hs _ _ ⟨_, hw⟩ ih he

end Walks

section Stored

variable {V K L : Type} [DecidableEq V] [DecidableEq K]

/-- The collections store for `v` a path of `d` graph edges from a start vertex. -/
def PathOk (next : V → List (V × L)) (starts : List V) (vid : V → K) (get : K → Option V)
    (lab : K → Option L) (v : V) (p : SPath V L) : Prop :=
  p.first ∈ starts ∧ IsPath next p.first p.steps ∧ StoredPath get lab vid v p

theorem Spec.IsPath.snoc {next : V → List (V × L)} {s : V} {steps : List (V × L)} {u w : V} {l : L}
    (h : IsPath next s steps) (hlast : (s :: steps.map Prod.fst).getLast? = some u)
    (he : (w, l) ∈ next u) : IsPath next s (steps ++ [(w, l)]) := by
  induction steps generalizing s with
  | nil =>
    simp only [List.map_nil, List.getLast?_singleton, Option.some.injEq] at hlast
    subst hlast
    exact ⟨he, trivial⟩
  | cons a r ih =>
    obtain ⟨a, la⟩ := a
    refine ⟨h.1, ih h.2 ?_⟩
    rw [List.map_cons, List.getLast?_cons_cons] at hlast
    exact hlast

theorem StoredPath.last {get : K → Option V} {lab : K → Option L} {vid : V → K} {v : V} {p : SPath V L}
    (h : StoredPath get lab vid v p) : p.verts.getLast? = some v := by
  simpa using h.1.head

theorem StoredPath.get_isSome {get : K → Option V} {lab : K → Option L} {vid : V → K} {v : V}
    {p : SPath V L} (h : StoredPath get lab vid v p) : (get (vid v)).isSome := h.1.get_isSome

/-- Storing an edge to a new id does not change stored paths. -/
theorem PathOk.mono {next : V → List (V × L)} {starts : List V} {vid : V → K} {get get' : K → Option V}
    {lab lab' : K → Option L} {v : V} {p : SPath V L} (h : PathOk next starts vid get lab v p) {k : K}
    (hk : get k = none) (hg : ∀ j, j ≠ k → get' j = get j) (hl : ∀ j, j ≠ k → lab' j = lab j) :
    PathOk next starts vid get' lab' v p := by
  refine ⟨h.1, h.2.1, h.2.2.frame ?_ ?_⟩ <;>
  · intro u hu
    have : vid u ≠ k := by
      intro e
      have := h.2.2.1.mem_get u (by simpa using hu)
      rw [e, hk] at this; simp at this
    first | exact hg _ this | exact hl _ this

/-- Storing the predecessor of a new vertex extends the path of the predecessor. -/
theorem PathOk.extend {next : V → List (V × L)} {starts : List V} {vid : V → K} {get get' : K → Option V}
    {lab lab' : K → Option L} {u w : V} {l : L} {p : SPath V L}
    (h : PathOk next starts vid get lab u p) (he : (w, l) ∈ next u) (hk : get (vid w) = none)
    (hg : ∀ j, get' j = if j = vid w then some u else get j)
    (hl : ∀ j, lab' j = if j = vid w then some l else lab j) :
    PathOk next starts vid get' lab' w (p.snoc w l) := by
  have hm : PathOk next starts vid get' lab' u p :=
    h.mono hk (fun j hj => by rw [hg, if_neg hj]) (fun j hj => by rw [hl, if_neg hj])
  refine ⟨hm.1, hm.2.1.snoc hm.2.2.last he, hm.2.2.extend (by rw [hg, if_pos rfl]) (by rw [hl, if_pos rfl]) ?_⟩
  intro e
  have := h.2.2.get_isSome
  rw [e, hk] at this; simp at this

variable {M ML : Type}

/-- The predecessor collection after storing the empty paths of start vertices. -/
theorem get_starts_of_mem (mo : MapOps M K V) {validV : V → Prop} (hm : mo.Lawful validV) (vid : V → K)
    (starts : List V) (hv : ∀ v ∈ starts, validV v)
    (hd : ∀ s ∈ starts, ∀ t ∈ starts, vid s = vid t → s = t) (m : M) {v : V} (h : v ∈ starts) :
    mo.get? (mo.setAll m (starts.map (fun v => (vid v, v)))) (vid v) = some v := by
  have key : ∀ (l : List V) (m : M), (∀ v ∈ l, v ∈ starts) → (mo.get? m (vid v) = some v ∨ v ∈ l) →
      mo.get? (mo.setAll m (l.map (fun v => (vid v, v)))) (vid v) = some v := by
    intro l
    induction l with
    | nil => intro m _ h; simpa [MapOps.setAll] using h
    | cons s r ih =>
      intro m hl hor
      have := ih (mo.set m (vid s) s) (fun v hv => hl v (List.mem_cons_of_mem _ hv)) ?_
      · simpa [MapOps.setAll] using this
      · have hs := hl s List.mem_cons_self
        rw [hm.get_set _ _ _ _ (hv s hs)]
        by_cases e : vid v = vid s
        · left; rw [if_pos e, hd v h s hs e]
        · rw [if_neg e]
          rcases hor with h | h
          · exact .inl h
          · rcases List.mem_cons.1 h with rfl | h
            · exact absurd rfl e
            · exact .inr h
  exact key starts m (fun _ h => h) (.inr h)

theorem get_starts_isSome (mo : MapOps M K V) {validV : V → Prop} (hm : mo.Lawful validV) (vid : V → K)
    (starts : List V) (hv : ∀ v ∈ starts, validV v) (m : M) (k : K)
    (h : (mo.get? (mo.setAll m (starts.map (fun v => (vid v, v)))) k).isSome) :
    k ∈ starts.map vid ∨ (mo.get? m k).isSome := by
  induction starts generalizing m with
  | nil => right; simpa [MapOps.setAll] using h
  | cons s r ih =>
    have := ih (fun v h => hv v (List.mem_cons_of_mem _ h)) (mo.set m (vid s) s)
      (by simpa [MapOps.setAll] using h)
    rcases this with h | h
    · left; simp only [List.map_cons, List.mem_cons]; exact .inr h
    · rw [hm.get_set _ _ _ _ (hv s List.mem_cons_self)] at h
      by_cases e : k = vid s
      · left; simp [e]
      · rw [if_neg e] at h; exact .inr h

end Stored

end NoGraphs
