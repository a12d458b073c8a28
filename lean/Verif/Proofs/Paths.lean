import Verif.Model.Paths
import Verif.Proofs.Gear

/-! Helper lemmas for `Verif.Model.Paths`. -/

set_option linter.unusedSectionVars false

namespace NoGraphs

variable {V K L M ML : Type}

/-- `l` is the list of vertices from `v` back to a vertex that is its own predecessor. -/
inductive Chain (get : K → Option V) (vid : V → K) : V → List V → Prop
  | start {v : V} : get (vid v) = some v → Chain get vid v [v]
  | step {v u : V} {l : List V} : get (vid v) = some u → u ≠ v → Chain get vid u l →
      Chain get vid v (v :: l)

theorem Chain.ne_nil {get : K → Option V} {vid : V → K} {v : V} {l : List V}
    (h : Chain get vid v l) : l ≠ [] := by cases h <;> simp

theorem Chain.head {get : K → Option V} {vid : V → K} {v : V} {l : List V}
    (h : Chain get vid v l) : l.head? = some v := by cases h <;> simp

theorem Chain.get_isSome {get : K → Option V} {vid : V → K} {v : V} {l : List V}
    (h : Chain get vid v l) : (get (vid v)).isSome := by
  cases h with
  | start h => simp [h]
  | step h _ _ => simp [h]

/-- A chain only depends on the entries of its vertices. -/
theorem Chain.congr {get get' : K → Option V} {vid : V → K} {v : V} {l : List V}
    (h : Chain get vid v l) (hc : ∀ u ∈ l, get' (vid u) = get (vid u)) : Chain get' vid v l := by
  induction h with
  | start h => exact .start (by rw [hc _ (by simp), h])
  | step h hne _ ih =>
    exact .step (by rw [hc _ (by simp), h]) hne (ih (fun u hu => hc u (List.mem_cons_of_mem _ hu)))

theorem Chain.mem_get {get : K → Option V} {vid : V → K} {v : V} {l : List V}
    (h : Chain get vid v l) : ∀ u ∈ l, (get (vid u)).isSome := by
  induction h with
  | start h => intro u hu; simp at hu; subst hu; simp [h]
  | step h _ _ ih =>
    intro u hu
    rcases List.mem_cons.1 hu with rfl | hu
    · simp [h]
    · exact ih u hu

theorem Chain.unique {get : K → Option V} {vid : V → K} {v : V} {l l' : List V}
    (h : Chain get vid v l) (h' : Chain get vid v l') : l = l' := by
  induction h generalizing l' with
  | start h =>
    cases h' with
    | start _ => rfl
    | step h2 hne _ => rw [h] at h2; simp at h2; exact absurd h2.symm hne
  | step h hne _ ih =>
    cases h' with
    | start h2 => rw [h] at h2; simp at h2; exact absurd h2 hne
    | step h2 _ h3 => rw [h] at h2; simp at h2; subst h2; rw [ih h3]

variable [DecidableEq V] [DecidableEq K]

/-- What the user sees for a chain. -/
theorem iterVertsLoop_chain (p : PathsView V K L) (get : K → Option V)
    (hraw : ∀ k x, get k = some x → p.rawPred k = some (some x)) {v : V} {l : List V}
    (h : Chain get p.vid v l) (fuel : Nat) (hf : l.length ≤ fuel) :
    iterVertsLoop p fuel v = (l, .done) := by
  induction h generalizing fuel with
  | @start v h =>
    cases fuel with
    | zero => simp at hf
    | succ f => simp [iterVertsLoop, hraw _ _ h]
  | @step v u l h hne _ ih =>
    cases fuel with
    | zero => simp at hf
    | succ f =>
      have := ih f (by simpa using hf)
      simp [iterVertsLoop, hraw _ _ h, Ne.symm hne, this]

/-- The edges of a vertex list given from the last vertex to the first, with ids of the targets. -/
def rawEdges (vid : V → K) : List V → List (V × V × K)
  | v :: u :: rest => (u, v, vid v) :: rawEdges vid (u :: rest)
  | _ => []

theorem iterRawLoop_chain (p : PathsView V K L) (get : K → Option V)
    (hraw : ∀ k x, get k = some x → p.rawPred k = some (some x)) {v : V} {l : List V}
    (h : Chain get p.vid v l) (fuel : Nat) (hf : l.length ≤ fuel) :
    iterRawLoop p fuel v = (rawEdges p.vid l, .done) := by
  induction h generalizing fuel with
  | @start v h =>
    cases fuel with
    | zero => simp at hf
    | succ f => simp [iterRawLoop, hraw _ _ h, rawEdges]
  | @step v u l h hne hc ih =>
    cases fuel with
    | zero => simp at hf
    | succ f =>
      have := ih f (by simpa using hf)
      have hh := hc.head
      cases l with
      | nil => simp at hh
      | cons a r =>
        simp at hh; subst hh
        simp [iterRawLoop, hraw _ _ h, hne, this, rawEdges]

theorem iterPathEdges_eq (p : PathsView V K L) (lab : K → L) (raw : List (V × V × K)) (e : Ending)
    (h : ∀ t ∈ raw, p.rawLabel t.2.2 = some (some (lab t.2.2))) :
    p.iterPathEdges raw e = (raw.map (fun t => (t.1, t.2.1, lab t.2.2)), e) := by
  induction raw with
  | nil => rfl
  | cons t rest ih =>
    obtain ⟨u, v, k⟩ := t
    have h1 := h (u, v, k) (by simp)
    simp only at h1
    rw [PathsView.iterPathEdges, h1]
    simp only
    rw [ih (fun t ht => h t (List.mem_cons_of_mem _ ht))]
    simp

theorem takeExceptForLastAux_eq {α : Type} (a : α) (l : List α) :
    takeExceptForLastAux a l = (a :: l).dropLast := by
  induction l generalizing a with
  | nil => rfl
  | cons b r ih => rw [takeExceptForLastAux, ih]; rfl

theorem takeExceptForLast_eq {α : Type} (l : List α) : takeExceptForLast l = l.dropLast := by
  cases l with
  | nil => rfl
  | cons a r => exact takeExceptForLastAux_eq a r

/-- `Paths` container over lawful gear collections: reading through `get?`. -/
theorem pathsView_raw {mo : MapOps M K V} {valid : V → Prop} (hm : mo.Lawful valid) (lo : MapOps ML K L)
    (vid : V → K) (m : M) (ml : ML) (k : K) (x : V) (h : mo.get? m k = some x) :
    (pathsView mo lo vid m ml).rawPred k = some (some x) := hm.raw_of_get m k x h

end NoGraphs
