import Verif.Model.DirectReads
import Verif.Proofs.AStar
import Verif.Proofs.BiDijkstraResult
import Verif.Proofs.BiDijkstraSub
import Verif.Proofs.Gear
import Verif.Proofs.SpPaths

/-! # Direct reads of distances: where no `IndexError` is possible -/

set_option linter.unusedSectionVars false

namespace NoGraphs

open Spec

variable {V K L W M ML D : Type}

/-- What is assumed about direct reads of a distance mapping: they agree with the reads of the mapping, a missing entry
stands for infinity, and entries that have been set can be read. -/
structure DistOps.ReadLaw [LinearOrder W] (o : DistOps D K W) (inf : W) (rd : D → K → Option W) : Prop where
  val : ∀ m k w, rd m k = some w → o.get m k = w
  missing : ∀ m k, rd m k = none → o.get m k = inf
  set_self : ∀ m k w, (rd (o.set m k w) k).isSome
  set_old : ∀ m k w j, (rd m j).isSome → (rd (o.set m k w) j).isSome
  improve_self : ∀ m k w m', o.improve m k w = some m' → (rd m' k).isSome
  improve_old : ∀ m k w m' j, o.improve m k w = some m' → (rd m j).isSome → (rd m' j).isSome
  default_self : ∀ m k w, (rd (o.setDefault m k w) k).isSome
  default_old : ∀ m k w j, (rd m j).isSome → (rd (o.setDefault m k w) j).isSome

theorem dictDist_readLaw [DecidableEq K] [LinearOrder W] (inf : W) :
    (dictDist (K := K) inf).ReadLaw inf (dictRead inf) where
  val m k w h := by simpa [dictRead, dictDist] using h
  missing m k h := by simp [dictRead] at h
  set_self _ _ _ := rfl
  set_old _ _ _ _ _ := rfl
  improve_self _ _ _ _ _ := rfl
  improve_old _ _ _ _ _ _ _ := rfl
  default_self _ _ _ := rfl
  default_old _ _ _ _ _ := rfl

theorem extendAndSet_len {α : Type} (p : SeqParams α) (hp : p.Ok) (data : List α) (k : Nat) (v : α)
    (h : data.length ≤ k) : data.length ≤ (extendAndSet p data k v).length ∧
      k < (extendAndSet p data k v).length := by
  unfold extendAndSet
  simp only [List.length_set]
  split
  · rename_i hb
    have h0 := hp hb
    have := extendLoop_length p.extendSize h0 p.default (k + 1 + p.extendSize) (k + 1 + p.extendSize) data (by omega)
    omega
  · simp only [List.length_append, List.length_replicate]; omega

theorem seqRead_isSome (m : List W) (k : Nat) : (seqRead m k).isSome ↔ k < m.length := by
  simp [seqRead, seqGet]

theorem seqDist_readLaw [LinearOrder W] (p : SeqParams W) (hp : p.Ok) (pre : Nat) :
    (seqDist p pre).ReadLaw p.default seqRead where
  val m k w h := by
    simp only [seqRead] at h
    simp [seqDist, h]
  missing m k h := by
    simp only [seqRead] at h
    simp [seqDist, h]
  set_self m k w := by
    rw [seqRead_isSome]
    simp only [seqDist, setOrExtend, seqSet]
    by_cases h : k < m.length
    · simp [h]
    · simp only [if_neg h]; exact (extendAndSet_len p hp m k w (by omega)).2
  set_old m k w j hj := by
    rw [seqRead_isSome] at hj ⊢
    simp only [seqDist, setOrExtend, seqSet]
    by_cases h : k < m.length
    · simp [h, hj]
    · simp only [if_neg h]; have := (extendAndSet_len p hp m k w (by omega)).1; omega
  improve_self m k w m' h := by
    rw [seqRead_isSome]
    simp only [seqDist, seqGet, seqSet] at h
    by_cases hk : k < m.length
    · simp only [List.getElem?_eq_getElem hk, if_pos hk] at h
      split at h
      · simp at h
      · cases h; simp [hk]
    · rw [List.getElem?_eq_none (by omega)] at h
      cases h; exact (extendAndSet_len p hp m k w (by omega)).2
  improve_old m k w m' j h hj := by
    rw [seqRead_isSome] at hj ⊢
    simp only [seqDist, seqGet, seqSet] at h
    by_cases hk : k < m.length
    · simp only [List.getElem?_eq_getElem hk, if_pos hk] at h
      split at h
      · simp at h
      · cases h; simp [hj]
    · rw [List.getElem?_eq_none (by omega)] at h
      cases h; have := (extendAndSet_len p hp m k w (by omega)).1; omega
  default_self m k w := by
    rw [seqRead_isSome]
    simp only [seqDist, SeqMap.updateDefault1, seqGet, seqSet]
    by_cases hk : k < m.length
    · simp only [List.getElem?_eq_getElem hk, if_pos hk]
      split <;> simp [hk]
    · rw [List.getElem?_eq_none (by omega)]
      exact (extendAndSet_len p hp m k w (by omega)).2
  default_old m k w j hj := by
    rw [seqRead_isSome] at hj ⊢
    simp only [seqDist, SeqMap.updateDefault1, seqGet, seqSet]
    by_cases hk : k < m.length
    · simp only [List.getElem?_eq_getElem hk, if_pos hk]
      split <;> simp [hj]
    · rw [List.getElem?_eq_none (by omega)]
      have := (extendAndSet_len p hp m k w (by omega)).1
      simp only; omega

section Law
variable [LinearOrder W] {o : DistOps D K W} {inf : W} {rd : D → K → Option W} (h : o.ReadLaw inf rd)
include h

theorem DistOps.ReadLaw.setAll_old (kvs : List (K × W)) (m : D) (j : K) (hj : (rd m j).isSome) :
    (rd (o.setAll m kvs) j).isSome := by
  unfold DistOps.setAll
  induction kvs generalizing m with
  | nil => exact hj
  | cons kv kvs ih => exact ih _ (h.set_old _ _ _ _ hj)

theorem DistOps.ReadLaw.setAll_self (kvs : List (K × W)) (m : D) (kv : K × W) (hm : kv ∈ kvs) :
    (rd (o.setAll m kvs) kv.1).isSome := by
  induction kvs generalizing m with
  | nil => simp at hm
  | cons kv' kvs ih =>
    rcases List.mem_cons.1 hm with rfl | hm
    · exact h.setAll_old kvs _ _ (h.set_self _ _ _)
    · exact ih _ hm

theorem DistOps.ReadLaw.setDefaults_old (kvs : List (K × W)) (m : D) (j : K) (hj : (rd m j).isSome) :
    (rd (o.setDefaults m kvs) j).isSome := by
  unfold DistOps.setDefaults
  induction kvs generalizing m with
  | nil => exact hj
  | cons kv kvs ih => exact ih _ (h.default_old _ _ _ _ hj)

theorem DistOps.ReadLaw.setDefaults_self (kvs : List (K × W)) (m : D) (kv : K × W) (hm : kv ∈ kvs) :
    (rd (o.setDefaults m kvs) kv.1).isSome := by
  induction kvs generalizing m with
  | nil => simp at hm
  | cons kv' kvs ih =>
    rcases List.mem_cons.1 hm with rfl | hm
    · exact h.setDefaults_old kvs _ _ (h.default_self _ _ _)
    · exact ih _ hm

theorem DistOps.ReadLaw.eq_get {m : D} {k : K} (hs : (rd m k).isSome) : rd m k = some (o.get m k) := by
  obtain ⟨w, hw⟩ := Option.isSome_iff_exists.1 hs
  rw [hw, h.val m k w hw]

end Law

section
variable [AddCommMonoid W] [LinearOrder W] {rd : D → K → Option W} {g : WGear V K L W M ML D}

/-! ## Shortest paths -/

theorem spEntries_start {c : WCfg V K L W} {d : D} {vs : List V} {no : Int} {e : HEntry W (V × Nat)}
    (he : e ∈ spStartEntries g c d vs no) : e.item.1 ∈ vs := by
  induction vs generalizing no with
  | nil => simp [spStartEntries] at he
  | cons v vs ih =>
    simp only [spStartEntries, List.mem_cons] at he
    rcases he with rfl | he
    · exact List.mem_cons_self
    · exact List.mem_cons_of_mem _ (ih he)

theorem directEntries_sp {c : WCfg V K L W} {inf : W} (h : g.dd.ReadLaw inf rd) (d : D) (vs : List V) (no : Int)
    (hs : ∀ v ∈ vs, (rd d (c.vid v)).isSome) :
    directEntries rd c.vid d vs no = some (spStartEntries g c d vs no) := by
  induction vs generalizing no with
  | nil => rfl
  | cons v vs ih =>
    simp only [directEntries, h.eq_get (hs v (by simp)), ih (no - 1) (fun u hu => hs u (by simp [hu])), spStartEntries,
      Option.map_some]

theorem directEntries_none (vid : V → K) (d : D) (vs : List V) (no : Int)
    (hs : ∃ v ∈ vs, rd d (vid v) = none) : directEntries rd vid d vs no = none := by
  induction vs generalizing no with
  | nil => simp at hs
  | cons v vs ih =>
    simp only [directEntries]
    cases hr : rd d (vid v) with
    | none => rfl
    | some w =>
      obtain ⟨u, hu, hn⟩ := hs
      rcases List.mem_cons.1 hu with rfl | hu
      · rw [hr] at hn; simp at hn
      · simp only [ih (no - 1) ⟨u, hu, hn⟩, Option.map_none]

/-- All candidates on the heap have an entry. -/
def SpReadable (rd : D → K → Option W) (c : WCfg V K L W) (s : SpState V L W M ML D) : Prop :=
  c.isTree = false → ∀ e ∈ s.heap, (rd s.dist (c.vid e.item.1)).isSome

theorem spStepDirect_eq {c : WCfg V K L W} {inf : W} (h : g.dd.ReadLaw inf rd) (s : SpState V L W M ML D)
    (hs : SpReadable rd c s) : spStep g c s = spStepDirect rd g c s := by
  unfold spStepDirect
  split
  · rename_i e rest hp hh
    simp only [spStep, hp, hh]
    by_cases ht : c.isTree = true
    · simp [ht]
    · simp only [Bool.not_eq_true] at ht
      have hr := h.eq_get (hs ht e (by rw [hh]; simp))
      simp only [ht, hr, Bool.not_false, Bool.true_and, decide_eq_true_eq, Bool.false_eq_true, if_false]
      split
      · rfl
      · cases c.keepDistances <;> simp
  · rfl

theorem spReadable_next {c : WCfg V K L W} {inf : W} (h : g.dd.ReadLaw inf rd) {s s' : SpState V L W M ML D}
    (hs : SpReadable rd c s) (hn : (spStep g c s).next? = some s') : SpReadable rd c s' := by
  intro ht
  have hs := hs ht
  cases hp : s.pc with
  | loop =>
    cases hh : s.heap with
    | nil => simp [spStep, hp, hh, Step.next?] at hn
    | cons e rest =>
      have hrest : ∀ f ∈ rest, (rd s.dist (c.vid f.item.1)).isSome := fun f hf => hs f (by rw [hh]; simp [hf])
      simp only [spStep, hp, hh, ht, Bool.not_false, Bool.true_and, decide_eq_true_eq] at hn
      split at hn
      · simp only [Step.next?, Option.some.injEq] at hn; subst hn; exact hrest
      · split at hn <;> simp only [Step.next?, Option.some.injEq] at hn <;> subst hn <;> intro f hf <;> dsimp only <;>
          split <;> first
            | exact h.set_old _ _ _ _ (hrest f hf)
            | exact hrest f hf
  | expand v w ec =>
    simp only [spStep, hp, Step.next?, Option.some.injEq] at hn; subst hn; exact hs
  | edges v w ec es =>
    cases es with
    | nil => simp only [spStep, hp, Step.next?, Option.some.injEq] at hn; subst hn; exact hs
    | cons e es =>
      obtain ⟨n, x, l⟩ := e
      simp only [spStep, hp, spImprove, ht, Bool.false_eq_true, if_false] at hn
      split at hn
      · simp [Step.next?] at hn
      · split at hn
        · simp only [Step.next?, Option.some.injEq] at hn; subst hn; exact hs
        · rename_i d hd
          simp only [Step.next?, Option.some.injEq] at hn; subst hn
          intro f hf
          rcases mem_heapPush.1 hf with rfl | hf
          · exact h.improve_self _ _ _ _ hd
          · exact h.improve_old _ _ _ _ _ hd (hs f hf)

theorem spDistances_readable {c : WCfg V K L W} {inf : W} (h : g.dd.ReadLaw inf rd) (known : Option D) (starts : List V)
    (hk : c.isTree = false ∨ known = none) : ∀ v ∈ starts, (rd (spDistances g c known starts) (c.vid v)).isSome := by
  intro v hv
  cases known with
  | none => exact h.setAll_self _ _ (c.vid v, 0) (List.mem_map_of_mem (f := fun v => (c.vid v, (0 : W))) hv)
  | some d =>
    have ht : c.isTree = false := by simpa using hk
    simp only [spDistances, ht, Bool.false_eq_true, if_false]
    exact h.setDefaults_self _ _ (c.vid v, 0) (List.mem_map_of_mem (f := fun v => (c.vid v, (0 : W))) hv)

theorem spRunDirect_eq {c : WCfg V K L W} {inf : W} (h : g.dd.ReadLaw inf rd) (known : Option D) (starts : List V)
    (hr : ∀ v ∈ starts, (rd (spDistances g c known starts) (c.vid v)).isSome) (limit : Option Int) (fuel : Nat) :
    spRunDirect rd g c known starts limit fuel = spRun g c known starts limit fuel := by
  simp only [spRunDirect, directEntries_sp h _ _ _ hr]
  refine (run_congr (SpReadable rd c) (spStepDirect_eq h) (fun s s' => spReadable_next h) fuel _ _ ?_).symm
  intro _ e he
  simp only [mem_heapify] at he
  exact hr _ (spEntries_start he)

/-! ## A* -/

theorem aEntries_start {c : AStarCfg V K L W} {d : D} {vs : List V} {no : Int} {e : HEntry W (V × Nat)}
    (he : e ∈ aStartEntries g c d vs no) : e.item.1 ∈ vs := by
  induction vs generalizing no with
  | nil => simp [aStartEntries] at he
  | cons v vs ih =>
    simp only [aStartEntries, List.mem_cons] at he
    rcases he with rfl | he
    · exact List.mem_cons_self
    · exact List.mem_cons_of_mem _ (ih he)

theorem directEntries_a {c : AStarCfg V K L W} {inf : W} (h : g.dd.ReadLaw inf rd) (d : D) (vs : List V) (no : Int)
    (hs : ∀ v ∈ vs, (rd d (c.vid v)).isSome) :
    directEntries rd c.vid d vs no = some (aStartEntries g c d vs no) := by
  induction vs generalizing no with
  | nil => rfl
  | cons v vs ih =>
    simp only [directEntries, h.eq_get (hs v (by simp)), ih (no - 1) (fun u hu => hs u (by simp [hu])), aStartEntries,
      Option.map_some]

theorem directGuessPairs_eq {c : AStarCfg V K L W} {inf : W} (h : g.dd.ReadLaw inf rd) (d : D) (vs : List V)
    (hs : ∀ v ∈ vs, (rd d (c.vid v)).isSome) :
    directGuessPairs rd c d vs = some (vs.map (fun v => (c.vid v, g.dd.get d (c.vid v) + c.heur v))) := by
  induction vs with
  | nil => rfl
  | cons v vs ih =>
    simp only [directGuessPairs, h.eq_get (hs v (by simp)), ih (fun u hu => hs u (by simp [hu])), List.map_cons,
      Option.map_some]

/-- All candidates on the heap have an entry. -/
def AReadable (rd : D → K → Option W) (c : AStarCfg V K L W) (s : AStarState V L W M ML D) : Prop :=
  ∀ e ∈ s.heap, (rd s.dist (c.vid e.item.1)).isSome ∧
    (c.isTree = false → (rd s.guesses (c.vid e.item.1)).isSome)

theorem aStepDirect_eq {c : AStarCfg V K L W} {inf : W} (h : g.dd.ReadLaw inf rd) (s : AStarState V L W M ML D)
    (hs : AReadable rd c s) : aStep g c s = aStepDirect rd g c s := by
  unfold aStepDirect
  split
  · rename_i e rest hp hh
    have he := hs e (by rw [hh]; simp)
    simp only [aStep, hp, hh, h.eq_get he.1]
    by_cases ht : c.isTree = true
    · simp [ht]
    · simp only [Bool.not_eq_true] at ht
      simp only [ht, h.eq_get (he.2 ht), Bool.not_false, Bool.true_and, decide_eq_true_eq, Bool.false_eq_true, if_false]
  · rfl

theorem aReadable_next {c : AStarCfg V K L W} {inf : W} (h : g.dd.ReadLaw inf rd) {s s' : AStarState V L W M ML D}
    (hs : AReadable rd c s) (hn : (aStep g c s).next? = some s') : AReadable rd c s' := by
  cases hp : s.pc with
  | loop =>
    cases hh : s.heap with
    | nil => simp [aStep, hp, hh, Step.next?] at hn
    | cons e rest =>
      have hrest : ∀ f ∈ rest, (rd s.dist (c.vid f.item.1)).isSome ∧
          (c.isTree = false → (rd s.guesses (c.vid f.item.1)).isSome) := fun f hf => hs f (by rw [hh]; simp [hf])
      simp only [aStep, hp, hh] at hn
      split at hn
      · simp only [Step.next?, Option.some.injEq] at hn; subst hn; exact hrest
      · split at hn <;> simp only [Step.next?, Option.some.injEq] at hn <;> subst hn <;> exact hrest
  | expand v w ec =>
    simp only [aStep, hp, Step.next?, Option.some.injEq] at hn; subst hn; exact hs
  | edges v w ec es =>
    cases es with
    | nil => simp only [aStep, hp, Step.next?, Option.some.injEq] at hn; subst hn; exact hs
    | cons e es =>
      obtain ⟨n, x, l⟩ := e
      simp only [aStep, hp] at hn
      split at hn
      · simp [Step.next?] at hn
      · split at hn
        · simp only [Step.next?, Option.some.injEq] at hn; subst hn; exact hs
        · rename_i d hd
          have hd1 : (rd d (c.vid n)).isSome ∧ ∀ j, (rd s.dist j).isSome → (rd d j).isSome := by
            unfold aImprove at hd
            split at hd
            · cases hd; exact ⟨h.set_self _ _ _, fun j => h.set_old _ _ _ j⟩
            · exact ⟨h.improve_self _ _ _ _ hd, fun j => h.improve_old _ _ _ _ j hd⟩
          split at hn
          · simp [Step.next?] at hn
          · simp only [Step.next?, Option.some.injEq] at hn; subst hn
            intro f hf
            rcases mem_heapPush.1 hf with rfl | hf
            · refine ⟨hd1.1, fun ht => ?_⟩
              simp only [ht, Bool.false_eq_true, if_false]
              exact h.set_self _ _ _
            · refine ⟨hd1.2 _ (hs f hf).1, fun ht => ?_⟩
              simp only [ht, Bool.false_eq_true, if_false]
              exact h.set_old _ _ _ _ ((hs f hf).2 ht)

theorem aDistances_readable {c : AStarCfg V K L W} {inf : W} (h : g.dd.ReadLaw inf rd) (known : Option D)
    (starts : List V) : ∀ v ∈ starts, (rd (aDistances g c known starts) (c.vid v)).isSome := by
  intro v hv
  have hm := List.mem_map_of_mem (f := fun v => (c.vid v, (0 : W))) hv
  cases known with
  | none => exact h.setAll_self _ _ _ hm
  | some d => exact h.setDefaults_self _ _ _ hm

theorem aGuesses_readable {c : AStarCfg V K L W} {inf : W} (h : g.dd.ReadLaw inf rd) (known : Option D) (d : D)
    (starts : List V) (hk : c.isTree = false ∨ known = none) :
    ∀ v ∈ starts, (rd (aGuesses g c known d starts) (c.vid v)).isSome := by
  intro v hv
  have hm := List.mem_map_of_mem (f := fun v => (c.vid v, g.dd.get d (c.vid v) + c.heur v)) hv
  cases known with
  | none => exact h.setAll_self _ _ _ hm
  | some k =>
    have ht : c.isTree = false := by simpa using hk
    simp only [aGuesses, ht, Bool.false_eq_true, if_false]
    exact h.setDefaults_self _ _ _ hm

theorem aRunDirect_eq {c : AStarCfg V K L W} {inf : W} (h : g.dd.ReadLaw inf rd) (known knownGuesses : Option D)
    (starts : List V)
    (hr : ∀ v ∈ starts, (rd (aGuesses g c knownGuesses (aDistances g c known starts) starts) (c.vid v)).isSome)
    (limit : Option Int) (fuel : Nat) :
    aRunDirect rd g c known knownGuesses starts limit fuel = aRun g c known knownGuesses starts limit fuel := by
  have hd := aDistances_readable h (c := c) known starts
  have hg : aGuessesDirect rd g c knownGuesses (aDistances g c known starts) starts =
      some (aGuesses g c knownGuesses (aDistances g c known starts) starts) := by
    unfold aGuessesDirect aGuesses
    rw [directGuessPairs_eq h _ _ hd]
    cases knownGuesses with
    | none => rfl
    | some k => by_cases ht : c.isTree = true <;> simp [ht]
  simp only [aRunDirect, hg, directEntries_a h _ _ _ hr]
  refine (run_congr (AReadable rd c) (aStepDirect_eq h) (fun s s' => aReadable_next h) fuel _ _ ?_).symm
  intro e he
  have he := aEntries_start (mem_heapify.1 he)
  exact ⟨hd _ he, fun _ => hr _ he⟩

/-! ## Bidirectional search -/

theorem bdEntries_start {c : BdCfg V K L W} {d : D} {vs : List V} {no : Int} {e : HEntry W V}
    (he : e ∈ bdStartEntries g c d vs no) : e.item ∈ vs ∧ e.key = g.dd.get d (c.vid e.item) := by
  induction vs generalizing no with
  | nil => simp [bdStartEntries] at he
  | cons v vs ih =>
    simp only [bdStartEntries, List.mem_cons] at he
    rcases he with rfl | he
    · exact ⟨List.mem_cons_self, rfl⟩
    · exact ⟨List.mem_cons_of_mem _ (ih he).1, (ih he).2⟩

theorem bdDirectEntries_eq {c : BdCfg V K L W} {inf : W} (h : g.dd.ReadLaw inf rd) (d : D) (vs : List V) (no : Int)
    (hs : ∀ v ∈ vs, (rd d (c.vid v)).isSome) :
    bdDirectEntries rd c.vid d vs no = some (bdStartEntries g c d vs no) := by
  induction vs generalizing no with
  | nil => rfl
  | cons v vs ih =>
    simp only [bdDirectEntries, h.eq_get (hs v (by simp)), ih (no - 1) (fun u hu => hs u (by simp [hu])),
      bdStartEntries, Option.map_some]

/-- All candidates on the heaps have an entry, no weight is negative, and the best length is at most infinity. -/
structure BdReadable (rd : D → K → Option W) (c : BdCfg V K L W) (s : BdState V L W M ML D) : Prop where
  heap : ∀ b, ∀ e ∈ (s.get b).heap, (rd (s.get b).dist (c.vid e.item)).isSome ∧ 0 ≤ e.key
  pc : match s.pc with
    | .loop => True
    | .edges _ w es => 0 ≤ w ∧ ∀ e ∈ es, (0 : W) ≤ e.2.1
  best : s.best ≤ c.inf

theorem bdStepDirect_eq [IsOrderedAddMonoid W] {c : BdCfg V K L W} (h : g.dd.ReadLaw c.inf rd)
    (s : BdState V L W M ML D) (hs : BdReadable rd c s) : bdStep g c s = bdStepDirect rd g c s := by
  cases hp : s.pc with
  | loop =>
    simp only [bdStep, bdStepDirect, hp]
    cases hh : (s.get s.back).heap with
    | nil => rfl
    | cons e rest =>
      simp only [h.eq_get (hs.heap s.back e (by rw [hh]; simp)).1]
      cases hl : checkLimit (s.get s.back).lim <;> rfl
  | edges v w es =>
    cases es with
    | nil => simp only [bdStep, bdStepDirect, hp]
    | cons e es =>
      obtain ⟨n, x, l⟩ := e
      simp only [bdStep, bdStepDirect, hp]
      split
      · rfl
      · cases hi : g.dd.improve (s.get s.back).dist (c.vid n) (x + w) with
        | none => rfl
        | some d =>
          cases hr : rd (s.get (!s.back)).dist (c.vid n) with
          | some o => simp only [h.val _ _ _ hr]
          | none =>
            have hpc := hs.pc
            rw [hp] at hpc
            have h0 : 0 ≤ x + w := add_nonneg (hpc.2 (n, x, l) (by simp)) hpc.1
            simp only [h.missing _ _ hr]
            rw [if_pos (hs.best.trans (le_add_of_nonneg_left h0))]

theorem bdReadable_next [IsOrderedAddMonoid W] {c : BdCfg V K L W} (h : g.dd.ReadLaw c.inf rd)
    (hn : ∀ b, NonNeg (c.next b)) {s s' : BdState V L W M ML D} (hs : BdReadable rd c s)
    (hst : (bdStep g c s).next? = some s') : BdReadable rd c s' := by
  have hsame : ∀ (t : BdState V L W M ML D) (x : BdSide V W M ML D), (t.setCur x).get t.back = x := by
    intro t x; cases hb : t.back <;> simp [BdState.get, BdState.setCur, hb]
  have hother : ∀ (t : BdState V L W M ML D) (x : BdSide V W M ML D), (t.setCur x).get (!t.back) = t.get (!t.back) := by
    intro t x; cases hb : t.back <;> simp [BdState.get, BdState.setCur, hb]
  have hbest : ∀ (t : BdState V L W M ML D) (x : BdSide V W M ML D), (t.setCur x).best = t.best := by
    intro t x; unfold BdState.setCur; split <;> rfl
  have hheap : ∀ x : BdSide V W M ML D, (∀ e ∈ x.heap, (rd x.dist (c.vid e.item)).isSome ∧ 0 ≤ e.key) →
      ∀ b, ∀ e ∈ ((s.setCur x).get b).heap, (rd ((s.setCur x).get b).dist (c.vid e.item)).isSome ∧ 0 ≤ e.key := by
    intro x hx b
    rcases Bool.eq_or_eq_not b s.back with rfl | rfl
    · rw [hsame]; exact hx
    · rw [hother]; exact hs.heap _
  cases hp : s.pc with
  | loop =>
    simp only [bdStep, hp] at hst
    cases hh : (s.get s.back).heap with
    | nil => simp [hh, Step.next?] at hst
    | cons e rest =>
      have hrest : ∀ f ∈ rest, (rd (s.get s.back).dist (c.vid f.item)).isSome ∧ 0 ≤ f.key :=
        fun f hf => hs.heap _ f (by rw [hh]; simp [hf])
      simp only [hh] at hst
      split at hst
      · simp only [Step.next?, Option.some.injEq] at hst; subst hst
        refine ⟨hheap { s.get s.back with heap := rest } hrest, ?_, (hbest _ _).trans_le hs.best⟩
        have : (s.setCur { s.get s.back with heap := rest }).pc = .loop := by
          unfold BdState.setCur; split <;> exact hp
        simp only [this]
      · split at hst
        · simp [Step.next?] at hst
        · split at hst
          · simp [Step.next?] at hst
          · rename_i lim hl
            simp only [Step.next?, Option.some.injEq] at hst; subst hst
            refine ⟨hheap { s.get s.back with heap := rest, lim := lim } hrest, ?_, (hbest _ _).trans_le hs.best⟩
            exact ⟨(hs.heap _ e (by rw [hh]; simp)).2, fun f hf => hn _ _ f.1 f.2.1 ⟨f.2.2, hf⟩⟩
  | edges v w es =>
    have hpc := hs.pc
    rw [hp] at hpc
    cases es with
    | nil =>
      simp only [bdStep, hp, Step.next?, Option.some.injEq] at hst; subst hst
      exact ⟨hs.heap, trivial, hs.best⟩
    | cons e es =>
      obtain ⟨n, x, l⟩ := e
      have h0 : 0 ≤ x + w := add_nonneg (hpc.2 (n, x, l) (by simp)) hpc.1
      have hes : 0 ≤ w ∧ ∀ e ∈ es, (0 : W) ≤ e.2.1 := ⟨hpc.1, fun e he => hpc.2 e (by simp [he])⟩
      simp only [bdStep, hp] at hst
      split at hst
      · simp [Step.next?] at hst
      · split at hst
        · simp only [Step.next?, Option.some.injEq] at hst; subst hst
          exact ⟨hs.heap, hes, hs.best⟩
        · rename_i d hd
          have hx : ∀ e ∈ heapPush (s.get s.back).heap ⟨x + w, (s.get s.back).no, n⟩,
              (rd d (c.vid e.item)).isSome ∧ 0 ≤ e.key := by
            intro f hf
            rcases mem_heapPush.1 hf with rfl | hf
            · exact ⟨h.improve_self _ _ _ _ hd, h0⟩
            · exact ⟨h.improve_old _ _ _ _ _ hd (hs.heap _ f hf).1, (hs.heap _ f hf).2⟩
          split at hst
          · simp only [Step.next?, Option.some.injEq] at hst; subst hst
            exact ⟨hheap ⟨_, _, d, _, _, _⟩ hx, hes, (hbest _ _).trans_le hs.best⟩
          · rename_i hlt
            simp only [Step.next?, Option.some.injEq] at hst; subst hst
            exact ⟨hheap ⟨_, _, d, _, _, _⟩ hx, hes, (le_of_lt (not_le.1 hlt)).trans hs.best⟩

theorem bdSearchDirect_eq [DecidableEq V] [DecidableEq K] [IsOrderedAddMonoid W] {c : BdCfg V K L W}
    (hd : g.dd.Lawful c.inf) (h : g.dd.ReadLaw c.inf rd) (hn : ∀ b, NonNeg (c.next b)) (starts goals : List V)
    (limit : Option Int) (fuel pathFuel : Nat) :
    bdSearchDirect rd g c starts goals limit fuel pathFuel = bdSearch g c starts goals limit fuel pathFuel := by
  have hr : ∀ vs : List V, ∀ v ∈ vs, (rd (bdDistances g c vs) (c.vid v)).isSome := fun vs v hv =>
    h.setAll_self _ _ (c.vid v, 0) (List.mem_map_of_mem (f := fun v => (c.vid v, (0 : W))) hv)
  cases starts with
  | nil => rfl
  | cons start starts =>
    cases goals with
    | nil => rfl
    | cons goal goals =>
      simp only [bdSearchDirect, bdSearch, bdDirectEntries_eq h _ _ _ (hr _)]
      cases biCommon c.vid (start :: starts) (goal :: goals) true true with
      | some v => rfl
      | none =>
        have hI : BdReadable rd c (bdInit g c start (start :: starts) (goal :: goals) limit : BdState V L W M ML D) := by
          have key : ∀ vs : List V, ∀ e ∈ (bdInitSide g c vs limit : BdSide V W M ML D).heap,
              (rd (bdDistances g c vs) (c.vid e.item)).isSome ∧ 0 ≤ e.key := by
            intro vs e he
            obtain ⟨h1, h2⟩ := bdEntries_start (mem_heapify.1 he)
            refine ⟨hr _ _ h1, ?_⟩
            rw [h2]
            unfold bdDistances
            rw [hd.get_setAll_const, if_pos (List.mem_map.2 ⟨_, h1, rfl⟩)]
          refine ⟨fun b => ?_, trivial, le_refl _⟩
          cases b
          · exact key _
          · exact key _
        have := run_congr (BdReadable rd c) (bdStepDirect_eq h) (fun s s' => bdReadable_next h hn) fuel none _ hI
        rw [this]
        simp only [bdInit, bdInitSide]
        split <;> rename_i he <;> simp only [he]
        rfl

/-! ## No step of the models with reads of infinity raises an `IndexError` -/

theorem run_no_index {σ ρ : Type} (m : σ → Step σ ρ) (hm : ∀ s, m s ≠ .fail .indexError) (fuel : Nat) (lim : Option Int)
    (s : σ) : (runMachine m fuel lim s).ending ≠ .raised .indexError := by
  intro he
  obtain ⟨t, -, ht⟩ := run_reaches m fuel lim s
  rw [he] at ht
  rcases ht with ht | ⟨ht, -⟩
  · exact hm t ht
  · simp at ht

theorem spStep_no_index (c : WCfg V K L W) (s : SpState V L W M ML D) : spStep g c s ≠ .fail .indexError := by
  unfold spStep
  split
  · split
    · simp
    · dsimp only; split
      · simp
      · split <;> simp
  · simp
  · simp
  · dsimp only; split
    · simp
    · split <;> simp

theorem aStep_no_index (c : AStarCfg V K L W) (s : AStarState V L W M ML D) : aStep g c s ≠ .fail .indexError := by
  unfold aStep
  split
  · split
    · simp
    · dsimp only; split
      · simp
      · split <;> simp
  · simp
  · simp
  · dsimp only; split
    · simp
    · split
      · simp
      · split <;> simp

theorem bdStep_no_index (c : BdCfg V K L W) (s : BdState V L W M ML D) : bdStep g c s ≠ .fail .indexError := by
  unfold bdStep
  dsimp only
  split
  · split
    · simp
    · split
      · simp
      · split
        · simp
        · split <;> simp
  · simp
  · split
    · simp
    · split
      · simp
      · split <;> simp

theorem bdSearch_no_index [DecidableEq V] [DecidableEq K] (c : BdCfg V K L W) (starts goals : List V) (limit : Option Int)
    (fuel pathFuel : Nat) : bdSearch g c starts goals limit fuel pathFuel ≠ .raised .indexError := by
  cases starts with
  | nil => simp [bdSearch]
  | cons start st =>
    cases goals with
    | nil => simp [bdSearch]
    | cons goal gl =>
      simp only [bdSearch]
      have := run_no_index (bdStep g c) (bdStep_no_index c) fuel none (bdInit g c start (start :: st) (goal :: gl) limit)
      split
      · simp
      · split
        · split <;> simp
        · rename_i e he
          intro h
          cases h
          exact this he
        · simp

/-! ## Trees and known distances -/

/-- The same up to the distances. -/
def SpTreeSim (s t : SpState V L W M ML D) : Prop :=
  s.pc = t.pc ∧ s.heap = t.heap ∧ s.no = t.no ∧ s.preds = t.preds ∧ s.labels = t.labels

/-- The same report up to the distances. -/
def SpTreeRep (r r' : SpReport V W M ML D) : Prop :=
  r.vertex = r'.vertex ∧ r.distance = r'.distance ∧ r.depth = r'.depth ∧ r.preds = r'.preds ∧ r.labels = r'.labels

theorem spTree_sim {c : WCfg V K L W} (ht : c.isTree = true) (s t : SpState V L W M ML D) (h : SpTreeSim s t) :
    StepRel SpTreeSim (fun _ _ => True) SpTreeRep (spStepDirect rd g c s) (spStep g c t) := by
  obtain ⟨pc, heap, no, dist, preds, labels⟩ := s
  obtain ⟨pc', heap', no', dist', preds', labels'⟩ := t
  obtain ⟨h1, h2, h3, h4, h5⟩ := h
  simp only at h1 h2 h3 h4 h5
  subst h1 h2 h3 h4 h5
  cases pc with
  | loop =>
    cases heap with
    | nil => exact .stop trivial
    | cons e rest =>
      simp only [spStepDirect, spStep, ht, Bool.not_true, Bool.false_and, Bool.false_eq_true, if_false, if_true]
      split
      · exact .emit ⟨rfl, rfl, rfl, rfl, rfl⟩ ⟨rfl, rfl, rfl, rfl, rfl⟩
      · exact .tau ⟨rfl, rfl, rfl, rfl, rfl⟩
  | expand v w ec => exact .expand ⟨rfl, rfl, rfl, rfl, rfl⟩
  | edges v w ec es =>
    cases es with
    | nil => exact .tau ⟨rfl, rfl, rfl, rfl, rfl⟩
    | cons e es =>
      obtain ⟨n, x, l⟩ := e
      simp only [spStepDirect, spStep, spImprove, ht, if_true]
      split
      · exact .fail
      · exact .tau ⟨rfl, rfl, rfl, rfl, rfl⟩

theorem directEntries_zero {c : WCfg V K L W} (d e : D) (vs : List V) (no : Int) (hs : ∀ v ∈ vs, rd d (c.vid v) = some 0)
    (he : ∀ v ∈ vs, g.dd.get e (c.vid v) = 0) : directEntries rd c.vid d vs no = some (spStartEntries g c e vs no) := by
  induction vs generalizing no with
  | nil => rfl
  | cons v vs ih =>
    simp only [directEntries, hs v (by simp), ih (no - 1) (fun u hu => hs u (by simp [hu]))
      (fun u hu => he u (by simp [hu])), spStartEntries, Option.map_some, he v (by simp)]

theorem spRunDirect_tree_known [DecidableEq V] [DecidableEq K] [IsOrderedAddMonoid W] {c : WCfg V K L W} (hd : g.dd.Lawful c.inf) (ht : c.isTree = true) (d : D)
    (starts : List V) (hs : ∀ v ∈ starts, rd d (c.vid v) = some 0) (limit : Option Int) (fuel : Nat) :
    List.Forall₂ (EvRel SpTreeRep) (spRunDirect rd g c (some d) starts limit fuel).events
      (spRun g c none starts limit fuel).events ∧
    (spRunDirect rd g c (some d) starts limit fuel).ending = (spRun g c none starts limit fuel).ending := by
  have h0 : ∀ v ∈ starts, g.dd.get (spDistances g c none starts) (c.vid v) = 0 := by
    intro v hv
    simp only [spDistances]
    rw [hd.get_setAll_const, if_pos (List.mem_map.2 ⟨_, hv, rfl⟩)]
  have hd' : spDistances g c (some d) starts = d := by simp [spDistances, ht]
  simp only [spRunDirect, hd', directEntries_zero d _ starts 256 hs h0]
  have := run_sim SpTreeSim (fun _ _ => True) SpTreeRep (fun s t h => spTree_sim (rd := rd) (g := g) ht s t h) fuel
    (prepareLimit limit)
    { (spInit g c (some d) starts : SpState V L W M ML D) with
      heap := heapify (spStartEntries g c (spDistances g c none starts) starts 256) } (spInit g c none starts)
    ⟨rfl, rfl, rfl, rfl, rfl⟩
  exact ⟨this.1, this.2.1⟩

/-- Only start vertices are on the heap, with infinite distance. -/
def SpLost (c : WCfg V K L W) (s : SpState V L W M ML D) : Prop :=
  (∀ e ∈ s.heap, c.inf ≤ e.key ∧ e.item.2 = 0) ∧
  match s.pc with
  | .loop => True
  | .expand _ w _ => c.inf ≤ w
  | .edges _ w _ es => c.inf ≤ w ∧ ∀ e ∈ es, (0 : W) ≤ e.2.1

theorem spLost_step [IsOrderedAddMonoid W] {c : WCfg V K L W} (ht : c.isTree = true) (hn : NonNeg c.next)
    (s : SpState V L W M ML D) (hs : SpLost c s) :
    (∀ r s', spStepDirect rd g c s ≠ .emit r s') ∧ ∀ s', (spStepDirect rd g c s).next? = some s' → SpLost c s' := by
  obtain ⟨pc, heap, no, dist, preds, labels⟩ := s
  obtain ⟨hh, hp⟩ := hs
  cases pc with
  | loop =>
    cases heap with
    | nil => exact ⟨by simp [spStepDirect, spStep], by simp [spStepDirect, spStep, Step.next?]⟩
    | cons e rest =>
      have he := hh e (by simp)
      simp only [spStepDirect, ht, if_true, he.2, gt_iff_lt, lt_irrefl, if_false]
      refine ⟨by simp, fun s' hs' => ?_⟩
      simp only [Step.next?, Option.some.injEq] at hs'
      subst hs'
      exact ⟨fun f hf => hh f (by simp [hf]), he.1⟩
  | expand v w ec =>
    refine ⟨by simp [spStepDirect, spStep], fun s' hs' => ?_⟩
    simp only [spStepDirect, spStep, Step.next?, Option.some.injEq] at hs'
    subst hs'
    exact ⟨hh, hp, fun f hf => hn _ f.1 f.2.1 ⟨f.2.2, hf⟩⟩
  | edges v w ec es =>
    cases es with
    | nil =>
      refine ⟨by simp [spStepDirect, spStep], fun s' hs' => ?_⟩
      simp only [spStepDirect, spStep, Step.next?, Option.some.injEq] at hs'
      subst hs'
      exact ⟨hh, trivial⟩
    | cons e es =>
      obtain ⟨n, x, l⟩ := e
      have hle : c.inf ≤ x + w := le_add_of_nonneg_of_le (hp.2 (n, x, l) (by simp)) hp.1
      simp only [spStepDirect, spStep, if_pos hle]
      exact ⟨by simp, by simp [Step.next?]⟩

theorem run_no_reports {σ ρ : Type} (m : σ → Step σ ρ) (I : σ → Prop)
    (hm : ∀ s, I s → (∀ r s', m s ≠ .emit r s') ∧ ∀ s', (m s).next? = some s' → I s') (fuel : Nat) (lim : Option Int)
    (s : σ) (hs : I s) : repsOf (runMachine m fuel lim s).events = [] := by
  induction fuel generalizing lim s with
  | zero => rfl
  | succ fuel ih =>
    have h := hm s hs
    unfold runMachine
    cases hx : m s with
    | stop t => rfl
    | fail e => rfl
    | tau t => exact ih _ _ (h.2 t (by rw [hx]; rfl))
    | emit r t => exact absurd hx (h.1 r t)
    | expand t =>
      simp only
      cases checkLimit lim with
      | none => rfl
      | some l => exact ih _ _ (h.2 t (by rw [hx]; rfl))

theorem directEntries_key (vid : V → K) (d : D) (vs : List V) (no : Int) (es : List (HEntry W (V × Nat)))
    (he : directEntries rd vid d vs no = some es) :
    ∀ e ∈ es, e.item.1 ∈ vs ∧ e.item.2 = 0 ∧ rd d (vid e.item.1) = some e.key := by
  induction vs generalizing no es with
  | nil => cases he; simp
  | cons v vs ih =>
    simp only [directEntries] at he
    cases hr : rd d (vid v) with
    | none => simp [hr] at he
    | some w =>
      simp only [hr, Option.map_eq_some_iff] at he
      obtain ⟨es', he', rfl⟩ := he
      intro e hm
      rcases List.mem_cons.1 hm with rfl | hm
      · exact ⟨List.mem_cons_self, rfl, hr⟩
      · have := ih _ _ he' e hm
        exact ⟨List.mem_cons_of_mem _ this.1, this.2⟩

theorem spRunDirect_tree_missing [IsOrderedAddMonoid W] {c : WCfg V K L W} (ht : c.isTree = true) (hn : NonNeg c.next)
    (d : D) (starts : List V) (hs : ∀ v ∈ starts, ∀ w, rd d (c.vid v) = some w → c.inf ≤ w) (limit : Option Int)
    (fuel : Nat) : repsOf (spRunDirect rd g c (some d) starts limit fuel).events = [] := by
  have hd' : spDistances g c (some d) starts = d := by simp [spDistances, ht]
  simp only [spRunDirect, hd']
  cases he : directEntries rd c.vid d starts 256 with
  | none => rfl
  | some es =>
    refine run_no_reports _ (SpLost c) (spLost_step ht hn) _ _ _ ⟨fun e hm => ?_, trivial⟩
    have := directEntries_key _ _ _ _ _ he e (mem_heapify.1 hm)
    exact ⟨hs _ this.1 _ this.2.2, this.2.1⟩

end

end NoGraphs
