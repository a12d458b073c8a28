import Verif.Proofs.BiBfs
import Verif.Proofs.Shows
import Verif.Props.Paths

/-! Bidirectional breadth-first search: results. -/

set_option linter.unusedSectionVars false

namespace NoGraphs

open Spec

variable {V K L S M ML : Type} [DecidableEq V] [DecidableEq K]

/-! ## Joining paths -/

/-- The steps of the reversed path. -/
def revSteps : V → List (V × L) → List (V × L)
  | _, [] => []
  | s, (t, l) :: r => revSteps t r ++ [(s, l)]

theorem revSteps_length (s : V) (steps : List (V × L)) : (revSteps s steps).length = steps.length := by
  induction steps generalizing s with
  | nil => rfl
  | cons a r ih => obtain ⟨t, l⟩ := a; simp [revSteps, ih]

theorem revSteps_verts (s : V) (steps : List (V × L)) :
    (revSteps s steps).map Prod.fst = (s :: steps.map Prod.fst).reverse.tail := by
  induction steps generalizing s with
  | nil => rfl
  | cons a r ih =>
    obtain ⟨t, l⟩ := a
    simp only [revSteps, List.map_append, List.map_cons, List.map_nil, ih]
    rw [List.reverse_cons (a := s), List.tail_append_of_ne_nil (by simp)]

theorem revSteps_last (s v : V) (steps : List (V × L)) (h : (s :: steps.map Prod.fst).getLast? = some v) :
    (v :: (revSteps s steps).map Prod.fst).getLast? = some s := by
  rw [revSteps_verts]
  have h2 : (s :: steps.map Prod.fst).reverse.head? = some v := by rw [List.head?_reverse]; exact h
  cases hr : (s :: steps.map Prod.fst).reverse with
  | nil => simp at hr
  | cons a q =>
    rw [hr] at h2
    simp only [List.head?_cons, Option.some.injEq] at h2
    subst h2
    rw [List.tail_cons, ← hr]
    simp

theorem revSteps_edges (s v : V) (steps : List (V × L)) (h : (s :: steps.map Prod.fst).getLast? = some v) :
    edgesFrom v (revSteps s steps) = (edgesFrom s steps).reverse.map (fun e => (e.2.1, e.1, e.2.2)) := by
  induction steps generalizing s with
  | nil => rfl
  | cons a r ih =>
    obtain ⟨t, l⟩ := a
    have h' : (t :: r.map Prod.fst).getLast? = some v := by
      simpa [List.getLast?_cons_cons] using h
    have hl := revSteps_last t v r h'
    simp only [revSteps, edgesFrom, List.reverse_cons, List.map_append, List.map_cons, List.map_nil]
    rw [edgesFrom_snoc, ih t h']
    congr 3
    rw [List.getLast?_eq_some_getLast (by simp)] at hl
    simpa using hl

theorem revSteps_isPath {nextF nextB : V → List (V × L)} (hop : ∀ u v l, (u, l) ∈ nextB v → (v, l) ∈ nextF u)
    (s v : V) (steps : List (V × L)) (h : (s :: steps.map Prod.fst).getLast? = some v)
    (hp : IsPath nextB s steps) : IsPath nextF v (revSteps s steps) := by
  induction steps generalizing s with
  | nil => trivial
  | cons a r ih =>
    obtain ⟨t, l⟩ := a
    have h' : (t :: r.map Prod.fst).getLast? = some v := by
      simpa [List.getLast?_cons_cons] using h
    simp only [revSteps]
    exact (ih t h' hp.2).snoc (revSteps_last t v r h') (hop _ _ _ hp.1)

theorem Spec.IsPath.append {next : V → List (V × L)} {s u : V} {a b : List (V × L)}
    (ha : IsPath next s a) (hu : (s :: a.map Prod.fst).getLast? = some u) (hb : IsPath next u b) :
    IsPath next s (a ++ b) := by
  induction a generalizing s with
  | nil =>
    simp only [List.map_nil, List.getLast?_singleton, Option.some.injEq] at hu
    subst hu; exact hb
  | cons x r ih =>
    obtain ⟨t, l⟩ := x
    exact ⟨ha.1, ih ha.2 (by simpa [List.getLast?_cons_cons] using hu)⟩

theorem edgesFrom_append {s u : V} {a b : List (V × L)} (hu : (s :: a.map Prod.fst).getLast? = some u) :
    edgesFrom s (a ++ b) = edgesFrom s a ++ edgesFrom u b := by
  induction a generalizing s with
  | nil =>
    simp only [List.map_nil, List.getLast?_singleton, Option.some.injEq] at hu
    subst hu; rfl
  | cons x r ih =>
    obtain ⟨t, l⟩ := x
    simp only [List.cons_append, edgesFrom]
    rw [ih (by simpa [List.getLast?_cons_cons] using hu)]

/-- The path object shows the path `p`, in all its methods. -/
def PathObj.Shows (o : PathObj V L) (p : SPath V L) : Prop :=
  o.vertsForwards = p.verts ∧ o.vertsBackwards = p.verts.reverse ∧
  o.edgesForwards = p.edges ∧ o.edgesBackwards = p.edges.reverse ∧
  o.iterEdgesFromStart = p.edges.map (fun e => (e.1, e.2.1)) ∧
  o.iterEdgesToStart = (p.edges.map (fun e => (e.1, e.2.1))).reverse

/-- The path built from two stored paths. -/
theorem fromBidirectional_shows {mo : MapOps M K V} {lo : MapOps ML K L} {validV : V → Prop} {validL : L → Prop}
    (hm : mo.Lawful validV) (hl : lo.Lawful validL) {vid : V → K} {nextF nextB : V → List (V × L)}
    (hop : ∀ u v l, (u, l) ∈ nextB v → (v, l) ∈ nextF u) {starts goals : List V} {v : V} {f b : SPath V L}
    {pF pB : M} {lF lB : ML}
    (hf : PathOk nextF starts vid (mo.get? pF) (lo.get? lF) v f)
    (hb : PathOk nextB goals vid (mo.get? pB) (lo.get? lB) v b) (fuel : Nat)
    (hff : f.steps.length < fuel) (hfb : b.steps.length < fuel) :
    ∃ p : SPath V L, (PathObj.fromBidirectionalSearch (pathsView mo lo vid pF lF) (pathsView mo lo vid pB lB) fuel v).Shows p ∧
      p.first ∈ starts ∧ IsPath nextF p.first p.steps ∧ (∃ t ∈ goals, p.verts.getLast? = some t) ∧
      p.steps.length = f.steps.length + b.steps.length ∧
      p = ⟨f.first, f.steps ++ revSteps b.first b.steps⟩ := by
  have key := C34_bidirectional_path (pathsView mo lo vid pF lF) (pathsView mo lo vid pB lB)
    (mo.get? pF) (mo.get? pB) (lo.get? lF) (lo.get? lB) (fun _ => rfl) (fun _ => rfl)
    (fun k x h => hm.raw_of_get _ _ _ h) (fun k x h => hm.raw_of_get _ _ _ h)
    (fun k x h => hl.raw_of_get _ _ _ h) (fun k x h => hl.raw_of_get _ _ _ h) hf.2.2 hb.2.2 fuel hff hfb
  obtain ⟨k1, k2, k3, k4, k5, k6⟩ := key
  have hfl : (f.first :: f.steps.map Prod.fst).getLast? = some v := hf.2.2.last
  have hbl : (b.first :: b.steps.map Prod.fst).getLast? = some v := hb.2.2.last
  have hverts : (⟨f.first, f.steps ++ revSteps b.first b.steps⟩ : SPath V L).verts =
      f.verts ++ b.verts.reverse.tail := by
    simp only [SPath.verts, List.map_append, revSteps_verts, List.cons_append]
  have hedges : (⟨f.first, f.steps ++ revSteps b.first b.steps⟩ : SPath V L).edges =
      f.edges ++ b.edges.reverse.map (fun e => (e.2.1, e.1, e.2.2)) := by
    simp only [SPath.edges]
    rw [edgesFrom_append hfl, revSteps_edges _ _ _ hbl]
  refine ⟨⟨f.first, f.steps ++ revSteps b.first b.steps⟩, ?_, hf.1, ?_, ⟨b.first, hb.1, ?_⟩, ?_, rfl⟩
  · have h3 := k3.trans hedges.symm
    have h1 := k1.trans hverts.symm
    refine ⟨h1, by rw [k2, h1], h3, by rw [k4, h3], by rw [k5, h3], by rw [k6, k5, h3]⟩
  · exact hf.2.1.append hfl (revSteps_isPath hop _ _ _ hbl hb.2.1)
  · have h1 := revSteps_last _ _ _ hbl
    rw [hverts]
    simp only [SPath.verts]
    rw [← revSteps_verts]
    rw [← List.dropLast_append_getLast? _ hfl, List.append_assoc, List.singleton_append]
    rw [List.getLast?_append, h1]
    rfl
  · simp [revSteps_length]

variable {g : TravGear V K L S M ML} {c : BiCfg V K L} {starts goals : List V}

/-- How the search stops. -/
theorem biStep_stop {s t : BiState V L S M ML} (hs : biStep g c s = .stop t) :
    (t = s ∧ ∃ x, bfsStep g (c.side s.back) true (s.get s.back).st = .stop x) ∨
    ∃ r x, bfsStep g (c.side s.back) true (s.get s.back).st = .emit r x ∧ s.prev ≠ some r.vertex ∧
      g.so.contains (s.get (!s.back)).st.visited (c.vid r.vertex) = true ∧
      ∃ s', s' = s.setCur { s.get s.back with st := x, started := true } ∧
        t = { s' with result := some (s'.fw.depth + s'.bw.depth, biPath g c s' r.vertex) } := by
  unfold biStep at hs
  rw [BiState.cur_eq] at hs
  split at hs
  · rename_i x hx
    simp only [Step.stop.injEq] at hs
    exact .inl ⟨hs.symm, x, hx⟩
  · simp at hs
  · simp at hs
  · split at hs <;> simp at hs
  · rename_i r x hx
    split at hs
    · simp at hs
    · rename_i hp
      split at hs
      · rename_i hcon
        rw [BiState.other_eq] at hcon
        simp only [Step.stop.injEq] at hs
        exact .inr ⟨r, x, hx, hp, hcon, _, rfl, hs.symm⟩
      · simp at hs

/-- Connections, seen from the other end. -/
theorem Spec.Connects.symm {E E' : V → V → Prop} {vid : V → K} {A B : List V} {n : Nat}
    (hop : ∀ u v, E u v → E' v u) (hc : Compat E' vid) (h : Connects E vid A B n) : Connects E' vid B A n := by
  obtain ⟨y, y', he, h1, h2⟩ := h.meet hop hc 0 (Nat.zero_le _)
  cases h1 with
  | start hs => exact ⟨y', y, hs, he.symm, by simpa using h2⟩

/-- The arithmetic core: levels `≤ n` of one direction and `≤ j` of the other do not meet, but a vertex of
level `n + 1` is in a level `≤ j` of the other. -/
theorem min_of_levels {E E' : V → V → Prop} {vid : V → K} {A B : List V} (hop : ∀ u v, E u v ↔ E' v u)
    (hc : Compat E vid) (hc' : Compat E' vid) {n j : Nat}
    (hdisj : ∀ m v m' v', m ≤ n → m' ≤ j → WalkN E (· ∈ A) m v → WalkN E' (· ∈ B) m' v' → vid v ≠ vid v')
    {v v' : V} {m : Nat} (hv : WalkN E (· ∈ A) (n + 1) v) (hm : m ≤ j) (hv' : WalkN E' (· ∈ B) m v')
    (he : vid v = vid v') : m = j ∧ IsMinLength E vid A B (n + 1 + j) := by
  have hlow : ∀ q, Connects E vid A B q → n + 1 + j ≤ q := by
    intro q hq
    by_contra hlt
    obtain ⟨y, y', hy, h1, h2⟩ := hq.meet (fun u v h => (hop u v).1 h) hc' (min q n) (by omega)
    exact hdisj _ _ _ _ (by omega) (by omega) h1 h2 hy
  have hcon : Connects E vid A B (n + 1 + m) :=
    .of_meet (fun u v h => (hop v u).2 h) hc he hv hv'
  have := hlow _ hcon
  have hmj : m = j := by omega
  subst hmj
  exact ⟨rfl, hcon, hlow⟩

theorem side_opp (hop : OppositeEdges c.nextF c.nextB) (b : Bool) :
    ∀ u v, Edge (c.side b).next u v ↔ Edge (c.side (!b)).next v u := by
  cases b
  · exact hop
  · exact fun u v => (hop v u).symm

/-- A found connection has minimal length; levels of the meeting vertex. -/
theorem bi_found (hok : BiOk g c) (hop : OppositeEdges c.nextF c.nextB) {s : BiState V L S M ML}
    (inv : BiInv g c starts goals s) {r : BfsReport V S M ML} {x : BfsState V L S M ML}
    (hx : bfsStep g (c.side s.back) true (s.get s.back).st = .emit r x) (hp : s.prev ≠ some r.vertex)
    (hcon : g.so.contains (s.get (!s.back)).st.visited (c.vid r.vertex) = true) :
    bfsStep g (c.side s.back) false (s.get s.back).st = .emit r x ∧
    ∃ n j : Nat, (s.get (!s.back)).depth = j ∧ x.depth = n + 1 ∧ r.depth = n + 1 ∧
      r.preds = x.preds ∧ r.labels = x.labels ∧
      IsMinLength (Edge c.nextF) c.vid starts goals (n + 1 + j) ∧
      (∀ m v', WalkN (Edge (c.side (!s.back)).next) (· ∈ biEnds starts goals (!s.back)) m v' →
        c.vid v' = c.vid r.vertex → m ≤ j → m = j) ∧
      ∃ v', WalkN (Edge (c.side (!s.back)).next) (· ∈ biEnds starts goals (!s.back)) j v' ∧
        c.vid v' = c.vid r.vertex := by
  obtain ⟨h, hr⟩ := inv.reach s.back
  have he : bfsStep g (c.side s.back) false (s.get s.back).st = .emit r x := by
    rcases bfs_rdi_emit hx with he | ⟨h1, h2, h3, -, -⟩
    · exact he
    · exfalso
      apply hp
      rw [inv.prevLast (by rw [h1]; simp), h3]
  refine ⟨he, ?_⟩
  obtain ⟨n, hd1, hd2, hd3, hD, hlev, -, -, -, -, -, -, hpr, hla⟩ :=
    bfs_emit_frame hok.lawful rfl (hok.compat s.back) hr he
  rw [biE hok.lawful] at hD hlev
  obtain ⟨j, hj, hvis⟩ := inv.level hok
  have hdisj := (disj_iff s s.back).1 inv.disj
  obtain ⟨m0, v0, hm0, hw0, he0⟩ := (hvis _).1 hcon
  have hmin : ∀ m v', m ≤ j → WalkN (Edge (c.side (!s.back)).next) (· ∈ biEnds starts goals (!s.back)) m v' →
      c.vid r.vertex = c.vid v' → m = j ∧ IsMinLength (Edge (c.side s.back).next) c.vid
        (biEnds starts goals s.back) (biEnds starts goals (!s.back)) (n + 1 + j) := by
    intro m v' hm hw e
    refine min_of_levels (side_opp hop s.back) (hok.compat s.back) (hok.compat (!s.back)) ?_ hD.1 hm hw e
    intro m1 v1 m2 v2 h1 h2 w1 w2 e'
    exact hdisj _ (hlev m1 v1 h1 w1) ((hvis _).2 ⟨m2, v2, h2, w2, e'.symm⟩)
  obtain ⟨hmj, hM⟩ := hmin m0 v0 hm0 hw0 he0.symm
  subst hmj
  refine ⟨n, m0, hj, by omega, by omega, hpr, hla, ?_, ?_, v0, hw0, he0⟩
  · cases hb : s.back with
    | false => rw [hb] at hM; exact hM
    | true =>
      rw [hb] at hM
      have hopT : OppositeEdges c.nextF c.nextB := hop
      refine ⟨Connects.symm (fun u v h => (hopT v u).2 h) hok.compatF hM.1, fun q hq => ?_⟩
      exact hM.2 q (Connects.symm (fun u v h => (hopT u v).1 h) hok.compatB hq)
  · intro m v' hw e hm
    exact (hmin m v' hm hw e.symm).1

/-- The lengths add up. -/
theorem bi_depth_sum (s : BiState V L S M ML) (y : BiSide V L S M ML) :
    (s.setCur y).fw.depth + (s.setCur y).bw.depth = y.depth + (s.get (!s.back)).depth := by
  cases hb : s.back <;> simp [BiState.setCur, BiState.get, hb]
  omega

/-- Nothing found: no connection. -/
theorem bi_notFound (hok : BiOk g c) (hop : OppositeEdges c.nextF c.nextB) {s : BiState V L S M ML}
    (inv : BiInv g c starts goals s) {x : BfsState V L S M ML}
    (hx : bfsStep g (c.side s.back) true (s.get s.back).st = .stop x) :
    ∀ n, ¬ Connects (Edge c.nextF) c.vid starts goals n := by
  obtain ⟨h, hr⟩ := inv.reach s.back
  obtain ⟨-, hcomp⟩ := bfs_stop_complete hok.lawful rfl (hok.compat s.back) hr (bfs_rdi_stop hx)
  rw [biE hok.lawful] at hcomp
  obtain ⟨n', binv⟩ := bfs_inv hok.lawful rfl (hok.compat s.back) hr
  obtain ⟨j, -, hvis⟩ := inv.level hok
  have hdisj := (disj_iff s s.back).1 inv.disj
  have key : ∀ n, ¬ Connects (Edge (c.side s.back).next) c.vid (biEnds starts goals s.back)
      (biEnds starts goals (!s.back)) n := by
    rintro n ⟨v, t, ht, hv, hw⟩
    refine hdisj (c.vid v) ?_ ((hvis _).2 ⟨0, t, Nat.zero_le _, .start ht, hv.symm⟩)
    rcases hcomp v ⟨n, hw⟩ with h | ⟨r, hr', he⟩
    · obtain ⟨w, hw', he⟩ := List.mem_map.1 h
      refine (binv.vis _).2 (.inr (.inl ⟨0, w, Nat.zero_le _, .start hw', he⟩))
    · obtain ⟨d, -, -, -, -, h5⟩ := binv.reps r hr'
      rw [he] at h5; exact h5
  intro n hn
  cases hb : s.back with
  | false => rw [hb] at key; exact key n hn
  | true =>
    rw [hb] at key
    exact key n (hn.symm (fun u v h => (hop u v).1 h) hok.compatB)

end NoGraphs
