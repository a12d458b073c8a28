import Verif.Props.ReadOnce

/-! # Shortest paths: reports and reads of edges, with distances -/

set_option linter.unusedSectionVars false

namespace NoGraphs

open Spec

variable {V K L W M ML D : Type} [DecidableEq V] [DecidableEq K]
variable [AddCommMonoid W] [LinearOrder W] [IsOrderedAddMonoid W]

/-- The vertex whose edges are read next, and its distance. -/
def spWhoW (s : SpState V L W M ML D) : Option (V × W) :=
  match s.pc with
  | .expand v w _ => some (v, w)
  | _ => none

/-- The actions of a shortest paths traversal, with distances. -/
def spTimed (g : WGear V K L W M ML D) (c : WCfg V K L W) (known : Option D) (starts : List V) (limit : Option Int)
    (fuel : Nat) : List (Act (V × W)) :=
  actsOf (spStep g c) spWhoW (fun r => (r.vertex, r.distance)) fuel (prepareLimit limit) (spInit g c known starts)

/-- The subject of an action. -/
def actOf {X : Type} : Act X → X
  | .reported x => x
  | .read x => x

/-- The vertex has been found by an edge that has been read. -/
def Came (next : V → List (V × W × L)) (t : List (Act (V × W))) (v : V) (w : W) : Prop :=
  ∃ u wu x, Act.read (u, wu) ∈ t ∧ WEdge next u v x ∧ w = x + wu

theorem Came.mono {next : V → List (V × W × L)} {t : List (Act (V × W))} {v : V} {w : W} (h : Came next t v w)
    (t' : List (Act (V × W))) : Came next (t ++ t') v w := by
  obtain ⟨u, wu, x, h1, h2⟩ := h
  exact ⟨u, wu, x, List.mem_append_left _ h1, h2⟩

variable {g : WGear V K L W M ML D} {c : WCfg V K L W}

def TimedPc (c : WCfg V K L W) (starts : List V) (t : List (Act (V × W))) (heap : List (HEntry W (V × Nat))) :
    SpPc V L W → Prop
  | .loop => True
  | .expand v w _ => (∀ e ∈ heap, w ≤ e.key) ∧ (∀ a ∈ t, (actOf a).2 ≤ w) ∧ (v ∈ starts ∨ Act.reported (v, w) ∈ t)
  | .edges v w _ es => (∀ e ∈ heap, w ≤ e.key) ∧ (∀ a ∈ t, (actOf a).2 ≤ w) ∧ Act.read (v, w) ∈ t ∧ ∀ e ∈ es, e ∈ c.next v

structure TimedInv (c : WCfg V K L W) (starts : List V) (t : List (Act (V × W))) (s : SpState V L W M ML D) : Prop where
  sorted : s.heap.Pairwise HEntry.le
  ord : (t.map (fun a => (actOf a).2)).Pairwise (· ≤ ·)
  low : ∀ a ∈ t, ∀ e ∈ s.heap, (actOf a).2 ≤ e.key
  pc : TimedPc c starts t s.heap s.pc
  ent0 : ∀ e ∈ s.heap, e.item.2 = 0 → e.item.1 ∈ starts
  entS : ∀ e ∈ s.heap, 0 < e.item.2 → Came c.next t e.item.1 e.key
  rep : ∀ before p after, t = before ++ Act.reported p :: after → Came c.next before p.1 p.2
  rd : ∀ before p after, t = before ++ Act.read p :: after → p.1 ∈ starts ∨ Act.reported p ∈ before

theorem split_snoc {X : Type} {t : List X} {a b : X} {before after : List X} (h : t ++ [a] = before ++ b :: after) :
    (before = t ∧ b = a ∧ after = []) ∨ ∃ after', t = before ++ b :: after' := by
  rcases List.eq_nil_or_concat after with rfl | ⟨l, x, rfl⟩
  · have h' : t ++ [a] = before ++ [b] := h
    obtain ⟨h1, h2⟩ := List.append_inj' h' rfl
    exact .inl ⟨h1.symm, by simpa using h2.symm, rfl⟩
  · right
    have h' : t ++ [a] = (before ++ b :: l) ++ [x] := by simpa using h
    obtain ⟨h1, -⟩ := List.append_inj' h' rfl
    exact ⟨l, h1⟩

theorem ord_snoc {t : List (Act (V × W))} (h : (t.map (fun a => (actOf a).2)).Pairwise (· ≤ ·)) {a : Act (V × W)}
    (ha : ∀ b ∈ t, (actOf b).2 ≤ (actOf a).2) : ((t ++ [a]).map (fun a => (actOf a).2)).Pairwise (· ≤ ·) := by
  rw [List.map_append, List.pairwise_append]
  refine ⟨h, by simp, ?_⟩
  intro x hx y hy
  obtain ⟨b, hb, rfl⟩ := List.mem_map.1 hx
  simp only [List.map_cons, List.map_nil, List.mem_singleton] at hy
  rw [hy]
  exact ha b hb

theorem timed_step (hn : NonNeg c.next) {starts : List V} {t : List (Act (V × W))} {s : SpState V L W M ML D}
    (h : TimedInv c starts t s) :
    match spStep g c s with
    | .tau s' => TimedInv c starts t s'
    | .emit r s' => TimedInv c starts (t ++ [.reported (r.vertex, r.distance)]) s'
    | .expand s' => ∃ p, spWhoW s = some p ∧ TimedInv c starts (t ++ [.read p]) s'
    | _ => True := by
  obtain ⟨h1, h2, h3, h4, h5, h6, h7, h8⟩ := h
  unfold spStep
  rcases hpc : s.pc with _ | ⟨v, w, ec⟩ | ⟨v, w, ec, _ | ⟨⟨n, x, l⟩, es⟩⟩ <;> simp only [hpc] at h4 ⊢
  · rcases hx : s.heap with _ | ⟨e, rest⟩
    · trivial
    · rw [hx] at h1 h3 h5 h6
      obtain ⟨hle, h1'⟩ := List.pairwise_cons.1 h1
      have sub : ∀ f ∈ rest, f ∈ e :: rest := fun f hf => List.mem_cons_of_mem _ hf
      have h3' : ∀ a ∈ t, ∀ f ∈ rest, (actOf a).2 ≤ f.key := fun a ha f hf => h3 a ha f (sub f hf)
      have h5' : ∀ f ∈ rest, f.item.2 = 0 → f.item.1 ∈ starts := fun f hf => h5 f (sub f hf)
      have h6' : ∀ f ∈ rest, 0 < f.item.2 → Came c.next t f.item.1 f.key := fun f hf => h6 f (sub f hf)
      simp only
      by_cases hc : (!c.isTree && decide (g.dd.get s.dist (c.vid e.item.1) < e.key)) = true
      · simp only [if_pos hc]
        exact ⟨h1', h2, h3', by simp only [TimedPc], h5', h6', h7, h8⟩
      · simp only [if_neg hc]
        by_cases he : e.item.2 > 0
        · simp only [if_pos he]
          refine ⟨h1', ord_snoc h2 (fun b hb => h3 b hb e List.mem_cons_self), ?_, ⟨fun f hf => (hle f hf).key_le, ?_,
            .inr (by simp)⟩, h5', fun f hf h0 => (h6' f hf h0).mono _, ?_, ?_⟩
          · intro a ha f hf
            rcases List.mem_append.1 ha with ha | ha
            · exact h3' a ha f hf
            · rw [List.mem_singleton] at ha
              subst ha
              exact (hle f hf).key_le
          · intro a ha
            rcases List.mem_append.1 ha with ha | ha
            · exact h3 a ha e List.mem_cons_self
            · rw [List.mem_singleton] at ha
              subst ha
              exact le_refl _
          · intro before p after hp
            rcases split_snoc hp with ⟨rfl, hb, -⟩ | ⟨after', hp'⟩
            · cases hb
              exact h6 e List.mem_cons_self he
            · exact h7 _ _ _ hp'
          · intro before p after hp
            rcases split_snoc hp with ⟨rfl, hb, -⟩ | ⟨after', hp'⟩
            · cases hb
            · exact h8 _ _ _ hp'
        · simp only [if_neg he]
          exact ⟨h1', h2, h3', ⟨fun f hf => (hle f hf).key_le, fun a ha => h3 a ha e List.mem_cons_self,
            .inl (h5 e List.mem_cons_self (by omega))⟩, h5', h6', h7, h8⟩
  · obtain ⟨k1, k2, k3⟩ := h4
    refine ⟨(v, w), by simp only [spWhoW, hpc], h1, ord_snoc h2 k2, ?_, ⟨k1, ?_, by simp, fun e he => he⟩, h5,
      fun f hf h0 => (h6 f hf h0).mono _, ?_, ?_⟩
    · intro a ha f hf
      rcases List.mem_append.1 ha with ha | ha
      · exact h3 a ha f hf
      · rw [List.mem_singleton] at ha
        subst ha
        exact k1 f hf
    · intro a ha
      rcases List.mem_append.1 ha with ha | ha
      · exact k2 a ha
      · rw [List.mem_singleton] at ha
        subst ha
        exact le_refl _
    · intro before p after hp
      rcases split_snoc hp with ⟨rfl, hb, -⟩ | ⟨after', hp'⟩
      · cases hb
      · exact h7 _ _ _ hp'
    · intro before p after hp
      rcases split_snoc hp with ⟨rfl, hb, -⟩ | ⟨after', hp'⟩
      · cases hb
        exact k3
      · exact h8 _ _ _ hp'
  · exact ⟨h1, h2, h3, trivial, h5, h6, h7, h8⟩
  · obtain ⟨k1, k2, k3, k4⟩ := h4
    have k4' : ∀ e ∈ es, e ∈ c.next v := fun e he => k4 e (List.mem_cons_of_mem _ he)
    have hedge : WEdge c.next v n x := ⟨l, k4 _ List.mem_cons_self⟩
    have hle : w ≤ x + w := le_add_of_nonneg_left (hn _ _ _ hedge)
    by_cases hi : c.inf ≤ x + w
    · simp only [if_pos hi]
    · simp only [if_neg hi]
      rcases spImprove g c s.dist (c.vid n) (x + w) with _ | d
      · exact ⟨h1, h2, h3, ⟨k1, k2, k3, k4'⟩, h5, h6, h7, h8⟩
      · refine ⟨heapPush_sorted _ h1, h2, ?_, ⟨?_, k2, k3, k4'⟩, ?_, ?_, h7, h8⟩
        · intro a ha f hf
          rcases mem_heapPush.1 hf with rfl | hf
          · exact (k2 a ha).trans hle
          · exact h3 a ha f hf
        · intro f hf
          rcases mem_heapPush.1 hf with rfl | hf
          · exact hle
          · exact k1 f hf
        · intro f hf h0
          rcases mem_heapPush.1 hf with rfl | hf
          · simp at h0
          · exact h5 f hf h0
        · intro f hf h0
          rcases mem_heapPush.1 hf with rfl | hf
          · exact ⟨v, w, x, k3, hedge, rfl⟩
          · exact h6 f hf h0

/-- Reports and reads come in the order of distances; reported vertices are found by edges that have been read; and the
edges of a vertex are read if it is a start vertex or has been reported. -/
theorem timed_all (hn : NonNeg c.next) (known : Option D) (starts : List V) (limit : Option Int) (fuel : Nat) :
    ∃ s : SpState V L W M ML D, TimedInv c starts (spTimed g c known starts limit fuel) s := by
  obtain ⟨s, h⟩ := acts_inv (m := spStep g c) (who := spWhoW) (vert := fun r : SpReport V W M ML D => (r.vertex, r.distance))
    (fun t s => TimedInv c starts t s)
    (fun t s s' h hm => by have := timed_step (g := g) (c := c) hn h; simp only [hm] at this; exact this)
    (fun t s r s' h hm => by have := timed_step (g := g) (c := c) hn h; simp only [hm] at this; exact this)
    (fun t s s' h hm => by have := timed_step (g := g) (c := c) hn h; simp only [hm] at this; exact this)
    fuel (prepareLimit limit) [] (spInit g c known starts)
    ⟨heapify_sorted _, .nil, by simp, trivial,
      fun e he _ => spStartEntries_item _ _ _ e (mem_heapify.1 he),
      fun e he h0 => by
        have := (spStartEntries_mem (mem_heapify.1 he)).2.1
        omega,
      by simp, by simp⟩
  exact ⟨s, h⟩

/-- The states in which edges are read. -/
theorem timed_reads (known : Option D) (starts : List V) (limit : Option Int) (fuel : Nat) {p : V × W}
    (hp : Act.read p ∈ spTimed g c known starts limit fuel) :
    ∃ h s ec, Reaches (spStep g c) (spInit g c known starts) h s ∧ s.pc = .expand p.1 p.2 ec := by
  have key : ∃ s, (∃ h, Reaches (spStep g c) (spInit g c known starts) h s) ∧
      ∀ p, Act.read p ∈ [] ++ spTimed g c known starts limit fuel →
      ∃ h s ec, Reaches (spStep g c) (spInit g c known starts) h s ∧ s.pc = .expand p.1 p.2 ec := by
    refine acts_inv (m := spStep g c) (who := spWhoW) (vert := fun r : SpReport V W M ML D => (r.vertex, r.distance))
      (fun t s => (∃ h, Reaches (spStep g c) (spInit g c known starts) h s) ∧
        ∀ p, Act.read p ∈ t → ∃ h s ec, Reaches (spStep g c) (spInit g c known starts) h s ∧ s.pc = .expand p.1 p.2 ec)
      ?_ ?_ ?_ fuel (prepareLimit limit) [] (spInit g c known starts) ⟨⟨_, .refl⟩, by simp⟩
    · rintro t s s' ⟨⟨h, hr⟩, h2⟩ e
      exact ⟨⟨_, .tau hr e⟩, h2⟩
    · rintro t s r s' ⟨⟨h, hr⟩, h2⟩ e
      refine ⟨⟨_, .emit hr e⟩, fun p hp => h2 p ?_⟩
      simpa using hp
    · rintro t s s' ⟨⟨h, hr⟩, h2⟩ e
      have hpc : ∃ v w ec, s.pc = .expand v w ec := by
        have he := e
        unfold spStep at he
        rcases hpc : s.pc with _ | ⟨v, w, ec⟩ | ⟨v, w, ec, _ | ⟨⟨n, x, l⟩, es⟩⟩ <;> simp only [hpc] at he
        · split at he
          · simp at he
          · split at he
            · simp at he
            · split at he <;> simp at he
        · exact ⟨v, w, ec, rfl⟩
        · simp at he
        · split at he
          · simp at he
          · split at he <;> simp at he
      obtain ⟨v, w, ec, hpc⟩ := hpc
      refine ⟨(v, w), by simp only [spWhoW, hpc], ⟨_, .expand hr e⟩, fun p hp => ?_⟩
      rcases List.mem_append.1 hp with hp | hp
      · exact h2 p hp
      · simp only [List.mem_singleton, Act.read.injEq] at hp
        subst hp
        exact ⟨h, s, ec, hr, hpc⟩
  obtain ⟨-, -, h⟩ := key
  exact h p (by simpa using hp)

/-- An action for the image of its subject. -/
def actMap {X Y : Type} (f : X → Y) : Act X → Act Y
  | .reported x => .reported (f x)
  | .read x => .read (f x)

/-- Without the distances. -/
theorem timed_acts (known : Option D) (starts : List V) (limit : Option Int) (fuel : Nat) :
    spActs g c known starts limit fuel = (spTimed g c known starts limit fuel).map (actMap Prod.fst) := by
  unfold spActs spTimed
  generalize spInit g c known starts = s
  generalize prepareLimit limit = lim
  induction fuel generalizing lim s with
  | zero => rfl
  | succ fuel ih =>
    unfold actsOf
    rcases hm : spStep g c s with s' | e | s' | ⟨r, s'⟩ | s' <;> simp only
    · rfl
    · rfl
    · exact ih _ _
    · rw [ih s' lim]; rfl
    · rcases hl : checkLimit lim with _ | lim'
      · rfl
      · simp only [List.map_append]
        rw [ih s' lim']
        congr 1
        unfold spWho spWhoW
        rcases s.pc with _ | ⟨v, w, ec⟩ | ⟨v, w, ec, es⟩ <;> simp [actMap]

theorem timed_forget (known : Option D) (starts : List V) (limit : Option Int) (fuel : Nat) :
    readsOf (spActs g c known starts limit fuel) = (readsOf (spTimed g c known starts limit fuel)).map Prod.fst := by
  rw [timed_acts]
  generalize spTimed g c known starts limit fuel = t
  unfold readsOf
  rw [List.filterMap_map, List.map_filterMap]
  congr 1
  funext a
  cases a <;> rfl

end NoGraphs
