import Verif.Proofs.Object
import Verif.Props.Start

/-! # Histories of traversal objects: C76, C77 -/

set_option linter.unusedSectionVars false

namespace NoGraphs

variable {K W ρ : Type} [DecidableEq K] [LinearOrder W]

/-! ## What calls on one list of reports deliver -/

section list
variable (id : ρ → K) (dist : ρ → W)

theorem listSeek_spec (p : ρ → Bool) : ∀ (R : List ρ) (e : Ending),
    (∃ r R₁ R₂, R = R₁ ++ r :: R₂ ∧ listSeek p R e = (.found r, (R₂, e))) ∨
    (∃ f e', (∀ r, f ≠ .found r) ∧ (e' = e ∨ e' = .done) ∧ listSeek p R e = (f, ([], e'))) := by
  intro R
  induction R with
  | nil => intro e; cases e <;> exact .inr ⟨_, _, by simp, by simp, rfl⟩
  | cons r R ih =>
    intro e
    rw [listSeek]
    by_cases h : p r
    · exact .inl ⟨r, [], R, rfl, by simp [h]⟩
    · simp only [h]
      rcases ih e with ⟨r', R₁, R₂, rfl, h2⟩ | ⟨f, e', h1, he, h2⟩
      · exact .inl ⟨r', r :: R₁, R₂, rfl, by simp [h2]⟩
      · exact .inr ⟨f, e', h1, he, by simp [h2]⟩

/-- The reports in the outcomes of calls, and the reports that are left. -/
def Moves (g : List ρ × Ending) (o : Outcome ρ) (g' : List ρ × Ending) : Prop :=
  ∃ R₁, g.1 = R₁ ++ g'.1 ∧ (delivered [o]).Sublist R₁ ∧ (g'.2 = g.2 ∨ (g'.1 = [] ∧ g'.2 = .done))

theorem moves_found (R₁ R₂ : List ρ) (r : ρ) (e : Ending) : Moves (R₁ ++ r :: R₂, e) (.report r) (R₂, e) :=
  ⟨R₁ ++ [r], by simp, by simp [delivered], .inl rfl⟩

theorem moves_none (R R' : List ρ) (e : Ending) (o : Outcome ρ) (h : R' <:+ R) (ho : ∀ r, o ≠ .report r) :
    Moves (R, e) o (R', e) := by
  obtain ⟨R₁, rfl⟩ := h
  refine ⟨R₁, rfl, ?_, .inl rfl⟩
  cases o <;> simp [delivered] at ho ⊢

theorem moves_end (R : List ρ) (e e' : Ending) (o : Outcome ρ) (he : e' = e ∨ e' = .done) (ho : ∀ r, o ≠ .report r) :
    Moves (R, e) o ([], e') := by
  refine ⟨R, by simp, ?_, he.imp (fun h => h) (fun h => ⟨rfl, h⟩)⟩
  cases o <;> simp [delivered] at ho ⊢

theorem moves_fetchShowing (stop : W) (R : List ρ) (e : Ending) :
    Moves (R, e) (fetchShowing (K := K) listGen dist stop (R, e)).1 (fetchShowing (K := K) listGen dist stop (R, e)).2.2 := by
  unfold fetchShowing
  simp only [listGen]
  rcases listSeek_spec (fun _ => true) R e with ⟨r, R₁, R₂, rfl, h2⟩ | ⟨f, e', h1, he, h2⟩
  · simp only [h2]
    by_cases hs : stop ≤ dist r
    · simp only [hs, if_true]; exact moves_none _ _ _ _ ⟨R₁ ++ [r], by simp⟩ (by simp)
    · simp only [hs, if_false]; exact moves_found _ _ _ _
  · simp only [h2]
    cases f with
    | found r => exact absurd rfl (h1 r)
    | _ => exact moves_end _ _ _ _ he (by simp)

theorem Moves.after {R₁ R : List ρ} {e e₀ : Ending} {g' : List ρ × Ending} {o : Outcome ρ} (h : Moves (R, e) o g')
    (he : e = e₀ ∨ (R = [] ∧ e = .done)) : Moves (R₁ ++ R, e₀) o g' := by
  obtain ⟨R₂, h1, h2, h3⟩ := h
  simp only at h1
  refine ⟨R₁ ++ R₂, by simp [h1], h2.trans (List.sublist_append_right _ _), ?_⟩
  rcases he with rfl | ⟨rfl, rfl⟩
  · exact h3
  · have : g'.1 = [] := by
      have := congrArg List.length h1
      simp only [List.length_nil, List.length_append] at this
      exact List.length_eq_zero_iff.mp (by omega)
    rcases h3 with h3 | h3
    · exact .inr ⟨this, h3⟩
    · exact .inr h3

theorem moves_fetchFrom (it : GoIter K W) (R : List ρ) (e : Ending) :
    Moves (R, e) (fetchFrom listGen id dist it (R, e)).1 (fetchFrom listGen id dist it (R, e)).2.2 := by
  cases it with
  | over => exact moves_none _ _ _ _ ⟨[], rfl⟩ (by simp [fetchFrom])
  | showing stop => exact moves_fetchShowing dist stop R e
  | vertices ids count silent =>
    simp only [fetchFrom]
    by_cases hc : count = 0
    · simp only [hc, if_true]; exact moves_none _ _ _ _ ⟨[], rfl⟩ (by simp)
    · simp only [hc, if_false, listGen]
      rcases listSeek_spec (fun r => decide (id r ∈ ids)) R e with ⟨r, R₁, R₂, rfl, h2⟩ | ⟨f, e', h1, he, h2⟩
      · simp only [h2]; exact moves_found _ _ _ _
      · simp only [h2]
        cases f with
        | found r => exact absurd rfl (h1 r)
        | stopped => exact moves_end _ _ _ _ he (by cases silent <;> simp)
        | _ => exact moves_end _ _ _ _ he (by simp)
  | skipping start stop =>
    have hgen : ∀ p, (listGen (ρ := ρ)).seek p (R, e) = listSeek p R e := fun _ => rfl
    simp only [fetchFrom, hgen]
    rcases listSeek_spec (fun r => decide (start ≤ dist r)) R e with ⟨r, R₁, R₂, rfl, h2⟩ | ⟨f, e', h1, he, h2⟩
    · simp only [h2]
      by_cases hs : dist r < stop
      · simp only [hs, if_true]; exact moves_found _ _ _ _
      · simp only [hs, if_false]
        have := (moves_fetchShowing (K := K) dist stop R₂ e).after (R₁ := R₁ ++ [r]) (.inl rfl)
        rwa [List.append_assoc] at this
    · simp only [h2]
      cases f with
      | found r => exact absurd rfl (h1 r)
      | stopped =>
        have := (moves_fetchShowing (K := K) dist stop [] e').after (R₁ := R) (e₀ := e) (he.imp (fun h => h) (fun h => ⟨rfl, h⟩))
        rwa [List.append_nil] at this
      | _ => exact moves_end _ _ _ _ he (by simp)

theorem moves_use (u : Use K W) (its : List (GoIter K W)) (R : List ρ) (e : Ending) :
    Moves (R, e) (use listGen id dist u its (R, e)).1 (use listGen id dist u its (R, e)).2.2 := by
  cases u with
  | next =>
    simp only [use, genNext, listGen]
    rcases listSeek_spec (fun _ => true) R e with ⟨r, R₁, R₂, rfl, h2⟩ | ⟨f, e', h1, he, h2⟩
    · simp only [h2]; exact moves_found _ _ _ _
    · simp only [h2]
      cases f with
      | found r => exact absurd rfl (h1 r)
      | _ => exact moves_end _ _ _ _ he (by simp)
  | goTo k silent =>
    simp only [use, genGoTo, listGen]
    rcases listSeek_spec (fun r => decide (id r = k)) R e with ⟨r, R₁, R₂, rfl, h2⟩ | ⟨f, e', h1, he, h2⟩
    · simp only [h2]; exact moves_found _ _ _ _
    · simp only [h2]
      cases f with
      | found r => exact absurd rfl (h1 r)
      | stopped => exact moves_end _ _ _ _ he (by cases silent <;> simp)
      | _ => exact moves_end _ _ _ _ he (by simp)
  | goForVertices ids silent => exact moves_none _ _ _ _ ⟨[], rfl⟩ (by simp [use])
  | goForRange start stop => exact moves_none _ _ _ _ ⟨[], rfl⟩ (by simp [use])
  | fetch i =>
    simp only [use]
    cases hi : its[i]? with
    | none => exact moves_none _ _ _ _ ⟨[], rfl⟩ (by simp)
    | some it => exact moves_fetchFrom id dist it R e

theorem delivered_cons (o : Outcome ρ) (os : List (Outcome ρ)) : delivered (o :: os) = delivered [o] ++ delivered os := by
  cases o <;> rfl

/-- The number of iterators created by calls. -/
def created (us : List (Use K W)) : Nat :=
  (us.filter (fun u => match u with | .goForVertices _ _ => true | .goForRange _ _ => true | _ => false)).length

theorem use_created (u : Use K W) (us : List (Use K W)) (its : List (GoIter K W)) (g : List ρ × Ending) :
    (use listGen id dist u its g).2.1.length + created us = its.length + created (u :: us) := by
  cases u with
  | next => rfl
  | goTo k silent => rfl
  | goForVertices ids silent => simp [use, created]; omega
  | goForRange start stop => simp [use, created]; omega
  | fetch i =>
    simp only [use, created, List.filter_cons]
    cases its[i]? <;> simp

/-- **C76, order, and continuing.** Whatever calls a program makes, the reports it gets are reports of the run, in the order of
the run, each at most once. Afterwards the traversal is at some position behind all of them: the remaining calls
see the remaining reports. -/
theorem C76_position (us : List (Use K W)) : ∀ (its : List (GoIter K W)) (R : List ρ) (e : Ending),
    .hangs ∉ useAll listGen id dist its (R, e) us →
    ∃ used rest e' its', R = used ++ rest ∧ (e' = e ∨ (rest = [] ∧ e' = .done)) ∧ its'.length = its.length + created us ∧
      (delivered (useAll listGen id dist its (R, e) us)).Sublist used ∧
      ∀ us₂, useAll listGen id dist its (R, e) (us ++ us₂) =
        useAll listGen id dist its (R, e) us ++ useAll listGen id dist its' (rest, e') us₂ := by
  induction us with
  | nil =>
    intro its R e _
    exact ⟨[], R, e, its, rfl, .inl rfl, by simp [created], by simp [useAll, delivered], fun _ => rfl⟩
  | cons u us ih =>
    intro its R e hh
    by_cases hu : (use listGen id dist u its (R, e)).1 = .hangs
    · rw [useAll_cons_hangs id dist _ _ _ u us hu] at hh; simp at hh
    · rw [useAll_cons id dist _ _ _ u us hu] at hh ⊢
      simp only [List.mem_cons, not_or] at hh
      obtain ⟨R₁, h1, h2, h3⟩ := moves_use id dist u its R e
      have hc := use_created id dist u us its (R, e)
      rcases hx : use listGen id dist u its (R, e) with ⟨o, its₁, R', e₁⟩
      rw [hx] at hh h1 h2 h3 hc
      simp only at hh h1 h2 h3 hc ⊢
      obtain ⟨used, rest, e', its', rfl, he, hi, hd, hcont⟩ := ih its₁ R' e₁ hh.2
      refine ⟨R₁ ++ used, rest, e', its', by simp [h1], ?_, by omega, ?_, ?_⟩
      · rcases h3 with rfl | ⟨h3, rfl⟩
        · exact he
        · have : rest = [] := (List.append_eq_nil_iff.mp h3).2
          rcases he with rfl | he
          · exact .inr ⟨this, rfl⟩
          · exact .inr he
      · rw [delivered_cons]
        exact h2.append hd
      · intro us₂
        rw [List.cons_append, useAll_cons id dist _ _ _ u _ hu, hx]
        simp only [hcont, List.cons_append]

/-- Fetching `n` times. -/
theorem fetchedAll_cons (r : ρ) (R : List ρ) (e : Ending) (n : Nat) :
    fetchedAll (r :: R) e (n + 1) = .report r :: fetchedAll R e n := by
  simp only [fetchedAll, List.map_cons, List.cons_append, List.take_succ_cons, List.replicate_succ', ← List.append_assoc]
  congr 1
  rw [List.take_append_of_le_length]
  simp only [List.length_append, List.length_replicate]; omega

theorem fetchedAll_raised (x : PyErr) (n : Nat) :
    fetchedAll ([] : List ρ) (.raised x) (n + 1) = .raised x :: fetchedAll [] .done n := by
  simp only [fetchedAll, endOutcomes, List.map_nil, List.nil_append, List.cons_append, List.take_succ_cons,
    List.replicate_succ']
  congr 1
  rw [List.take_append_of_le_length]
  simp

theorem fetchedAll_done (n : Nat) :
    fetchedAll ([] : List ρ) .done (n + 1) = .stopIteration :: fetchedAll [] .done n := by
  simp [fetchedAll, endOutcomes, List.replicate_succ]

/-- **C76, `next` and `for` loops.** Fetching `n` vertices gives the next `n` reports. After the last report comes the
exception of the run, if it ends by one, and from then on `StopIteration`. -/
theorem C76_next (n : Nat) : ∀ (its : List (GoIter K W)) (R : List ρ) (e : Ending), n ≤ R.length ∨ e ≠ .outOfFuel →
    useAll listGen id dist its (R, e) (List.replicate n .next) = fetchedAll R e n := by
  induction n with
  | zero => intros; simp [useAll, fetchedAll]
  | succ n ih =>
    intro its R e h
    rw [List.replicate_succ]
    cases R with
    | cons r R =>
      rw [useAll_cons id dist _ _ _ _ _ (by simp [use, genNext, listGen, listSeek]), fetchedAll_cons]
      simp only [use, genNext, listGen, listSeek, if_true]
      rw [← ih its R e (h.imp (by simp) (fun h => h))]; rfl
    | nil =>
      cases e with
      | outOfFuel => simp at h
      | done =>
        rw [useAll_cons id dist _ _ _ _ _ (by simp [use, genNext, listGen, listSeek]), fetchedAll_done]
        simp only [use, genNext, listGen, listSeek]
        rw [← ih its [] .done (by simp)]; rfl
      | raised x =>
        rw [useAll_cons id dist _ _ _ _ _ (by simp [use, genNext, listGen, listSeek]), fetchedAll_raised]
        simp only [use, genNext, listGen, listSeek]
        rw [← ih its [] .done (by simp)]; rfl

/-- The outcome of `go_to` as outcome of a call. -/
def GoTo.outcome : GoTo ρ → Outcome ρ
  | .found r _ => .report r
  | .none_ => .none_
  | .raised e => .raised e
  | .outOfFuel => .hangs

/-- The reports that are left after `go_to`. -/
def GoTo.rest : GoTo ρ → List ρ
  | .found _ R => R
  | _ => []

/-- **C76, `go_to`.** In any history, `go_to` does what C40 says, for the reports that are left, and the traversal continues behind
the vertex it has gone to. -/
theorem C76_go_to (k : K) (silent : Bool) (its : List (GoIter K W)) (R : List ρ) (e : Ending)
    (h : goTo id k silent R e ≠ .outOfFuel) :
    ∃ e', ∀ us, useAll listGen id dist its (R, e) (.goTo k silent :: us) =
      (goTo id k silent R e).outcome :: useAll listGen id dist its ((goTo id k silent R e).rest, e') us := by
  have key : ∀ R, goTo id k silent R e ≠ .outOfFuel → ∃ e',
      genGoTo listGen id k silent (R, e) = ((goTo id k silent R e).outcome, ((goTo id k silent R e).rest, e')) := by
    intro R
    induction R with
    | nil =>
      intro h
      cases e with
      | outOfFuel => exact absurd rfl h
      | done => cases silent <;> exact ⟨.done, rfl⟩
      | raised x => exact ⟨.done, rfl⟩
    | cons r R ih =>
      intro h
      rw [goTo] at h ⊢
      simp only [genGoTo, listGen, listSeek] at ih ⊢
      by_cases hk : id r = k
      · simp only [hk, ne_eq, not_true, if_false, decide_true, if_true]; exact ⟨e, rfl⟩
      · simp only [hk, ne_eq, not_false_eq_true, if_true, decide_false] at h ⊢
        exact ih h
  obtain ⟨e', he⟩ := key R h
  refine ⟨e', fun us => ?_⟩
  have hne : (goTo id k silent R e).outcome ≠ .hangs := by
    cases hg : goTo id k silent R e with
    | outOfFuel => exact absurd hg h
    | _ => simp [GoTo.outcome]
  rw [useAll_cons id dist _ _ _ _ _ (by simp only [use, he]; exact hne)]
  simp only [use, he]

theorem set_same {α : Type} {xs : List α} {i : Nat} {x : α} (h : xs[i]? = some x) : xs.set i x = xs := by
  obtain ⟨hlt, rfl⟩ := List.getElem?_eq_some_iff.mp h
  exact List.set_getElem_self hlt

theorem get_set {α : Type} {xs : List α} {i : Nat} {x y : α} (h : xs[i]? = some x) : (xs.set i y)[i]? = some y := by
  obtain ⟨hlt, rfl⟩ := List.getElem?_eq_some_iff.mp h
  simp [hlt]

/-- Fetching `n` times from an iterator that has ended. -/
theorem fetch_over (n : Nat) (i : Nat) (g : List ρ × Ending) : ∀ (its : List (GoIter K W)), its[i]? = some .over →
    useAll listGen id dist its g (List.replicate n (.fetch i)) = fetchedAll [] .done n := by
  induction n with
  | zero => intros; simp [useAll, fetchedAll]
  | succ n ih =>
    intro its hi
    have hu : use listGen id dist (.fetch i) its g = (.stopIteration, its, g) := by
      simp only [use, hi, fetchFrom]
      rw [set_same hi]
    rw [List.replicate_succ, useAll_cons id dist _ _ _ _ _ (by rw [hu]; simp), hu, fetchedAll_done, ih its hi]

/-- `go_for_vertices_in` from its loop on. -/
def goForRest (inSet : ρ → Bool) (silent : Bool) (R : List ρ) (e : Ending) (count : Nat) : GoResult ρ :=
  let (res, n) := goForLoop inSet R e count
  match res.ending with
  | .done => if n > 0 && !silent then { res with ending := .raised .keyError } else res
  | _ => res

theorem goForRest_last (inSet : ρ → Bool) (silent : Bool) (r : ρ) (R : List ρ) (e : Ending) (h : inSet r = true) :
    goForRest inSet silent (r :: R) e 1 = ⟨[r], R, .done⟩ := by
  simp [goForRest, goForLoop, h]

theorem goForRest_in (inSet : ρ → Bool) (silent : Bool) (r : ρ) (R : List ρ) (e : Ending) (count : Nat)
    (h : inSet r = true) :
    goForRest inSet silent (r :: R) e (count + 2) =
      { goForRest inSet silent R e (count + 1) with yielded := r :: (goForRest inSet silent R e (count + 1)).yielded } := by
  simp only [goForRest, goForLoop, h, if_true, Nat.reduceSubDiff, Nat.add_eq_zero_iff,
    Nat.succ_ne_self, and_false, if_false]
  rcases hx : goForLoop inSet R e (count + 1) with ⟨⟨y, rs, en⟩, n⟩
  cases en <;> simp only
  split <;> rfl

theorem goForRest_out (inSet : ρ → Bool) (silent : Bool) (r : ρ) (R : List ρ) (e : Ending) (count : Nat)
    (h : inSet r = false) : goForRest inSet silent (r :: R) e count = goForRest inSet silent R e count := by
  simp [goForRest, goForLoop, h]

theorem goForVerticesIn_eq (ids : List K) (silent : Bool) (R : List ρ) (e : Ending) :
    goForVerticesIn id ids silent R e =
      if ids.dedup.length = 0 then ⟨[], R, .done⟩
      else goForRest (fun r => decide (id r ∈ ids)) silent R e ids.dedup.length := by
  simp only [goForVerticesIn, goForRest, List.mem_dedup]
  rfl

/-- The calls of a `for` loop over the `i`-th iterator, if it yields `n` vertices. -/
def loopOver (i n : Nat) : List (Use K W) := List.replicate (n + 1) (.fetch i)

theorem use_fetch (its : List (GoIter K W)) (i : Nat) (it : GoIter K W) (g : List ρ × Ending) (hi : its[i]? = some it) :
    use listGen id dist (.fetch i) its g =
      ((fetchFrom listGen id dist it g).1, its.set i (fetchFrom listGen id dist it g).2.1, (fetchFrom listGen id dist it g).2.2) := by
  simp only [use, hi]

theorem useAll_fetch (its : List (GoIter K W)) (i : Nat) (it : GoIter K W) (g : List ρ × Ending) (hi : its[i]? = some it)
    (us : List (Use K W)) (o : Outcome ρ) (it' : GoIter K W) (g' : List ρ × Ending)
    (hf : fetchFrom listGen id dist it g = (o, it', g')) (ho : o ≠ .hangs) :
    useAll listGen id dist its g (.fetch i :: us) = o :: useAll listGen id dist (its.set i it') g' us := by
  rw [useAll_cons id dist _ _ _ _ _ (by rw [use_fetch id dist its i it g hi, hf]; exact ho), use_fetch id dist its i it g hi, hf]

theorem useAll_fetch_congr (its : List (GoIter K W)) (i : Nat) (it : GoIter K W) (g g' : List ρ × Ending)
    (hi : its[i]? = some it) (us : List (Use K W))
    (hf : fetchFrom listGen id dist it g = fetchFrom listGen id dist it g') :
    useAll listGen id dist its g (.fetch i :: us) = useAll listGen id dist its g' (.fetch i :: us) := by
  rw [useAll, useAll, use_fetch id dist its i it g hi, use_fetch id dist its i it g' hi, hf]

theorem vertices_loop (ids : List K) (silent : Bool) (i : Nat) (e : Ending) : ∀ (R : List ρ) (its : List (GoIter K W))
    (count : Nat), its[i]? = some (.vertices ids (count + 1) silent) →
    (goForRest (fun r => decide (id r ∈ ids)) silent R e (count + 1)).ending ≠ .outOfFuel →
    ∃ e', ∀ us, useAll listGen id dist its (R, e)
        (loopOver i (goForRest (fun r => decide (id r ∈ ids)) silent R e (count + 1)).yielded.length ++ us) =
      fetchedAll (goForRest (fun r => decide (id r ∈ ids)) silent R e (count + 1)).yielded
        (goForRest (fun r => decide (id r ∈ ids)) silent R e (count + 1)).ending
        ((goForRest (fun r => decide (id r ∈ ids)) silent R e (count + 1)).yielded.length + 1) ++
      useAll listGen id dist (its.set i .over)
        ((goForRest (fun r => decide (id r ∈ ids)) silent R e (count + 1)).rest, e') us := by
  intro R
  induction R with
  | nil =>
    intro its count hi hne
    cases e with
    | outOfFuel => simp [goForRest, goForLoop] at hne
    | done =>
      refine ⟨.done, fun us => ?_⟩
      cases silent
      · have hg : goForRest (fun r => decide (id r ∈ ids)) false [] .done (count + 1) = ⟨[], [], .raised .keyError⟩ := by
          simp [goForRest, goForLoop]
        rw [hg]
        simp only [loopOver, List.length_nil, Nat.zero_add, List.replicate_one, List.singleton_append]
        rw [useAll_fetch id dist its i _ _ hi us (.raised .keyError) .over ([], .done) rfl (by simp)]
        rfl
      · have hg : goForRest (fun r => decide (id r ∈ ids)) true [] .done (count + 1) = ⟨[], [], .done⟩ := by
          simp [goForRest, goForLoop]
        rw [hg]
        simp only [loopOver, List.length_nil, Nat.zero_add, List.replicate_one, List.singleton_append]
        rw [useAll_fetch id dist its i _ _ hi us .stopIteration .over ([], .done) rfl (by simp)]
        rfl
    | raised x =>
      refine ⟨.done, fun us => ?_⟩
      simp only [goForRest, goForLoop, loopOver, List.length_nil, Nat.zero_add, List.replicate_one, List.singleton_append]
      rw [useAll_fetch id dist its i _ _ hi us (.raised x) .over ([], .done) rfl (by simp)]
      rfl
  | cons r R ih =>
    intro its count hi hne
    by_cases hr : id r ∈ ids
    · cases count with
      | zero =>
        rw [goForRest_last _ _ _ _ _ (by simpa using hr)]
        refine ⟨e, fun us => ?_⟩
        simp only [loopOver, List.length_singleton, List.replicate_succ, List.replicate_zero, List.cons_append,
          List.nil_append]
        rw [useAll_fetch id dist its i _ _ hi _ (.report r) (.vertices ids 0 silent) (R, e)
            (by simp [fetchFrom, listGen, listSeek, hr]) (by simp),
          useAll_fetch id dist _ i _ _ (get_set hi) us .stopIteration .over (R, e) rfl (by simp), List.set_set,
          fetchedAll_cons, fetchedAll_done]
        simp [fetchedAll]
      | succ count =>
        rw [goForRest_in _ _ _ _ _ _ (by simpa using hr)] at hne ⊢
        obtain ⟨e', he⟩ := ih (its.set i (.vertices ids (count + 1) silent)) count (get_set hi) hne
        refine ⟨e', fun us => ?_⟩
        simp only [loopOver, List.length_cons] at he ⊢
        rw [List.replicate_succ, List.cons_append, useAll_fetch id dist its i _ _ hi _ (.report r)
          (.vertices ids (count + 1) silent) (R, e) (by simp [fetchFrom, listGen, listSeek, hr]) (by simp), fetchedAll_cons,
          List.cons_append, he us, List.set_set]
    · rw [goForRest_out _ _ _ _ _ _ (by simpa using hr)] at hne ⊢
      obtain ⟨e', he⟩ := ih its count hi hne
      refine ⟨e', fun us => ?_⟩
      rw [← he us]
      simp only [loopOver]
      rw [List.replicate_succ, List.cons_append]
      refine useAll_fetch_congr id dist its i _ _ _ hi _ ?_
      simp [fetchFrom, listGen, listSeek, hr]

/-- **C76, `go_for_vertices_in`.** In any history, a `for` loop over `go_for_vertices_in` does what C41 says, for the reports that
are left, and the traversal continues with the reports that are left then. -/
theorem C76_go_for_vertices_in (ids : List K) (silent : Bool) (its : List (GoIter K W)) (R : List ρ) (e : Ending)
    (h : (goForVerticesIn id ids silent R e).ending ≠ .outOfFuel) :
    ∃ e', ∀ us, useAll listGen id dist its (R, e)
        (.goForVertices ids silent :: (loopOver its.length (goForVerticesIn id ids silent R e).yielded.length ++ us)) =
      .ok :: (fetchedAll (goForVerticesIn id ids silent R e).yielded (goForVerticesIn id ids silent R e).ending
          ((goForVerticesIn id ids silent R e).yielded.length + 1) ++
        useAll listGen id dist (its ++ [.over]) ((goForVerticesIn id ids silent R e).rest, e') us) := by
  have hget : (its ++ [GoIter.vertices ids ids.dedup.length silent])[its.length]? =
      some (.vertices (W := W) ids ids.dedup.length silent) := by simp
  have hset : ∀ x : GoIter K W, (its ++ [x]).set its.length .over = its ++ [.over] := by intro x; simp
  rw [goForVerticesIn_eq] at h ⊢
  by_cases hc : ids.dedup.length = 0
  · simp only [hc, if_true]
    refine ⟨e, fun us => ?_⟩
    rw [useAll_cons id dist _ _ _ _ _ (by simp [use])]
    simp only [use, loopOver, List.length_nil, Nat.zero_add, List.replicate_one, List.singleton_append]
    rw [useAll_fetch id dist _ _ _ _ hget us .stopIteration .over (R, e) (by simp [fetchFrom, hc]) (by simp), hset]
    rfl
  · simp only [hc, if_false] at h ⊢
    obtain ⟨n, hn⟩ : ∃ n, ids.dedup.length = n + 1 := ⟨ids.dedup.length - 1, by omega⟩
    rw [hn] at hget h ⊢
    obtain ⟨e', he⟩ := vertices_loop id dist ids silent its.length e R _ n hget h
    refine ⟨e', fun us => ?_⟩
    rw [useAll_cons id dist _ _ _ _ _ (by simp [use])]
    simp only [use, hn, he us, hset]

theorem showing_loop (stop : W) (i : Nat) (e : Ending) : ∀ (R : List ρ) (its : List (GoIter K W)),
    its[i]? = some (.showing stop) → (goRangeLoop2 dist stop R e).ending ≠ .outOfFuel →
    ∃ e', ∀ us, useAll listGen id dist its (R, e) (loopOver i (goRangeLoop2 dist stop R e).yielded.length ++ us) =
      fetchedAll (goRangeLoop2 dist stop R e).yielded (goRangeLoop2 dist stop R e).ending
        ((goRangeLoop2 dist stop R e).yielded.length + 1) ++
      useAll listGen id dist (its.set i .over) ((goRangeLoop2 dist stop R e).rest, e') us := by
  intro R
  induction R with
  | nil =>
    intro its hi hne
    refine ⟨.done, fun us => ?_⟩
    simp only [goRangeLoop2, loopOver, List.length_nil, Nat.zero_add, List.replicate_one, List.singleton_append]
    cases e with
    | outOfFuel => simp [goRangeLoop2] at hne
    | done => rw [useAll_fetch id dist its i _ _ hi us .stopIteration .over ([], .done) rfl (by simp)]; rfl
    | raised x => rw [useAll_fetch id dist its i _ _ hi us (.raised x) .over ([], .done) rfl (by simp)]; rfl
  | cons r R ih =>
    intro its hi hne
    rw [goRangeLoop2] at hne ⊢
    by_cases hs : stop ≤ dist r
    · simp only [hs, if_true]
      refine ⟨e, fun us => ?_⟩
      simp only [loopOver, List.length_nil, Nat.zero_add, List.replicate_one, List.singleton_append]
      rw [useAll_fetch id dist its i _ _ hi us .stopIteration .over (R, e)
        (by simp [fetchFrom, fetchShowing, listGen, listSeek, hs]) (by simp)]
      rfl
    · simp only [hs, if_false] at hne ⊢
      obtain ⟨e', he⟩ := ih its hi hne
      refine ⟨e', fun us => ?_⟩
      simp only [loopOver, List.length_cons] at he ⊢
      rw [List.replicate_succ, List.cons_append, useAll_fetch id dist its i _ _ hi _ (.report r) (.showing stop) (R, e)
        (by simp [fetchFrom, fetchShowing, listGen, listSeek, hs]) (by simp), fetchedAll_cons, List.cons_append,
        set_same hi, he us]

theorem skipping_loop (start stop : W) (i : Nat) (e : Ending) : ∀ (R : List ρ) (its : List (GoIter K W)),
    its[i]? = some (.skipping start stop) → (goRange dist start stop R e).ending ≠ .outOfFuel →
    ∃ e', ∀ us, useAll listGen id dist its (R, e) (loopOver i (goRange dist start stop R e).yielded.length ++ us) =
      fetchedAll (goRange dist start stop R e).yielded (goRange dist start stop R e).ending
        ((goRange dist start stop R e).yielded.length + 1) ++
      useAll listGen id dist (its.set i .over) ((goRange dist start stop R e).rest, e') us := by
  intro R
  induction R with
  | nil =>
    intro its hi hne
    refine ⟨.done, fun us => ?_⟩
    simp only [goRange, loopOver, List.length_nil, Nat.zero_add, List.replicate_one, List.singleton_append]
    cases e with
    | outOfFuel => simp [goRange] at hne
    | done => rw [useAll_fetch id dist its i _ _ hi us .stopIteration .over ([], .done) rfl (by simp)]; rfl
    | raised x => rw [useAll_fetch id dist its i _ _ hi us (.raised x) .over ([], .done) rfl (by simp)]; rfl
  | cons r R ih =>
    intro its hi hne
    rw [goRange] at hne ⊢
    by_cases ha : start ≤ dist r
    · simp only [ha, if_true] at hne ⊢
      by_cases hs : dist r < stop
      · simp only [hs, if_true] at hne ⊢
        obtain ⟨e', he⟩ := showing_loop id dist stop i e R (its.set i (.showing stop)) (get_set hi) hne
        refine ⟨e', fun us => ?_⟩
        simp only [loopOver, List.length_cons] at he ⊢
        rw [List.replicate_succ, List.cons_append, useAll_fetch id dist its i _ _ hi _ (.report r) (.showing stop) (R, e)
          (by simp [fetchFrom, listGen, listSeek, ha, hs]) (by simp), fetchedAll_cons, List.cons_append, he us, List.set_set]
      · simp only [hs, if_false] at hne ⊢
        obtain ⟨e', he⟩ := showing_loop id dist stop i e R (its.set i (.showing stop)) (get_set hi) hne
        refine ⟨e', fun us => ?_⟩
        rw [List.set_set] at he
        rw [← he us]
        simp only [loopOver]
        rw [List.replicate_succ, List.cons_append, useAll, useAll, use_fetch id dist its i _ _ hi,
          use_fetch id dist _ i _ _ (get_set hi), List.set_set]
        have : fetchFrom listGen id dist (.skipping start stop) (r :: R, e) =
            fetchFrom listGen id dist (.showing stop) (R, e) := by
          simp [fetchFrom, listGen, listSeek, ha, hs]
        rw [this]
    · simp only [ha, if_false] at hne ⊢
      obtain ⟨e', he⟩ := ih its hi hne
      refine ⟨e', fun us => ?_⟩
      rw [← he us]
      simp only [loopOver]
      rw [List.replicate_succ, List.cons_append]
      refine useAll_fetch_congr id dist its i _ _ _ hi _ ?_
      simp [fetchFrom, listGen, listSeek, ha]

/-- **C76, `go_for_depth_range` and `go_for_distance_range`.** In any history, a `for` loop over such an iterator does what C42 says,
for the reports that are left, and the traversal continues with the reports that are left then. -/
theorem C76_go_for_range (start stop : W) (its : List (GoIter K W)) (R : List ρ) (e : Ending)
    (h : (goRange dist start stop R e).ending ≠ .outOfFuel) :
    ∃ e', ∀ us, useAll listGen id dist its (R, e)
        (.goForRange start stop :: (loopOver its.length (goRange dist start stop R e).yielded.length ++ us)) =
      .ok :: (fetchedAll (goRange dist start stop R e).yielded (goRange dist start stop R e).ending
          ((goRange dist start stop R e).yielded.length + 1) ++
        useAll listGen id dist (its ++ [.over]) ((goRange dist start stop R e).rest, e') us) := by
  have hget : (its ++ [GoIter.skipping start stop])[its.length]? = some (.skipping (K := K) start stop) := by simp
  obtain ⟨e', he⟩ := skipping_loop id dist start stop its.length e R _ hget h
  refine ⟨e', fun us => ?_⟩
  rw [useAll_cons id dist _ _ _ _ _ (by simp [use])]
  simp only [use, he us]
  simp

end list

/-! ## All strategies: the outcomes are those on the list of reports of the run that has been started last -/

/-- The reports and the ending of a run. -/
def RunResult.listed {σ : Type} (r : RunResult σ ρ) : List ρ × Ending := (r.reports, r.ending)

/-- After an accepted start, with parameters `a`, of an object with any history `h` (which may contain starts, accepted and rejected
ones, and unfinished iterations): all further calls have the outcomes that the calls have on the list of the reports of
the run `run` (that depends on `a` only, not on the history). And if the run comes to an end in `fuel` steps, all calls
come to an end in `fuel` steps. -/
def Restarts {A P T C σ : Type} (st : Strat A P T C σ ρ) (a : A) (run : Nat → List ρ × Ending) : Prop :=
  ∀ (K W : Type) [DecidableEq K] [LinearOrder W] (id : ρ → K) (dist : ρ → W) (o : TravObj P T C σ K W)
    (h : List (Call A K W)) (us : List (Use K W)) (fuel : Nat),
    (.hangs ∉ (o.calls st id dist fuel (h ++ .start a :: us.map .use)).1 → ∀ F, fuel * (2 * us.length) ≤ F →
      (o.calls st id dist fuel (h ++ .start a :: us.map .use)).1 =
        (o.calls st id dist fuel h).1 ++ .ok :: useAll listGen id dist [] (run F) us) ∧
    (.hangs ∉ (o.calls st id dist fuel h).1 → (run fuel).2 ≠ .outOfFuel →
      .hangs ∉ (o.calls st id dist fuel (h ++ .start a :: us.map .use)).1)

theorem restarts_of {A P T C σ : Type} (st : Strat A P T C σ ρ) (a : A) (run : Nat → List ρ × Ending)
    (hs : ∀ F p, ∃ p', st.start a p = (p', none) ∧ st.runOf F (st.kind p') p' = run F) : Restarts st a run := by
  intro K W _ _ id dist o h us fuel
  refine ⟨fun hh F hF => TravObj.restart st id dist fuel o h a us F _ hF (hs F) hh, fun hh hr => ?_⟩
  exact TravObj.calls_end st id dist fuel o h a us fuel _ le_rfl hr (hs fuel) hh

/-- **C76, order.** After the last accepted start, whatever calls a program makes: the reports it gets are reports of the run, in the
order of the run, and each of them at most once. -/
theorem C76_order {A P T C σ : Type} {st : Strat A P T C σ ρ} {a : A} {run : Nat → List ρ × Ending} (hst : Restarts st a run)
    (id : ρ → K) (dist : ρ → W) (o : TravObj P T C σ K W) (h : List (Call A K W)) (us : List (Use K W)) (fuel : Nat)
    (hh : .hangs ∉ (o.calls st id dist fuel (h ++ .start a :: us.map .use)).1) :
    ∃ outs, (o.calls st id dist fuel (h ++ .start a :: us.map .use)).1 = (o.calls st id dist fuel h).1 ++ .ok :: outs ∧
      (delivered outs).Sublist (run (fuel * (2 * us.length))).1 := by
  have he := (hst _ _ id dist o h us fuel).1 hh _ le_rfl
  rw [he] at hh ⊢
  refine ⟨_, rfl, ?_⟩
  obtain ⟨used, rest, e', its', hR, _, _, hd, _⟩ := C76_position id dist us []
    (run (fuel * (2 * us.length))).1 (run (fuel * (2 * us.length))).2 (fun hx => hh (by simp [hx]))
  rw [hR]
  exact hd.trans (List.sublist_append_left _ _)

/-- **C76, restart.** The outcomes after an accepted start do not depend on what has been done with the object before: they are the
same as with a new object. -/
theorem C76_restart {A P T C σ : Type} {st : Strat A P T C σ ρ} {a : A} {run : Nat → List ρ × Ending}
    (hst : Restarts st a run) (id : ρ → K) (dist : ρ → W) (o : TravObj P T C σ K W) (p : P) (h : List (Call A K W))
    (us : List (Use K W)) (fuel : Nat) (hh : .hangs ∉ (o.calls st id dist fuel (h ++ .start a :: us.map .use)).1)
    (hn : .hangs ∉ ((TravObj.new p).calls st id dist fuel (.start a :: us.map .use)).1) :
    (o.calls st id dist fuel (h ++ .start a :: us.map .use)).1 =
      (o.calls st id dist fuel h).1 ++ ((TravObj.new p).calls st id dist fuel (.start a :: us.map .use)).1 := by
  rw [(hst _ _ id dist o h us fuel).1 hh _ le_rfl]
  have := (hst _ _ id dist (TravObj.new p) [] us fuel).1 hn _ le_rfl
  simp only [List.nil_append] at this
  rw [this]
  rfl

/-! ## The strategies -/

section strategies
variable {V L S M ML : Type} (g : TravGear V K L S M ML)

theorem startV_ok (vid : V → K) (isTree : Bool) (a : StartArgs V S) (xs : List V)
    (hx : givenStarts a.startVertex a.startVertices = some xs) (p : VAttrs V S M ML) :
    ∃ it, it.read.1 = xs ∧ startV g vid isTree true true a p =
      ({ starts := it, buildPaths := a.buildPaths, limit := a.limit
         preds := if a.buildPaths then g.mo.setAll g.mo.empty (xs.map (fun v => (vid v, v))) else g.mo.empty
         labels := g.lo.empty
         visited := if isTree then a.already.getD g.so.empty
           else g.so.addAll (a.already.getD g.so.empty) (xs.map vid) }, none) := by
  obtain ⟨it, h, e⟩ := startWithVisited_spec a.startVertex a.startVertices a.buildPaths isTree
  refine ⟨it xs, h xs, ?_⟩
  unfold startV
  rw [e]
  simp only [startedWith, hx, startPreds_eq, startVisited_eq]

/-- **C76, breadth-first search.** -/
theorem C76_bfs (c : TravCfg V K L) (a : StartArgs V S) (xs : List V)
    (hx : givenStarts a.startVertex a.startVertices = some xs) :
    Restarts (bfsStrat g c) a (fun F =>
      (bfsRun g { c with buildPaths := a.buildPaths } (a.already.getD g.so.empty) xs a.limit F).listed) := by
  refine restarts_of _ _ _ (fun F p => ?_)
  obtain ⟨it, hit, h⟩ := startV_ok g c.vid c.isTree a xs hx p
  refine ⟨_, h, ?_⟩
  simp only [Strat.runOf, bfsStrat, hit]
  rfl

/-- **C76, topological sort.** -/
theorem C76_topo (c : TravCfg V K L) (a : StartArgs V S) (xs : List V)
    (hx : givenStarts a.startVertex a.startVertices = some xs) :
    Restarts (topoStrat g c) a (fun F =>
      (topoRun g { c with buildPaths := a.buildPaths } (a.already.getD g.so.empty) xs a.limit F).listed) := by
  refine restarts_of _ _ _ (fun F p => ?_)
  obtain ⟨it, hit, h⟩ := startV_ok g c.vid c.isTree a xs hx p
  refine ⟨_, h, ?_⟩
  simp only [Strat.runOf, topoStrat, hit]
  rfl

/-- **C76, neighbors-then-depth.** -/
theorem C76_ntd (c : TravCfg V K L) (a : StartArgs V S) (computeDepth : Bool) (xs : List V)
    (hx : givenStarts a.startVertex a.startVertices = some xs) :
    Restarts (ntdStrat g c) (a, computeDepth) (fun F =>
      (ntdRun g ⟨{ c with buildPaths := a.buildPaths }, computeDepth⟩ (a.already.getD g.so.empty) xs a.limit F).listed) := by
  refine restarts_of _ _ _ (fun F p => ?_)
  obtain ⟨it, hit, h⟩ := startV_ok g c.vid c.isTree a xs hx p.base
  refine ⟨_, by simp only [ntdStrat, h]; rfl, ?_⟩
  simp only [Strat.runOf, ntdStrat, hit]
  rfl

theorem startV_dfs (vid : V → K) (isTree : Bool) (a : StartArgs V S) (xs : List V)
    (hx : givenStarts a.startVertex a.startVertices = some xs) (p : VAttrs V S M ML) :
    ∃ it, it.read.1 = xs ∧ startV g vid isTree false false a p =
      ({ starts := it, buildPaths := a.buildPaths, limit := a.limit, preds := g.mo.empty, labels := g.lo.empty
         visited := a.already.getD g.so.empty }, none) := by
  obtain ⟨it, h, e⟩ := startWithVisited_dfs a.startVertex a.startVertices a.buildPaths isTree
  refine ⟨it xs, h xs hx, ?_⟩
  have : startPreds a.buildPaths vid g.mo [] = g.mo.empty := by cases a.buildPaths <;> rfl
  unfold startV
  rw [e]
  simp only [startedWith, hx, this]
  rfl

theorem run_inl [DecidableEq V] (c : DfsCfg V K L) : ∀ F lim (s : DfsState V L S M ML),
    runList (dfsSumStep (K := K) g (.inl c)) F lim (.inl s) =
      ((runMachine (dfsStep g c) F lim s).reports.map .inl, (runMachine (dfsStep g c) F lim s).ending) := by
  intro F
  induction F with
  | zero => intros; rfl
  | succ F ih =>
    intro lim s
    simp only [runList, RunResult.reports] at ih ⊢
    rw [runMachine, runMachine]
    simp only [dfsSumStep]
    cases dfsStep g c s with
    | stop s' => rfl
    | fail e => rfl
    | tau s' => exact ih lim s'
    | emit r s' =>
      simp only [repsOf, List.filterMap_cons, List.map_cons, Prod.mk.injEq] at ih ⊢
      exact ⟨by rw [(ih lim s').1], (ih lim s').2⟩
    | expand s' =>
      simp only
      cases hl : checkLimit lim with
      | none => rfl
      | some l =>
        simp only [repsOf, List.filterMap_cons, Prod.mk.injEq] at ih ⊢
        exact ih l s'

theorem run_inr [DecidableEq V] (c : TraceCfg V K L) : ∀ F lim (s : TraceState V K L S M ML),
    runList (dfsSumStep (K := K) g (.inr c)) F lim (.inr s) =
      ((runMachine (trStep g c) F lim s).reports.map .inr, (runMachine (trStep g c) F lim s).ending) := by
  intro F
  induction F with
  | zero => intros; rfl
  | succ F ih =>
    intro lim s
    simp only [runList, RunResult.reports] at ih ⊢
    rw [runMachine, runMachine]
    simp only [dfsSumStep]
    cases trStep g c s with
    | stop s' => rfl
    | fail e => rfl
    | tau s' => exact ih lim s'
    | emit r s' =>
      simp only [repsOf, List.filterMap_cons, List.map_cons, Prod.mk.injEq] at ih ⊢
      exact ⟨by rw [(ih lim s').1], (ih lim s').2⟩
    | expand s' =>
      simp only
      cases hl : checkLimit lim with
      | none => rfl
      | some l =>
        simp only [repsOf, List.filterMap_cons, Prod.mk.injEq] at ih ⊢
        exact ih l s'

/-- The options of depth-first search without trace, for given parameters. -/
def dfsCfgOf (f : DfsFixed V K L) (a : DfsArgs V S) : DfsCfg V K L :=
  { next := f.next, vid := f.vid, isTree := f.isTree, buildPaths := a.base.buildPaths, computeDepth := a.computeDepth
    reportStart := a.report .enteringStart, reportSucc := a.report .enteringSuccessor, skip := f.skip }

/-- The options of depth-first search with trace, for given parameters and the options derived from them. -/
def traceCfgOf (f : DfsFixed V K L) (a : DfsArgs V S) (o : DfsOptions) : TraceCfg V K L :=
  { next := f.next, vid := f.vid, isTree := f.isTree, buildPaths := a.base.buildPaths, computeDepth := a.computeDepth
    mode := a.mode, report := a.report, computeOnTrace := o.computeOnTrace, computeIndex := o.computeIndex
    labeled := f.labeled, skip := f.skip }

/-- **C76, depth-first search without trace.** -/
theorem C76_dfs [DecidableEq V] (f : DfsFixed V K L) (a : DfsArgs V S) (xs : List V)
    (hx : givenStarts a.base.startVertex a.base.startVertices = some xs) (o : DfsOptions)
    (ho : dfsOptions (a.options f.isTree) = some o) (ht : o.computeTrace = false) (hm : a.mode = .dfsTree) :
    Restarts (dfsStrat g f) a (fun F =>
      (((dfsRun g (dfsCfgOf f a) (a.base.already.getD g.so.empty) xs a.base.limit F).reports).map .inl,
        (dfsRun g (dfsCfgOf f a) (a.base.already.getD g.so.empty) xs a.base.limit F).ending)) := by
  refine restarts_of _ _ _ (fun F p => ?_)
  obtain ⟨it, hit, h⟩ := startV_dfs g f.vid f.isTree a.base xs hx p.base
  refine ⟨_, by simp only [dfsStrat, dfsStart, h, ho]; rfl, ?_⟩
  simp only [Strat.runOf, dfsStrat, hit, ht, hm, Bool.false_or, bne_self_eq_false, Bool.false_eq_true, if_false]
  rw [run_inl]
  cases hd : a.computeDepth <;> simp only [dfsRun, dfsInit, dfsCfgOf, hd, Bool.false_eq_true, if_false, if_true]

/-- **C76, depth-first search with trace.** -/
theorem C76_dfs_trace [DecidableEq V] (f : DfsFixed V K L) (a : DfsArgs V S) (xs : List V)
    (hx : givenStarts a.base.startVertex a.base.startVertices = some xs) (o : DfsOptions)
    (ho : dfsOptions (a.options f.isTree) = some o) (ht : o.computeTrace = true ∨ a.mode ≠ .dfsTree) :
    Restarts (dfsStrat g f) a (fun F =>
      (((trRun g (traceCfgOf f a o) (a.base.already.getD g.so.empty) xs a.base.limit F).reports).map .inr,
        (trRun g (traceCfgOf f a o) (a.base.already.getD g.so.empty) xs a.base.limit F).ending)) := by
  refine restarts_of _ _ _ (fun F p => ?_)
  obtain ⟨it, hit, h⟩ := startV_dfs g f.vid f.isTree a.base xs hx p.base
  refine ⟨_, by simp only [dfsStrat, dfsStart, h, ho]; rfl, ?_⟩
  have hk : (o.computeTrace || a.mode != .dfsTree) = true := by
    rcases ht with ht | ht
    · simp [ht]
    · simp [ht]
  simp only [Strat.runOf, dfsStrat, hit, hk, if_true]
  rw [run_inr]
  have hdep : (if a.computeDepth = true then (if a.computeDepth = true then (0 : Int) else -1) - 1
      else (if a.computeDepth = true then 0 else -1)) = -1 := by cases a.computeDepth <;> rfl
  simp only [hdep]
  rfl

variable {D : Type}

theorem startW_ok (vid : V → K) (mo : MapOps M K V) (lo : MapOps ML K L) (a : WStartArgs V) (xs : List V)
    (hx : givenStarts a.startVertex a.startVertices = some xs) (p : WAttrs V M ML) :
    startW vid mo lo a p =
      ({ starts := xs, buildPaths := a.buildPaths, limit := a.limit
         preds := if a.buildPaths then mo.setAll mo.empty (xs.map (fun v => (vid v, v))) else mo.empty
         labels := lo.empty }, none) := by
  obtain ⟨it, h, e⟩ := startFrom_spec a.startVertex a.startVertices a.buildPaths
  unfold startW
  rw [e]
  simp only [startedWith, hx, startPreds_eq, h xs hx]

theorem spStartEntries_vid [AddCommMonoid W] (g : WGear V K L W M ML D) (c c' : WCfg V K L W) (h : c'.vid = c.vid) (d : D)
    (xs : List V) : ∀ n, spStartEntries g c d xs n = spStartEntries g c' d xs n := by
  induction xs with
  | nil => intro n; rfl
  | cons x xs ih => intro n; rw [spStartEntries, spStartEntries, ih, h]

/-- **C76, shortest paths.** -/
theorem C76_sp [AddCommMonoid W] (g : WGear V K L W M ML D) (c : WCfg V K L W) (a : WStartArgs V) (keep : Bool)
    (known : Option D) (xs : List V) (hx : givenStarts a.startVertex a.startVertices = some xs) :
    Restarts (spStrat g c) (a, keep, known) (fun F =>
      (spRun g { c with buildPaths := a.buildPaths, keepDistances := keep } known xs a.limit F).listed) := by
  refine restarts_of _ _ _ (fun F p => ?_)
  refine ⟨_, by simp only [spStrat, startW_ok c.vid g.mo g.lo a xs hx p.base]; rfl, ?_⟩
  simp only [Strat.runOf, spStrat,
    spStartEntries_vid g c { c with buildPaths := a.buildPaths, keepDistances := keep } rfl]
  rfl

/-- **C76, A*.** -/
theorem C76_astar [AddCommMonoid W] (g : WGear V K L W M ML D) (c : AStarCfg V K L W) (a : AStarArgs V W D) (xs : List V)
    (hx : givenStarts a.base.startVertex a.base.startVertices = some xs) :
    Restarts (aStrat g c) a (fun F =>
      (aRun g { c with buildPaths := a.base.buildPaths, heur := a.heur } a.known a.guesses xs a.base.limit F).listed) := by
  refine restarts_of _ _ _ (fun F p => ?_)
  refine ⟨_, by simp only [aStrat, startW_ok c.vid g.mo g.lo a.base xs hx p.base]; rfl, ?_⟩
  rfl

/-- **C76, minimum spanning tree.** -/
theorem C76_mst (c : MstCfg V K L W) (a : WStartArgs V) (xs : List V)
    (hx : givenStarts a.startVertex a.startVertices = some xs) :
    Restarts (mstStrat g c) a (fun F => (mstRun g { c with buildPaths := a.buildPaths } xs a.limit F).listed) := by
  refine restarts_of _ _ _ (fun F p => ?_)
  refine ⟨_, by simp only [mstStrat, startW_ok c.vid g.mo g.lo a xs hx p]; rfl, ?_⟩
  simp only [Strat.runOf, mstStrat, mstRun]
  by_cases hl : (a.limit.any fun k : Int => decide (0 ≤ k) && decide (k < xs.length)) = true
  · simp only [hl, if_true]; rfl
  · simp only [hl]; rfl

/-! ## C77: objects that are not started, and rejected starts -/

theorem startWithVisited_none (sv : Option V) (svs : Option (PyIter V)) (b ep t vs : Bool)
    (h : givenStarts sv svs = none) : startWithVisited sv svs b ep t vs = .error .runtimeError := by
  rcases sv with _ | v <;> rcases svs with _ | it <;> first | rfl | simp [givenStarts] at h

theorem startFrom_none (sv : Option V) (svs : Option (PyIter V)) (b ep : Bool)
    (h : givenStarts sv svs = none) : startFrom sv svs b ep = .error .runtimeError := by
  rcases sv with _ | v <;> rcases svs with _ | it <;> first | rfl | simp [givenStarts] at h

theorem startV_none (vid : V → K) (isTree ep vs : Bool) (a : StartArgs V S) (p : VAttrs V S M ML)
    (hx : givenStarts a.startVertex a.startVertices = none) : startV g vid isTree ep vs a p = (p, some .runtimeError) := by
  unfold startV
  rw [startWithVisited_none _ _ _ _ _ _ hx]

theorem startW_none (vid : V → K) (mo : MapOps M K V) (lo : MapOps ML K L) (a : WStartArgs V)
    (hx : givenStarts a.startVertex a.startVertices = none) (p : WAttrs V M ML) :
    startW vid mo lo a p = (p, some .runtimeError) := by
  unfold startW
  rw [startFrom_none _ _ _ _ hx]

variable {K' W' : Type} [DecidableEq K'] [LinearOrder W']

/-- **C77, rejected starts.** If `start_from` is called without start vertices, or with start vertices given in two ways, it raises
`RuntimeError`, and nothing has changed: a running traversal can be continued. (Depth-first search: for other rejected starts,
see `C77_counterexample_dfs`.) -/
theorem C77_rejected_start_partial [DecidableEq V] [AddCommMonoid W] (wg : WGear V K L W M ML D) (c : TravCfg V K L)
    (f : DfsFixed V K L) (cs : WCfg V K L W) (ca : AStarCfg V K L W) (cm : MstCfg V K L W) (a : StartArgs V S)
    (ad : DfsArgs V S) (aw : WStartArgs V) (aa : AStarArgs V W D) (depth keep : Bool) (known : Option D)
    (ha : givenStarts a.startVertex a.startVertices = none)
    (had : givenStarts ad.base.startVertex ad.base.startVertices = none)
    (haw : givenStarts aw.startVertex aw.startVertices = none)
    (haa : givenStarts aa.base.startVertex aa.base.startVertices = none) (fuel : Nat) :
    (∀ (id : _ → K') (dist : _ → W') (o : TravObj _ _ _ _ K' W'),
      o.call (bfsStrat g c) id dist fuel (.start a) = (.raised .runtimeError, o)) ∧
    (∀ (id : _ → K') (dist : _ → W') (o : TravObj _ _ _ _ K' W'),
      o.call (topoStrat g c) id dist fuel (.start a) = (.raised .runtimeError, o)) ∧
    (∀ (id : _ → K') (dist : _ → W') (o : TravObj _ _ _ _ K' W'),
      o.call (ntdStrat g c) id dist fuel (.start (a, depth)) = (.raised .runtimeError, o)) ∧
    (∀ (id : _ → K') (dist : _ → W') (o : TravObj _ _ _ _ K' W'),
      o.call (dfsStrat g f) id dist fuel (.start ad) = (.raised .runtimeError, o)) ∧
    (∀ (id : _ → K') (dist : _ → W') (o : TravObj _ _ _ _ K' W'),
      o.call (spStrat wg cs) id dist fuel (.start (aw, keep, known)) = (.raised .runtimeError, o)) ∧
    (∀ (id : _ → K') (dist : _ → W') (o : TravObj _ _ _ _ K' W'),
      o.call (aStrat wg ca) id dist fuel (.start aa) = (.raised .runtimeError, o)) ∧
    (∀ (id : _ → K') (dist : _ → W') (o : TravObj _ _ _ _ K' W'),
      o.call (mstStrat g cm) id dist fuel (.start aw) = (.raised .runtimeError, o)) := by
  refine ⟨?_, ?_, ?_, ?_, ?_, ?_, ?_⟩ <;> intro id dist o
  · simp only [TravObj.call, bfsStrat, startV_none g _ _ _ _ a _ ha]
  · simp only [TravObj.call, topoStrat, startV_none g _ _ _ _ a _ ha]
  · simp only [TravObj.call, ntdStrat, startV_none g _ _ _ _ a _ ha]
  · simp only [TravObj.call, dfsStrat, dfsStart, startV_none g _ _ _ _ ad.base _ had]
  · simp only [TravObj.call, spStrat, startW_none _ _ _ aw haw]
  · simp only [TravObj.call, aStrat, startW_none _ _ _ aa.base haa]
  · simp only [TravObj.call, mstStrat, startW_none _ _ _ aw haw]

end strategies

/-- **C77, objects that are not started.** Calls that use the traversal never give a report, and the first fetch of a vertex raises
`RuntimeError`. (Not so the following ones, see `C77_counterexample_not_started`.) -/
theorem C77_not_started_partial {A P T C σ : Type} (st : Strat A P T C σ ρ) (id : ρ → K) (dist : ρ → W) (p : P)
    (us : List (Use K W)) (fuel : Nat) :
    ((TravObj.new p).calls st id dist fuel (us.map .use)).1 = useAll listGen id dist [] ([], .raised .runtimeError) us ∧
    delivered ((TravObj.new p).calls st id dist fuel (us.map .use)).1 = [] ∧
    (∀ us', us = .next :: us' → ((TravObj.new p).calls st id dist fuel (us.map .use)).1.head? = some (.raised .runtimeError)) ∧
    (∀ k silent us', us = .goTo k silent :: us' →
      ((TravObj.new p).calls st id dist fuel (us.map .use)).1.head? = some (.raised .runtimeError)) := by
  have hno : .hangs ∉ useAll (pyGen st fuel p) id dist [] .notStarted us := by
    refine useAll_ends id dist (pyGen st fuel p) (fun g => g = .notStarted ∨ g = .finished) ?_ us [] _ (.inl rfl)
    rintro q g (rfl | rfl) <;> simp [pyGen]
  have he : ((TravObj.new p).calls st id dist fuel (us.map .use)).1 =
      useAll listGen id dist [] ([], .raised .runtimeError) us := by
    rw [TravObj.calls_uses]
    exact (useAll_sim id dist (pyGen_sim st fuel p) (genRel_mono st fuel p) us [] (.notStarted _) hno).symm
  rw [he]
  rw [TravObj.calls_uses] at he
  refine ⟨rfl, ?_, ?_, ?_⟩
  · obtain ⟨used, rest, e', its', hR, _, _, hd, _⟩ := C76_position id dist us [] [] (.raised .runtimeError)
      (by rw [← he]; exact hno)
    have : used = [] := (List.append_eq_nil_iff.mp hR.symm).1
    rw [this] at hd
    exact List.eq_nil_of_sublist_nil hd
  · rintro us' rfl; rfl
  · rintro k silent us' rfl; rfl

/-! ## Examples and counterexamples -/

/-- What is shown of the outcomes in examples. -/
def Outcome.show {ρ' : Type} (f : ρ → ρ') : Outcome ρ → Outcome ρ'
  | .report r => .report (f r)
  | .none_ => .none_
  | .stopIteration => .stopIteration
  | .raised e => .raised e
  | .ok => .ok
  | .hangs => .hangs

/-- Parameters for starting at a vertex. -/
def exArgs (v : Nat) : StartArgs Nat (List Nat) := ⟨some v, none, false, none, none⟩

/-- A new object for breadth-first search. -/
def exBfsObj : TravObj (VAttrs Nat (List Nat) (Nat → Option Nat) (Nat → Option Unit)) Unit (TravCfg Nat Nat Unit)
    (BfsState Nat Unit (List Nat) (Nat → Option Nat) (Nat → Option Unit)) Nat Int :=
  .new ⟨.collection [], false, none, fun _ => none, fun _ => none, []⟩

/-- C76: a history with an interrupted iteration, a rejected start in between, several ways to fetch, and a restart. -/
example :
    (exBfsObj.calls (bfsStrat exStartGear (exStartCfg false)) (fun r => r.vertex) (fun r => r.depth) 100
      [.start (exArgs 0), .use .next, .start ⟨none, none, false, none, none⟩, .use (.goForVertices [3, 9] true),
        .use (.fetch 0), .use (.fetch 0), .use .next,
        .start (exArgs 1), .use (.goTo 0 false), .use .next, .use .next, .use .next]).1.map (Outcome.show (·.vertex)) =
    [.ok, .report 1, .raised .runtimeError, .ok, .report 3, .stopIteration, .stopIteration,
      .ok, .report 0, .report 3, .stopIteration, .stopIteration] := by decide +kernel

/-- C76: the hypotheses of the theorems hold for this object, and there are reports. -/
example : (∃ run, Restarts (bfsStrat exStartGear (exStartCfg false)) (exArgs 0) run ∧
      ((run 100).1.map (·.vertex), (run 100).2) = ([1, 2, 3], .done)) ∧
    .hangs ∉ (exBfsObj.calls (bfsStrat exStartGear (exStartCfg false)) (fun r => r.vertex) (fun r => r.depth) 100
      ([] ++ .start (exArgs 0) :: [Use.next, .goTo 3 false].map .use)).1 := by
  have h := C76_bfs exStartGear (exStartCfg false) (exArgs 0) [0] rfl
  refine ⟨⟨_, h, by decide +kernel⟩, ?_⟩
  exact (h _ _ (fun r => r.vertex) (fun r => r.depth) exBfsObj [] [.next, .goTo 3 false] 100).2 (by simp [TravObj.calls])
    (by decide +kernel)

/-- **C77 is wrong: objects that are not started.** Only the first fetch from an object that is not started raises an
exception: later ones behave as if the traversal were exhausted, and a loop for no vertices does not raise one, either. -/
theorem C77_counterexample_not_started :
    (exBfsObj.calls (bfsStrat exStartGear (exStartCfg false)) (fun r => r.vertex) (fun r => r.depth) 100
      [.use .next, .use .next, .use (.goTo 1 true), .use (.goForVertices [1] true), .use (.fetch 0)]).1.map
        (Outcome.show (·.vertex)) =
      [.raised .runtimeError, .stopIteration, .none_, .ok, .stopIteration] ∧
    (exBfsObj.calls (bfsStrat exStartGear (exStartCfg false)) (fun r => r.vertex) (fun r => r.depth) 100
      [.use (.goForVertices [] false), .use (.fetch 0)]).1.map (Outcome.show (·.vertex)) =
      [.ok, .stopIteration] := by
  constructor <;> decide +kernel

/-- Parameters for depth-first search. If `walks`: the mode `ALL_WALKS`, that cannot be combined with paths. -/
def exDfsArgs (v : Nat) (walks : Bool) : DfsArgs Nat (List Nat) :=
  ⟨⟨some v, none, true, none, none⟩, true, if walks then .allWalks else .dfsTree,
    fun e => e == .enteringStart || e == .enteringSuccessor, false, false, false⟩

/-- A depth-first traversal. -/
def exDfsFixed : DfsFixed Nat Nat Unit :=
  ⟨fun v => if v < 3 then [(v + 1, ())] else [], id, false, false, fun _ => false⟩

/-- A new object for depth-first search. -/
def exDfsObj : TravObj (DfsAttrs Nat (List Nat) (Nat → Option Nat) (Nat → Option Unit)) Bool
    (DfsCfg Nat Nat Unit ⊕ TraceCfg Nat Nat Unit)
    (DfsState Nat Unit (List Nat) (Nat → Option Nat) (Nat → Option Unit) ⊕
      TraceState Nat Nat Unit (List Nat) (Nat → Option Nat) (Nat → Option Unit)) Nat Int :=
  .new ⟨⟨.collection [], false, none, fun _ => none, fun _ => none, []⟩, -1, false, .dfsTree, fun _ => false, false, false, false⟩

/-- The vertex of a report of depth-first search. -/
def dfsVertex {V K L S M ML : Type} : DfsReport V S M ML ⊕ TraceReport V K L S M ML → V
  | .inl r => r.vertex
  | .inr r => r.vertex

/-- **C77 is wrong for depth-first search: rejected starts.** A traversal is started at vertex 0. A further start, at vertex 2,
is rejected because of its options. The traversal that has been started before now starts at vertex 2. -/
theorem C77_counterexample_dfs :
    (exDfsObj.calls (dfsStrat exStartGear exDfsFixed) dfsVertex (fun _ => (0 : Int)) 100
      [.start (exDfsArgs 0 false), .use .next, .use .next]).1.map (Outcome.show dfsVertex) =
        [.ok, .report 0, .report 1] ∧
    (exDfsObj.calls (dfsStrat exStartGear exDfsFixed) dfsVertex (fun _ => (0 : Int)) 100
      [.start (exDfsArgs 0 false), .start (exDfsArgs 2 true), .use .next, .use .next]).1.map (Outcome.show dfsVertex) =
        [.ok, .raised .runtimeError, .report 2, .report 3] := by
  constructor <;> decide +kernel

/-- C76: the hypotheses for depth-first search hold. -/
example : givenStarts (exDfsArgs 0 false).base.startVertex (exDfsArgs 0 false).base.startVertices = some [0] ∧
    ∃ o, dfsOptions ((exDfsArgs 0 false).options exDfsFixed.isTree) = some o ∧ o.computeTrace = false ∧
      (exDfsArgs 0 false).mode = .dfsTree :=
  ⟨rfl, _, rfl, rfl, rfl⟩

end NoGraphs
