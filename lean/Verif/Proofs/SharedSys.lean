import Verif.Proofs.Shared
import Verif.Spec.Shared

/-! # The invariant of systems of traversals that share a set of visited vertices -/

set_option linter.unusedSectionVars false
set_option linter.unusedSimpArgs false

namespace NoGraphs

open Spec

variable {V K L S M ML : Type} [DecidableEq V] [DecidableEq K]
variable {g : TravGear V K L S M ML} {next : V → List (V × L)} {vid : V → K} {A : K → Prop}

/-- Reachable from start vertices, without entering vertices of `A`. -/
abbrev ReachA (next : V → List (V × L)) (vid : V → K) (A : K → Prop) (c : StartCall V K L) (v : V) : Prop :=
  Reachable (Allowed next vid A) (CallEnters vid A c) v

theorem ReachA.step {c : StartCall V K L} {u v : V} (h : ReachA next vid A c u) (e : Edge next u v) (ha : ¬ A (vid v)) :
    ReachA next vid A c v := by
  obtain ⟨n, h⟩ := h
  exact ⟨n + 1, .step h ⟨e, ha⟩⟩

/-- The start vertices, up to those that are not entered because they have been marked at the beginning. -/
theorem ReachA.starts (c : StartCall V K L) (v : V) (h : v ∈ callStarts c) : ReachA next vid A c v ∨ A (vid v) := by
  by_cases ha : A (vid v)
  · exact .inr ha
  · refine .inl ⟨0, .start ?_⟩
    cases c <;> first | exact h | exact ⟨h, ha⟩

/-- Relation between a call of `start_from` and the traversal it has started. -/
structure TravOk (g : TravGear V K L S M ML) (next : V → List (V × L)) (vid : V → K) (A : K → Prop) (visited : S)
    (call : StartCall V K L) (t : Started V K L S M ML) : Prop where
  starts : t.starts = callStarts call
  fits : t.gen.Fits next vid
  good : t.gen.Good next (fun v => A (vid v)) (ReachA next vid A call) (callStarts call)
  noSkip : CallNoSkip call → t.gen.NoSkip
  repAll : CallReports call → t.gen.RepAll
  done : t.status = .done → (∀ u v, ¬ t.gen.Owes u v) ∧ ∀ v, ¬ t.gen.Pend v
  pend : ∀ v ∈ callStarts call, ((∃ c' ss, call = .dfs c' ss) ∧ t.gen.Pend v) ∨ g.so.contains visited (vid v) = true

/-- Each edge of `u` leads to a visited vertex, or still has to be regarded. -/
def Closed (g : TravGear V K L S M ML) (next : V → List (V × L)) (vid : V → K) (y : Sys V K L S M ML) (u : V) : Prop :=
  ∀ v, Edge next u v → g.so.contains y.visited (vid v) = true ∨
    ∃ (j : Nat) (t : Started V K L S M ML), y.travs[j]? = some t ∧ t.gen.Owes u v

/-- The invariant: `cs` are the calls so far, `reps` the reports. -/
structure SInv (g : TravGear V K L S M ML) (next : V → List (V × L)) (vid : V → K) (A : K → Prop) (NS RA : Prop)
    (cs : List (StartCall V K L)) (y : Sys V K L S M ML) (reps : List (Nat × V)) : Prop where
  base : ∀ k, A k → g.so.contains y.visited k = true
  len : cs.length = y.travs.length
  ns : NS → ∀ c ∈ cs, CallNoSkip c
  ra : RA → ∀ c ∈ cs, CallReports c
  trav : ∀ (i : Nat) (c : StartCall V K L) (t : Started V K L S M ML), cs[i]? = some c → y.travs[i]? = some t →
    TravOk g next vid A y.visited c t
  enters : NS → ∀ c ∈ cs, ∀ v, CallEnters vid A c v → (∃ c' v', c = .dfs c' v') ∨ Closed g next vid y v
  clos : ∀ k, g.so.contains y.visited k = true → A k ∨ ∃ u, vid u = k ∧ (NS → Closed g next vid y u) ∧
    (∃ c ∈ cs, ReachA next vid A c u) ∧ (RA → (∃ c ∈ cs, u ∈ callStarts c) ∨ ∃ i, (i, u) ∈ reps)
  nodup : (reps.map (fun r => vid r.2)).Nodup
  rep : ∀ i w, (i, w) ∈ reps → ¬ A (vid w) ∧ g.so.contains y.visited (vid w) = true ∧
    ∃ c, cs[i]? = some c ∧ ReachA next vid A c w

variable {NS RA : Prop} {cs : List (StartCall V K L)} {y : Sys V K L S M ML} {reps : List (Nat × V)}

/-- What holds directly after `start_from`. -/
theorem start_ok (hg : g.so.Lawful) (A : K → Prop) (visited : S) {call : StartCall V K L} (hc : CallOn next vid call) :
    (∀ k, g.so.contains visited k = true → g.so.contains (call.start g visited).1 k = true) ∧
    (∀ k, g.so.contains (call.start g visited).1 k = true → g.so.contains visited k = true ∨
      ∃ v, CallEnters vid A call v ∧ v ∈ callStarts call ∧ vid v = k ∧ ∀ w, (call.start g visited).2.gen.Owes v w) ∧
    (∀ v, CallEnters vid A call v → (∃ c' v', call = .dfs c' v') ∨ ∀ w, (call.start g visited).2.gen.Owes v w) ∧
    TravOk g next vid A (call.start g visited).1 call (call.start g visited).2 := by
  cases call with
  | bfs c starts =>
    obtain ⟨rfl, rfl, ht⟩ := hc
    have hv : ∀ k, g.so.contains (bfsInit g c visited starts).visited k = true ↔
        k ∈ starts.map c.vid ∨ g.so.contains visited k = true := by
      intro k
      simp only [bfsInit, ht, Bool.false_eq_true, if_false, hg.contains_addAll, Bool.or_eq_true, decide_eq_true_eq]
    refine ⟨?_, ?_, ?_, ?_⟩
    · intro k hk
      exact (hv k).2 (.inr hk)
    · intro k hk
      rcases (hv k).1 hk with h | h
      · obtain ⟨v, h, e⟩ := List.mem_map.1 h
        exact .inr ⟨v, h, h, e, fun _ => .inl h⟩
      · exact .inl h
    · exact fun v h => .inr fun _ => .inl h
    · refine ⟨rfl, ⟨rfl, rfl, ht⟩, ?_, fun _ => trivial, fun _ => trivial, ?_, ?_⟩
      · refine ⟨fun v h => ⟨0, .start h⟩, ?_, fun _ => rfl, ?_, ?_⟩
        · simp [StartCall.start, bfsInit]
        · simp [bfsInit]
        · simp [bfsInit]
      · simp [StartCall.start]
      · exact fun v h => .inr ((hv _).2 (.inl (List.mem_map_of_mem h)))
  | ntd c starts =>
    obtain ⟨rfl, rfl, ht⟩ := hc
    have hv : ∀ k, g.so.contains (ntdInit g c visited starts).visited k = true ↔
        k ∈ starts.map c.vid ∨ g.so.contains visited k = true := by
      intro k
      simp only [ntdInit, ht, Bool.false_eq_true, if_false, hg.contains_addAll, Bool.or_eq_true, decide_eq_true_eq]
    refine ⟨?_, ?_, ?_, ?_⟩
    · intro k hk
      exact (hv k).2 (.inr hk)
    · intro k hk
      rcases (hv k).1 hk with h | h
      · obtain ⟨v, h, e⟩ := List.mem_map.1 h
        exact .inr ⟨v, h, h, e, fun _ => .inl (List.mem_reverse.2 h)⟩
      · exact .inl h
    · exact fun v h => .inr fun _ => .inl (List.mem_reverse.2 h)
    · refine ⟨rfl, ⟨rfl, rfl, ht⟩, ?_, fun _ => trivial, fun _ => trivial, ?_, ?_⟩
      · refine ⟨fun v h => ⟨0, .start (List.mem_reverse.1 h)⟩, ?_⟩
        simp [ntdInit]
      · simp [StartCall.start]
      · exact fun v h => .inr ((hv _).2 (.inl (List.mem_map_of_mem h)))
  | dfs c starts =>
    obtain ⟨rfl, rfl, ht⟩ := hc
    refine ⟨fun _ h => h, fun _ h => .inl h, fun _ _ => .inl ⟨_, _, rfl⟩, ?_⟩
    refine ⟨rfl, ⟨rfl, rfl, ht⟩, ?_, fun h => h, fun h => h, ?_, ?_⟩
    · refine ⟨fun _ => rfl, fun v h => h, ?_, ?_, ?_, ?_⟩
      · simp [dfsInit]
      · simp [StartCall.start, dfsInit]
      · simp [dfsInit]
      · simp [dfsInit]
    · simp [StartCall.start]
    · exact fun v h => .inl ⟨⟨_, _, rfl⟩, .inl h⟩

/-- A step of a traversal. -/
theorem SInv.step (hg : g.so.Lawful) (h : SInv g next vid A NS RA cs y reps) {i : Nat} {t : Started V K L S M ML}
    (ht : y.travs[i]? = some t) (o : StepOut V K L S M ML) (ho : o = t.gen.step g y.visited) :
    SInv g next vid A NS RA cs
      { visited := o.visited, travs := y.travs.set i { t with gen := o.gen, status := o.status } }
      (reps ++ (o.report.map (fun v => (i, v))).toList) := by
  have hi : i < y.travs.length := (List.getElem?_eq_some_iff.1 ht).1
  obtain ⟨c, hc⟩ : ∃ c, cs[i]? = some c := ⟨_, List.getElem?_eq_getElem (by rw [h.len]; exact hi)⟩
  have hcm : c ∈ cs := List.mem_of_getElem? hc
  have ok := h.trav i c t hc ht
  have so : StepOk g next vid (fun v => A (vid v)) (ReachA next vid A c) (callStarts c) y.visited t.gen o := by
    rw [ho]
    exact gen_stepOk hg (fun v hv => ReachA.starts c v hv) (fun _ h => h) (fun u v hu e ha => hu.step e ha) h.base ok.fits ok.good
  have clos : NS → ∀ u, Closed g next vid y u → Closed g next vid
      { visited := o.visited, travs := y.travs.set i { t with gen := o.gen, status := o.status } } u := by
    intro hns u hu v e
    rcases hu v e with hv | ⟨j, t', hj, hv⟩
    · exact .inl (so.mono _ hv)
    · by_cases hij : i = j
      · subst hij
        rw [ht] at hj
        cases hj
        rcases so.owes (ok.noSkip (h.ns hns c hcm)) u v hv e with hv | hv
        · exact .inr ⟨i, _, by rw [List.getElem?_set_self hi], hv⟩
        · exact .inl hv
      · exact .inr ⟨j, t', by simpa [List.getElem?_set_ne hij] using hj, hv⟩
  have memr : ∀ j w, (j, w) ∈ reps ++ (o.report.map (fun v => (i, v))).toList ↔ (j, w) ∈ reps ∨ j = i ∧ o.report = some w := by
    intro j w
    cases hr : o.report <;> simp [eq_comm]
  refine ⟨fun k hk => so.mono _ (h.base k hk), by simpa using h.len, h.ns, h.ra, ?_, ?_, ?_, ?_, ?_⟩
  · intro j c' t' hj ht'
    by_cases hij : i = j
    · subst hij
      rw [List.getElem?_set_self hi] at ht'
      cases ht'
      rw [hc] at hj
      cases hj
      refine ⟨ok.starts, so.fits, so.good, fun hn => so.noSkip (ok.noSkip hn), fun hn => so.repAll (ok.repAll hn), so.done, ?_⟩
      intro v hv
      rcases ok.pend v hv with h' | h'
      · exact (so.pend v h'.2).imp (fun h => ⟨h'.1, h⟩) id
      · exact .inr (so.mono _ h')
    · rw [List.getElem?_set_ne hij] at ht'
      obtain ⟨a1, a2, a3, a4, a5, a6, a7⟩ := h.trav j c' t' hj ht'
      exact ⟨a1, a2, a3, a4, a5, a6, fun v hv => (a7 v hv).imp id (so.mono _)⟩
  · exact fun hns c hc v hv => (h.enters hns c hc v hv).imp id (clos hns v)
  · intro k hk
    rcases so.new k hk with hk | ⟨w, rfl, hR, hrep, how⟩
    · rcases h.clos k hk with hk | ⟨u, e, h1, h2, h3⟩
      · exact .inl hk
      · refine .inr ⟨u, e, fun hns => clos hns u (h1 hns), h2, fun hra => (h3 hra).imp id ?_⟩
        rintro ⟨j, hj⟩
        exact ⟨j, (memr j u).2 (.inl hj)⟩
    · refine .inr ⟨w, rfl, fun _ v e => .inr ⟨i, _, by rw [List.getElem?_set_self hi], how v e⟩, ⟨c, hcm, hR⟩, fun hra => ?_⟩
      rcases hrep with hrep | hrep
      · exact .inr ⟨i, (memr i w).2 (.inr ⟨rfl, hrep⟩)⟩
      · exact .inl ⟨c, hcm, hrep (ok.repAll (h.ra hra c hcm))⟩
  · rcases hr : o.report with _ | w
    · simpa using h.nodup
    · obtain ⟨hno, -, -⟩ := so.rep w hr
      simp only [Option.map_some, Option.toList_some, List.map_append, List.map_cons, List.map_nil]
      rw [List.nodup_append]
      refine ⟨h.nodup, by simp, ?_⟩
      rintro a ha b hb rfl
      obtain ⟨⟨j, w'⟩, hm, e⟩ := List.mem_map.1 ha
      have := (h.rep j w' hm).2.1
      simp only [List.mem_singleton] at hb
      rw [show vid w' = vid w from e.trans hb, hno] at this
      simp at this
  · intro j w hm
    rcases (memr j w).1 hm with hm | ⟨rfl, hr⟩
    · obtain ⟨h1, h2, h3⟩ := h.rep j w hm
      exact ⟨h1, so.mono _ h2, h3⟩
    · obtain ⟨hno, hyes, hR⟩ := so.rep w hr
      refine ⟨fun ha => ?_, hyes, c, hc, hR⟩
      rw [h.base _ ha] at hno
      simp at hno

/-- A call of `start_from`. -/
theorem SInv.start (hg : g.so.Lawful) (h : SInv g next vid A NS RA cs y reps) {call : StartCall V K L}
    (hc : CallOn next vid call) (hns : NS → CallNoSkip call) (hra : RA → CallReports call) :
    SInv g next vid A NS RA (cs ++ [call])
      { visited := (call.start g y.visited).1, travs := y.travs ++ [(call.start g y.visited).2] } reps := by
  obtain ⟨s1, s2, s3, s4⟩ := start_ok hg A y.visited hc
  generalize hst : call.start g y.visited = r at *
  have last : (y.travs ++ [r.2])[y.travs.length]? = some r.2 := by simp
  have clos : ∀ u, Closed g next vid y u → Closed g next vid { visited := r.1, travs := y.travs ++ [r.2] } u := by
    intro u hu v e
    rcases hu v e with hv | ⟨j, t', hj, hv⟩
    · exact .inl (s1 _ hv)
    · have hjl : j < y.travs.length := (List.getElem?_eq_some_iff.1 hj).1
      exact .inr ⟨j, t', by simpa [List.getElem?_append_left hjl] using hj, hv⟩
  have nw : ∀ u, (∀ w, r.2.gen.Owes u w) → Closed g next vid { visited := r.1, travs := y.travs ++ [r.2] } u :=
    fun u hu v _ => .inr ⟨_, _, last, hu v⟩
  refine ⟨fun k hk => s1 _ (h.base k hk), by simp [h.len], ?_, ?_, ?_, ?_, ?_, h.nodup, ?_⟩
  · intro hn c hcm
    rcases List.mem_append.1 hcm with hcm | hcm
    · exact h.ns hn c hcm
    · rw [List.mem_singleton.1 hcm]; exact hns hn
  · intro hn c hcm
    rcases List.mem_append.1 hcm with hcm | hcm
    · exact h.ra hn c hcm
    · rw [List.mem_singleton.1 hcm]; exact hra hn
  · intro i c t hci hti
    rcases Nat.lt_or_ge i cs.length with hi | hi
    · rw [List.getElem?_append_left hi] at hci
      rw [List.getElem?_append_left (by rw [← h.len]; exact hi)] at hti
      obtain ⟨a1, a2, a3, a4, a5, a6, a7⟩ := h.trav i c t hci hti
      exact ⟨a1, a2, a3, a4, a5, a6, fun v hv => (a7 v hv).imp id (s1 _)⟩
    · have hl := (List.getElem?_eq_some_iff.1 hci).1
      simp only [List.length_append, List.length_singleton] at hl
      have : i = cs.length := by omega
      subst this
      rw [List.getElem?_append_right (by omega)] at hci
      rw [h.len, List.getElem?_append_right (by omega)] at hti
      simp at hci hti
      subst hci hti
      exact s4
  · intro hn c hcm v hv
    rcases List.mem_append.1 hcm with hcm | hcm
    · exact (h.enters hn c hcm v hv).imp id (clos v)
    · rw [List.mem_singleton.1 hcm] at hv ⊢
      exact (s3 v hv).imp id (nw v)
  · intro k hk
    rcases s2 k hk with hk | ⟨v, hv, hv', e, how⟩
    · rcases h.clos k hk with hk | ⟨u, e, h1, ⟨c, h2, h2'⟩, h3⟩
      · exact .inl hk
      · refine .inr ⟨u, e, fun hn => clos u (h1 hn), ⟨c, by simp [h2], h2'⟩, fun hn => (h3 hn).imp ?_ id⟩
        rintro ⟨c, hc, hu⟩
        exact ⟨c, by simp [hc], hu⟩
    · exact .inr ⟨v, e, fun _ => nw v how, ⟨call, by simp, 0, .start hv⟩, fun _ => .inl ⟨call, by simp, hv'⟩⟩
  · intro i w hm
    obtain ⟨h1, h2, c, h3, h4⟩ := h.rep i w hm
    exact ⟨h1, s1 _ h2, c, by rw [List.getElem?_append_left (List.getElem?_eq_some_iff.1 h3).1]; exact h3, h4⟩

/-- The invariant holds after each program. -/
theorem SInv.run (hg : g.so.Lawful) (prog : List (Action V K L)) : ∀ {cs : List (StartCall V K L)}
    {y : Sys V K L S M ML} {reps : List (Nat × V)}, SInv g next vid A NS RA cs y reps →
    (∀ c ∈ calls prog, CallOn next vid c) → (NS → ∀ c ∈ calls prog, CallNoSkip c) →
    (RA → ∀ c ∈ calls prog, CallReports c) →
    SInv g next vid A NS RA (cs ++ calls prog) (y.run g prog).2 (reps ++ (y.run g prog).1) := by
  induction prog with
  | nil => intro cs y reps h _ _ _; simpa [Sys.run, calls] using h
  | cons a as ih =>
    intro cs y reps h hon hns hra
    cases a with
    | start call =>
      have := ih (h.start hg (hon call (by simp [calls])) (fun hn => hns hn call (by simp [calls]))
        (fun hn => hra hn call (by simp [calls]))) (fun c hc => hon c (by simp [calls, hc]))
        (fun hn c hc => hns hn c (by simp [calls, hc])) (fun hn c hc => hra hn c (by simp [calls, hc]))
      simpa [Sys.run, Sys.act, calls] using this
    | step i =>
      have go : ∀ r : Sys V K L S M ML × Option (Nat × V), y.act g (.step i) = r →
          SInv g next vid A NS RA cs r.1 (reps ++ r.2.toList) →
          SInv g next vid A NS RA (cs ++ calls (.step i :: as)) (y.run g (.step i :: as)).2
            (reps ++ (y.run g (.step i :: as)).1) := by
        intro r hr hi
        have := ih hi hon hns hra
        simpa [Sys.run, hr, calls, List.append_assoc] using this
      refine go _ rfl ?_
      unfold Sys.act
      dsimp only
      rcases ht : y.travs[i]? with _ | t
      · simpa using h
      · dsimp only
        split
        · exact h.step hg ht _ rfl
        · simpa using h

/-- An action does not remove ids from the set, and a report has an id that was not in the set. -/
theorem SInv.act_new (hg : g.so.Lawful) (h : SInv g next vid A NS RA cs y reps) (a : Action V K L)
    (hon : ∀ c, a = .start c → CallOn next vid c) :
    (∀ k, g.so.contains y.visited k = true → g.so.contains (y.act g a).1.visited k = true) ∧
    ∀ r, (y.act g a).2 = some r → g.so.contains y.visited (vid r.2) = false := by
  cases a with
  | start call => exact ⟨(start_ok hg A y.visited (hon call rfl)).1, by simp [Sys.act]⟩
  | step i =>
    unfold Sys.act
    dsimp only
    rcases ht : y.travs[i]? with _ | t
    · exact ⟨fun _ h => h, by simp⟩
    · dsimp only
      split
      · obtain ⟨c, hc⟩ : ∃ c, cs[i]? = some c :=
          ⟨_, List.getElem?_eq_getElem (by rw [h.len]; exact (List.getElem?_eq_some_iff.1 ht).1)⟩
        have ok := h.trav i c t hc ht
        have so : StepOk g next vid (fun v => A (vid v)) (ReachA next vid A c) (callStarts c) y.visited t.gen
            (t.gen.step g y.visited) :=
          gen_stepOk hg (fun v hv => ReachA.starts c v hv) (fun _ h => h) (fun u v hu e ha => hu.step e ha) h.base ok.fits ok.good
        refine ⟨so.mono, ?_⟩
        rintro ⟨j, w⟩ hr
        obtain ⟨w', hw, e⟩ := Option.map_eq_some_iff.1 hr
        cases e
        exact (so.rep _ hw).1
      · exact ⟨fun _ h => h, by simp⟩

/-- Reports have ids that were not in the set before the program. -/
theorem SInv.run_new (hg : g.so.Lawful) (prog : List (Action V K L)) : ∀ {cs : List (StartCall V K L)}
    {y : Sys V K L S M ML} {reps : List (Nat × V)}, SInv g next vid A False False cs y reps →
    (∀ c ∈ calls prog, CallOn next vid c) → ∀ r ∈ (y.run g prog).1, g.so.contains y.visited (vid r.2) = false := by
  induction prog with
  | nil => intro cs y reps h _ r hr; simp [Sys.run] at hr
  | cons a as ih =>
    intro cs y reps h hon r hr
    have hon1 : ∀ c, a = .start c → CallOn next vid c := by
      rintro c rfl
      exact hon c (by simp [calls])
    obtain ⟨h1, h2⟩ := h.act_new hg a hon1
    have h' := h.run hg [a] (fun c hc => hon c (by
      cases a with
      | start call => simp [calls] at hc ⊢; exact .inl hc
      | step i => simp [calls] at hc)) (fun h => h.elim) (fun h => h.elim)
    simp only [Sys.run, List.append_nil] at h'
    simp only [Sys.run, List.mem_append, Option.mem_toList] at hr
    rcases hr with hr | hr
    · exact h2 r hr
    · have := ih h' (fun c hc => hon c (by cases a <;> simp [calls, hc])) r hr
      by_contra hne
      rw [Bool.not_eq_false] at hne
      rw [h1 _ hne] at this
      simp at this

/-- The invariant at the beginning. -/
theorem SInv.init (g : TravGear V K L S M ML) (next : V → List (V × L)) (vid : V → K) (already : S) (NS RA : Prop) :
    SInv g next vid (fun k => g.so.contains already k = true) NS RA [] ⟨already, []⟩ [] := by
  refine ⟨fun _ h => h, rfl, by simp, by simp, by simp, by simp, fun _ h => .inl h, by simp, by simp⟩

end NoGraphs
