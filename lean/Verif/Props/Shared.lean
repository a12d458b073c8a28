import Verif.Proofs.SharedSys
import Verif.Props.DepthFirst

/-!
# C72: traversals that share a set of visited vertices

The parameter `already_visited` of `start_from` makes traversals work on a set the program provides. Here, several
traversals (breadth-first, neighbors-then-depth, depth-first, in any mixture) are started with the same set, and
the program lets them make steps in any order. The claims hold for all programs, that means for all schedules.
-/

set_option linter.unusedSectionVars false

namespace NoGraphs

open Spec

variable {V K L S M ML : Type} [DecidableEq V] [DecidableEq K]
variable {g : TravGear V K L S M ML} {next : V → List (V × L)} {vid : V → K}

/-- **C72** (at most once). However the traversals are interleaved, no vertex is reported twice, neither by the same
traversal nor by two of them. -/
theorem C72_shared_at_most_once (hg : g.so.Lawful) (already : S) (prog : List (Action V K L))
    (hon : ∀ c ∈ calls prog, CallOn next vid c) :
    (((Sys.mk already []).run g prog).1.map (fun r => vid r.2)).Nodup := by
  have := (SInv.init g next vid already False False).run hg prog hon (fun h => h.elim) (fun h => h.elim)
  exact this.nodup

/-- **C72** (soundness). A vertex that is reported by the traversal of the `i`-th call of `start_from` was not in the set at
the beginning, is in it afterwards, and it is reachable from the start vertices of this call by
edges that avoid the vertices that have been in the set at the beginning. -/
theorem C72_shared_sound (hg : g.so.Lawful) (already : S) (prog : List (Action V K L))
    (hon : ∀ c ∈ calls prog, CallOn next vid c) (i : Nat) (w : V) (hr : (i, w) ∈ ((Sys.mk already []).run g prog).1) :
    g.so.contains already (vid w) = false ∧
    g.so.contains ((Sys.mk already []).run g prog).2.visited (vid w) = true ∧
    ∃ c, (calls prog)[i]? = some c ∧
      Reachable (Allowed next vid (fun k => g.so.contains already k = true))
        (CallEnters vid (fun k => g.so.contains already k = true) c) w := by
  have h := (SInv.init g next vid already False False).run hg prog hon (fun h => h.elim) (fun h => h.elim)
  obtain ⟨h1, h2, h3⟩ := h.rep i w hr
  exact ⟨by simpa using h1, h2, by simpa using h3⟩

/-- **C72** (marks are respected). When a part of the program has been executed, the rest of it reports no vertex that
is in the set at that moment. Especially, no traversal reports start vertices of a breadth-first or
neighbors-then-depth traversal that has already been started, and none reports vertices the program
itself has put in the set at the beginning. -/
theorem C72_shared_respected (hg : g.so.Lawful) (already : S) (prog rest : List (Action V K L))
    (hon : ∀ c ∈ calls (prog ++ rest), CallOn next vid c) (i : Nat) (w : V)
    (hr : (i, w) ∈ ((((Sys.mk already []).run g prog).2).run g rest).1) :
    g.so.contains ((Sys.mk already []).run g prog).2.visited (vid w) = false ∧
    ∀ c ∈ calls prog, (∀ c' ss, c ≠ .dfs c' ss) → ∀ v ∈ callStarts c, vid w ≠ vid v := by
  have hca : ∀ p q : List (Action V K L), calls (p ++ q) = calls p ++ calls q := by
    intro p q
    induction p with
    | nil => rfl
    | cons a as ih => cases a <;> simp [calls, ih]
  have h := (SInv.init g next vid already False False).run hg prog
    (fun c hc => hon c (by simp [hca, hc])) (fun h => h.elim) (fun h => h.elim)
  have hw := h.run_new hg rest (fun c hc => hon c (by simp [hca, hc])) _ hr
  refine ⟨hw, ?_⟩
  intro c hc hk v hv e
  obtain ⟨j, hj⟩ := List.getElem?_of_mem hc
  have hl : j < ((Sys.mk already []).run g prog).2.travs.length := by
    rw [← h.len]
    simpa using (List.getElem?_eq_some_iff.1 hj).1
  have ok := h.trav j c _ (by simpa using hj) (List.getElem?_eq_getElem hl)
  rcases ok.pend v hv with hp | hp
  · obtain ⟨⟨c', ss, e'⟩, -⟩ := hp
    exact hk c' ss e'
  · rw [e] at hw
    rw [hp] at hw
    simp at hw

/-- **C72** (completeness). When all started traversals have come to their end (and the program has not asked for skipping
the expansion of vertices), then the set contains exactly the ids it contained at the beginning and those of the
vertices that are reachable, by edges that avoid the ids that have been in the set at the beginning, from start
vertices of the calls; and if the traversals report the vertices they find, each such vertex is either a start vertex
or has been reported. -/
theorem C72_shared_complete (hg : g.so.Lawful) (hcompat : Compat (Edge next) vid) (already : S)
    (prog : List (Action V K L)) (hon : ∀ c ∈ calls prog, CallOn next vid c) (hskip : ∀ c ∈ calls prog, CallNoSkip c)
    (hdone : ∀ t ∈ ((Sys.mk already []).run g prog).2.travs, t.status = .done) :
    (∀ k, g.so.contains ((Sys.mk already []).run g prog).2.visited k = true ↔
      g.so.contains already k = true ∨ ∃ w, vid w = k ∧
        Reachable (Allowed next vid (fun k => g.so.contains already k = true))
          (fun v => ∃ c ∈ calls prog, CallEnters vid (fun k => g.so.contains already k = true) c v) w) ∧
    ((∀ c ∈ calls prog, CallReports c) → ∀ w,
      Reachable (Allowed next vid (fun k => g.so.contains already k = true))
        (fun v => ∃ c ∈ calls prog, CallEnters vid (fun k => g.so.contains already k = true) c v) w →
      g.so.contains already (vid w) = true ∨ (∃ c ∈ calls prog, ∃ v ∈ callStarts c, vid v = vid w) ∨
      ∃ i w', (i, w') ∈ ((Sys.mk already []).run g prog).1 ∧ vid w' = vid w) := by
  have h := (SInv.init g next vid already True (∀ c ∈ calls prog, CallReports c)).run hg prog hon (fun _ => hskip)
    (fun h => h)
  simp only [List.nil_append] at h
  generalize (Sys.mk already []).run g prog = out at *
  generalize hA : (fun k => g.so.contains already k = true) = A at *
  have noOwes : ∀ (j : Nat) t, out.2.travs[j]? = some t → (∀ u v, ¬ t.gen.Owes u v) ∧ ∀ v, ¬ t.gen.Pend v := by
    intro j t hj
    obtain ⟨c, hc⟩ : ∃ c, (calls prog)[j]? = some c :=
      ⟨_, List.getElem?_eq_getElem (by rw [h.len]; exact (List.getElem?_eq_some_iff.1 hj).1)⟩
    exact (h.trav j c t hc hj).done (hdone t (List.mem_of_getElem? hj))
  have closed : ∀ u, Closed g next vid out.2 u → ∀ v, Edge next u v → g.so.contains out.2.visited (vid v) = true := by
    intro u hu v e
    rcases hu v e with hv | ⟨j, t, hj, hv⟩
    · exact hv
    · exact absurd hv ((noOwes j t hj).1 u v)
  have starts : ∀ c ∈ calls prog, ∀ v ∈ callStarts c, g.so.contains out.2.visited (vid v) = true := by
    intro c hc v hv
    obtain ⟨j, hj⟩ := List.getElem?_of_mem hc
    have hl : j < out.2.travs.length := by
      rw [← h.len]
      exact (List.getElem?_eq_some_iff.1 hj).1
    have ht := List.getElem?_eq_getElem hl
    exact ((h.trav j c _ hj ht).pend v hv).resolve_left (fun h => (noOwes j _ ht).2 v h.2)
  have entersMem : ∀ (c : StartCall V K L) v, CallEnters vid A c v → v ∈ callStarts c := by
    intro c v hv
    cases c <;> first | exact hv | exact hv.1
  have reach : ∀ w, Reachable (Allowed next vid A) (fun v => ∃ c ∈ calls prog, CallEnters vid A c v) w →
      g.so.contains out.2.visited (vid w) = true := by
    suffices ∀ n w, WalkN (Allowed next vid A) (fun v => ∃ c ∈ calls prog, CallEnters vid A c v) n w →
        g.so.contains out.2.visited (vid w) = true ∧
          ∃ u, vid u = vid w ∧ Closed g next vid out.2 u by
      rintro w ⟨n, hw⟩
      exact (this n w hw).1
    intro n w hw
    induction hw with
    | start hs =>
      obtain ⟨c, hc, hs⟩ := hs
      have hv := starts c hc _ (entersMem c _ hs)
      refine ⟨hv, ?_⟩
      rcases h.enters trivial c hc _ hs with ⟨c', ss, rfl⟩ | hcl
      · rcases h.clos _ hv with ha | ⟨u, e, hu, -⟩
        · exact absurd ha hs.2
        · exact ⟨u, e, hu trivial⟩
      · exact ⟨_, rfl, hcl⟩
    | step _ e ih =>
      obtain ⟨-, u, eu, hu⟩ := ih
      obtain ⟨v', e', ev⟩ := hcompat _ u _ eu.symm e.1
      have hv := closed u hu v' e'
      rw [ev] at hv
      refine ⟨hv, ?_⟩
      rcases h.clos _ hv with ha | ⟨u, e, hu, -⟩
      · exact absurd ha e.2
      · exact ⟨u, e, hu trivial⟩
  refine ⟨fun k => ⟨fun hk => ?_, ?_⟩, fun hra w hw => ?_⟩
  · rcases h.clos k hk with ha | ⟨u, e, -, ⟨c, hc, hu⟩, -⟩
    · exact .inl (by rw [← hA] at ha; exact ha)
    · obtain ⟨n, hu⟩ := hu
      refine .inr ⟨u, e, n, ?_⟩
      clear e
      induction hu with
      | start hs => exact .start ⟨c, hc, hs⟩
      | step _ e ih => exact .step ih e
  · rintro (ha | ⟨w, rfl, hw⟩)
    · exact h.base k (by rw [← hA]; exact ha)
    · exact reach w hw
  · rcases h.clos _ (reach w hw) with ha | ⟨u, e, -, -, hu⟩
    · exact .inl (by rw [← hA] at ha; exact ha)
    · rcases hu hra with ⟨c, hc, hu⟩ | ⟨i, hi⟩
      · exact .inr (.inl ⟨c, hc, u, hu, e⟩)
      · exact .inr (.inr ⟨i, u, hi, e⟩)

/-! ## Examples -/

/-- A breadth-first search from 0, a depth-first search from 5 and a neighbors-then-depth search from 1. -/
def exCalls : List (StartCall Nat Nat Char) :=
  [.bfs (exCfg false) [0], .dfs ⟨exCfg false, false, true, true, fun _ => false⟩ [5], .ntd ⟨exCfg false, false⟩ [1]]

/-- They are started one after another, and then each of them makes some steps, in turn. -/
def exProgram : List (Action Nat Nat Char) :=
  exCalls.map Action.start ++
    ((List.replicate 12 [2, 0, 1, 1]) ++ (List.replicate 20 [0, 1, 2])).flatten.map Action.step

/-- Vertex 3 is found by the last search, vertex 4 by the second one, vertex 2 by the first one. -/
example : ((Sys.mk (V := Nat) (K := Nat) (L := Char) (ML := List (Option Char)) [] []).run exLists exProgram).1 =
    [(1, 5), (2, 3), (0, 2), (1, 6), (1, 4)] := by decide +kernel

/-- All traversals have come to their end. -/
example : ∀ t ∈ ((Sys.mk (V := Nat) (K := Nat) (L := Char) (ML := List (Option Char)) [] []).run exLists exProgram).2.travs,
    t.status = .done := by decide +kernel

example : exLists.so.Lawful := bitSeqSet_lawful _ rfl (fun _ => by decide) 0

example : (∀ c ∈ calls exProgram, CallOn exNext id c) ∧ (∀ c ∈ calls exProgram, CallNoSkip c) ∧
    ∀ c ∈ calls exProgram, CallReports c := by
  have h : calls exProgram = exCalls := rfl
  rw [h]
  simp [exCalls, CallOn, CallNoSkip, CallReports, exCfg]

end NoGraphs
