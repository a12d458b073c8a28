import Verif.Props.SearchAware
import Verif.Props.SearchAwareAStar
import Verif.Props.SearchAwareDepth
import Verif.Props.SearchAwareSp
import Verif.Props.SearchAwareTopo

/-! # C70: the visited set and the distances that a search-aware graph sees

In all theorems, the calls of the edges function are split at an arbitrary call: `before` are the calls before it. The
edges function is arbitrary; vertices may share ids (only topological sort needs distinct ids of start vertices), and
weights may be negative. -/

set_option linter.unusedSectionVars false

namespace NoGraphs

open Spec

section
variable {σ ρ V E C : Type}
variable {m : (V → List E) → σ → Step σ ρ} {who : σ → Option V} {view : σ → V → C} {F : Nat → C → List E}

/-- An invariant that may refer to the calls made so far holds at each call. -/
theorem aware_ghost (Inv : List (C × List E) → σ → Prop)
    (htau : ∀ f A s s', Inv A s → m f s = .tau s' → Inv A s')
    (hemit : ∀ f A s r s', Inv A s → m f s = .emit r s' → Inv A s')
    (hnone : ∀ f A s s', Inv A s → who s = none → m f s = .expand s' → Inv A s')
    (hexp : ∀ f A s v s', Inv A s → who s = some v → m f s = .expand s' → Inv (A ++ [(view s v, f v)]) s')
    (fuel : Nat) (lim : Option Int) (x : σ × Nat) (A : List (C × List E)) (hx : Inv A x.1)
    {before after : List (C × List E)} {call : C × List E}
    (hc : awareCalls m who view F fuel lim x = before ++ call :: after) :
    ∃ s v, Inv (A ++ before) s ∧ who s = some v ∧ call.1 = view s v := by
  induction fuel generalizing lim x A before with
  | zero => simp [awareCalls] at hc
  | succ fuel ih =>
    obtain ⟨s, n⟩ := x
    unfold awareCalls at hc
    simp only [awareStep] at hc
    rcases hm : m (fun v => F n (view s v)) s with s' | er | s' | ⟨r, s'⟩ | s' <;> simp only [hm] at hc
    · simp at hc
    · simp at hc
    · exact ih _ _ _ (htau _ _ _ _ hx hm) hc
    · exact ih _ _ _ (hemit _ _ _ _ _ hx hm) hc
    · rcases hl : checkLimit lim with _ | lim'
      · simp [hl] at hc
      · rcases hw : who s with _ | v
        · simp only [hl, hw, Option.toList_none, List.map_nil, List.nil_append] at hc
          exact ih _ _ _ (hnone _ _ _ _ hx hw hm) hc
        · simp only [hl, hw, Option.toList_some, List.map_cons, List.map_nil, List.cons_append, List.nil_append] at hc
          rcases before with _ | ⟨b, before⟩
          · simp only [List.nil_append, List.cons.injEq] at hc
            exact ⟨s, v, by simpa using hx, hw, by rw [← hc.1]⟩
          · simp only [List.cons_append, List.cons.injEq] at hc
            obtain ⟨s1, v1, h1, h2, h3⟩ := ih _ _ _ (hexp _ _ _ _ _ hx hw hm) hc.2
            refine ⟨s1, v1, ?_, h2, h3⟩
            rw [← hc.1]
            simpa using h1

end

variable {V K L S M ML : Type} [DecidableEq V] [DecidableEq K]

/-- The ids of the vertices that the edges returned by the calls lead to, in order. -/
def returnedIds {C : Type} (vid : V → K) (calls : List (C × List (V × L))) : List K :=
  calls.flatMap (fun call => call.2.map (fun e => vid e.1))

theorem returnedIds_snoc {C : Type} (vid : V → K) (calls : List (C × List (V × L))) (call : C × List (V × L)) :
    returnedIds vid (calls ++ [call]) = returnedIds vid calls ++ call.2.map (fun e => vid e.1) := by
  simp [returnedIds]

theorem mem_returnedIds {C : Type} {vid : V → K} {calls : List (C × List (V × L))} {k : K} :
    k ∈ returnedIds vid calls ↔ ∃ call ∈ calls, ∃ e ∈ call.2, vid e.1 = k := by
  simp [returnedIds]

section
variable {g : TravGear V K L S M ML}

/-- The effect of handling a returned edge on the visited set. -/
theorem bfsVisit_visited (hg : g.so.Lawful) {bp : Bool} {vid : V → K} {s : S} {mm : M} {ml : ML} {v : V} {e : V × L} :
    match bfsVisit g false bp vid s mm ml v e with
    | none => g.so.contains s (vid e.1) = true
    | some (s', _, _) => ∀ k, g.so.contains s' k = true ↔ k = vid e.1 ∨ g.so.contains s k = true := by
  rcases h : bfsVisit g false bp vid s mm ml v e with _ | ⟨s', m', l'⟩
  · simp only
    unfold bfsVisit at h
    simp only [Bool.false_eq_true, if_false] at h
    split at h
    · rename_i hc
      rwa [hg.checkAdd_fst] at hc
    · split at h <;> simp at h
  · simp only
    intro k
    obtain ⟨-, h2, -⟩ := bfsVisit_some hg h
    rw [h2]
    simp

/-! ## Breadth-first search, neighbors-then-depth search -/

/-- The visited set has the initial ids `P`, and those of the returned edges handled so far; `es` is still to be handled. -/
def SeenInv (g : TravGear V K L S M ML) (P : K → Prop) (all : List K) (visited : S) (rest : List K) : Prop :=
  ∃ O, all = O ++ rest ∧ ∀ k, g.so.contains visited k = true ↔ P k ∨ k ∈ O

theorem SeenInv.skip {P : K → Prop} {all rest : List K} {visited : S} {k : K}
    (h : SeenInv g P all visited (k :: rest)) (hk : g.so.contains visited k = true) : SeenInv g P all visited rest := by
  obtain ⟨O, h1, h2⟩ := h
  refine ⟨O ++ [k], by rw [h1]; simp, fun j => ?_⟩
  rw [h2, List.mem_append, List.mem_singleton]
  constructor
  · tauto
  · rintro (h | h | rfl)
    · exact .inl h
    · exact .inr h
    · exact (h2 j).1 hk

theorem SeenInv.add {P : K → Prop} {all rest : List K} {visited visited' : S} {k : K}
    (h : SeenInv g P all visited (k :: rest))
    (hk : ∀ j, g.so.contains visited' j = true ↔ j = k ∨ g.so.contains visited j = true) :
    SeenInv g P all visited' rest := by
  obtain ⟨O, h1, h2⟩ := h
  refine ⟨O ++ [k], by rw [h1]; simp, fun j => ?_⟩
  rw [hk, h2, List.mem_append, List.mem_singleton]
  tauto

theorem SeenInv.more {P : K → Prop} {all new : List K} {visited : S} (h : SeenInv g P all visited []) :
    SeenInv g P (all ++ new) visited new := by
  obtain ⟨O, h1, h2⟩ := h
  exact ⟨O, by rw [h1]; simp, h2⟩

/-- **C70 for breadth-first search, visited set.** When the edges function is called, the visited set that it sees contains
exactly: the ids given as already visited, those of the start vertices, and those of the vertices that the edges returned by
the calls before lead to. -/
theorem C70_bfs_visited (c : TravCfg V K L) (hg : g.so.Lawful) (ht : c.isTree = false)
    (F : Nat → BfsReport V S M ML → List (V × L)) (already : S) (starts : List V) (limit : Option Int) (fuel : Nat)
    {before after : List (BfsReport V S M ML × List (V × L))} {call : BfsReport V S M ML × List (V × L)}
    (hc : bfsAwareCalls g c F already starts limit fuel = before ++ call :: after) :
    ∀ k, g.so.contains call.1.visited k = true ↔ g.so.contains already k = true ∨ k ∈ starts.map c.vid ∨
      ∃ call' ∈ before, ∃ e ∈ call'.2, c.vid e.1 = k := by
  let P : K → Prop := fun k => g.so.contains already k = true ∨ k ∈ starts.map c.vid
  let Inv : List (BfsReport V S M ML × List (V × L)) → BfsState V L S M ML → Prop := fun A s =>
    SeenInv g P (returnedIds c.vid A) s.visited
      (match s.pc with | .edges _ es => es.map (fun e => c.vid e.1) | _ => [])
  obtain ⟨s, v, h1, h2, h3⟩ := aware_ghost Inv
    (by
      intro f A s s' h e
      unfold bfsStep at e
      rcases hpc : s.pc with _ | _ | ⟨v, es⟩ | _ <;> simp only [Inv, hpc] at e h ⊢
      · split at e
        · simp at e
        · simp only [Step.tau.injEq] at e
          subst e
          exact h
      · split at e
        · simp at e
        · simp only [Step.tau.injEq] at e
          subst e
          exact h
      · rcases es with _ | ⟨e', es⟩
        · simp only [Step.tau.injEq] at e
          subst e
          exact h
        · have hv := bfsVisit_visited (bp := c.buildPaths) (vid := c.vid) (s := s.visited) (mm := s.preds) (ml := s.labels) (v := v) (e := e') hg
          simp only [ht] at e
          split at e
          · rename_i hb
            rw [hb] at hv
            simp only [Step.tau.injEq] at e
            subst e
            exact h.skip hv
          · simp at e
      · simp only [Step.tau.injEq] at e
        subst e
        exact h)
    (by
      intro f A s r s' h e
      unfold bfsStep at e
      rcases hpc : s.pc with _ | _ | ⟨v, es⟩ | _ <;> simp only [Inv, hpc] at e h ⊢
      · split at e <;> simp at e
      · split at e <;> simp at e
      · rcases es with _ | ⟨e', es⟩
        · simp at e
        · have hv := bfsVisit_visited (bp := c.buildPaths) (vid := c.vid) (s := s.visited) (mm := s.preds) (ml := s.labels) (v := v) (e := e') hg
          simp only [ht] at e
          split at e
          · simp at e
          · rename_i hb
            rw [hb] at hv
            simp only [Step.emit.injEq] at e
            obtain ⟨-, rfl⟩ := e
            exact h.add hv
      · simp at e)
    (by
      intro f A s s' h hw e
      exfalso
      unfold bfsWho at hw
      unfold bfsStep at e
      rcases hpc : s.pc with _ | _ | ⟨u, es⟩ | _ <;> simp only [hpc] at e hw
      · split at e <;> simp at e
      · split at e
        · rename_i h; simp [h] at hw
        · simp at e
      · rcases es with _ | ⟨_, _⟩
        · simp at e
        · simp only at e
          split at e <;> simp at e
      · simp at e)
    (by
      intro f A s v s' h hw e
      unfold bfsWho at hw
      unfold bfsStep at e
      rcases hpc : s.pc with _ | _ | ⟨u, es⟩ | _ <;> rw [hpc] at hw <;> simp only [reduceCtorEq] at hw
      simp only [Inv, hpc] at e h ⊢
      rcases htx : s.toExpand with _ | ⟨u, rest⟩
      · simp [htx] at hw
      · simp only [htx, List.head?_cons, Option.some.injEq] at hw
        subst hw
        simp only [htx, Step.expand.injEq] at e
        subst e
        rw [returnedIds_snoc]
        exact h.more)
    fuel (prepareLimit limit) (bfsInit g c already starts, 0) []
    ⟨[], by simp [returnedIds, bfsInit], fun k => by simp [P, bfsInit, ht, hg.contains_addAll, or_comm]⟩ hc
  intro k
  unfold bfsWho at h2
  rcases hpc : s.pc with _ | _ | ⟨u, es⟩ | _ <;> rw [hpc] at h2 <;> simp only [reduceCtorEq] at h2
  simp only [Inv, hpc, List.nil_append] at h1
  obtain ⟨O, e1, e2⟩ := h1
  rw [List.append_nil] at e1
  subst e1
  rw [h3]
  show g.so.contains s.visited k = true ↔ _
  rw [e2, mem_returnedIds, or_assoc]

/-- **C70 for neighbors-then-depth search, visited set.** As for breadth-first search. -/
theorem C70_ntd_visited (c : NtdCfg V K L) (hg : g.so.Lawful) (ht : c.isTree = false)
    (F : Nat → NtdReport V S M ML → List (V × L)) (already : S) (starts : List V) (limit : Option Int) (fuel : Nat)
    {before after : List (NtdReport V S M ML × List (V × L))} {call : NtdReport V S M ML × List (V × L)}
    (hc : ntdAwareCalls g c F already starts limit fuel = before ++ call :: after) :
    ∀ k, g.so.contains call.1.visited k = true ↔ g.so.contains already k = true ∨ k ∈ starts.map c.vid ∨
      ∃ call' ∈ before, ∃ e ∈ call'.2, c.vid e.1 = k := by
  let P : K → Prop := fun k => g.so.contains already k = true ∨ k ∈ starts.map c.vid
  let Inv : List (NtdReport V S M ML × List (V × L)) → NtdState V L S M ML → Prop := fun A s =>
    SeenInv g P (returnedIds c.vid A) s.visited
      (match s.pc with | .edges _ es => es.map (fun e => c.vid e.1) | _ => [])
  have hedges : ∀ (f : V → List (V × L)) A (s : NtdState V L S M ML), Inv A s → ∀ v es, s.pc = .edges v es →
      ∃ s', Inv A s' ∧ (ntdStep g { c with next := f } s = .tau s' ∨
        ∃ r, ntdStep g { c with next := f } s = .emit r s') := by
    intro f A s h v es hpc
    unfold ntdStep
    simp only [Inv, hpc] at h ⊢
    rcases es with _ | ⟨e', es⟩
    · exact ⟨_, h, .inl rfl⟩
    · have hv := bfsVisit_visited (bp := c.buildPaths) (vid := c.vid) (s := s.visited) (mm := s.preds) (ml := s.labels)
        (v := v) (e := e') hg
      simp only [ht]
      rcases hb : bfsVisit g false c.buildPaths c.vid s.visited s.preds s.labels v e' with _ | ⟨vis, pr, la⟩
      · rw [hb] at hv
        exact ⟨{ s with pc := .edges v es }, h.skip hv, .inl rfl⟩
      · rw [hb] at hv
        exact ⟨_, h.add hv, .inr ⟨_, rfl⟩⟩
  have hloop : ∀ (f : V → List (V × L)) (s : NtdState V L S M ML), s.pc = .loop →
      (∃ s', ntdStep g { c with next := f } s = .stop s') ∨ (∃ e, ntdStep g { c with next := f } s = .fail e) ∨
      ∃ v s', ntdWho c s = some v ∧ ntdStep g { c with next := f } s = .expand s' ∧ s'.visited = s.visited ∧
        s'.pc = .edges v (f v) := by
    intro f s hpc
    unfold ntdStep ntdWho
    simp only [hpc]
    rcases htx : s.toExpand with _ | ⟨u, rest⟩
    · exact .inl ⟨_, rfl⟩
    · simp only
      by_cases hcd : c.computeDepth = true
      · simp only [hcd, if_true]
        rcases hp : ntdPop s.markers (s.depth + 1) with _ | ⟨ms, d⟩
        · exact .inr (.inl ⟨_, rfl⟩)
        · exact .inr (.inr ⟨u, _, rfl, rfl, rfl, rfl⟩)
      · simp only [hcd]
        exact .inr (.inr ⟨u, _, rfl, rfl, rfl, rfl⟩)
  obtain ⟨s, v, h1, h2, h3⟩ := aware_ghost Inv
    (by
      intro f A s s' h e
      rcases hpc : s.pc with _ | ⟨v, es⟩
      · rcases hloop f s hpc with ⟨_, e'⟩ | ⟨_, e'⟩ | ⟨_, _, -, e', -⟩ <;> rw [e] at e' <;> simp at e'
      · obtain ⟨t, h', e' | ⟨r, e'⟩⟩ := hedges f A s h v es hpc <;> rw [e] at e' <;> simp at e'
        rw [e']; exact h')
    (by
      intro f A s r s' h e
      rcases hpc : s.pc with _ | ⟨v, es⟩
      · rcases hloop f s hpc with ⟨_, e'⟩ | ⟨_, e'⟩ | ⟨_, _, -, e', -⟩ <;> rw [e] at e' <;> simp at e'
      · obtain ⟨t, h', e' | ⟨r, e'⟩⟩ := hedges f A s h v es hpc <;> rw [e] at e' <;> simp at e'
        rw [e'.2]; exact h')
    (by
      intro f A s s' h hw e
      rcases hpc : s.pc with _ | ⟨v, es⟩
      · rcases hloop f s hpc with ⟨_, e'⟩ | ⟨_, e'⟩ | ⟨_, _, e', -⟩
        · rw [e] at e'; simp at e'
        · rw [e] at e'; simp at e'
        · rw [hw] at e'; simp at e'
      · obtain ⟨t, h', e' | ⟨r, e'⟩⟩ := hedges f A s h v es hpc <;> rw [e] at e' <;> simp at e')
    (by
      intro f A s v s' h hw e
      rcases hpc : s.pc with _ | ⟨v, es⟩
      · rcases hloop f s hpc with ⟨_, e'⟩ | ⟨_, e'⟩ | ⟨u, t, e1, e2, e3, e4⟩
        · rw [e] at e'; simp at e'
        · rw [e] at e'; simp at e'
        · rw [hw] at e1
          rw [e] at e2
          cases e1
          cases e2
          simp only [Inv, hpc, e3, e4, returnedIds_snoc] at h ⊢
          exact h.more
      · obtain ⟨t, h', e' | ⟨r, e'⟩⟩ := hedges f A s h v es hpc <;> rw [e] at e' <;> simp at e')
    fuel (prepareLimit limit) (ntdInit g c already starts, 0) []
    ⟨[], by simp [returnedIds, ntdInit], fun k => by simp [P, ntdInit, ht, hg.contains_addAll, or_comm]⟩ hc
  intro k
  have hpc : s.pc = .loop := by
    unfold ntdWho at h2
    rcases hpc : s.pc with _ | ⟨u, es⟩
    · rfl
    · rw [hpc] at h2; simp at h2
  simp only [Inv, hpc, List.nil_append] at h1
  obtain ⟨O, e1, e2⟩ := h1
  rw [List.append_nil] at e1
  subst e1
  rw [h3]
  show g.so.contains s.visited k = true ↔ _
  rw [e2, mem_returnedIds, or_assoc]

/-! ## Topological sorting, depth-first search -/

/-- **C70 for topological sorting, visited set.** When the edges function is called, the visited set that it sees contains
exactly: the ids given as already visited, those of the start vertices, and those of the vertices the edges function has been
called for so far, including the current one. -/
theorem C70_topo_visited (c : TravCfg V K L) (hg : g.so.Lawful) (hgr : g.so.Grows) (ht : c.isTree = false)
    (F : Nat → TopoReport V S M ML → List (V × L)) (already : S) (starts : List V) (hs : (starts.map c.vid).Nodup)
    (limit : Option Int) (fuel : Nat)
    {before after : List (TopoReport V S M ML × List (V × L))} {call : TopoReport V S M ML × List (V × L)}
    (hc : topoAwareCalls g c F already starts limit fuel = before ++ call :: after) :
    ∀ k, g.so.contains call.1.visited k = true ↔ g.so.contains already k = true ∨ k ∈ starts.map c.vid ∨
      ∃ call' ∈ before ++ [call], c.vid call'.1.vertex = k := by
  let P : K → Prop := fun k => g.so.contains already k = true ∨ k ∈ starts.map c.vid
  let Inv : List (TopoReport V S M ML × List (V × L)) → TopoState V L S M ML → Prop := fun A s =>
    (∀ k, g.so.contains s.visited k = true → P k ∨ ∃ call ∈ A, c.vid call.1.vertex = k) ∧
    (∀ k, P k → g.so.contains s.visited k = true) ∧
    ∀ call ∈ A, ∀ k, g.so.contains call.1.visited k = true → g.so.contains s.visited k = true
  have hsame : ∀ A (s s' : TopoState V L S M ML), Inv A s → s'.visited = s.visited → Inv A s' := by
    intro A s s' h e
    simp only [Inv, e]
    exact h
  obtain ⟨s, v, ⟨i1, i2, i3⟩, h2, h3⟩ := aware_ghost Inv
    (by
      intro f A s s' h e
      apply hsame A s s' h
      unfold topoStep at e
      rcases hpc : s.pc with _ | ⟨v, es⟩ | _ <;> simp only [hpc] at e
      · split at e
        · simp at e
        · split at e
          · simp at e
          · split at e
            · split at e
              · simp only [Step.tau.injEq] at e; subst e; rfl
              · simp at e
            · simp at e
      · rcases es with _ | ⟨e', es⟩
        · simp only [Step.tau.injEq] at e; subst e; rfl
        · simp only at e
          split at e
          · split at e <;> simp only [Step.tau.injEq, reduceCtorEq] at e <;> subst e <;> rfl
          · simp only [Step.tau.injEq] at e; subst e; rfl
      · simp at e)
    (by
      intro f A s r s' h e
      apply hsame A s s' h
      unfold topoStep at e
      rcases hpc : s.pc with _ | ⟨v, es⟩ | _ <;> simp only [hpc] at e
      · split at e
        · simp at e
        · split at e
          · simp only [Step.emit.injEq] at e
            obtain ⟨-, rfl⟩ := e
            rfl
          · split at e
            · split at e <;> simp at e
            · simp at e
      · rcases es with _ | ⟨e', es⟩
        · simp at e
        · simp only at e
          split at e
          · split at e <;> simp at e
          · simp at e
      · simp at e)
    (by
      intro f A s s' h hw e
      exfalso
      unfold topoWho at hw
      unfold topoStep at e
      rcases hpc : s.pc with _ | ⟨v, es⟩ | _ <;> simp only [hpc] at e hw
      · rcases hst : s.stack with _ | ⟨v, rest⟩ <;> simp only [hst] at e hw
        · simp at e
        · split at e
          · simp at e
          · rename_i h1
            rw [if_neg h1] at hw
            split at e
            · rename_i h2
              rw [if_pos h2] at hw
              split at e
              · simp at e
              · rename_i h3
                rw [if_neg h3] at hw
                simp at hw
            · rename_i h2
              rw [if_neg h2] at hw
              simp at hw
      · rcases es with _ | ⟨e', es⟩
        · simp at e
        · simp only at e
          split at e
          · split at e <;> simp at e
          · simp at e
      · simp at e)
    (by
      intro f A s v s' h hw e
      have key : s'.visited = (topoView g c s v).visited ∧
          (∀ k, g.so.contains s.visited k = true → g.so.contains s'.visited k = true) ∧
          ∀ k, g.so.contains s'.visited k = true → k = c.vid v ∨ g.so.contains s.visited k = true := by
        unfold topoWho at hw
        unfold topoStep at e
        rcases hpc : s.pc with _ | ⟨v, es⟩ | _ <;> simp only [hpc, reduceCtorEq] at e hw
        rcases hst : s.stack with _ | ⟨u, rest⟩ <;> simp only [hst] at e hw
        · simp at e
        · split at e
          · simp at e
          · rename_i h1
            rw [if_neg h1] at hw
            split at e
            · rename_i h2
              rw [if_pos h2] at hw
              split at e
              · simp at e
              · rename_i h3
                rw [if_neg h3] at hw
                cases hw
                cases e
                simp only [topoView, if_pos h2, hg.contains_checkAdd]
                simp
                tauto
            · rename_i h2
              rw [if_neg h2] at hw
              cases hw
              cases e
              simp only [topoView, if_neg h2]
              exact ⟨trivial, fun _ h => h, fun _ h => .inr h⟩
      obtain ⟨i1, i2, i3⟩ := h
      obtain ⟨k1, k2, k3⟩ := key
      refine ⟨fun k hk => ?_, fun k hk => k2 k (i2 k hk), fun call hcall k hk => ?_⟩
      · rcases k3 k hk with rfl | hk
        · exact .inr ⟨_, List.mem_append_right _ List.mem_cons_self, rfl⟩
        · rcases i1 k hk with h | ⟨call, h1, h2⟩
          · exact .inl h
          · exact .inr ⟨call, List.mem_append_left _ h1, h2⟩
      · rcases List.mem_append.1 hcall with hcall | hcall
        · exact k2 k (i3 call hcall k hk)
        · rw [List.mem_singleton] at hcall
          subst hcall
          rw [k1]
          exact hk)
    fuel (prepareLimit limit) (topoInit g c already starts, 0) []
    ⟨fun k => by simp [P, topoInit, ht, hg.contains_addAll, or_comm],
      fun k => by simp [P, topoInit, ht, hg.contains_addAll, or_comm], by simp⟩ hc
  have hin := (C70_topo_search_aware (validV := fun _ => True) (validL := fun _ => True) hg hgr ht F already starts hs limit fuel).2.2.1
  rw [List.nil_append] at i1 i3
  have hv : call.1.vertex = v := by rw [h3]; rfl
  have hmono : ∀ k, g.so.contains s.visited k = true → g.so.contains call.1.visited k = true := by
    intro k hk
    rw [h3]
    simp only [topoView]
    split
    · simp [hg.contains_checkAdd, hk]
    · exact hk
  intro k
  constructor
  · intro hk
    have : k = c.vid v ∨ g.so.contains s.visited k = true := by
      rw [h3] at hk
      simp only [topoView] at hk
      split at hk
      · simpa [hg.contains_checkAdd] using hk
      · exact .inr hk
    rcases this with rfl | hk
    · exact .inr (.inr ⟨call, by simp, by rw [hv]⟩)
    · rcases i1 k hk with (h | h) | ⟨call', h1, h2⟩
      · exact .inl h
      · exact .inr (.inl h)
      · exact .inr (.inr ⟨call', List.mem_append_left _ h1, h2⟩)
  · rintro (h | h | ⟨call', h1, rfl⟩)
    · exact hmono k (i2 k (.inl h))
    · exact hmono k (i2 k (.inr h))
    · have := (hin call' (by rw [hc]; simp at h1 ⊢; tauto)).2.1
      rcases List.mem_append.1 h1 with h1 | h1
      · exact hmono _ (i3 _ h1 _ this)
      · rw [List.mem_singleton] at h1
        subst h1
        exact this

/-- The vertex that has been entered, and is still to be expanded. -/
def dfsCur (s : DfsState V L S M ML) : Option V := match s.pc with | .entered v _ => some v | _ => none

/-- The visited set has the initial ids, those of the calls so far, and that of a vertex just entered. -/
def DfsSeen (g : TravGear V K L S M ML) (c : DfsCfg V K L) (already : S) (A : List (DfsReport V S M ML × List (V × L)))
    (s : DfsState V L S M ML) : Prop :=
  (∀ k, (g.so.contains already k = true ∨ (∃ call' ∈ A, c.vid call'.1.vertex = k) ∨ (dfsCur s).map c.vid = some k) →
    g.so.contains s.visited k = true) ∧
  ((∀ n, c.skip n = false) → ∀ k, g.so.contains s.visited k = true →
    g.so.contains already k = true ∨ (∃ call' ∈ A, c.vid call'.1.vertex = k) ∨ (dfsCur s).map c.vid = some k)

/-- **C70 for depth-first search without trace, visited set.** When the edges function is called, the visited set
that it sees contains the ids given as already visited and those of the vertices the edges function has been called for so
far, including the current one. It contains no further ids if the program never prunes the search (`skip_expanding_node`). -/
theorem C70_dfs_visited (c : DfsCfg V K L) (hg : g.so.Lawful) (ht : c.isTree = false)
    (F : Nat → DfsReport V S M ML → List (V × L)) (already : S) (starts : List V) (limit : Option Int) (fuel : Nat)
    {before after : List (DfsReport V S M ML × List (V × L))} {call : DfsReport V S M ML × List (V × L)}
    (hc : dfsAwareCalls g c F already starts limit fuel = before ++ call :: after) :
    (∀ k, (g.so.contains already k = true ∨ ∃ call' ∈ before ++ [call], c.vid call'.1.vertex = k) →
      g.so.contains call.1.visited k = true) ∧
    ((∀ n, c.skip n = false) → ∀ k, g.so.contains call.1.visited k = true →
      g.so.contains already k = true ∨ ∃ call' ∈ before ++ [call], c.vid call'.1.vertex = k) := by
  have hsame : ∀ A (s s' : DfsState V L S M ML), DfsSeen g c already A s → s'.visited = s.visited → dfsCur s = none → dfsCur s' = none →
      DfsSeen g c already A s' := by
    intro A s s' h e h1 h2
    simp only [DfsSeen, e, h1, h2] at h ⊢
    exact h
  have henter : ∀ A (s t s' : DfsState V L S M ML) v, DfsSeen g c already A s → dfsCur s = none →
      t.visited = (g.so.checkAdd s.visited (c.vid v)).2 → s'.visited = t.visited → dfsCur s' = some v → DfsSeen g c already A s' := by
    intro A s t s' v h h0 h1 h2 h3
    simp only [DfsSeen, h2, h1, h3, h0, Option.map_some, Option.map_none, Option.some.injEq, hg.contains_checkAdd,
      Bool.or_eq_true, decide_eq_true_eq, reduceCtorEq, or_false] at h ⊢
    refine ⟨fun k hk => ?_, fun hn k hk => ?_⟩
    · rcases hk with hk | hk | hk
      · exact .inr (h.1 k (.inl hk))
      · exact .inr (h.1 k (.inr hk))
      · exact .inl hk.symm
    · rcases hk with hk | hk
      · exact .inr (.inr hk.symm)
      · rcases h.2 hn k hk with h | h
        · exact .inl h
        · exact .inr (.inl h)
  have hent : ∀ A (s t : DfsState V L S M ML) v, DfsSeen g c already A s → dfsCur s = none →
      t.visited = (g.so.checkAdd s.visited (c.vid v)).2 →
      (∃ s', dfsEnter c t v = .tau s' ∧ DfsSeen g c already A s') ∨ ∃ r s', dfsEnter c t v = .emit r s' ∧ DfsSeen g c already A s' := by
    intro A s t v h h0 h1
    unfold dfsEnter
    simp only
    split
    · split
      · exact .inr ⟨_, _, rfl, by refine henter A s t _ v h h0 h1 ?_ ?_ <;> rfl⟩
      · exact .inl ⟨_, rfl, by refine henter A s t _ v h h0 h1 ?_ ?_ <;> rfl⟩
    · split
      · exact .inr ⟨_, _, rfl, by refine henter A s t _ v h h0 h1 ?_ ?_ <;> rfl⟩
      · exact .inl ⟨_, rfl, by refine henter A s t _ v h h0 h1 ?_ ?_ <;> rfl⟩
  have hpop : ∀ s : DfsState V L S M ML, (dfsPop c s).visited = s.visited := by
    intro s
    unfold dfsPop
    split <;> rfl
  have key : ∀ (f : V → List (V × L)) A (s : DfsState V L S M ML), DfsSeen g c already A s →
      (∃ s', dfsStep g { c with next := f } s = .stop s') ∨
      (∃ s', dfsStep g { c with next := f } s = .tau s' ∧ DfsSeen g c already A s') ∨
      (∃ r s', dfsStep g { c with next := f } s = .emit r s' ∧ DfsSeen g c already A s') ∨
      ∃ v s', dfsStep g { c with next := f } s = .expand s' ∧ dfsWho c s = some v ∧
        DfsSeen g c already (A ++ [(dfsView s v, f v)]) s' := by
    intro f A s h
    unfold dfsStep dfsWho
    rcases hpc : s.pc with _ | _ | ⟨v, rep⟩ | ⟨v, es⟩ <;> simp only
    · split
      · exact .inl ⟨_, rfl⟩
      · exact .inr (.inl ⟨_, rfl, by refine hsame A s _ h ?_ (by simp [dfsCur, hpc]) ?_ <;> rfl⟩)
    · have hc0 : dfsCur s = none := by simp [dfsCur, hpc]
      have hp : dfsPop { c with next := f } s = dfsPop c s := rfl
      rw [hp]
      split
      · exact .inr (.inl ⟨_, rfl, by refine hsame A s _ h (hpop s) hc0 ?_; rfl⟩)
      · rename_i v rest hv
        simp only [ht, Bool.false_eq_true, if_false]
        split
        · refine .inr (.inl ⟨_, rfl, hsame A s _ h (hpop s) hc0 ?_⟩)
          have : (dfsPop c s).pc = s.pc := by unfold dfsPop; split <;> rfl
          simp [dfsCur, this, hpc]
        · rcases hent A s { dfsPop c s with toVisit := rest, visited := (g.so.checkAdd (dfsPop c s).visited (c.vid v)).2 } v
            h hc0 (by rw [hpop]) with ⟨s', e, hi⟩ | ⟨r, s', e, hi⟩
          · exact .inr (.inl ⟨s', e, hi⟩)
          · exact .inr (.inr (.inl ⟨r, s', e, hi⟩))
    · split
      · rename_i hsk
        refine .inr (.inl ⟨_, rfl, ?_⟩)
        refine ⟨fun k hk => h.1 k ?_, fun hn => ?_⟩
        · rcases hk with hk | hk | hk
          · exact .inl hk
          · exact .inr (.inl hk)
          · simp [dfsCur] at hk
        · rw [hn] at hsk
          simp at hsk
      · refine .inr (.inr (.inr ⟨v, _, rfl, rfl, ?_⟩))
        have hc0 : dfsCur s = some v := by simp [dfsCur, hpc]
        simp only [DfsSeen, hc0, Option.map_some, Option.some.injEq] at h
        refine ⟨fun k hk => h.1 k ?_, fun hn k hk => ?_⟩
        · rcases hk with hk | ⟨call', hk, e⟩ | hk
          · exact .inl hk
          · rcases List.mem_append.1 hk with hk | hk
            · exact .inr (.inl ⟨call', hk, e⟩)
            · rw [List.mem_singleton] at hk
              subst hk
              exact .inr (.inr e)
          · simp [dfsCur] at hk
        · rcases h.2 hn k hk with h | ⟨call', h, e⟩ | e
          · exact .inl h
          · exact .inr (.inl ⟨call', List.mem_append_left _ h, e⟩)
          · exact .inr (.inl ⟨(dfsView s v, f v), by simp, e⟩)
    · have hc0 : dfsCur s = none := by simp [dfsCur, hpc]
      rcases es with _ | ⟨e, es⟩
      · exact .inr (.inl ⟨_, rfl, by refine hsame A s _ h ?_ hc0 ?_ <;> rfl⟩)
      · simp only
        split
        · exact .inr (.inl ⟨_, rfl, by refine hsame A s _ h ?_ hc0 ?_ <;> rfl⟩)
        · exact .inr (.inl ⟨_, rfl, by refine hsame A s _ h ?_ hc0 ?_ <;> rfl⟩)
  obtain ⟨s, v, ⟨i1, i2⟩, h2, h3⟩ := aware_ghost (DfsSeen g c already)
    (by
      intro f A s s' h e
      rcases key f A s h with ⟨_, e'⟩ | ⟨_, e', hi⟩ | ⟨_, _, e', hi⟩ | ⟨_, _, e', -⟩ <;> rw [e] at e' <;> cases e'
      exact hi)
    (by
      intro f A s r s' h e
      rcases key f A s h with ⟨_, e'⟩ | ⟨_, e', hi⟩ | ⟨_, _, e', hi⟩ | ⟨_, _, e', -⟩ <;> rw [e] at e' <;> cases e'
      exact hi)
    (by
      intro f A s s' h hw e
      rcases key f A s h with ⟨_, e'⟩ | ⟨_, e', hi⟩ | ⟨_, _, e', hi⟩ | ⟨_, _, e', hw', -⟩ <;> rw [e] at e' <;> cases e'
      rw [hw] at hw'
      cases hw')
    (by
      intro f A s v s' h hw e
      rcases key f A s h with ⟨_, e'⟩ | ⟨_, e', hi⟩ | ⟨_, _, e', hi⟩ | ⟨_, _, e', hw', hi⟩ <;> rw [e] at e' <;> cases e'
      rw [hw] at hw'
      cases hw'
      exact hi)
    fuel (prepareLimit limit) (dfsInit g c already starts, 0) []
    (by simp [DfsSeen, dfsCur, dfsInit]) hc
  rw [List.nil_append] at i1 i2
  have hcur : dfsCur s = some v := by
    unfold dfsWho at h2
    simp only [dfsCur]
    rcases hpc : s.pc with _ | _ | ⟨u, rep⟩ | ⟨u, es⟩ <;> simp only [hpc, reduceCtorEq] at h2 ⊢
    split at h2
    · simp at h2
    · exact h2
  have hv : call.1.vertex = v := by rw [h3]; rfl
  have hvis : call.1.visited = s.visited := by rw [h3]; rfl
  simp only [hcur, Option.map_some, Option.some.injEq] at i1 i2
  rw [hvis]
  refine ⟨fun k hk => i1 k ?_, fun hn k hk => ?_⟩
  · rcases hk with hk | ⟨call', hk, e⟩
    · exact .inl hk
    · rcases List.mem_append.1 hk with hk | hk
      · exact .inr (.inl ⟨call', hk, e⟩)
      · rw [List.mem_singleton] at hk
        subst hk
        rw [hv] at e
        exact .inr (.inr e)
  · rcases i2 hn k hk with h | ⟨call', h, e⟩ | e
    · exact .inl h
    · exact .inr ⟨call', List.mem_append_left _ h, e⟩
    · exact .inr ⟨call, by simp, by rw [hv]; exact e⟩

end

/-! ## Shortest paths, A* -/

section
variable {W D : Type} [AddCommMonoid W] [LinearOrder W] [WeightLaws W] {g : WGear V K L W M ML D}

/-- The ids and path lengths that result from the edges returned by the calls: a pair for each returned edge, with the
length of the path by which the vertex of the call has been reached plus the weight of the edge. -/
def offers {C : Type} (vid : V → K) (len : C → W) (calls : List (C × List (V × W × L))) : List (K × W) :=
  calls.flatMap (fun call => call.2.map (fun e => (vid e.1, e.2.1 + len call.1)))

/-- The distances hold, for each id, the smallest of the offered values, and infinity if there is none. -/
def IsBest (dd : DistOps D K W) (inf : W) (O : List (K × W)) (d : D) : Prop :=
  ∀ k, (∀ x, (k, x) ∈ O → dd.get d k ≤ x) ∧ (dd.get d k = inf ∨ (k, dd.get d k) ∈ O)

def OfferInv (dd : DistOps D K W) (inf : W) (O0 all : List (K × W)) (d : D) (rest : List (K × W)) : Prop :=
  ∃ O, all = O ++ rest ∧ IsBest dd inf (O0 ++ O) d

theorem OfferInv.skip {dd : DistOps D K W} {inf : W} {O0 all rest : List (K × W)} {d : D} {k : K} {x : W}
    (h : OfferInv dd inf O0 all d ((k, x) :: rest)) (hk : dd.get d k ≤ x) : OfferInv dd inf O0 all d rest := by
  obtain ⟨O, h1, h2⟩ := h
  refine ⟨O ++ [(k, x)], by rw [h1]; simp, fun j => ⟨fun y hy => ?_, ?_⟩⟩
  · rw [← List.append_assoc, List.mem_append, List.mem_singleton] at hy
    rcases hy with hy | hy
    · exact (h2 j).1 y hy
    · cases hy; exact hk
  · rw [← List.append_assoc]
    exact (h2 j).2.imp id (List.mem_append_left _)

theorem OfferInv.improve {dd : DistOps D K W} {inf : W} {O0 all rest : List (K × W)} {d d' : D} {k : K} {x : W}
    (h : OfferInv dd inf O0 all d ((k, x) :: rest)) (hk : x < dd.get d k)
    (hd : ∀ j, dd.get d' j = if j = k then x else dd.get d j) : OfferInv dd inf O0 all d' rest := by
  obtain ⟨O, h1, h2⟩ := h
  refine ⟨O ++ [(k, x)], by rw [h1]; simp, fun j => ⟨fun y hy => ?_, ?_⟩⟩
  · rw [← List.append_assoc, List.mem_append, List.mem_singleton] at hy
    rw [hd]
    split
    · rename_i e
      subst e
      rcases hy with hy | hy
      · exact le_of_lt (lt_of_lt_of_le hk ((h2 j).1 y hy))
      · cases hy; exact le_refl _
    · rename_i e
      rcases hy with hy | hy
      · exact (h2 j).1 y hy
      · cases hy; exact absurd rfl e
  · rw [hd, ← List.append_assoc]
    split
    · rename_i e
      subst e
      exact .inr (by simp)
    · exact (h2 j).2.imp id (List.mem_append_left _)

theorem OfferInv.more {dd : DistOps D K W} {inf : W} {O0 all new : List (K × W)} {d : D}
    (h : OfferInv dd inf O0 all d []) : OfferInv dd inf O0 (all ++ new) d new := by
  obtain ⟨O, h1, h2⟩ := h
  exact ⟨O, by rw [h1]; simp, h2⟩

/-- **C70 for shortest paths, distances.** When the edges function is called, the distances that it sees hold, for each id, the
smallest of these values, and infinity if there is none: zero for the ids of start vertices, and for each edge returned by the
calls before, `distance` at that call plus the weight of the edge, for the id of the vertex that the edge leads to. -/
theorem C70_sp_distances (c : WCfg V K L W) (ht : c.isTree = false) (hk : c.keepDistances = true) (hd : g.dd.Lawful c.inf)
    (F : Nat → SpReport V W M ML D → List (V × W × L)) (starts : List V) (limit : Option Int) (fuel : Nat)
    {before after : List (SpReport V W M ML D × List (V × W × L))} {call : SpReport V W M ML D × List (V × W × L)}
    (hc : spAwareCalls g c F none starts limit fuel = before ++ call :: after) :
    IsBest g.dd c.inf (starts.map (fun v => (c.vid v, 0)) ++ offers c.vid SpReport.distance before) call.1.dist := by
  let Inv : List (SpReport V W M ML D × List (V × W × L)) → SpState V L W M ML D → Prop := fun A s =>
    OfferInv g.dd c.inf (starts.map (fun v => (c.vid v, 0))) (offers c.vid SpReport.distance A) s.dist
      (match s.pc with | .edges _ w _ es => es.map (fun e => (c.vid e.1, e.2.1 + w)) | _ => [])
  have key : ∀ (f : V → List (V × W × L)) A (s : SpState V L W M ML D), Inv A s →
      match spStep g { c with next := f } s with
      | .stop _ => True
      | .fail _ => True
      | .tau s' => Inv A s'
      | .emit _ s' => Inv A s'
      | .expand s' => ∃ v, spWho s = some v ∧ Inv (A ++ [(spView s v, f v)]) s' := by
    intro f A s h
    refine spStep_cases (c := { c with next := f }) ht s (P := fun st => match st with
      | .stop _ => True
      | .fail _ => True
      | .tau s' => Inv A s'
      | .emit _ s' => Inv A s'
      | .expand s' => ∃ v, spWho s = some v ∧ Inv (A ++ [(spView s v, f v)]) s') ?_ ?_ ?_ ?_ ?_ ?_ ?_ ?_
    · intros; trivial
    · intro e rest hpc _ _
      simp only [Inv, hpc] at h ⊢
      exact h
    · intro e rest d hpc _ _ hdd
      simp only [hk, Bool.not_true, Bool.false_eq_true, if_false] at hdd
      subst hdd
      simp only [Inv, hpc] at h
      exact ⟨fun _ => h, fun _ => h⟩
    · intro v w ec hpc
      refine ⟨v, by simp [spWho, hpc], ?_⟩
      simp only [Inv, hpc] at h ⊢
      have : offers c.vid SpReport.distance (A ++ [(spView s v, f v)]) =
          offers c.vid SpReport.distance A ++ (f v).map (fun e => (c.vid e.1, e.2.1 + w)) := by
        simp [offers, spView, hpc]
      rw [this]
      exact h.more
    · intro v w ec hpc
      simp only [Inv, hpc] at h ⊢
      exact h
    · intros; trivial
    · intro v w ec n x l es hpc hlt hi
      simp only [Inv, hpc, List.map_cons] at h ⊢
      exact h.skip ((hd.improve_none _ _ _ (not_le.1 hlt)).1 hi)
    · intro v w ec n x l es d hpc hlt hi
      simp only [Inv, hpc, List.map_cons] at h ⊢
      refine h.improve ?_ (hd.improve_some _ _ _ _ (not_le.1 hlt) hi)
      by_contra hle
      rw [(hd.improve_none _ _ _ (not_le.1 hlt)).2 (not_lt.1 hle)] at hi
      simp at hi
  obtain ⟨s, v, h1, h2, h3⟩ := aware_ghost Inv
    (by
      intro f A s s' h e
      have := key f A s h
      rw [e] at this
      exact this)
    (by
      intro f A s r s' h e
      have := key f A s h
      rw [e] at this
      exact this)
    (by
      intro f A s s' h hw e
      have := key f A s h
      rw [e] at this
      obtain ⟨v, hv, -⟩ := this
      rw [hw] at hv
      cases hv)
    (by
      intro f A s v s' h hw e
      have := key f A s h
      rw [e] at this
      obtain ⟨v', hv, hi⟩ := this
      rw [hw] at hv
      cases hv
      exact hi)
    fuel (prepareLimit limit) (spInit g c none starts, 0) []
    ⟨[], by simp [offers, spInit], fun k => by
      have e : g.dd.get (spInit g c none starts).dist k = if k ∈ starts.map c.vid then 0 else c.inf := by
        show g.dd.get (g.dd.setAll g.dd.empty (starts.map (fun v => (c.vid v, 0)))) k = _
        rw [hd.get_setAll_const, hd.get_empty]
      rw [e]
      refine ⟨fun x hx => ?_, ?_⟩
      · simp only [List.append_nil, List.mem_map, Prod.mk.injEq] at hx
        obtain ⟨v, hv, rfl, rfl⟩ := hx
        rw [if_pos (List.mem_map_of_mem hv)]
      · split
        · rename_i hk
          obtain ⟨v, hv, rfl⟩ := List.mem_map.1 hk
          exact .inr (by simp; exact ⟨v, hv, rfl⟩)
        · exact .inl rfl⟩ hc
  have hpc : ∃ w ec, s.pc = .expand v w ec := by
    unfold spWho at h2
    rcases hpc : s.pc with _ | ⟨u, w, ec⟩ | ⟨u, w, ec, es⟩ <;> simp only [hpc, reduceCtorEq, Option.some.injEq] at h2
    exact ⟨w, ec, by rw [h2]⟩
  obtain ⟨w, ec, hpc⟩ := hpc
  simp only [Inv, hpc, List.nil_append] at h1
  obtain ⟨O, e1, e2⟩ := h1
  rw [List.append_nil] at e1
  rw [e1, h3]
  simp only [spView, hpc]
  exact e2

/-- **C70 for A*, distances.** When the edges function is called, the distances that it sees hold, for each id, the
smallest of these values, and infinity if there is none: zero for the ids of start vertices, and for each edge returned by the
calls before, `path_length` at that call plus the weight of the edge, for the id of the vertex that the edge leads to. -/
theorem C70_astar_distances [IsOrderedCancelAddMonoid W] (c : AStarCfg V K L W) (ht : c.isTree = false) (hd : g.dd.Lawful c.inf)
    (F : Nat → AStarReport V W M ML D → List (V × W × L)) (starts : List V) (limit : Option Int) (fuel : Nat)
    {before after : List (AStarReport V W M ML D × List (V × W × L))} {call : AStarReport V W M ML D × List (V × W × L)}
    (hc : aAwareCalls g c F starts limit fuel = before ++ call :: after) :
    IsBest g.dd c.inf (starts.map (fun v => (c.vid v, 0)) ++ offers c.vid AStarReport.pathLength before) call.1.dist := by
  let Inv : List (AStarReport V W M ML D × List (V × W × L)) → AStarState V L W M ML D → Prop := fun A s =>
    OfferInv g.dd c.inf (starts.map (fun v => (c.vid v, 0))) (offers c.vid AStarReport.pathLength A) s.dist
      (match s.pc with | .edges _ w _ es => es.map (fun e => (c.vid e.1, e.2.1 + w)) | _ => [])
  have key : ∀ (f : V → List (V × W × L)) A (s : AStarState V L W M ML D), Inv A s →
      match aStep g { c with next := f } s with
      | .stop _ => True
      | .fail _ => True
      | .tau s' => Inv A s'
      | .emit _ s' => Inv A s'
      | .expand s' => ∃ v, aWho s = some v ∧ Inv (A ++ [(aView s v, f v)]) s' := by
    intro f A s h
    refine aStep_cases (c := { c with next := f }) ht s (P := fun st => match st with
      | .stop _ => True
      | .fail _ => True
      | .tau s' => Inv A s'
      | .emit _ s' => Inv A s'
      | .expand s' => ∃ v, aWho s = some v ∧ Inv (A ++ [(aView s v, f v)]) s') ?_ ?_ ?_ ?_ ?_ ?_ ?_ ?_ ?_ ?_
    · intros; trivial
    · intro e rest hpc _ _
      simp only [Inv, hpc] at h ⊢
      exact h
    · intro e rest hpc _ _ _
      simp only [Inv, hpc] at h ⊢
      exact h
    · intro e rest hpc _ _ _
      simp only [Inv, hpc] at h ⊢
      exact h
    · intro v w ec hpc
      refine ⟨v, by simp [aWho, hpc], ?_⟩
      simp only [Inv, hpc] at h ⊢
      have : offers c.vid AStarReport.pathLength (A ++ [(aView s v, f v)]) =
          offers c.vid AStarReport.pathLength A ++ (f v).map (fun e => (c.vid e.1, e.2.1 + w)) := by
        simp [offers, aView, hpc]
      rw [this]
      exact h.more
    · intro v w ec hpc
      simp only [Inv, hpc] at h ⊢
      exact h
    · intros; trivial
    · intro v w ec n x l es hpc hlt hi
      simp only [Inv, hpc, List.map_cons] at h ⊢
      exact h.skip ((hd.improve_none _ _ _ hlt).1 hi)
    · intros; trivial
    · intro v w ec n x l es d hpc hlt hi _
      simp only [Inv, hpc, List.map_cons] at h ⊢
      refine h.improve ?_ (hd.improve_some _ _ _ _ hlt hi)
      by_contra hle
      rw [(hd.improve_none _ _ _ hlt).2 (not_lt.1 hle)] at hi
      simp at hi
  obtain ⟨s, v, h1, h2, h3⟩ := aware_ghost Inv
    (by
      intro f A s s' h e
      have := key f A s h
      rw [e] at this
      exact this)
    (by
      intro f A s r s' h e
      have := key f A s h
      rw [e] at this
      exact this)
    (by
      intro f A s s' h hw e
      have := key f A s h
      rw [e] at this
      obtain ⟨v, hv, -⟩ := this
      rw [hw] at hv
      cases hv)
    (by
      intro f A s v s' h hw e
      have := key f A s h
      rw [e] at this
      obtain ⟨v', hv, hi⟩ := this
      rw [hw] at hv
      cases hv
      exact hi)
    fuel (prepareLimit limit) (aInit g c none none starts, 0) []
    ⟨[], by simp [offers, aInit], fun k => by
      have e : g.dd.get (aInit g c none none starts).dist k = if k ∈ starts.map c.vid then 0 else c.inf := by
        show g.dd.get (g.dd.setAll g.dd.empty (starts.map (fun v => (c.vid v, 0)))) k = _
        rw [hd.get_setAll_const, hd.get_empty]
      rw [e]
      refine ⟨fun x hx => ?_, ?_⟩
      · simp only [List.append_nil, List.mem_map, Prod.mk.injEq] at hx
        obtain ⟨v, hv, rfl, rfl⟩ := hx
        rw [if_pos (List.mem_map_of_mem hv)]
      · split
        · rename_i hk
          obtain ⟨v, hv, rfl⟩ := List.mem_map.1 hk
          exact .inr (by simp; exact ⟨v, hv, rfl⟩)
        · exact .inl rfl⟩ hc
  have hpc : ∃ w ec, s.pc = .expand v w ec := by
    unfold aWho at h2
    rcases hpc : s.pc with _ | ⟨u, w, ec⟩ | ⟨u, w, ec, es⟩ <;> simp only [hpc, reduceCtorEq, Option.some.injEq] at h2
    exact ⟨w, ec, by rw [h2]⟩
  obtain ⟨w, ec, hpc⟩ := hpc
  simp only [Inv, hpc, List.nil_append] at h1
  obtain ⟨O, e1, e2⟩ := h1
  rw [List.append_nil] at e1
  rw [e1, h3]
  simp only [aView, hpc]
  exact e2

end

/-! ## Non-vacuity

Per call: the vertex, the vertices returned by the call, and what is shown as visited (or: the distances shown for the
vertices 0 to 4, where 1000 stands for infinity). The edges functions are those of the examples in the imported files. -/

example : (bfsAwareCalls exBits (exCfg true) exAware [] [0] none 40).map
      (fun x => (x.1.vertex, x.2.map Prod.fst, (List.range 9).filter (exBits.so.contains x.1.visited))) =
      [(0, [1, 3], [0]), (1, [2, 5], [0, 1, 3]), (3, [], [0, 1, 2, 3, 5]), (2, [], [0, 1, 2, 3, 5]),
       (5, [], [0, 1, 2, 3, 5])] := by
  decide +kernel

example : (ntdAwareCalls exBits ⟨exCfg true, true⟩ exAwareN [] [0] none 40).map
      (fun x => (x.1.vertex, x.2.map Prod.fst, (List.range 9).filter (exBits.so.contains x.1.visited))) =
      [(0, [1, 3], [0]), (3, [4, 9], [0, 1, 3]), (9, [], [0, 1, 3, 4]), (4, [], [0, 1, 3, 4]),
       (1, [2, 5], [0, 1, 3, 4]), (5, [], [0, 1, 2, 3, 4, 5]), (2, [], [0, 1, 2, 3, 4, 5])] := by
  decide +kernel

example : (dfsAwareCalls exHash (exDfs false true) exAwareD [] [0] none 40).map
      (fun x => (x.1.vertex, x.2.map Prod.fst, (List.range 9).filter (exHash.so.contains x.1.visited))) =
      [(0, [1, 3], [0]), (3, [4, 9], [0, 3]), (9, [], [0, 3]), (4, [], [0, 3, 4]), (1, [2, 5], [0, 1, 3, 4]),
       (5, [], [0, 1, 3, 4, 5]), (2, [], [0, 1, 2, 3, 4, 5])] := by
  decide +kernel

example : (topoAwareCalls exBits (exCfg true) exAwareT [] [0] none 60).map
      (fun x => (x.1.vertex, x.2.map Prod.fst, (List.range 9).filter (exBits.so.contains x.1.visited))) =
      [(0, [1, 3], [0]), (3, [4, 9], [0, 3]), (9, [], [0, 3]), (4, [], [0, 3, 4]), (1, [2, 5], [0, 1, 3, 4]),
       (5, [], [0, 1, 3, 4, 5]), (2, [], [0, 1, 2, 3, 4, 5])] := by
  decide +kernel

example : (spAwareCalls exWArr ⟨fun _ => [], id, false, true, true, 1000⟩ exWAware none [0] none 60).map
      (fun x => (x.1.vertex, x.1.distance, x.2.map (fun e => (e.1, e.2.1)), (List.range 5).map (exWArr.dd.get x.1.dist))) =
      [(0, 0, [(1, 3)], [0, 1000, 1000, 1000, 1000]), (1, 3, [(2, 3), (3, 4)], [0, 3, 1000, 1000, 1000]),
       (2, 6, [(3, 3), (4, 4)], [0, 3, 6, 7, 1000]), (3, 7, [(4, 3), (5, 4)], [0, 3, 6, 7, 10]),
       (4, 10, [], [0, 3, 6, 7, 10]), (5, 11, [], [0, 3, 6, 7, 10])] := by
  decide +kernel

example : (aAwareCalls exWArr exAAwareCfg exAAware [0] none 60).map
      (fun x => (x.1.vertex, x.1.pathLength, x.2.map (fun e => (e.1, e.2.1)), (List.range 5).map (exWArr.dd.get x.1.dist))) =
      [(0, 0, [(1, 3)], [0, 1000, 1000, 1000, 1000]), (1, 3, [(2, 3), (3, 4)], [0, 3, 1000, 1000, 1000]),
       (3, 7, [(4, 3), (5, 4)], [0, 3, 6, 7, 1000]), (4, 10, [], [0, 3, 6, 7, 10]),
       (2, 6, [(3, 3), (4, 4)], [0, 3, 6, 7, 10]), (5, 11, [], [0, 3, 6, 7, 10])] := by
  decide +kernel

end NoGraphs
