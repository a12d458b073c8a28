import Verif.Model.SearchRaising
import Verif.Proofs.Raising

/-! # Runs of searches that are ended by an exception of an edges function -/

set_option linter.unusedSectionVars false

namespace NoGraphs

open Spec

variable {σ P E : Type}

/-- How a step of a search relates to the loops over edges. -/
def SearchShape (next : P → List E) (who : σ → Option P) (opened : σ → Option (P × List E)) (silent : σ → Prop)
    (s : σ) : Step σ Unit → Prop
  | .stop t => silent t → opened s = none
  | .fail _ => True
  | .tau t => match opened s with
    | some (p, _ :: es) => opened t = some (p, es)
    | _ => opened t = none
  | .emit _ _ => False
  | .expand t => opened s = none ∧ ∃ p, who s = some p ∧ opened t = some (p, next p)

/-- The vertices with exceptions are where they should be: `silent` characterises the final states of searches that cannot have
ended within a loop over edges. -/
theorem search_raises_at_first {m : σ → Step σ Unit} {next : P → List E} {who : σ → Option P}
    {opened : σ → Option (P × List E)} {silent : σ → Prop} (I : σ → Prop)
    (htau : ∀ s t, I s → m s = .tau t → I t) (hexp : ∀ s t, I s → m s = .expand t → I t)
    (hshape : ∀ s, I s → SearchShape next who opened silent s (m s)) (raises : P → Bool) (fuel : Nat) (s : σ) (hs : I s) :
    let r := runSearchRaising m who opened raises fuel s
    let cur := (opened s).map (·.1)
    RaisesAtFirst raises (cur.toList ++ r.reads) (match r.ending with | .usual _ => none | .exception p => some p)
      (r.ending = .usual .done ∧ silent r.final) := by
  have short : ∀ (o : Option P) (d : Prop), (d → o = none) → RaisesAtFirst raises (o.toList ++ []) none d := by
    intro o d hd
    rcases o with _ | p
    · exact .nil
    · exact .one (fun h => by simpa using hd h)
  induction fuel generalizing s with
  | zero => exact short _ _ (by simp [runSearchRaising])
  | succ fuel ih =>
    unfold runSearchRaising
    rcases hr : raisedNow raises (opened s) with _ | p
    · have hsh := hshape s hs
      simp only
      rcases hm : m s with t | e | t | ⟨r, t⟩ | t <;> rw [hm] at hsh
      · simp only
        refine short _ _ (fun h => ?_)
        rw [hsh h.2]; rfl
      · exact short _ _ (by simp)
      · simp only [SearchShape] at hsh ⊢
        have hi := ih t (htau s t hs hm)
        simp only at hi
        rcases ho : opened s with _ | ⟨p, _ | ⟨x, es⟩⟩ <;> rw [ho] at hsh hr <;> simp only at hsh
        · rw [hsh] at hi; exact hi
        · rw [hsh] at hi
          have hv : raises p = false := by
            simp only [raisedNow] at hr
            split at hr
            · simp at hr
            · rename_i hv; simpa using hv
          exact hi.cons hv
        · rw [hsh] at hi; exact hi
      · exact hsh.elim
      · obtain ⟨h1, p, h2, h3⟩ := hsh
        have hi := ih t (hexp s t hs hm)
        simp only at hi
        rw [h3] at hi
        simp only [h1, h2]
        exact hi
    · have hv : ∃ es, opened s = some (p, es) ∧ raises p = true := by
        unfold raisedNow at hr
        split at hr
        · split at hr
          · simp only [Option.some.injEq] at hr
            subst hr
            exact ⟨_, by assumption, by assumption⟩
          · simp at hr
        · simp at hr
      obtain ⟨es, h1, h2⟩ := hv
      simp only [h1]
      exact .atLast h2 (by simp)

/-- Comparison with the search in the graph with the missing edges `x`. -/
theorem search_begins {V : Type} {m : (Bool × V → List E) → σ → Step σ Unit} {who : σ → Option (Bool × V)} {opened : σ → Option ((Bool × V) × List E)}
    {more : (Bool × V → List E) → σ → σ}
    (step : ∀ f x s, (∀ p, opened s = some (p, []) → x p = []) →
      m (fun p => f p ++ x p) (more x s) = (m f s).mapState (more x))
    (who_more : ∀ x s, who (more x s) = who s) (raises : Bool × V → Bool) (next x : Bool × V → List E)
    (hx : ∀ p, raises p = false → x p = []) (fuel : Nat) (s : σ) :
    let r := runSearchRaising (m next) who opened raises fuel s
    let full := runMachine (m (fun p => next p ++ x p)) fuel none (more x s)
    let reads := readsOf (m (fun p => next p ++ x p)) who fuel (more x s)
    (r.reads <+: reads) ∧
      ∀ e, r.ending = .usual e → r.reads = reads ∧ full.ending = e ∧ full.final = more x r.final := by
  induction fuel generalizing s with
  | zero => exact ⟨List.nil_prefix, fun e he => ⟨rfl, by simpa [runSearchRaising, runMachine] using he, rfl⟩⟩
  | succ fuel ih =>
    unfold runSearchRaising runMachine readsOf
    rcases hr : raisedNow raises (opened s) with _ | p
    · have h1 : ∀ p, opened s = some (p, []) → x p = [] := by
        intro p hp
        rw [hp] at hr
        simp only [raisedNow] at hr
        split at hr
        · simp at hr
        · rename_i h0; exact hx p (by simpa using h0)
      rw [step next x s h1]
      simp only [who_more]
      rcases hm : m next s with t | e | t | ⟨r, t⟩ | t <;> simp only [Step.mapState, checkLimit]
      · exact ⟨List.nil_prefix, fun e he => ⟨trivial, by simpa using he, trivial⟩⟩
      · exact ⟨List.nil_prefix, fun e he => ⟨trivial, by simpa using he, trivial⟩⟩
      · exact ih t
      · exact ih t
      · obtain ⟨i1, i2⟩ := ih t
        refine ⟨(List.prefix_append_right_inj _).2 i1, fun e he => ?_⟩
        obtain ⟨j1, j2, j3⟩ := i2 e he
        exact ⟨congrArg ((who s).toList ++ ·) j1, j2, j3⟩
    · exact ⟨List.nil_prefix, by simp⟩

end NoGraphs
