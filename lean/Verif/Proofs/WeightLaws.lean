import Mathlib.Algebra.Order.Monoid.Defs
import Mathlib.Algebra.Order.Monoid.Unbundled.Basic
import Verif.Spec.Weighted

/-! # Weights: the laws that hold also with rounding -/

namespace NoGraphs

open Spec

/-- Exact arithmetic meets the laws. -/
instance (priority := low) {W : Type} [AddCommMonoid W] [LinearOrder W] [IsOrderedAddMonoid W] : WeightLaws W where
  comm := add_comm
  zero := add_zero
  mono _ _ c h := add_le_add_left h c

section

variable (W : Type) [Add W] [Zero W] [LinearOrder W] [WeightLaws W]

/-- Addition of weights is commutative. -/
@[reducible] def wAddCommMagma : AddCommMagma W := { add_comm := WeightLaws.comm }

/-- Zero is neutral. -/
@[reducible] def wAddZeroClass : AddZeroClass W :=
  { add_zero := WeightLaws.zero, zero_add := fun a => by rw [WeightLaws.comm, WeightLaws.zero] }

theorem wAddRightMono : AddRightMono W := ⟨fun c a b h => WeightLaws.mono a b c h⟩

theorem wAddLeftMono : AddLeftMono W := ⟨fun c a b h => by
  rw [WeightLaws.comm c a, WeightLaws.comm c b]; exact WeightLaws.mono a b c h⟩

end

variable {V L W : Type}

theorem Spec.IsWPathFrom.snoc [Add W] [Zero W] {next : V → List (V × W × L)} {s : V} {steps : List (V × L)} {w0 w : W}
    {u v : V} {y : W} {l : L} (h : IsWPathFrom next w0 s steps w) (hlast : (s :: steps.map Prod.fst).getLast? = some u)
    (he : (v, y, l) ∈ next u) : IsWPathFrom next w0 s (steps ++ [(v, l)]) (w + y) := by
  induction h with
  | nil =>
    simp only [List.map_nil, List.getLast?_singleton, Option.some.injEq] at hlast
    subst hlast
    exact .cons he .nil
  | cons he' _ ih =>
    rw [List.map_cons, List.getLast?_cons_cons] at hlast
    exact .cons he' (ih hlast)

/-- With exact arithmetic, the order of the additions does not matter. -/
theorem Spec.IsWPathFrom.exact [AddCommMonoid W] {next : V → List (V × W × L)} {s : V} {steps : List (V × L)} {w0 w : W}
    (h : IsWPathFrom next w0 s steps w) : ∃ x, IsWPath next s steps x ∧ w = w0 + x := by
  induction h with
  | nil => exact ⟨0, .nil, (add_zero _).symm⟩
  | cons he _ ih =>
    obtain ⟨x, h1, h2⟩ := ih
    exact ⟨_, .cons he h1, by rw [h2, add_assoc]⟩

theorem Spec.IsWPathFrom.exact_zero [AddCommMonoid W] {next : V → List (V × W × L)} {s : V} {steps : List (V × L)} {w : W}
    (h : IsWPathFrom next 0 s steps w) : IsWPath next s steps w := by
  obtain ⟨x, h1, h2⟩ := h.exact
  rw [zero_add] at h2
  rw [h2]; exact h1

theorem Spec.IsWPath.snoc [AddCommMonoid W] {next : V → List (V × W × L)} {s : V} {steps : List (V × L)} {x : W} {u v : V} {y : W} {l : L}
    (h : IsWPath next s steps x) (hlast : (s :: steps.map Prod.fst).getLast? = some u)
    (he : (v, y, l) ∈ next u) : IsWPath next s (steps ++ [(v, l)]) (x + y) := by
  induction h with
  | nil =>
    simp only [List.map_nil, List.getLast?_singleton, Option.some.injEq] at hlast
    subst hlast
    rw [zero_add]
    have := IsWPath.cons he (IsWPath.nil (next := next) (u := v))
    rw [add_zero] at this
    exact this
  | cons he' _ ih =>
    rw [List.map_cons, List.getLast?_cons_cons] at hlast
    rw [add_assoc]
    exact .cons he' (ih hlast)

end NoGraphs
