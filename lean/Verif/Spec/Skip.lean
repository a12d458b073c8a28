import Verif.Spec.DfsEvent

/-! # Specification: when the expansion of a vertex can be skipped -/

namespace NoGraphs.Spec

/-- The events that say that a vertex has been entered. -/
def IsEntering (e : DfsEvent) : Prop := e = .enteringStart ∨ e = .enteringSuccessor

instance (e : DfsEvent) : Decidable (IsEntering e) := inferInstanceAs (Decidable (_ ∨ _))

end NoGraphs.Spec
