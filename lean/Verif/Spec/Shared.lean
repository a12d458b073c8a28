import Verif.Model.Shared
import Verif.Spec.Graph

/-! # What a program does with traversals that share a set of visited vertices -/

namespace NoGraphs.Spec

variable {V K L : Type}

/-- The start vertices of a call of `start_from`. -/
def callStarts : StartCall V K L → List V
  | .bfs _ starts => starts
  | .ntd _ starts => starts
  | .dfs _ starts => starts

/-- The traversal works on the graph `next` with vertex ids `vid`, and `is_tree` is not set. -/
def CallOn (next : V → List (V × L)) (vid : V → K) : StartCall V K L → Prop
  | .bfs c _ => c.next = next ∧ c.vid = vid ∧ c.isTree = false
  | .ntd c _ => c.next = next ∧ c.vid = vid ∧ c.isTree = false
  | .dfs c _ => c.next = next ∧ c.vid = vid ∧ c.isTree = false

/-- The program does not ask for skipping the expansion of vertices (a feature of depth-first search). -/
def CallNoSkip : StartCall V K L → Prop
  | .dfs c _ => ∀ n, c.skip n = false
  | _ => True

/-- The traversal reports the vertices it finds (for depth-first search, this depends on parameter `report`). -/
def CallReports : StartCall V K L → Prop
  | .dfs c _ => c.reportSucc = true
  | _ => True

/-- The start vertex `v` of the call is expanded, also if it is marked as visited: not in depth-first search, if its id
is already marked when the program begins. -/
def CallEnters (vid : V → K) (A : K → Prop) : StartCall V K L → V → Prop
  | .dfs _ starts, v => v ∈ starts ∧ ¬ A (vid v)
  | .bfs _ starts, v => v ∈ starts
  | .ntd _ starts, v => v ∈ starts

/-- The calls of `start_from` in a program, in their order. -/
def calls : List (Action V K L) → List (StartCall V K L)
  | [] => []
  | .start call :: as => call :: calls as
  | .step _ :: as => calls as

end NoGraphs.Spec
