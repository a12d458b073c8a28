import Verif.Model.Paths

/-!
# Labels that may be `None`

The other parts of the model have a type of labels without the Python object `None`. Here, a label is of type `Option Y`,
and `none` is the label `None`.
-/

namespace NoGraphs

variable {V K Y : Type}

/-- A `Paths` container whose labels may be `None`: the direct read of the collection of labels gives the stored object
(`_paths.py` 463), and a stored `None` cannot be distinguished from a gap in a list. All methods of the container are the ones
of `PathsView`; in particular, the assertion in `_iter_path_edges` (`_paths.py` 464) is the case `some none` of the read. -/
def PathsView.noneLabels (p : PathsView V K (Option Y)) : PathsView V K (Option Y) :=
  { p with rawLabel := fun k => (p.rawLabel k).map (fun x => match x with
      | some (some y) => some (some y)
      | _ => none) }

end NoGraphs
