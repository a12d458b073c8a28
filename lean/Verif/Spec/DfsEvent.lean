/-! # The events of the API of depth-first search -/

namespace NoGraphs

/-- `DFSEvent` (`depth_first_enum_types.py` 72-86). -/
inductive DfsEvent where
  | enteringStart | leavingStart | enteringSuccessor | leavingSuccessor | skippingStart
  | backEdge | forwardEdge | crossEdge | someNonTreeEdge | forwardOrCrossEdge | none
deriving DecidableEq

end NoGraphs
