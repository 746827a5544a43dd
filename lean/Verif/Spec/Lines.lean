import Verif.Model.Basic
/-! # Specification: lines of a source -/
namespace Jotdown

/-- The spans are non-empty, contiguous, and cover exactly the offsets from `a` to `b`. -/
def Tiles (a b : Nat) : List Span → Prop
  | [] => a = b
  | s :: ss => s.start = a ∧ s.start < s.stop ∧ Tiles s.stop b ss

end Jotdown
