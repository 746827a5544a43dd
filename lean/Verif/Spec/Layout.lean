import Verif.Model.Basic
/-! # Specification: texts that differ only in layout -/
namespace Jotdown.Html
open Jotdown

/-- `InsertedLayout ind a b`: `b` is `a` with newlines and copies of the indentation string `ind`
inserted at some places, and nothing else changed. -/
inductive InsertedLayout (ind : Bytes) : Bytes → Bytes → Prop
  | nil : InsertedLayout ind [] []
  | keep {a b : Bytes} (c : UInt8) : InsertedLayout ind a b → InsertedLayout ind (c :: a) (c :: b)
  | newline {a b : Bytes} : InsertedLayout ind a b → InsertedLayout ind a (10 :: b)
  | indent {a b : Bytes} : InsertedLayout ind a b → InsertedLayout ind a (ind ++ b)

end Jotdown.Html
