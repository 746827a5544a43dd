import Verif.Model.Basic
/-! # Specification: valid UTF-8

Every Rust `&str` is valid UTF-8; theorems about all sources quantify over `Utf8` byte strings. -/
namespace Jotdown

/-- `b` is the UTF-8 encoding of some sequence of characters (Lean's own encoder). -/
def Utf8 (b : Bytes) : Prop := ∃ l : List Char, b = l.flatMap String.utf8EncodeChar

end Jotdown
