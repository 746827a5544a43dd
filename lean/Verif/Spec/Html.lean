import Verif.Model.Basic
/-! # Specification: HTML entities -/
namespace Jotdown.Html
open Jotdown

/-- Decoding of the HTML character references `&lt;`, `&gt;`, `&amp;` and `&quot;`; everything else
stands for itself. -/
def decode : Bytes → Bytes
  | 38 :: 108 :: 116 :: 59 :: s => 60 :: decode s                    -- &lt;
  | 38 :: 103 :: 116 :: 59 :: s => 62 :: decode s                    -- &gt;
  | 38 :: 97 :: 109 :: 112 :: 59 :: s => 38 :: decode s              -- &amp;
  | 38 :: 113 :: 117 :: 111 :: 116 :: 59 :: s => 34 :: decode s      -- &quot;
  | c :: s => c :: decode s
  | [] => []

end Jotdown.Html
