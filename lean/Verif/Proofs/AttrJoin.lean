import Verif.Proofs.Base
import Verif.Spec.Attr
/-! # Helper lemmas: joining values -/
namespace Jotdown.Attr
open Jotdown

theorem extend_eq (r s : Bytes) : extend r s =
    if s.isEmpty then r else if r.isEmpty then s else r ++ b! " " ++ s := by
  unfold extend
  split
  · rfl
  · cases r with
    | nil => simp [extendRaw]
    | cons c r => simp [extendRaw]

theorem joinNonEmpty_nil : joinNonEmpty [] = [] := rfl
theorem joinNonEmpty_cons (s : Bytes) (l : List Bytes) :
    joinNonEmpty (s :: l) = if s.isEmpty then joinNonEmpty l
      else if (joinNonEmpty l).isEmpty then s else s ++ b! " " ++ joinNonEmpty l := by
  unfold joinNonEmpty
  by_cases hs : s.isEmpty
  · simp [hs]
  · simp only [List.filter_cons, hs, Bool.not_false, if_true]
    cases hl : l.filter (fun s => !s.isEmpty) with
    | nil => simp [List.intercalate]
    | cons t ts =>
      have ht : t.isEmpty = false := by
        have : t ∈ l.filter (fun s => !s.isEmpty) := by rw [hl]; simp
        simpa using (List.mem_filter.mp this).2
      have hne : ((b! " ").intercalate (t :: ts)).isEmpty = false := by
        cases t with
        | nil => simp at ht
        | cons c t => cases ts <;> simp [List.intercalate, List.intersperse]
      rw [hne]
      simp [List.intercalate, List.intersperse]

theorem foldl_extend (v : Bytes) (l : List Bytes) :
    l.foldl extend v = joinNonEmpty (v :: l) := by
  induction l generalizing v with
  | nil => rw [joinNonEmpty_cons]; cases v <;> simp [joinNonEmpty_nil]
  | cons s l ih =>
    rw [List.foldl_cons, ih, joinNonEmpty_cons, joinNonEmpty_cons, joinNonEmpty_cons, extend_eq]
    cases s with
    | nil => simp
    | cons c s =>
      cases v with
      | nil => simp
      | cons d v =>
        simp only [List.isEmpty_cons, if_false]
        by_cases hj : (joinNonEmpty l).isEmpty
        · simp [hj]
        · simp [hj]

end Jotdown.Attr
