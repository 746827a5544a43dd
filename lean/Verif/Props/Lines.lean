import Verif.Proofs.Ident
import Verif.Spec.Lines
/-! # Property C28: lines partition the source -/
namespace Jotdown.Block
open Jotdown

theorem lineLen_newline (s : Bytes) (i : Nat) (hi : i + 1 < lineLen s) : s[i]? ≠ some (c! '\n') := by
  induction s generalizing i with
  | nil => simp
  | cons c s ih =>
    unfold lineLen at hi
    split at hi
    · omega
    · rename_i hc
      cases i with
      | zero => simpa using hc
      | succ i => simpa using ih i (by omega)

theorem lineLen_last (s : Bytes) : lineLen s = s.length ∨ (0 < lineLen s ∧ s[lineLen s - 1]? = some (c! '\n')) := by
  induction s with
  | nil => left; rfl
  | cons c s ih =>
    unfold lineLen
    split
    · rename_i hc; right; simp [hc]
    · rcases ih with ih | ih
      · left; simp [ih]; omega
      · right
        refine ⟨by omega, ?_⟩
        rw [show 1 + lineLen s - 1 = (lineLen s - 1) + 1 by omega]
        simpa using ih.2

theorem linesFrom_spec (src : Bytes) (start : Nat) (rest : Bytes) (h : rest = src.drop start)
    (hs : start ≤ src.length) :
    Tiles start src.length (linesFrom start rest) ∧
    (∀ l ∈ linesFrom start rest, l.stop ≤ src.length ∧
      (∀ i, l.start ≤ i → i + 1 < l.stop → src[i]? ≠ some (c! '\n')) ∧
      (l.stop = src.length ∨ src[l.stop - 1]? = some (c! '\n'))) := by
  fun_induction linesFrom start rest with
  | case1 start =>
    have : src.length ≤ start := by simpa using h.symm
    exact ⟨by unfold Tiles; omega, by simp⟩
  | case2 start c cs ih =>
    have hp := lineLen_pos (s := c :: cs) (by simp)
    have hle := lineLen_le (c :: cs)
    have hlen : (c :: cs).length = src.length - start := by rw [h]; simp
    have := ih (by rw [h, List.drop_drop]) (by omega)
    refine ⟨⟨rfl, by simp only; omega, this.1⟩, ?_⟩
    intro l hl
    simp only [List.mem_cons] at hl
    rcases hl with rfl | hl
    · refine ⟨by simp only; omega, ?_, ?_⟩
      · intro i h1 h2
        simp only at h1 h2
        have := lineLen_newline (c :: cs) (i - start) (by omega)
        rw [h, List.getElem?_drop] at this
        rwa [show start + (i - start) = i by omega] at this
      · rcases lineLen_last (c :: cs) with h1 | ⟨h1, h2⟩
        · left; simp only; omega
        · right
          rw [h, List.getElem?_drop] at h2
          rw [← h] at h2
          simpa [Nat.add_sub_assoc hp] using h2
    · exact this.2 l hl

/-- **C28.** The lines of a source are non-empty, contiguous ranges that start at 0 and end at the
length of the source; a line has a newline only as its last byte, and only the last line can be
without one. -/
theorem C28_lines_partition (src : Bytes) :
    Tiles 0 src.length (lines src) ∧
    (∀ l ∈ lines src, l.stop ≤ src.length ∧
      (∀ i, l.start ≤ i → i + 1 < l.stop → src[i]? ≠ some (c! '\n')) ∧
      (l.stop = src.length ∨ src[l.stop - 1]? = some (c! '\n'))) :=
  linesFrom_spec src 0 src rfl (Nat.zero_le _)

/-- **C28**, characters: for valid UTF-8 both ends of every line are character boundaries. -/
theorem C28_lines_on_char_boundaries (src : Bytes) (hu : Utf8 src) :
    ∀ l ∈ lines src, isBoundary src l.start = true ∧ isBoundary src l.stop = true := by
  have h := C28_lines_partition src
  have hstop : ∀ l ∈ lines src, isBoundary src l.stop = true := by
    intro l hl
    obtain ⟨h1, _, h3⟩ := h.2 l hl
    rcases h3 with h3 | h3
    · rw [h3]; exact isBoundary_of_bd (Nat.le_refl _) (by simp)
    · by_cases hz : l.stop = 0
      · rw [hz]; simp [isBoundary]
      · have := Safe.bd_after hu.safe h3 (by decide)
        rw [show l.stop - 1 + 1 = l.stop by omega] at this
        exact isBoundary_of_bd h1 this
  have key : ∀ (ls : List Span) (a b : Nat), Tiles a b ls → isBoundary src a = true →
      (∀ l ∈ ls, isBoundary src l.stop = true) → ∀ l ∈ ls, isBoundary src l.start = true := by
    intro ls
    induction ls with
    | nil => simp
    | cons s ss ih =>
      intro a b ht ha hst l hl
      simp only [List.mem_cons] at hl
      rcases hl with rfl | hl
      · rw [ht.1]; exact ha
      · exact ih s.stop b ht.2.2 (hst s (by simp)) (fun l hl => hst l (by simp [hl])) l hl
  intro l hl
  exact ⟨key _ 0 src.length h.1 (by simp [isBoundary]) hstop l hl, hstop l hl⟩

example : lines (b! "a\n\nbc") = [⟨0, 2⟩, ⟨2, 3⟩, ⟨3, 5⟩] := by decide +kernel

end Jotdown.Block
