import Verif.Proofs.RoundRuns
import Verif.Props.Table
/-! # Round trip: the lines of tables -/
namespace Jotdown.Round
open Jotdown Jotdown.Notation

/-- Cells, with a pipe after each. -/
def innerRow : List Bytes → Bytes
  | [] => []
  | w :: ws => w ++ c! '|' :: innerRow ws

def cellText (c : List Inl) : Bytes := c! ' ' :: (prints c ++ [c! ' '])

/-- The texts between the pipes. -/
def TabLine.raw : TabLine → List Bytes
  | .row cells => cells.map cellText
  | .sep als => als.map sepCell

theorem TabLine.text_eq (l : TabLine) : l.text = c! '|' :: (innerRow l.raw ++ [c! '\n']) := by
  cases l with
  | row cells =>
    simp only [TabLine.text, TabLine.raw]
    induction cells with
    | nil => rfl
    | cons c cs ih => simp [rowText, innerRow, cellText, ih]
  | sep als =>
    simp only [TabLine.text, TabLine.raw]
    induction als with
    | nil => rfl
    | cons a as ih => simp [sepText, innerRow, ih]

/-- Text without a pipe at which the row is split. -/
structure CellRaw (w : Bytes) : Prop where
  split : Block.splitRow 0 0 0 none w = ([], false)
  last : w.getLast? ≠ some (c! '\\')

theorem last_tail {c x : UInt8} {r : Bytes} (h : (c :: r).getLast? ≠ some x) : r.getLast? ≠ some x := by
  cases r with
  | nil => simp
  | cons d r => rwa [List.getLast?_cons_cons] at h

theorem splitRow_zero (pos cs : Nat) (v : Option Nat) (c : UInt8) (r : Bytes) : Block.splitRow 0 pos cs v (c :: r) =
    if c = c! '`' then Block.splitRow (r.takeWhile (· == c! '`')).length (pos + 1) cs (match v with
          | none => some ((r.takeWhile (· == c! '`')).length + 1)
          | some n => if (r.takeWhile (· == c! '`')).length + 1 = n then none else v) r
    else if v.isSome then Block.splitRow 0 (pos + 1) cs v r
    else if c = c! '|' then (⟨cs, pos⟩ :: (Block.splitRow 0 (pos + 1) (pos + 1) v r).1, (Block.splitRow 0 (pos + 1) (pos + 1) v r).2)
    else if c = c! '\\' && r.head?.any (fun d => isWs d || isPunct d) then Block.splitRow 1 (pos + 1) cs v r
    else Block.splitRow 0 (pos + 1) cs v r := rfl

theorem splitRow_shift {sk pos cs pos' cs' : Nat} {v : Option Nat} {w : Bytes} {f : Bool} (h : Block.splitRow sk pos cs v w = ([], f)) : Block.splitRow sk pos' cs' v w = ([], f) := by
  induction w generalizing sk pos cs pos' cs' v with
  | nil => exact h
  | cons c r ih =>
    cases sk with
    | succ n => exact ih (pos := pos + 1) h
    | zero =>
      rw [splitRow_zero] at h ⊢
      by_cases hc : c = c! '`'
      · rw [if_pos hc] at h ⊢; exact ih h
      · rw [if_neg hc] at h ⊢
        by_cases hv : v.isSome = true
        · rw [if_pos hv] at h ⊢; exact ih h
        · rw [if_neg hv] at h ⊢
          by_cases hp : c = c! '|'
          · rw [if_pos hp] at h; simp at h
          · rw [if_neg hp] at h ⊢
            split
            · rename_i hb
              rw [if_pos hb] at h; exact ih h
            · rename_i hb
              rw [if_neg hb] at h; exact ih h

theorem takeWhile_pipe (r rest : Bytes) : (r ++ c! '|' :: rest).takeWhile (· == c! '`') = r.takeWhile (· == c! '`') := by
  induction r with
  | nil => rfl
  | cons c r ih =>
    rw [List.cons_append, List.takeWhile_cons, List.takeWhile_cons, ih]

theorem splitRow_pipe {sk pos cs : Nat} {v : Option Nat} {w rest : Bytes} (hsk : sk ≤ w.length) (hl : w.getLast? ≠ some (c! '\\')) (h : Block.splitRow sk pos cs v w = ([], false)) :
    Block.splitRow sk pos cs v (w ++ c! '|' :: rest)
      = (⟨cs, pos + w.length⟩ :: (Block.splitRow 0 (pos + w.length + 1) (pos + w.length + 1) none rest).1, (Block.splitRow 0 (pos + w.length + 1) (pos + w.length + 1) none rest).2) := by
  induction w generalizing sk pos cs v with
  | nil =>
    simp only [List.length_nil, Nat.le_zero] at hsk
    subst hsk
    have hv : v = none := by
      cases v with
      | none => rfl
      | some x => simp [Block.splitRow] at h
    subst hv
    rw [List.nil_append, splitRow_zero, if_neg (by decide)]
    simp
  | cons c r ih =>
    have hlen : pos + (c :: r).length = pos + 1 + r.length := by simp; omega
    rw [List.cons_append, hlen]
    cases sk with
    | succ n => exact ih (pos := pos + 1) (by simp at hsk; omega) (last_tail hl) h
    | zero =>
      rw [splitRow_zero] at h ⊢
      by_cases hc : c = c! '`'
      · rw [if_pos hc] at h ⊢
        rw [takeWhile_pipe]
        exact ih (List.takeWhile_sublist _ |>.length_le) (last_tail hl) h
      · rw [if_neg hc] at h ⊢
        by_cases hv : v.isSome = true
        · rw [if_pos hv] at h ⊢
          exact ih (by omega) (last_tail hl) h
        · rw [if_neg hv] at h ⊢
          by_cases hp : c = c! '|'
          · rw [if_pos hp] at h
            simp at h
          · rw [if_neg hp] at h ⊢
            have hcond : (c = c! '\\' && (r ++ c! '|' :: rest).head?.any (fun d => isWs d || isPunct d)) = (c = c! '\\' && r.head?.any (fun d => isWs d || isPunct d)) := by
              cases r with
              | cons d r => rfl
              | nil =>
                have : ¬ c = c! '\\' := by simpa using hl
                simp [this]
            rw [hcond]
            split
            · rename_i hb
              rw [if_pos hb] at h
              refine ih ?_ (last_tail hl) h
              cases r with
              | nil => simp at hb
              | cons d r => simp
            · rename_i hb
              rw [if_neg hb] at h
              exact ih (by omega) (last_tail hl) h

theorem rows_split {src : Bytes} {W : List Bytes} (hW : ∀ w ∈ W, CellRaw w) {pos : Nat} {t : Bytes} (h : src.drop pos = innerRow W ++ t) :
    ∃ cells, Block.splitRow 0 pos pos none (innerRow W) = (cells, false) ∧ cells.map (textAt src) = W ∧ ∀ c ∈ cells, c.start ≤ c.stop ∧ c.stop ≤ src.length := by
  induction W generalizing pos with
  | nil => exact ⟨[], rfl, rfl, by simp⟩
  | cons w ws ih =>
    simp only [innerRow, List.append_assoc, List.cons_append] at h ⊢
    have hw := hW w (by simp)
    have hd : src.drop (pos + w.length + 1) = innerRow ws ++ t := by
      rw [Nat.add_assoc, ← List.drop_drop, h, ← List.drop_drop, List.drop_left]
      rfl
    obtain ⟨cells, e1, e2, e3⟩ := ih (fun x hx => hW x (List.mem_cons_of_mem _ hx)) hd
    have hle : pos + w.length ≤ src.length := by
      have := congrArg List.length h
      simp at this
      omega
    refine ⟨⟨pos, pos + w.length⟩ :: cells, ?_, ?_, ?_⟩
    · rw [splitRow_pipe (by omega) hw.last (splitRow_shift hw.split), e1]
    · rw [List.map_cons, e2]
      congr 1
      unfold textAt
      simp only
      rw [h]
      have : pos + w.length - pos = w.length := by omega
      rw [this, List.take_left]
    · intro c hc
      rcases List.mem_cons.1 hc with rfl | hc
      · exact ⟨by simp, hle⟩
      · exact e3 c hc

theorem raw_ok {l : TabLine} (h : l.Ok) : l.raw ≠ [] ∧ ∀ w ∈ l.raw, CellRaw w := by
  cases l with
  | row cells =>
    simp only [TabLine.Ok] at h
    obtain ⟨h1, c, h2, -⟩ := h
    refine ⟨?_, ?_⟩
    · simp only [TabLine.raw, ne_eq, List.map_eq_nil_iff]
      rintro rfl
      cases h2
    intro w hw
    simp only [TabLine.raw, List.mem_map] at hw
    obtain ⟨x, hx, rfl⟩ := hw
    refine ⟨?_, by simp [cellText, List.getLast?_cons]⟩
    rcases h1 x hx with rfl | h
    · rfl
    · have := splitRow_shift (pos' := 1) (cs' := 0) h.2.2.2.2.2
      unfold cellText
      rw [splitRow_zero, if_neg (by decide)]
      exact this
  | sep als =>
    simp only [TabLine.Ok] at h
    refine ⟨by simpa [TabLine.raw] using h, ?_⟩
    intro w hw
    simp only [TabLine.raw, List.mem_map] at hw
    obtain ⟨a, -, rfl⟩ := hw
    cases a <;> exact ⟨by decide, by decide⟩

theorem innerRow_last {W : List Bytes} (hne : W ≠ []) (hW : ∀ w ∈ W, CellRaw w) : ∃ Y, innerRow W = Y ++ [c! '|'] ∧ Y.getLast? ≠ some (c! '\\') := by
  induction W with
  | nil => exact absurd rfl hne
  | cons w ws ih =>
    cases ws with
    | nil => exact ⟨w, rfl, (hW w (by simp)).last⟩
    | cons w2 ws =>
      obtain ⟨Y, e, hY⟩ := ih (by simp) (fun x hx => hW x (List.mem_cons_of_mem _ hx))
      refine ⟨w ++ c! '|' :: Y, by rw [innerRow, e]; simp, ?_⟩
      cases Y with
      | nil => rw [List.getLast?_concat]; decide
      | cons y Y => rw [List.getLast?_append, List.getLast?_cons_cons, List.getLast?_eq_some_getLast (by simp : (y :: Y) ≠ [])]; rw [List.getLast?_eq_some_getLast (by simp : (y :: Y) ≠ [])] at hY; simpa using hY

/-- The line without its newline. -/
theorem TabLine.trimmed {l : TabLine} (h : l.Ok) : trimEnd l.text = c! '|' :: innerRow l.raw ∧
    ∃ Y, innerRow l.raw = Y ++ [c! '|'] ∧ (c! '|' :: Y).getLast? ≠ some (c! '\\') := by
  obtain ⟨h1, h2⟩ := raw_ok h
  obtain ⟨Y, e, hY⟩ := innerRow_last h1 h2
  refine ⟨?_, Y, e, ?_⟩
  · rw [TabLine.text_eq]
    have : c! '|' :: (innerRow l.raw ++ [c! '\n']) = (c! '|' :: innerRow l.raw) ++ [c! '\n'] := rfl
    rw [this, Block.trimEnd_append_ws (by simp; decide), Block.trimEnd_of_last]
    intro x hx
    rw [e, ← List.cons_append, List.getLast?_concat] at hx
    cases hx; decide
  · cases Y with
    | nil => decide
    | cons y Y => rwa [List.getLast?_cons_cons]

theorem suffix_pipe (Z : Bytes) (h : Z.getLast? ≠ some (c! '\\')) : (b! "|").isSuffixOf (Z ++ [c! '|']) = true ∧ (b! "\\|").isSuffixOf (Z ++ [c! '|']) = false := by
  refine ⟨by rw [List.isSuffixOf_iff_suffix]; exact List.suffix_append _ _, ?_⟩
  cases hs : (b! "\\|").isSuffixOf (Z ++ [c! '|']) with
  | false => rfl
  | true =>
    exfalso
    rw [List.isSuffixOf_iff_suffix] at hs
    obtain ⟨t, ht⟩ := hs
    have : (t ++ [c! '\\']) ++ [c! '|'] = Z ++ [c! '|'] := by rw [← ht]; simp
    have := List.append_cancel_right this
    rw [← this] at h
    simp at h

theorem TabLine.ident {l : TabLine} (h : l.Ok) {r : Block.Kind × Span} (hr : Block.identify l.text = .ok r) : r = (.table false false, ⟨0, 0⟩) := by
  obtain ⟨h1, Y, h2, h3⟩ := TabLine.trimmed h
  have hs := suffix_pipe (c! '|' :: Y) h3
  have hid : Block.identTable (trimEnd l.text) = true := by
    rw [h1, h2, ← List.cons_append]
    unfold Block.identTable
    rw [hs.1, hs.2]
    simp
  rw [TabLine.text_eq] at hr hid
  rw [identify_cons (.inl (by decide))] at hr
  simp only [Block.identMatch] at hr
  rw [hid] at hr
  simp [Bind.bind, Except.bind, pure, Except.pure] at hr
  exact hr.symm

theorem TabLine.continues {l : TabLine} (h : l.Ok) {r : Bool × Block.Kind} (hr : (Block.Kind.table false false).continues l.text = .ok r) : r = (true, .table false false) := by
  obtain ⟨h1, Y, h2, h3⟩ := TabLine.trimmed h
  have hs := suffix_pipe (c! '|' :: Y) h3
  have ht : trim l.text = (c! '|' :: Y) ++ [c! '|'] := by
    have : trimStart l.text = l.text := by
      rw [TabLine.text_eq]
      unfold trimStart
      rw [List.dropWhile_cons_of_neg (by decide)]
    unfold trim
    rw [this, h1, h2]
    rfl
  simp only [Block.Kind.continues, Bool.false_eq_true, ↓reduceIte, Block.tableContinues, ht, Except.ok.injEq] at hr
  rw [hs.1, hs.2] at hr
  rw [← hr]
  simp [List.isPrefixOf]

theorem TabLine.notFence {l : TabLine} (h : l.Ok) : NotFence l.text := by
  intro r hr
  rw [TabLine.ident h hr]
  simp

theorem trim_tight {s : Bytes} (h : Tight s) (a b : Bytes) (ha : ∀ c ∈ a, isWs c = true) (hb : ∀ c ∈ b, isWs c = true) : trim (a ++ (s ++ b)) = s := by
  obtain ⟨⟨c, hc, hw⟩, d, hd, hw2⟩ := h
  unfold trim trimStart
  rw [Block.dropWhile_append_all ha]
  cases s with
  | nil => cases hc
  | cons x s =>
    simp only [List.head?_cons, Option.some.injEq] at hc
    subst hc
    rw [List.cons_append, List.dropWhile_cons_of_neg (by simp [hw]), ← List.cons_append, Block.trimEnd_append_ws hb, Block.trimEnd_of_last]
    intro y hy
    rw [hd] at hy
    cases hy
    exact hw2

theorem trim_cell {c : List Inl} (h : CellOk c) : trim (cellText c) = prints c := by
  rcases h with rfl | h
  · rfl
  · exact trim_tight h.2.2.2.1 [c! ' '] [c! ' '] (by simp; decide) (by simp; decide)

theorem blockText : Block.textAt = textAt := rfl

/-- The row in a line. -/
theorem row_parts {src : Bytes} {l : TabLine} (h : l.Ok) {sp : Span} (h1 : sp.start ≤ sp.stop) (h2 : sp.stop ≤ src.length) (ht : textAt src sp = l.text) :
    (Block.rowOf src sp).unclosed = false ∧ (Block.rowOf src sp).cells.map (textAt src) = l.raw ∧ ∀ c ∈ (Block.rowOf src sp).cells, c.start ≤ c.stop ∧ c.stop ≤ src.length := by
  obtain ⟨g1, Y, g2, g3⟩ := TabLine.trimmed h
  have hlead : ((textAt src sp).takeWhile isWs).length = 0 := by
    rw [ht, TabLine.text_eq]
    rw [List.takeWhile_cons_of_neg (by decide)]
    rfl
  have hstart : (Block.trimRange src sp).start = sp.start := by
    unfold Block.trimRange
    simp only [blockText, hlead, Nat.add_zero]
  have htr : trim l.text = c! '|' :: innerRow l.raw := by
    have : trimStart l.text = l.text := by
      rw [TabLine.text_eq]
      unfold trimStart
      rw [List.dropWhile_cons_of_neg (by decide)]
    unfold trim
    rw [this, g1]
  have htx : (textAt src (Block.trimRange src sp)).drop 1 = innerRow l.raw := by
    rw [← blockText, Block.textAt_trimRange h1 h2, blockText, ht, htr]
    rfl
  have hd : src.drop (sp.start + 1) = innerRow l.raw ++ ([c! '\n'] ++ (src.drop sp.start).drop (sp.stop - sp.start)) := by
    have h3 : src.drop sp.start = textAt src sp ++ (src.drop sp.start).drop (sp.stop - sp.start) := (List.take_append_drop _ _).symm
    rw [← List.drop_drop]
    conv => lhs; rw [h3, ht, TabLine.text_eq]
    simp
  obtain ⟨cells, e1, e2, e3⟩ := rows_split (raw_ok h).2 hd
  have hcells : Block.rowOf src sp = ⟨Block.trimRange src sp, cells, false⟩ := by
    unfold Block.rowOf
    simp only [hstart, blockText, htx, e1]
  rw [hcells]
  exact ⟨rfl, e2, e3⟩

theorem sepCell_ok (a : Alignment) : trim (sepCell a) = sepCell a ∧ Block.isSeparator (sepCell a) = true ∧ Block.separatorAlignment (sepCell a) = a := by
  cases a <;> decide

theorem TabLine.row_sep {src : Bytes} {als : List Alignment} (h : (TabLine.sep als).Ok) {sp : Span} (h1 : sp.start ≤ sp.stop) (h2 : sp.stop ≤ src.length) (ht : textAt src sp = (TabLine.sep als).text) :
    (Block.rowOf src sp).isSeparatorRow src = true ∧ (Block.rowOf src sp).alignments src = als := by
  obtain ⟨e1, e2, -⟩ := row_parts h h1 h2 ht
  simp only [TabLine.raw] at e2
  unfold Block.TableRow.isSeparatorRow Block.TableRow.alignments
  rw [e1, blockText]
  constructor
  · have : (Block.rowOf src sp).cells.all (fun c => Block.isSeparator (trim (textAt src c))) = ((Block.rowOf src sp).cells.map (textAt src)).all (fun w => Block.isSeparator (trim w)) := by
      rw [List.all_map]; rfl
    rw [this, e2]
    simp [sepCell_ok]
  · have : (Block.rowOf src sp).cells.map (fun c => Block.separatorAlignment (trim (textAt src c))) = ((Block.rowOf src sp).cells.map (textAt src)).map (fun w => Block.separatorAlignment (trim w)) := by
      rw [List.map_map]; rfl
    rw [this, e2, List.map_map]
    have : ((fun w => Block.separatorAlignment (trim w)) ∘ sepCell) = id := by
      funext a
      simp [sepCell_ok]
    rw [this, List.map_id]

theorem TabLine.row_cells {src : Bytes} {cells : List (List Inl)} (h : (TabLine.row cells).Ok) {sp : Span} (h1 : sp.start ≤ sp.stop) (h2 : sp.stop ≤ src.length) (ht : textAt src sp = (TabLine.row cells).text) :
    (Block.rowOf src sp).isSeparatorRow src = false ∧ (Block.rowOf src sp).cells.map (fun c => textAt src (Block.trimRange src c)) = cells.map prints := by
  obtain ⟨e1, e2, e3⟩ := row_parts h h1 h2 ht
  simp only [TabLine.raw] at e2
  simp only [TabLine.Ok] at h
  have htrim : (Block.rowOf src sp).cells.map (fun c => trim (textAt src c)) = cells.map prints := by
    have : (Block.rowOf src sp).cells.map (fun c => trim (textAt src c)) = ((Block.rowOf src sp).cells.map (textAt src)).map trim := by
      rw [List.map_map]; rfl
    rw [this, e2, List.map_map]
    exact List.map_congr_left (fun c hc => trim_cell (h.1 c hc))
  constructor
  · unfold Block.TableRow.isSeparatorRow
    rw [e1, blockText]
    obtain ⟨c, hc, hs⟩ := h.2
    have hm : prints c ∈ (Block.rowOf src sp).cells.map (fun c => trim (textAt src c)) := by
      rw [htrim]; exact List.mem_map.2 ⟨c, hc, rfl⟩
    obtain ⟨x, hx, hx2⟩ := List.mem_map.1 hm
    rw [Bool.not_false, Bool.true_and, List.all_eq_false]
    exact ⟨x, hx, by rw [hx2, hs]; simp⟩
  · rw [← htrim]
    exact List.map_congr_left (fun c hc => Block.textAt_trimRange (e3 c hc).1 (e3 c hc).2)

end Jotdown.Round
