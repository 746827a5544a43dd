import Verif.Proofs.TableSpec
import Verif.Proofs.Fence
/-! # Property C44: tables -/
namespace Jotdown.Block
open Jotdown

/-- A line that starts the caption of a table. -/
def startsCaption (line : Bytes) : Bool := (line.dropWhile isWs).head? == some (c! '^')

theorem captionLine_eq {src : Bytes} : ∀ {ls : List Span} {n : Nat}, captionLine src ls = .ok n →
    ls.take n = ls.takeWhile (fun l => !startsCaption (textAt src l)) ∧ ls.drop n = ls.dropWhile (fun l => !startsCaption (textAt src l))
  | [], n, h => by simp
  | l :: ls, n, h => by
    simp only [captionLine] at h
    obtain ⟨t, ht, h⟩ := bind_ok h
    obtain ⟨rfl, -, -⟩ := strSlice_eq ht
    split at h
    · rename_i hc
      cases h
      have : startsCaption (textAt src l) = true := by unfold startsCaption; simpa [Jotdown.trimStart] using hc
      simp [this]
    · rename_i hc
      obtain ⟨m, hm, h⟩ := bind_ok h
      cases h
      have : startsCaption (textAt src l) = false := by unfold startsCaption; simpa [Jotdown.trimStart] using hc
      have ih := captionLine_eq hm
      simp [this, ih.1, ih.2]

theorem parseCaption_eq {p p' : TP} {s e : Span} {ls : List Span} (h : p.parseCaption s e ls = .ok p') :
    ∃ cap, p' = { p with events := p.events ++ cap } ∧
      ((ls = [] ∧ cap = []) ∨ ∃ spans : List Span, cap = ⟨.enter (.leaf .caption), s⟩ :: spans.map (fun s => (⟨.inline, s⟩ : Event)) ++ [⟨.exit (.leaf .caption), e⟩]) := by
  unfold TP.parseCaption at h
  cases ls with
  | nil => cases h; exact ⟨[], by simp, Or.inl ⟨rfl, rfl⟩⟩
  | cons l ls =>
    simp only at h
    obtain ⟨f, -, h⟩ := bind_ok h
    obtain ⟨ls2, -, h⟩ := bind_ok h
    rw [foldl_inline] at h
    have := exit_top (n := .leaf .caption) (i := p.events.length) (rest := p.open_) h rfl ⟨s, by simp [TP.enter]⟩
    refine ⟨_, ?_, Or.inr ⟨ls2, rfl⟩⟩
    rw [this]
    simp [TP.enter]

/-- **C44.** The events of a table with the lines `ls`: enter event, caption if there is a caption line,
the rows as specified by `tableEvents`, and exit event. The rows are the lines before the caption up to the
first blank one; a row is split into cells at its pipes (`splitRow`, `rowOf`); a row of separators has
no events, makes the row before it a head row and sets the alignments for it and the following rows. -/
theorem C44_table_events (p p' : TP) (ls : List Span) (spanStart spanEnd : Span)
    (h : p.parseTable ls spanStart spanEnd = .ok p') :
    let rows := (ls.takeWhile (fun l => !startsCaption (textAt p.src l))).takeWhile
      (fun l => !(trim (textAt p.src l)).isEmpty)
    ∃ caption : List Event, p'.events = p.events ++ ⟨.enter (.container .table), spanStart⟩ :: caption ++
        tableEvents p.src [] none (rows.map (rowOf p.src)) ++ [⟨.exit (.container .table), spanEnd⟩] ∧
      (if (ls.any (fun l => startsCaption (textAt p.src l))) then ∃ spans : List Span,
          caption = ⟨.enter (.leaf .caption), spanStart⟩ :: spans.map (fun s => (⟨.inline, s⟩ : Event)) ++ [⟨.exit (.leaf .caption), spanEnd⟩]
        else caption = []) ∧
      p'.open_ = p.open_ ∧ p'.src = p.src := by
  intro rows
  unfold TP.parseTable at h
  simp only [] at h
  obtain ⟨n, hn, h⟩ := bind_ok h
  obtain ⟨p1, hp1, h⟩ := bind_ok h
  obtain ⟨cap, hp1e, hcap⟩ := parseCaption_eq hp1
  subst hp1e
  replace h := bind_ok h
  obtain ⟨p2, hp2, h⟩ := h
  obtain ⟨hn1, hn2⟩ := captionLine_eq hn
  obtain ⟨als, hals⟩ := parseRows_eq (E := p.events ++ ⟨.enter (.container .table), spanStart⟩ :: cap) (prev := none) (by simp [TP.enter, prevEvents]) rfl hp2
  rw [hn1] at hals
  have := exit_top (n := .container .table) (i := p.events.length) (rest := p.open_) h (by rw [hals]; rfl) ⟨spanStart, by rw [hals]; simp⟩
  refine ⟨cap, by rw [this, hals]; simp [TP.enter, rows], ?_, by rw [this], by rw [this, hals]; rfl⟩
  rw [hn2] at hcap
  split
  · rename_i hany
    rcases hcap with ⟨h1, h2⟩ | h1
    · exfalso
      rw [List.any_eq_true] at hany
      obtain ⟨x, hx, hx2⟩ := hany
      have : ∀ (l : List Span), l.dropWhile (fun l => !startsCaption (textAt p.src l)) = [] → ∀ x ∈ l, startsCaption (textAt p.src x) = false := by
        intro l
        induction l with
        | nil => simp
        | cons a l ih =>
          intro hd x hx
          by_cases hb : startsCaption (textAt p.src a) = true
          · rw [List.dropWhile_cons_of_neg (by simp [hb])] at hd; simp at hd
          · rw [List.dropWhile_cons_of_pos (by simpa using hb)] at hd
            rcases List.mem_cons.1 hx with rfl | hx
            · simpa using hb
            · exact ih hd x hx
      have := this ls h1 x hx
      rw [this] at hx2; simp at hx2
    · exact h1
  · rename_i hany
    have hall : ls.dropWhile (fun l => !startsCaption (textAt p.src l)) = [] := by
      have : ∀ (l : List Span), (∀ x ∈ l, startsCaption (textAt p.src x) = false) → l.dropWhile (fun l => !startsCaption (textAt p.src l)) = [] := by
        intro l
        induction l with
        | nil => simp
        | cons a l ih =>
          intro hx
          rw [List.dropWhile_cons_of_pos (by simp [hx a (by simp)])]
          exact ih (fun x hx' => hx x (by simp [hx']))
      refine this ls ?_
      simpa using hany
    rcases hcap with ⟨h1, h2⟩ | ⟨spans, h1⟩
    · exact h2
    · unfold TP.parseCaption at hp1
      have hd : ls.drop n = [] := hn2.trans hall
      rw [hd] at hp1
      simp only [Except.ok.injEq] at hp1
      have := congrArg (fun q : TP => q.events) hp1
      simpa using this

/-- A head row, a separator row that aligns it, and a row with an escaped pipe and one in verbatim text. -/
example : parse (b! "|a|b|\n|:-|-:|\n|`|`\\|| d |\n") = .ok
    ([⟨.enter (.container .document), ⟨0, 0⟩⟩, ⟨.enter (.container .table), ⟨0, 0⟩⟩] ++
      rowEvents (b! "|a|b|\n|:-|-:|\n|`|`\\|| d |\n") true [.left, .right] ⟨⟨0, 5⟩, [⟨1, 2⟩, ⟨3, 4⟩], false⟩ ++
      rowEvents (b! "|a|b|\n|:-|-:|\n|`|`\\|| d |\n") false [.left, .right] ⟨⟨14, 25⟩, [⟨15, 20⟩, ⟨21, 24⟩], false⟩ ++
      [⟨.exit (.container .table), ⟨26, 26⟩⟩, ⟨.exit (.container .document), ⟨26, 26⟩⟩]) := by decide +kernel

end Jotdown.Block
