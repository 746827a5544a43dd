import Verif.Proofs.RoundList
import Verif.Proofs.DocSem
/-! # Round trip: whole documents -/
namespace Jotdown.Round
open Jotdown Jotdown.Notation

/-! ## The lines of a written document -/

/-- A newline at the end and nowhere else. -/
def OneLine (l : Bytes) : Prop := ∃ a, l = a ++ [c! '\n'] ∧ c! '\n' ∉ a

theorem lineLen_oneLine {a r : Bytes} (h : c! '\n' ∉ a) : Block.lineLen (a ++ [c! '\n'] ++ r) = a.length + 1 := by
  induction a with
  | nil => simp [Block.lineLen]
  | cons c a ih =>
    have hc : c ≠ c! '\n' := fun he => h (he ▸ List.mem_cons_self ..)
    have := ih (fun hm => h (List.mem_cons_of_mem _ hm))
    simp only [List.cons_append, Block.lineLen, if_neg hc, this, List.length_cons]
    omega

theorem linesFrom_flatten {L : List Bytes} (h : ∀ l ∈ L, OneLine l) {src : Bytes} {start : Nat} (hd : src.drop start = L.flatten) :
    (Block.linesFrom start L.flatten).map (textAt src) = L := by
  induction L generalizing start with
  | nil => simp [Block.linesFrom]
  | cons l L ih =>
    obtain ⟨a, rfl, ha⟩ := h l (by simp)
    have hlen := lineLen_oneLine (r := L.flatten) ha
    have hcons : ∃ c cs, ((a ++ [c! '\n']) :: L).flatten = c :: cs := by
      cases a with
      | nil => exact ⟨_, _, rfl⟩
      | cons c a => exact ⟨c, _, rfl⟩
    obtain ⟨c, cs, hc⟩ := hcons
    have hfl : ((a ++ [c! '\n']) :: L).flatten = a ++ [c! '\n'] ++ L.flatten := rfl
    have hlen' : Block.lineLen (c :: cs) = a.length + 1 := by rw [← hc, hfl]; exact hlen
    rw [hc, Block.linesFrom, hlen']
    have hdrop : (c :: cs).drop (a.length + 1) = L.flatten := by
      rw [← hc, hfl]
      rw [List.drop_append_of_le_length (by simp)]
      simp
    rw [hdrop, List.map_cons, ih (fun l hl => h l (List.mem_cons_of_mem _ hl)) (by rw [← List.drop_drop, hd, hc, hdrop])]
    congr 1
    unfold textAt
    simp only
    rw [hd, hfl, Nat.add_sub_cancel_left, List.take_append_of_le_length (by simp), List.take_of_length_le (by simp)]

theorem splitNl_oneLine {s : Bytes} (h : s.getLast? = some (c! '\n')) : ∀ l ∈ splitNl s, OneLine l := by
  induction s with
  | nil => simp at h
  | cons c s ih =>
    intro l hl
    by_cases hs : s = []
    · subst hs
      simp at h
      subst h
      simp only [splitNl, if_true, List.mem_singleton] at hl
      subst hl
      exact ⟨[], rfl, by simp⟩
    · have hlast : s.getLast? = some (c! '\n') := by
        cases s with
        | nil => exact absurd rfl hs
        | cons d s => simpa [List.getLast?_cons_cons] using h
      have ih := ih hlast
      simp only [splitNl] at hl
      split at hl
      · rename_i hc
        rcases List.mem_cons.1 hl with rfl | hl
        · exact ⟨[], by rw [hc]; rfl, by simp⟩
        · exact ih l hl
      · rename_i hc
        split at hl
        · rename_i he
          obtain ⟨l', ls', e, -⟩ := splitNl_append (a := []) (by simp) s hs
          rw [he] at e; cases e
        · rename_i l0 ls0 he
          rw [he] at ih
          rcases List.mem_cons.1 hl with rfl | hl
          · obtain ⟨a, e, ha⟩ := ih l0 (by simp)
            refine ⟨c :: a, by rw [e]; rfl, ?_⟩
            intro hm
            rcases List.mem_cons.1 hm with hm | hm
            · exact hc hm.symm
            · exact ha hm
          · exact ih l (List.mem_cons_of_mem _ hl)

theorem nl_replicate {n : Nat} {c : UInt8} (h : c ≠ c! '\n') : c! '\n' ∉ List.replicate n c := by
  intro hm
  rw [List.mem_replicate] at hm
  exact h hm.2.symm

theorem OneLine.quoted {l : Bytes} (h : OneLine l) : OneLine (quoted l) := by
  obtain ⟨a, rfl, ha⟩ := h
  unfold Round.quoted
  split
  · exact ⟨c! '>' :: a, rfl, by simp [ha]⟩
  · exact ⟨c! '>' :: c! ' ' :: a, rfl, by simp [ha]⟩

theorem OneLine.padded {l : Bytes} (h : OneLine l) (k : Nat) : OneLine (padded k l) := by
  rcases padded_eq k l with e | e
  · rw [e]; exact h
  · rw [e]
    obtain ⟨a, rfl, ha⟩ := h
    refine ⟨spaces k ++ a, by simp, ?_⟩
    intro hm
    rcases List.mem_append.1 hm with hm | hm
    · exact nl_replicate (by decide) hm
    · exact ha hm

theorem label_nl {lb : Label} (h : lb.Ok) : c! '\n' ∉ lb.text := by
  cases lb with
  | bullet b => cases b <;> decide
  | desc => decide
  | task b x => cases b <;> cases x <;> decide
  | ordered k s n =>
    simp only [Label.Ok] at h
    have hn : c! '\n' ∉ n := by
      intro hm
      have := h.2.1 _ hm
      cases k <;> revert this <;> simp [Numbers.IsDigitOf] <;> decide
    cases s <;> simp [Label.text, Numbers.marker, hn] <;> decide

theorem OneLine.label {l : Bytes} (h : OneLine l) {t : Bytes} (hb : c! '\n' ∉ t) : OneLine (t ++ c! ' ' :: l) := by
  obtain ⟨a, rfl, ha⟩ := h
  refine ⟨t ++ c! ' ' :: a, by simp, ?_⟩
  intro hm
  rcases List.mem_append.1 hm with hm | hm
  · exact hb hm
  · rcases List.mem_cons.1 hm with hm | hm
    · exact absurd hm (by decide)
    · exact ha hm

theorem itemOf_oneLine {L : List Bytes} (hk : ∀ l ∈ L, OneLine l) {t : Bytes} (hb : c! '\n' ∉ t) : ∀ l ∈ itemOf t L, OneLine l := by
  intro l hl
  cases L with
  | nil => simp [itemOf] at hl
  | cons x L =>
    simp only [itemOf, List.mem_cons, List.mem_map] at hl
    rcases hl with rfl | ⟨y, hy, rfl⟩
    · exact (hk x (by simp)).label hb
    · exact (hk y (by simp [hy])).padded _

theorem innerRow_nl {W : List Bytes} (h : ∀ w ∈ W, c! '\n' ∉ w) : c! '\n' ∉ innerRow W := by
  induction W with
  | nil => simp [innerRow]
  | cons w W ih =>
    simp only [innerRow, List.mem_append, List.mem_cons]
    rintro (hm | hm | hm)
    · exact h w (by simp) hm
    · revert hm; decide
    · exact ih (fun x hx => h x (by simp [hx])) hm

theorem TabLine.oneLine {l : TabLine} (h : l.Ok) : OneLine l.text := by
  rw [TabLine.text_eq]
  refine ⟨c! '|' :: innerRow l.raw, rfl, ?_⟩
  intro hm
  rcases List.mem_cons.1 hm with hm | hm
  · revert hm; decide
  · refine innerRow_nl ?_ hm
    intro w hw
    cases l with
    | row cells =>
      simp only [TabLine.raw, List.mem_map] at hw
      obtain ⟨c, hc, rfl⟩ := hw
      simp only [TabLine.Ok] at h
      have hn : c! '\n' ∉ prints c := by
        rcases h.1 c hc with rfl | h
        · simp [prints]
        · exact h.2.2.2.2.1
      simp only [cellText, List.mem_cons, List.mem_append, List.not_mem_nil, or_false]
      rintro (hm | hm | hm)
      · revert hm; decide
      · exact hn hm
      · revert hm; decide
    | sep als =>
      simp only [TabLine.raw, List.mem_map] at hw
      obtain ⟨a, -, rfl⟩ := hw
      cases a <;> decide

theorem capLines_oneLine (cap : List Inl) : ∀ l ∈ capLines cap, OneLine l := by
  intro l hl
  have hs : ∀ l ∈ splitNl (prints cap ++ [c! '\n']), OneLine l := fun l hl => splitNl_oneLine (by simp) l hl
  unfold capLines at hl
  split at hl
  · rename_i x L e
    split at hl
    · cases hl
    · rcases List.mem_cons.1 hl with rfl | hl
      · obtain ⟨y, hy, hn⟩ := hs x (by rw [e]; simp)
        refine ⟨b! "^ " ++ y, by rw [hy, List.append_assoc], ?_⟩
        intro hm
        rcases List.mem_append.1 hm with hm | hm
        · revert hm; decide
        · exact hn hm
      · exact hs l (by rw [e]; exact List.mem_cons_of_mem _ hl)
  · cases hl

mutual
theorem Blk.oneLine (b : Blk) (h : b.Ok) : ∀ l ∈ b.lines, OneLine l := by
  intro l hl
  cases b with
  | para is => exact splitNl_oneLine (by simp) l hl
  | brk =>
    simp only [Blk.lines, List.mem_singleton] at hl
    subst hl
    exact ⟨b! "***", rfl, by decide⟩
  | code n lang ls =>
    simp only [Blk.Ok] at h
    simp only [Blk.lines, List.mem_cons, List.mem_append, List.mem_map, List.not_mem_nil, or_false] at hl
    rcases hl with rfl | ⟨x, hx, rfl⟩ | rfl
    · refine ⟨ticks n ++ lang, rfl, ?_⟩
      intro hm
      rcases List.mem_append.1 hm with hm | hm
      · exact nl_replicate (by decide) hm
      · exact absurd (h.2.1 _ hm).1 (by decide)
    · exact ⟨x, rfl, (h.2.2.2 x hx).1⟩
    · exact ⟨ticks n, rfl, nl_replicate (by decide)⟩
  | table cap ls =>
    simp only [Blk.Ok] at h
    simp only [Blk.lines, List.mem_append, List.mem_map] at hl
    rcases hl with ⟨x, hx, rfl⟩ | hl
    · exact TabLine.oneLine (h.1.2 x hx)
    · exact capLines_oneLine cap l hl
  | quote bs =>
    simp only [Blk.Ok] at h
    simp only [Blk.lines, List.mem_map] at hl
    obtain ⟨x, hx, rfl⟩ := hl
    exact (blks_oneLine bs h.2 x hx).quoted
  | div n cls bs =>
    simp only [Blk.Ok] at h
    simp only [Blk.lines, List.mem_cons, List.mem_append, List.not_mem_nil, or_false] at hl
    rcases hl with rfl | hl | rfl
    · refine ⟨colons n ++ c! ' ' :: cls, rfl, ?_⟩
      intro hm
      rcases List.mem_append.1 hm with hm | hm
      · exact nl_replicate (by decide) hm
      · rcases List.mem_cons.1 hm with hm | hm
        · exact absurd hm (by decide)
        · exact absurd (isName_ws (h.2.1 _ hm)) (by decide)
    · exact blks_oneLine bs h.2.2.1 l hl
    · exact ⟨colons n, rfl, nl_replicate (by decide)⟩
  | list lbs tight items =>
    simp only [Blk.Ok] at h
    exact items_oneLine items h.2.2.2.2 lbs (fun lb hl => (h.2.2.1 lb hl).1) tight l hl
  | foot label bs =>
    simp only [Blk.Ok] at h
    refine itemOf_oneLine (blks_oneLine bs h.2.2.1) ?_ l hl
    intro hm
    simp only [footLabel, List.append_assoc, List.mem_append] at hm
    rcases hm with hm | hm | hm
    · revert hm; decide
    · exact (h.1 _ hm).2.2 rfl
    · revert hm; decide
  | attr w is b =>
    simp only [Blk.Ok] at h
    simp only [Blk.lines, List.mem_cons] at hl
    rcases hl with rfl | hl
    · exact ⟨_, rfl, h.2.2.1⟩
    · exact Blk.oneLine b h.2.2.2 l hl
theorem items_oneLine (items : List (List Blk)) (h : ItemsOk items) (lbs : List Label) (hlb : ∀ lb ∈ lbs, lb.Ok) (tight : Bool) : ∀ l ∈ itemLines lbs tight items, OneLine l := by
  intro l hl
  cases items with
  | nil => cases lbs <;> simp [itemLines] at hl
  | cons it its =>
    cases lbs with
    | nil => simp [itemLines] at hl
    | cons lb lbs =>
      simp only [ItemsOk] at h
      simp only [itemLines, List.mem_append] at hl
      have hk := blks_oneLine it h.2.1
      rcases hl with hl | hl | hl
      · exact itemOf_oneLine hk (label_nl (hlb lb (by simp))) l hl
      · rw [itemSep_blank] at hl
        unfold blankLine at hl
        split at hl
        · simp only [List.mem_singleton] at hl; subst hl; exact ⟨[], rfl, by simp⟩
        · cases hl
      · exact items_oneLine its h.2.2 lbs (fun lb hl => hlb lb (by simp [hl])) tight l hl
theorem blks_oneLine (bs : List Blk) (h : BlksOk bs) : ∀ l ∈ blkLines bs, OneLine l := by
  intro l hl
  cases bs with
  | nil => simp [blkLines] at hl
  | cons b bs =>
    simp only [BlksOk] at h
    simp only [blkLines, List.mem_append] at hl
    rcases hl with hl | hl | hl
    · exact Blk.oneLine b h.1 l hl
    · cases bs with
      | nil => simp [sep] at hl
      | cons b bs => simp only [sep, List.mem_singleton] at hl; subst hl; exact ⟨[], rfl, by simp⟩
    · exact blks_oneLine bs h.2.2 l hl
end

/-! ## Block events -/

theorem lines_spanOk {src : Bytes} (hu : Utf8 src) : ∀ l ∈ Block.lines src, Block.SpanOk src l := by
  have hlines := Block.C28_lines_partition src
  have hb := Block.C28_lines_on_char_boundaries src hu
  intro l hl
  have h1 := hb l hl
  have h2 := (hlines.2 l hl).1
  have h3 : l.start ≤ l.stop := by
    have : ∀ (ls : List Span) (a b : Nat), Tiles a b ls → ∀ l ∈ ls, l.start ≤ l.stop := by
      intro ls
      induction ls with
      | nil => simp
      | cons m ls ih =>
        intro a b ht l hl
        rcases List.mem_cons.1 hl with rfl | hl
        · exact Nat.le_of_lt ht.2.1
        · exact ih _ _ ht.2.2 l hl
    exact this _ _ _ hlines.1 l hl
  exact ⟨h3, h2, Block.bd_of_isBoundary hu.bd h1.1, Block.bd_of_isBoundary hu.bd h1.2⟩

/-- The lists that are open at the end of the document. -/
theorem closeAll_settle {e : Bool} {p p2 : Block.TP} {pos : Nat} (he : Ends e p) (hl : (settle p pos).openLists = []) (h : p.closeAllLists pos p.openLists = .ok p2) : p2 = settle p pos := by
  cases e with
  | false =>
    have hc : Calm p := he
    rw [hc.settle] at hl ⊢
    rw [hl] at h
    simp only [Block.TP.closeAllLists, Except.ok.injEq] at h
    subst h
    cases p
    simp only at hl
    subst hl
    rfl
  | true =>
    obtain ⟨q, ty0, tyk, s, t, pb, E, hq, rfl⟩ := (he : Pending p)
    rw [pend_close] at hl ⊢
    have hql : q.openLists = [] := by rw [app_lists, (mark_facts _ _).2.1] at hl; exact hl
    simp [pend, hql, Block.TP.closeAllLists, Block.TP.closeList, Block.TP.exit, Block.TP.enterNode, idx, Bind.bind, Except.bind, pure, Except.pure] at h
    rw [← h]
    cases q
    simp only at hql
    subst hql
    rfl

/-- The block events of a written document. -/
theorem parse_write {d : List Blk} (h : BlksOk d) (hu : Utf8 (write d)) {E : List Block.Event} (hp : Block.parse (write d) = .ok E) :
    ∃ E', Around .document E' E ∧ ShowsL (write d) d false E' := by
  unfold Block.parse at hp
  obtain ⟨p0, h0, g0⟩ := bind_ok hp
  clear hp
  have hc : Calm ({ src := write d } : Block.TP) := ⟨(by intro l ls h; cases h), (by intro i h; cases h)⟩
  have hcd := hc.near.enter (.container .document) ⟨0, 0⟩
  obtain ⟨hend, -, hgo⟩ := kids_ok d h hu.safe (p := ({ src := write d } : Block.TP).enter (.container .document) ⟨0, 0⟩) (j := 0) (.inl rfl) false (by simp) rfl
    (lines_spanOk hu) (by rw [lead_zero]; exact (linesFrom_flatten (start := 0) (blks_oneLine d h) rfl).trans (List.append_nil _).symm) (e := false) hcd (by simp) (loop_top h0)
  obtain ⟨p1, h1, g1⟩ := bind_ok g0
  clear g0
  obtain ⟨pos0, E', a', s1, e1⟩ := hgo (write d).length
  rw [hcd.settle] at e1
  have hf := marks_facts (({ src := write d } : Block.TP).enter (.container .document) ⟨0, 0⟩) (traceL d false)
  have hlists : (settle p0 (write d).length).openLists = [] := by rw [e1, al_lists, app_lists, hf.2.1]; rfl
  have e1' := closeAll_settle hend hlists h1
  rw [← e1'] at e1
  clear e1' hlists
  have hsec : p1.openSections = [] := by
    rw [e1]
    show (marks _ _).openSections = []
    rw [hf.2.2.2.2.2.1]; rfl
  rw [hsec] at g1
  simp only [Bind.bind, Except.bind, List.length_nil, Block.TP.exitN] at g1
  cases hx : p1.exit ⟨(write d).length, (write d).length⟩ with
  | error e => rw [hx] at g1; cases g1
  | ok p2 =>
    rw [hx] at g1
    simp only at g1
    have hopen : p1.open_ = 0 :: [] := by
      rw [e1, al_open, app_open, hf.2.2.1]; rfl
    have hev : p1.events[0]? = some ⟨.enter (.container .document), ⟨0, 0⟩⟩ := by
      rw [e1, al_events, app_events, List.getElem?_append_left (by rw [hf.2.2.2.2.1]; simp [Block.TP.enter]), marks_other]
      · rfl
      · intro l ls hl; cases hl
    have e2 := exit_eq hopen hev hx
    have hE : E = p2.events := by
      cases hd : dassert p2.open_.isEmpty with
      | error e => rw [hd] at g1; cases g1
      | ok u => rw [hd] at g1; cases g1; rfl
    refine ⟨E', ⟨⟨0, 0⟩, ⟨(write d).length, (write d).length⟩, ?_⟩, s1⟩
    rw [hE, e2]
    show p1.events ++ _ = _
    rw [e1, al_events, app_events]
    have : (marks (({ src := write d } : Block.TP).enter (.container .document) ⟨0, 0⟩) (traceL d false)).events = [⟨.enter (.container .document), ⟨0, 0⟩⟩] := by
      have h0 := marks_other (({ src := write d } : Block.TP).enter (.container .document) ⟨0, 0⟩) (traceL d false) (j := 0) (by intro l ls hl; cases hl)
      have hl := hf.2.2.2.2.1
      generalize (marks (({ src := write d } : Block.TP).enter (.container .document) ⟨0, 0⟩) (traceL d false)).events = X at h0 hl
      cases X with
      | nil => simp [Block.TP.enter] at hl
      | cons x X =>
        simp [Block.TP.enter] at hl h0
        subst hl; subst h0; rfl
    rw [this]
    simp

/-! ## Events -/

theorem doc_enterP {P : List Span} {src : Bytes} {pre : PrePass} {hd : Bool} {c : Block.Container} {s : Span} {K : List Block.Event} {evs : List (Event × Span)}
    (h : DocEvents src pre hd P (⟨.enter (.container c), s⟩ :: K) evs) :
    ∃ evs', evs.map (·.1) = .start (nodeName (idAt pre) hd (.container c)) (attrsIn src P) :: evs'.map (·.1) ∧ DocEvents src pre (rowIn hd c) [] K evs' := by
  generalize hb : (⟨.enter (.container c), s⟩ :: K : List Block.Event) = B at h
  cases h with
  | nil => cases hb
  | stale he => cases hb; cases he
  | attributes he => cases hb; cases he
  | blankline he => cases hb; cases he
  | thematicBreak he => cases hb; cases he
  | enter he hr => cases hb; cases he; exact ⟨_, rfl, hr⟩
  | exit he => cases hb; cases he
  | leaf he => cases hb; cases he

theorem doc_enter {src : Bytes} {pre : PrePass} {hd : Bool} {c : Block.Container} {s : Span} {K : List Block.Event} {evs : List (Event × Span)}
    (h : DocEvents src pre hd [] (⟨.enter (.container c), s⟩ :: K) evs) :
    ∃ evs', evs.map (·.1) = .start (nodeName (idAt pre) hd (.container c)) [] :: evs'.map (·.1) ∧ DocEvents src pre (rowIn hd c) [] K evs' := doc_enterP h

theorem doc_exit {src : Bytes} {pre : PrePass} {hd : Bool} {c : Block.Container} {s : Span} {K : List Block.Event} {evs : List (Event × Span)}
    (h : DocEvents src pre hd [] (⟨.exit (.container c), s⟩ :: K) evs) :
    ∃ evs', evs.map (·.1) = .end (nodeName (idAt pre) hd (.container c)) :: evs'.map (·.1) ∧ DocEvents src pre hd [] K evs' := by
  generalize hb : (⟨.exit (.container c), s⟩ :: K : List Block.Event) = B at h
  cases h with
  | nil => cases hb
  | stale he => cases hb; cases he
  | attributes he => cases hb; cases he
  | blankline he => cases hb; cases he
  | thematicBreak he => cases hb; cases he
  | enter he => cases hb; cases he
  | exit he hr => cases hb; cases he; exact ⟨_, rfl, hr⟩
  | leaf he => cases hb; cases he

theorem doc_blank {src : Bytes} {pre : PrePass} {hd : Bool} {s : Span} {K : List Block.Event} {evs : List (Event × Span)}
    (h : DocEvents src pre hd [] (⟨.atom .blankline, s⟩ :: K) evs) :
    ∃ evs', evs.map (·.1) = .blankline :: evs'.map (·.1) ∧ DocEvents src pre hd [] K evs' := by
  generalize hb : (⟨.atom .blankline, s⟩ :: K : List Block.Event) = B at h
  cases h with
  | nil => cases hb
  | stale he => cases hb; cases he
  | attributes he => cases hb; cases he
  | blankline he hr => cases hb; exact ⟨_, rfl, hr⟩
  | thematicBreak he => cases hb; cases he
  | enter he => cases hb; cases he
  | exit he => cases hb; cases he
  | leaf he => cases hb; cases he

theorem doc_breakP {P : List Span} {src : Bytes} {pre : PrePass} {hd : Bool} {s : Span} {K : List Block.Event} {evs : List (Event × Span)}
    (h : DocEvents src pre hd P (⟨.atom .thematicBreak, s⟩ :: K) evs) :
    ∃ evs', evs.map (·.1) = .thematicBreak (attrsIn src P) :: evs'.map (·.1) ∧ DocEvents src pre hd [] K evs' := by
  generalize hb : (⟨.atom .thematicBreak, s⟩ :: K : List Block.Event) = B at h
  cases h with
  | nil => cases hb
  | stale he => cases hb; cases he
  | attributes he => cases hb; cases he
  | blankline he => cases hb; cases he
  | thematicBreak he hr => cases hb; exact ⟨_, rfl, hr⟩
  | enter he => cases hb; cases he
  | exit he => cases hb; cases he
  | leaf he => cases hb; cases he

theorem doc_break {src : Bytes} {pre : PrePass} {hd : Bool} {s : Span} {K : List Block.Event} {evs : List (Event × Span)}
    (h : DocEvents src pre hd [] (⟨.atom .thematicBreak, s⟩ :: K) evs) :
    ∃ evs', evs.map (·.1) = .thematicBreak [] :: evs'.map (·.1) ∧ DocEvents src pre hd [] K evs' := doc_breakP h

theorem doc_attr {P : List Span} {src : Bytes} {pre : PrePass} {hd : Bool} {s : Span} {K : List Block.Event} {evs : List (Event × Span)}
    (h : DocEvents src pre hd P (⟨.atom .attributes, s⟩ :: K) evs) : DocEvents src pre hd (P ++ [s]) K evs := by
  generalize hb : (⟨.atom .attributes, s⟩ :: K : List Block.Event) = B at h
  cases h with
  | nil => cases hb
  | stale he => cases hb; cases he
  | attributes he hr => cases hb; exact hr
  | blankline he => cases hb; cases he
  | thematicBreak he => cases hb; cases he
  | enter he => cases hb; cases he
  | exit he => cases hb; cases he
  | leaf he => cases hb; cases he

theorem doc_stale {P : List Span} {src : Bytes} {pre : PrePass} {hd : Bool} {s : Span} {K : List Block.Event} {evs : List (Event × Span)}
    (h : DocEvents src pre hd P (⟨.stale, s⟩ :: K) evs) : DocEvents src pre hd P K evs := by
  generalize hb : (⟨.stale, s⟩ :: K : List Block.Event) = B at h
  cases h with
  | nil => cases hb
  | stale he hr => cases hb; exact hr
  | attributes he => cases hb; cases he
  | blankline he => cases hb; cases he
  | thematicBreak he => cases hb; cases he
  | enter he => cases hb; cases he
  | exit he => cases hb; cases he
  | leaf he => cases hb; cases he

theorem attrsIn_append {src : Bytes} {P Q : List Span} : attrsIn src (P ++ Q) = attrsIn src P ++ attrsIn src Q := by
  simp [attrsIn]

theorem attrsIn_one {src : Bytes} {s : Span} : attrsIn src [s] = attrsAt src s := by
  simp [attrsIn]

theorem split_inline {sps : List Span} {x x' : Block.Event} {K K' inl : List Block.Event} (hx : x.kind ≠ .inline) (hx' : x'.kind ≠ .inline) (hi : ∀ i ∈ inl, i.kind = .inline)
    (h : sps.map (fun l => (⟨.inline, l⟩ : Block.Event)) ++ x :: K = inl ++ x' :: K') : inl.map (·.span) = sps ∧ x = x' ∧ K = K' := by
  induction sps generalizing inl with
  | nil =>
    cases inl with
    | nil => simp at h; exact ⟨rfl, h⟩
    | cons i inl =>
      simp only [List.map_nil, List.nil_append, List.cons_append, List.cons.injEq] at h
      exact absurd (h.1 ▸ hi i (by simp)) hx
  | cons s sps ih =>
    cases inl with
    | nil =>
      simp only [List.map_cons, List.cons_append, List.nil_append, List.cons.injEq] at h
      exact absurd (by rw [← h.1]) hx'
    | cons i inl =>
      simp only [List.map_cons, List.cons_append, List.cons.injEq] at h
      obtain ⟨e1, e2, e3⟩ := ih (fun j hj => hi j (List.mem_cons_of_mem _ hj)) h.2
      exact ⟨by rw [List.map_cons, e1, ← h.1], e2, e3⟩

theorem doc_leafP {P : List Span} {src : Bytes} {pre : PrePass} {hd : Bool} {l : Block.Leaf} {s e : Span} {sps : List Span} {K : List Block.Event} {evs : List (Event × Span)}
    (h : DocEvents src pre hd P (leafEvents l s e sps ++ K) evs) :
    ∃ cs evs', evs.map (·.1) = .start (nodeName (idAt pre) hd (.leaf l)) (attrsIn src P) :: (cs.map (·.1) ++ .end (nodeName (idAt pre) hd (.leaf l)) :: evs'.map (·.1)) ∧
      Content src pre l sps cs ∧ DocEvents src pre hd [] K evs' := by
  have hle : leafEvents l s e sps ++ K = ⟨.enter (.leaf l), s⟩ :: (sps.map (fun l => (⟨.inline, l⟩ : Block.Event)) ++ ⟨.exit (.leaf l), e⟩ :: K) := by simp [leafEvents]
  generalize hb : leafEvents l s e sps ++ K = B at h
  rw [hle] at hb
  cases h with
  | nil => cases hb
  | stale he => cases hb; cases he
  | attributes he => cases hb; cases he
  | blankline he => cases hb; cases he
  | thematicBreak he => cases hb; cases he
  | enter he => cases hb; cases he
  | exit he => cases hb; cases he
  | leaf he hi hx hcs hr =>
    simp only [List.cons_append, List.cons.injEq] at hb
    obtain ⟨h1, h2⟩ := hb
    rw [← h1] at he
    cases he
    obtain ⟨e1, e2, e3⟩ := split_inline (by simp) (by rw [hx]; simp) hi h2
    subst e3
    rw [e1] at hcs
    exact ⟨_, _, by simp, hcs, hr⟩

theorem doc_leaf {src : Bytes} {pre : PrePass} {hd : Bool} {l : Block.Leaf} {s e : Span} {sps : List Span} {K : List Block.Event} {evs : List (Event × Span)}
    (h : DocEvents src pre hd [] (leafEvents l s e sps ++ K) evs) :
    ∃ cs evs', evs.map (·.1) = .start (nodeName (idAt pre) hd (.leaf l)) [] :: (cs.map (·.1) ++ .end (nodeName (idAt pre) hd (.leaf l)) :: evs'.map (·.1)) ∧
      Content src pre l sps cs ∧ DocEvents src pre hd [] K evs' := doc_leafP h

theorem listOf_name {lbs : List Label} (h : lbs ≠ []) (tight : Bool) (ids : Nat → Bytes) (head : Bool) : nodeName ids head (.container (.list (listTy lbs) tight)) = listOf lbs tight := by
  cases lbs with
  | nil => exact absurd rfl h
  | cons lb lbs =>
    cases lb with
    | bullet b => cases b <;> rfl
    | desc => rfl
    | task b c => cases b <;> rfl
    | ordered k s n => rfl

theorem item_name (lb : Label) (ids : Nat → Bytes) (head : Bool) : nodeName ids head (.container (.listItem lb.itemKind)) = lb.item := by
  cases lb <;> rfl

/-- A blank line after a block that is not part of it. -/
theorem events_after (b : Blk) (as : Attr.Attributes) (a : Bool) : b.events as (a && b.keeps) ++ blankAfter (a && !b.keeps) = b.events as a := by
  induction b using Blk.rec_attr generalizing as with
  | other b hb =>
    cases b with
    | attr w is b => exact (hb w is b rfl).elim
    | _ => cases a <;> simp [Blk.events, blankAfter, Blk.keeps]
  | attr w is b ih => simpa [Blk.events, Blk.keeps] using ih _

theorem splitNl_none {s : Bytes} (h : c! '\n' ∉ s) (hne : s ≠ []) : splitNl s = [s] := by
  induction s with
  | nil => exact absurd rfl hne
  | cons c s ih =>
    have hc : c ≠ c! '\n' := fun he => h (he ▸ List.mem_cons_self ..)
    rw [splitNl, if_neg hc]
    by_cases hs : s = []
    · subst hs; rfl
    · rw [ih (fun hm => h (List.mem_cons_of_mem _ hm)) hs]

theorem cell_round {src : Bytes} {pre : PrePass} {sp : Span} {es : List (Event × Span)} {c : List Inl} (h : CellOk c) (ht : textAt src sp = prints c)
    (hr : ReadsLines (freshParser src pre) [sp] es) : es.map (·.1) = joined (inlEvents c) := by
  rcases h with rfl | h
  · have := read_ok (Ts := [[]]) hr (by simp) (by simp [ht, prints, fprint]) (by simp [okF, Ctx.free]) (by simp)
    rw [this]
    rfl
  · have hne : prints c ≠ [] := by
      obtain ⟨⟨x, hx, -⟩, -⟩ := h.2.2.2.1
      intro he
      rw [he] at hx; cases hx
    have hc : c ≠ [] := by rintro rfl; exact hne rfl
    exact inline_round h.1 h.2.1 h.2.2.1 hc (by rw [splitNl_none h.2.2.2.2.1 hne]; simp [ht]) hr

theorem cells_doc {cells : List (List Inl)} (h : ∀ c ∈ cells, CellOk c) {src : Bytes} {pre : PrePass} {hd : Bool} {als : List Alignment} {i : Nat} {E K : List Block.Event} {evs : List (Event × Span)}
    (hs : CellsShow src als i cells E) (hE : DocEvents src pre hd [] (E ++ K) evs) :
    ∃ evs', evs.map (·.1) = cellsEvents als hd i cells ++ evs'.map (·.1) ∧ DocEvents src pre hd [] K evs' := by
  induction cells generalizing i E evs with
  | nil => cases hs; exact ⟨evs, rfl, hE⟩
  | cons c cells ih =>
    obtain ⟨s, e, sp, E', rfl, ht, hs'⟩ := hs
    rw [List.append_assoc] at hE
    obtain ⟨cs, ev1, h1, h2, h3⟩ := doc_leaf hE
    obtain ⟨ev2, h4, h5⟩ := ih (fun x hx => h x (by simp [hx])) hs' h3
    refine ⟨ev2, ?_, h5⟩
    cases h2 with
    | raw hr => cases hr
    | parsed _ hr =>
      rw [h1, cell_round (h c (by simp)) ht hr, h4]
      simp [cellsEvents, nodeName]

theorem row_doc {cells : List (List Inl)} (h : ∀ c ∈ cells, CellOk c) {src : Bytes} {pre : PrePass} {hd head : Bool} {als : List Alignment} {E K : List Block.Event} {evs : List (Event × Span)}
    (hs : RowShows src als head cells E) (hE : DocEvents src pre hd [] (E ++ K) evs) :
    ∃ evs', evs.map (·.1) = rowEvs als head cells ++ evs'.map (·.1) ∧ DocEvents src pre head [] K evs' := by
  obtain ⟨E', ⟨s, e, rfl⟩, hs'⟩ := hs
  obtain ⟨ev1, h1, h2⟩ := doc_enter hE
  rw [List.append_eq, List.append_assoc] at h2
  obtain ⟨ev2, h3, h4⟩ := cells_doc h hs' h2
  obtain ⟨ev3, h5, h6⟩ := doc_exit h4
  exact ⟨ev3, by rw [h1, h3, h5]; simp [rowEvs, nodeName, rowIn], h6⟩

theorem tab_doc {ls : List TabLine} (h : ∀ l ∈ ls, l.Ok) {src : Bytes} {pre : PrePass} {hd : Bool} {als : List Alignment} {E K : List Block.Event} {evs : List (Event × Span)}
    (hs : TabShows src als ls E) (hE : DocEvents src pre hd [] (E ++ K) evs) :
    ∃ evs' hd', evs.map (·.1) = tabEvents als ls ++ evs'.map (·.1) ∧ DocEvents src pre hd' [] K evs' := by
  induction ls generalizing als hd E evs with
  | nil => cases hs; exact ⟨evs, hd, rfl, hE⟩
  | cons l ls ih =>
    cases l with
    | sep a => exact ih (fun x hx => h x (by simp [hx])) hs hE
    | row cells =>
      obtain ⟨E1, E2, rfl, s1, s2⟩ := hs
      have hl := h _ (List.mem_cons_self ..)
      simp only [TabLine.Ok] at hl
      rw [List.append_assoc] at hE
      obtain ⟨ev1, h1, h2⟩ := row_doc hl.1 s1 hE
      obtain ⟨ev2, hd', h3, h4⟩ := ih (fun x hx => h x (by simp [hx])) s2 h2
      refine ⟨ev2, hd', ?_, h4⟩
      rw [h1, h3]
      cases hh : headAls ls <;> simp [tabEvents, hh]

theorem cap_doc {cap : List Inl} (h : cap = [] ∨ TitleOk cap) {src : Bytes} {pre : PrePass} {hd : Bool} {C K : List Block.Event} {evs : List (Event × Span)}
    (hs : CapShows src cap C) (hE : DocEvents src pre hd [] (C ++ K) evs) :
    ∃ evs', evs.map (·.1) = capEvents cap ++ evs'.map (·.1) ∧ DocEvents src pre hd [] K evs' := by
  rcases hs with ⟨rfl, rfl⟩ | ⟨hne, s, e, sps, rfl, ht⟩
  · exact ⟨evs, rfl, hE⟩
  · have hc : TitleOk cap := h.resolve_left hne
    obtain ⟨cs, ev1, h1, h2, h3⟩ := doc_leaf hE
    refine ⟨ev1, ?_, h3⟩
    cases h2 with
    | raw hr => cases hr
    | parsed _ hr =>
      have := inline_round hc.1 hc.2.1 hc.2.2.1 hne ht hr
      rw [h1, this]
      cases cap with
      | nil => exact absurd rfl hne
      | cons _ _ => simp [capEvents, nodeName]

theorem blank_doc {a : Bool} {src : Bytes} {pre : PrePass} {hd : Bool} {E K : List Block.Event} {evs : List (Event × Span)} (hs : BlankShows a E)
    (hE : DocEvents src pre hd [] (E ++ K) evs) : ∃ evs', evs.map (·.1) = blankAfter a ++ evs'.map (·.1) ∧ DocEvents src pre hd [] K evs' := by
  unfold BlankShows at hs
  unfold blankAfter
  split at hs
  · rename_i hb
    rw [if_pos hb]
    obtain ⟨s, rfl⟩ := hs
    exact doc_blank hE
  · rename_i hb
    rw [if_neg hb]
    subst hs
    exact ⟨evs, rfl, hE⟩

/-- The term of an item of a description list. -/
theorem term_doc {it : List Blk} (h : BlksOk it) {a : Bool} {src : Bytes} {pre : PrePass} {hd : Bool} {T K : List Block.Event} {evs : List (Event × Span)}
    (hs : TermShows src it a T) (hE : DocEvents src pre hd [] (T ++ K) evs) :
    ∃ evs', evs.map (·.1) = termEvents it a ++ evs'.map (·.1) ∧ DocEvents src pre hd [] K evs' := by
  cases it with
  | nil => exact hs.elim
  | cons b bs =>
    cases b with
    | para is =>
      have hp := BlksOk_head h
      simp only [Blk.Ok] at hp
      obtain ⟨s, e, sps, E2, rfl, ht, hb⟩ := hs
      rw [List.append_assoc] at hE
      obtain ⟨cs, ev1, h1, h2, h3⟩ := doc_leaf hE
      obtain ⟨ev2, h4, h5⟩ := blank_doc hb h3
      refine ⟨ev2, ?_, h5⟩
      cases h2 with
      | raw hr => cases hr
      | parsed _ hr =>
        have hne : is ≠ [] := by rintro rfl; have := hp.2.2.1; cases this
        rw [h1, inline_round hp.1 hp.2.1 (opens_fresh hp.2.2.1) hne ht hr, h4]
        simp [termEvents, nodeName]
    | _ => exact hs.elim

mutual
theorem Blk.doc (b : Blk) (h : b.Ok) (a : Bool) {src : Bytes} (hu : Safe src) {P : List Span} {as : Attr.Attributes} (hP : attrsIn src P = as) {pre : PrePass} {hd : Bool} {E K : List Block.Event} {evs : List (Event × Span)} (hs : Body src b a E)
    (hE : DocEvents src pre hd P (E ++ K) evs) : ∃ evs' hd', evs.map (·.1) = b.events as (a && b.keeps) ++ evs'.map (·.1) ∧ DocEvents src pre hd' [] K evs' := by
  subst hP
  cases b with
  | para is =>
    obtain ⟨s, e, sps, rfl, ht⟩ := hs
    obtain ⟨cs, evs', h1, h2, h3⟩ := doc_leafP hE
    refine ⟨evs', hd, ?_, h3⟩
    cases h2 with
    | raw hr => cases hr
    | parsed _ hr =>
      have hne : is ≠ [] := by rintro rfl; have := h.2.2.1; cases this
      have := inline_round h.1 h.2.1 (opens_fresh h.2.2.1) hne ht hr
      rw [h1, this]
      simp [Blk.events, nodeName, blankAfter, Blk.keeps]
  | brk =>
    obtain ⟨s, rfl⟩ := hs
    obtain ⟨evs', h1, h2⟩ := doc_breakP hE
    exact ⟨evs', hd, by simpa [Blk.events, blankAfter, Blk.keeps] using h1, h2⟩
  | code n lang ls =>
    obtain ⟨s, e, sps, rfl, ht⟩ := hs
    simp only [Blk.Ok] at h
    obtain ⟨cs, evs', h1, h2, h3⟩ := doc_leafP hE
    refine ⟨evs', hd, ?_, h3⟩
    cases h2 with
    | raw hr =>
      have hfil : sps.filter (fun l => l.start != l.stop) = sps := by
        rw [List.filter_eq_self]
        intro l hl
        have hm : textAt src l ∈ codeTexts lang ls := by rw [← ht]; exact List.mem_map.2 ⟨l, hl, rfl⟩
        have hy := codeTexts_ne h.2.2.1 _ hm
        simp only [bne_iff_ne, ne_eq]
        intro he
        unfold textAt at hy
        rw [he] at hy
        simp at hy
      have : (rawLines src sps).map (·.1) = (codeTexts lang ls).map Event.str := by
        unfold rawLines
        rw [hfil, List.map_map]
        have e1 : sps.map ((fun x => x.1) ∘ fun l => ((Event.str (textAt src l), l) : Event × Span)) = (sps.map (textAt src)).map Event.str := by simp
        rw [e1, ht]
      rw [h1, this]
      by_cases hraw : lang.head? = some (c! '=') <;> simp [Blk.events, codeOf, nodeName, blankAfter, Blk.keeps, hraw]
    | parsed hr => cases hr
  | table cap ls =>
    obtain ⟨E', ⟨s, e, rfl⟩, C, T, rfl, hC, hs'⟩ := hs
    simp only [Blk.Ok] at h
    obtain ⟨ev1, h1, h2⟩ := doc_enterP hE
    rw [List.append_eq, List.append_assoc, List.append_assoc] at h2
    obtain ⟨ev0, h7, h8⟩ := cap_doc h.2 hC h2
    obtain ⟨ev2, hd1, h3, h4⟩ := tab_doc h.1.2 hs' h8
    obtain ⟨ev3, h5, h6⟩ := doc_exit h4
    exact ⟨ev3, hd1, by rw [h1, h7, h3, h5]; simp [Blk.events, nodeName, blankAfter, Blk.keeps], h6⟩
  | quote bs =>
    obtain ⟨E', ⟨s, e, rfl⟩, hs'⟩ := hs
    simp only [Blk.Ok] at h
    obtain ⟨ev1, h1, h2⟩ := doc_enterP hE
    rw [List.append_eq, List.append_assoc] at h2
    obtain ⟨ev2, hd1, h3, h4⟩ := blks_doc bs h.2 false hu hs' h2
    obtain ⟨ev3, h5, h6⟩ := doc_exit h4
    exact ⟨ev3, hd1, by rw [h1, h3, h5]; simp [Blk.events, nodeName, blankAfter, Blk.keeps], h6⟩
  | div n cls bs =>
    obtain ⟨E', ⟨s, e, rfl⟩, hs'⟩ := hs
    simp only [Blk.Ok] at h
    obtain ⟨ev1, h1, h2⟩ := doc_enterP hE
    rw [List.append_eq, List.append_assoc] at h2
    obtain ⟨ev2, hd1, h3, h4⟩ := blks_doc bs h.2.2.1 false hu hs' h2
    obtain ⟨ev3, h5, h6⟩ := doc_exit h4
    exact ⟨ev3, hd1, by rw [h1, h3, h5]; simp [Blk.events, nodeName, blankAfter, Blk.keeps], h6⟩
  | foot label bs =>
    obtain ⟨E', ⟨s, e, rfl⟩, hs'⟩ := hs
    simp only [Blk.Ok] at h
    obtain ⟨ev1, h1, h2⟩ := doc_enterP hE
    rw [List.append_eq, List.append_assoc] at h2
    obtain ⟨ev2, hd1, h3, h4⟩ := blks_doc bs h.2.2.1 a hu hs' h2
    obtain ⟨ev3, h5, h6⟩ := doc_exit h4
    exact ⟨ev3, hd1, by rw [h1, h3, h5]; simp [Blk.events, nodeName, Blk.keeps], h6⟩
  | list lbs tight items =>
    obtain ⟨E', ⟨s, e, rfl⟩, hs'⟩ := hs
    simp only [Blk.Ok] at h
    obtain ⟨ev1, h1, h2⟩ := doc_enterP hE
    rw [List.append_eq, List.append_assoc] at h2
    obtain ⟨ev2, hd1, h3, h4⟩ := items_doc items h.2.2.2.2 lbs tight a hu hs' h2
    obtain ⟨ev3, h5, h6⟩ := doc_exit h4
    have hne : lbs ≠ [] := by
      rintro rfl
      cases items with
      | nil => exact h.1 rfl
      | cons _ _ => simp at h
    exact ⟨ev3, hd1, by rw [h1, h3, h5]; simp [Blk.events, Blk.keeps, listOf_name hne], h6⟩
  | attr w is b =>
    obtain ⟨s, E', rfl, ht, hsp, hs'⟩ := hs
    simp only [Blk.Ok] at h
    rw [List.cons_append] at hE
    have hbs := Block.sliceOf_bd_safe hsp hu
    have e : attrsAt src s = is.map (·.1.elem) := by
      unfold attrsAt
      rw [ht, Attr.attrs_of_line h.1 h.2.1 (by rw [← ht]; exact hbs)]
    obtain ⟨ev, hd1, h1, h2⟩ := Blk.doc b h.2.2.2 a hu (P := P ++ [s]) rfl hs' (doc_attr hE)
    exact ⟨ev, hd1, by rw [h1, attrsIn_append, attrsIn_one, e]; simp [Blk.events, Blk.keeps], h2⟩
theorem items_doc (items : List (List Blk)) (h : ItemsOk items) (lbs : List Label) (tight a : Bool) {src : Bytes} (hu : Safe src) {pre : PrePass} {hd : Bool} {E K : List Block.Event} {evs : List (Event × Span)}
    (hs : ShowsI src lbs tight items a E) (hE : DocEvents src pre hd [] (E ++ K) evs) :
    ∃ evs' hd', evs.map (·.1) = itemEvents lbs tight items a ++ evs'.map (·.1) ∧ DocEvents src pre hd' [] K evs' := by
  cases items with
  | nil => cases lbs <;> (cases hs; exact ⟨evs, hd, by simp [itemEvents], hE⟩)
  | cons it its =>
    cases lbs with
    | nil => cases hs; exact ⟨evs, hd, by simp [itemEvents], hE⟩
    | cons lb lbs =>
      simp only [ItemsOk] at h
      obtain ⟨E1, E3, rfl, ⟨E', X, ⟨s, e, rfl⟩, s1⟩, s2⟩ := hs
      rw [List.append_assoc] at hE
      rcases s1 with ⟨hd0, rfl, s1⟩ | ⟨hd0, sa, sb, T, rfl, s0, s1⟩
      · obtain ⟨ev1, h1, h2⟩ := doc_enter hE
        rw [List.append_eq, List.append_assoc] at h2
        obtain ⟨ev2, hd1, h3, h4⟩ := blks_doc it h.2.1 _ hu s1 h2
        obtain ⟨ev3, h5, h6⟩ := doc_exit h4
        obtain ⟨ev4, hd2, h7, h8⟩ := items_doc its h.2.2 lbs tight a hu s2 h6
        exact ⟨ev4, hd2, by rw [h1, h3, h5, h7]; simp [itemEvents, item_name, hd0], h8⟩
      · have hE1 := doc_stale (doc_stale hE)
        simp only [List.append_eq, List.append_assoc] at hE1
        obtain ⟨ev0, h9, h10⟩ := term_doc h.2.1 s0 hE1
        obtain ⟨ev1, h1, h2⟩ := doc_enter h10
        rw [List.append_eq, List.append_assoc] at h2
        obtain ⟨ev2, hd1, h3, h4⟩ := rest_doc it h.2.1 _ hu s1 h2
        obtain ⟨ev3, h5, h6⟩ := doc_exit h4
        obtain ⟨ev4, hd2, h7, h8⟩ := items_doc its h.2.2 lbs tight a hu s2 h6
        exact ⟨ev4, hd2, by rw [h9, h1, h3, h5, h7]; simp [itemEvents, item_name, hd0], h8⟩
theorem rest_doc (bs : List Blk) (h : BlksOk bs) (a : Bool) {src : Bytes} (hu : Safe src) {pre : PrePass} {hd : Bool} {E K : List Block.Event} {evs : List (Event × Span)} (hs : ShowsT src bs a E)
    (hE : DocEvents src pre hd [] (E ++ K) evs) : ∃ evs' hd', evs.map (·.1) = restEvents bs a ++ evs'.map (·.1) ∧ DocEvents src pre hd' [] K evs' := by
  cases bs with
  | nil => cases hs; exact ⟨evs, hd, rfl, hE⟩
  | cons b bs => exact blks_doc bs (BlksOk_tail h) a hu hs hE
theorem blks_doc (bs : List Blk) (h : BlksOk bs) (a : Bool) {src : Bytes} (hu : Safe src) {pre : PrePass} {hd : Bool} {E K : List Block.Event} {evs : List (Event × Span)} (hs : ShowsL src bs a E)
    (hE : DocEvents src pre hd [] (E ++ K) evs) : ∃ evs' hd', evs.map (·.1) = blkEvents bs a ++ evs'.map (·.1) ∧ DocEvents src pre hd' [] K evs' := by
  cases bs with
  | nil => cases hs; exact ⟨evs, hd, rfl, hE⟩
  | cons b bs =>
    simp only [BlksOk] at h
    obtain ⟨E1, E2, E3, rfl, s1, s2, s3⟩ := hs
    rw [List.append_assoc, List.append_assoc] at hE
    obtain ⟨ev1, hd0, h1, h2⟩ := Blk.doc b h.1 _ hu (P := []) (as := []) rfl s1 hE
    have hblank : ∃ ev2, ev1.map (·.1) = blankAfter ((!bs.isEmpty || a) && !b.keeps) ++ ev2.map (·.1) ∧ DocEvents src pre hd0 [] (E3 ++ K) ev2 := by
      unfold BlankShows at s2
      unfold blankAfter
      split at s2
      · rename_i hb
        rw [if_pos hb]
        obtain ⟨s, rfl⟩ := s2
        exact doc_blank h2
      · rename_i hb
        rw [if_neg hb]
        subst s2
        exact ⟨ev1, rfl, h2⟩
    obtain ⟨ev2, h3, h4⟩ := hblank
    obtain ⟨ev3, hd1, h5, h6⟩ := blks_doc bs h.2.2 a hu s3 h4
    exact ⟨ev3, hd1, by rw [h1, h3, h5, blkEvents, ← events_after b [] (!bs.isEmpty || a)]; simp only [List.append_assoc], h6⟩
end

/-- The events of a written document. -/
theorem events_write {d : List Blk} (h : BlksOk d) (hu : Utf8 (write d)) {evs : List (Event × Span)} (he : offsetEvents (write d) = .ok evs) :
    evs.map (·.1) = docEvents d := by
  obtain ⟨p, -, h2, h3⟩ := offsetEvents_doc hu he
  obtain ⟨E', ⟨s, e, hE⟩, hs⟩ := parse_write h hu h2
  rw [hE] at h3
  obtain ⟨ev1, g1, g2⟩ := doc_enter h3
  obtain ⟨ev2, hd1, g3, g4⟩ := blks_doc d h false hu.safe hs g2
  obtain ⟨ev3, g5, g6⟩ := doc_exit g4
  have : ev3 = [] := by
    generalize hb : ([] : List Block.Event) = B at g6
    cases g6 <;> first | rfl | cases hb
  subst this
  rw [g1, g3, g5]
  simp [docEvents, nodeName]

end Jotdown.Round
