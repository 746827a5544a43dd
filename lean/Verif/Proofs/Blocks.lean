import Verif.Proofs.ContEnd
/-! # Blocks: the induction -/
namespace Jotdown.Block
open Jotdown

def Kind.isHeading : Kind → Bool
  | .heading _ => true
  | _ => false

/-- What a block kind stands for. -/
def BlkOk (src : Bytes) (cx : Cx) (b : Prepared) : Blk → Prop
  | .atom a => b.kind = .atom a
  | .leaf l => LeafOk cx b.spanStart l ∧ b.kind.isListItem = false ∧ NodeOk src b.spanStart (.leaf l)
  | .container c => (c = .table ∧ (∃ x y, b.kind = .table x y) ∧ NodeOk src b.spanStart (.container .table)) ∨ (c ≠ .table ∧ ContKind src b c)

theorem infix_of_slice {src : Bytes} {sp : Span} {n m : Nat} {c : UInt8} (h : sliceOf src sp = List.replicate n c) (hm : m ≤ n) :
    ∃ u v, src = u ++ List.replicate m c ++ v := by
  unfold sliceOf at h
  refine ⟨src.take sp.start, List.replicate (n - m) c ++ (src.drop sp.start).drop (sp.stop - sp.start), ?_⟩
  rw [List.append_assoc, ← List.append_assoc (List.replicate m c), List.replicate_append_replicate, Nat.add_sub_cancel' hm, ← h, List.take_append_drop, List.take_append_drop]

theorem firstLine_get {s : Bytes} {i : Nat} {c : UInt8} (h : (Syntax.firstLine s)[i]? = some c) : s[i]? = some c := by
  induction s generalizing i with
  | nil => exact h
  | cons d s ih =>
    rw [Syntax.firstLine] at h
    split at h
    · cases i with
      | zero => exact h
      | succ i => simp at h
    · cases i with
      | zero => exact h
      | succ i => exact ih h

/-- A block that is not a paragraph begins with its marker. -/
theorem KindAt.inv {src : Bytes} {k : Kind} {sp : Span} (h : KindAt src k sp) (hk : k ≠ .paragraph) :
    ∃ a o, sp.start ≤ a ∧ Syntax.Begins src a sp.stop o ∧ Opens k o ∧ ((∀ i f l b, k ≠ .definition i f l b) → a = sp.start) := by
  rcases h with ⟨h, -⟩ | h
  · exact absurd h hk
  · exact h

theorem KindAt.task {src : Bytes} {i : Nat} {c : UInt8} {lb : Bool} {sp : Span} (h : KindAt src (.listItem i (.task c) lb) sp)
    (hlt : sp.start + 3 < src.length) : NodeOk src sp (.container (.listItem (.task (src[sp.start + 3] != c! ' ')))) := by
  obtain ⟨a, o, h1, h2, h3, h4⟩ := h.inv (by simp)
  have := h4 (by simp)
  subst this
  cases h3 with
  | @task _ _ _ x =>
    refine ⟨sp.start, Nat.le_refl _, c, ?_⟩
    obtain ⟨n, hn, hm⟩ := h2
    generalize hl : Syntax.firstLine (src.drop sp.start) = l at hm
    cases hm with
    | @task _ y s g1 g2 g3 =>
      have hg : (Syntax.firstLine (src.drop sp.start))[3]? = some y := by rw [hl]; rfl
      have := firstLine_get hg
      rw [List.getElem?_drop, List.getElem?_eq_getElem hlt] at this
      simp only [Option.some.injEq] at this
      rw [this]
      exact ⟨5, hn, hl ▸ .task g1 g2 g3⟩

theorem mkBlock_ok {src : Bytes} {cx : Cx} {b : Prepared} {top : Bool} (hk : KOk src b) (hat : KindAt src b.kind b.spanStart)
    (hful : b.kind.shrinks = true → Fulls src b.ls) (hss : SpanOk src b.spanStart)
    (ht : (top = false ∧ cx = .inner) ∨ b.kind.isHeading = false) (hcx : cx ≠ .list) :
    Sat (Allowed src) (mkBlock src b.kind top b.spanStart.start) (BlkOk src cx b) := by
  unfold KOk at hk
  unfold mkBlock
  cases hkind : b.kind with
  | atom a => exact Sat.ok hkind
  | paragraph =>
    refine Sat.ok ⟨hcx, by rw [hkind]; rfl, ?_⟩
    rcases hat with ⟨-, -, h⟩ | ⟨a, o, -, -, h, -⟩
    · exact h
    · rw [hkind] at h; cases h
  | heading level =>
    simp only
    split
    · rw [hkind] at hk
      simp only at hk
      refine Sat.ok ⟨⟨?_, ?_, rfl⟩, by rw [hkind]; rfl, by omega, rfl, ?_⟩
      rotate_left 2
      · obtain ⟨a, o, h1, h2, h3, -⟩ := hat.inv (by rw [hkind]; simp)
        rw [hkind] at h3
        cases h3
        exact ⟨a, h1, h2⟩
      all_goals rcases ht with ht | ht
      · exact ht.2
      · rw [hkind] at ht; simp [Kind.isHeading] at ht
      · exact ht.1
      · rw [hkind] at ht; simp [Kind.isHeading] at ht
    · refine Sat.error (Or.inl ⟨rfl, ?_⟩)
      rw [hkind] at hk
      simp only at hk
      refine infix_of_slice hk.2.2 ?_
      omega
  | fenced i fl fk spec c n =>
    cases fk with
    | codeBlock m =>
      refine Sat.ok ⟨hcx, by rw [hkind]; rfl, ?_⟩
      obtain ⟨a, o, h1, h2, h3, -⟩ := hat.inv (by rw [hkind]; simp)
      rw [hkind] at h3
      cases h3
      show Syntax.StartOk src b.spanStart (if spec.head? = some (c! '=') then .rawBlock spec.tail else .codeBlock spec)
      split
      · rename_i heq
        cases spec with
        | nil => simp at heq
        | cons x spec =>
          simp at heq
          subst heq
          exact ⟨a, h1, h2⟩
      · rename_i hne
        exact ⟨hne, a, h1, h2⟩
    | div =>
      rw [hkind] at hk
      refine Sat.ok (Or.inr ⟨by simp, by rw [hkind]; rfl, hk rfl, by rw [hkind]; simp, fun _ => by simp, by rw [hkind]; rfl, rfl, ?_, hat, hful (by rw [hkind]; rfl)⟩)
      obtain ⟨a, o, h1, h2, h3, -⟩ := hat.inv (by rw [hkind]; simp)
      rw [hkind] at h3
      cases h3
      exact ⟨a, h1, h2⟩
  | definition i f label lb =>
    cases f with
    | false =>
      refine Sat.ok ⟨hcx, by rw [hkind]; rfl, ?_⟩
      obtain ⟨a, o, h1, h2, h3, -⟩ := hat.inv (by rw [hkind]; simp)
      rw [hkind] at h3
      cases h3
      exact ⟨a, h1, h2⟩
    | true =>
      refine Sat.ok (Or.inr ⟨by simp, by rw [hkind]; rfl, trivial, by rw [hkind]; simp, fun _ => by simp, by rw [hkind]; rfl, rfl, ?_, hat, hful (by rw [hkind]; rfl)⟩)
      obtain ⟨a, o, h1, h2, h3, -⟩ := hat.inv (by rw [hkind]; simp)
      rw [hkind] at h3
      cases h3
      exact ⟨a, h1, h2⟩
  | blockquote =>
      refine Sat.ok (Or.inr ⟨by simp, by rw [hkind]; rfl, trivial, by rw [hkind]; simp, fun _ => by simp, by rw [hkind]; rfl, rfl, ?_, hat, hful (by rw [hkind]; rfl)⟩)
      obtain ⟨a, o, h1, h2, h3, -⟩ := hat.inv (by rw [hkind]; simp)
      rw [hkind] at h3
      cases h3
      exact ⟨a, h1, h2⟩
  | listItem i ty lb =>
    rw [hkind] at hk
    cases ty with
    | task c =>
      simp only
      have hlt := hk.2.1 c rfl
      have : idx src (b.spanStart.start + 3) = .ok src[b.spanStart.start + 3] := by
        unfold idx; rw [List.getElem?_eq_getElem hlt]
      rw [this]
      refine Sat.ok (Or.inr ⟨by simp, by rw [hkind]; rfl, trivial, ?_, ?_, by rw [hkind]; rfl, rfl, ?_, hat, hful (by rw [hkind]; rfl)⟩)
      rotate_left 2
      · rw [hkind] at hat; exact hat.task hlt
      · rw [hkind]; intro i ty lb h; simp at h; rw [← h.2.1]; simp
      · simp
    | description =>
      refine Sat.ok (Or.inr ⟨by simp, by rw [hkind]; rfl, trivial, ?_, ?_, by rw [hkind]; rfl, rfl, ?_, hat, hful (by rw [hkind]; rfl)⟩)
      rotate_left 2
      · trivial
      · rw [hkind]; intro i ty lb h; simp at h; rw [← h.2.1]; simp
      · rw [hkind]; simp [Kind.isListItem]
    | unordered c =>
      refine Sat.ok (Or.inr ⟨by simp, by rw [hkind]; rfl, trivial, ?_, ?_, by rw [hkind]; rfl, rfl, ?_, hat, hful (by rw [hkind]; rfl)⟩)
      rotate_left 2
      · obtain ⟨a, o, h1, h2, h3, -⟩ := hat.inv (by rw [hkind]; simp)
        rw [hkind] at h3
        cases h3
        exact ⟨a, h1, Or.inl ⟨_, h2⟩⟩
      · rw [hkind]; intro i ty lb h; simp at h; rw [← h.2.1]; simp
      · rw [hkind]; simp [Kind.isListItem]
    | ordered c d =>
      refine Sat.ok (Or.inr ⟨by simp, by rw [hkind]; rfl, trivial, ?_, ?_, by rw [hkind]; rfl, rfl, ?_, hat, hful (by rw [hkind]; rfl)⟩)
      rotate_left 2
      · obtain ⟨a, o, h1, h2, h3, -⟩ := hat.inv (by rw [hkind]; simp)
        rw [hkind] at h3
        cases h3
        exact ⟨a, h1, Or.inr ⟨_, _, _, h2⟩⟩
      · rw [hkind]; intro i ty lb h; simp at h; rw [← h.2.1]; simp
      · rw [hkind]; simp [Kind.isListItem]
  | table x y =>
      rw [hkind] at hk
      refine Sat.ok (Or.inl ⟨rfl, ⟨x, y, hkind⟩, ?_⟩)
      obtain ⟨a, o, h1, h2, h3, h4⟩ := hat.inv (by rw [hkind]; simp)
      rw [hkind] at h3
      cases h3
      have := h4 (by rw [hkind]; simp)
      rw [this, hk.1] at h2
      exact h2

section
variable {src : Bytes} {cx : Cx} {secs : List Nat} {E0 : List Event} {st : List Nat} {lists : List OpenList} {lo hi : Nat} {p : TP}

theorem Ready.lvl {k : Kind} (h : Ready src cx secs E0 st lists lo hi k p) : Lvl src cx secs E0 st lists lo hi p :=
  h.imp id (·.1)

theorem Ready.lvlA {k : Kind} (h : Ready src cx secs E0 st lists lo hi k p) (hk : k.isListItem = false) :
    LvlA src cx secs E0 st lists lo hi p := by
  rcases h with h | h
  · exact h
  · rw [hk] at h; simp at h

theorem QLvl.open_le {c : Container} (h : QLvl src cx secs E0 st lists lo hi c p) : p.open_.length ≤ st.length + 1 := by
  rcases h.lvl with h | h
  · rw [h.open_eq]; omega
  · obtain ⟨E, F, e, G, l, ty, t, m, h1, h2, h3, -⟩ := h.ev
    rw [h3]; simp

theorem Lvl.src_eq (h : Lvl src cx secs E0 st lists lo hi p) : p.src = src := by
  rcases h with h | h <;> exact h.src_eq

theorem emit_ok {b : Prepared} {first : Span} {rest : List Span} (hs : Safe src)
    (h : Ready src cx secs E0 st lists lo b.spanStart.start b.kind p) (hb : PrepOk src first rest b) {blk : Blk} (hblk : BlkOk src cx b blk)
    (cont : Container → R TP)
    (hcont : ∀ c, ContKind src b c → Sat (Allowed src) (cont c) (Lvl src cx secs E0 st lists lo b.spanEnd.stop)) :
    Sat (Allowed src) (p.emit cont blk b) (Lvl src cx secs E0 st lists lo b.spanEnd.stop) := by
  unfold TP.emit
  have hle := hb.lines.le
  have hle2 := hb.se.le
  cases blk with
  | atom a =>
    have hk : b.kind = .atom a := hblk
    have hA := h.lvlA (by rw [hk]; rfl)
    have hkok := hb.kind
    unfold KOk at hkok
    rw [hk] at hkok
    refine Sat.ok (Or.inl (LvlA.mono (hi := b.spanStart.stop) ?_ (by omega)))
    exact hA.append (.atom (e := ⟨.atom a, b.spanStart⟩) rfl hb.ss ⟨hkok, fun h => absurd h hA.cx_ne⟩ (Nat.le_refl _) (.nil (Nat.le_refl _)))
  | leaf l =>
    have hA := h.lvlA hblk.2.1
    exact Sat.lift ((parseLeaf_ok hA hs hb.ss hb.se (Nat.le_refl _) hb.lines hblk.1 hblk.2.2).mono (fun _ h => Or.inl h))
  | container c =>
    simp only
    rcases hblk with ⟨hc, ⟨x, y, hk⟩, hnode⟩ | ⟨hc, hck⟩
    · rw [if_pos hc]
      have hA := h.lvlA (by rw [hk]; rfl)
      have hkok := hb.kind
      unfold KOk at hkok
      rw [hk] at hkok
      exact Sat.lift ((parseTable_ok hA hs hb.ss hb.se (Nat.le_refl _) hb.lines hkok.1 hkok.2.1 hkok.2.2 hnode).mono (fun _ h => Or.inl h.1))
    · rw [if_neg hc]
      exact hcont c hck

theorem setAttrStart_ok (h : Lvl src cx secs E0 st lists lo hi p) (hne : 1 ≤ E0.length) (k : Kind) :
    Sat Never (p.setAttrStart k) (fun p' => Lvl src cx secs E0 st lists lo hi p' ∧ (k ≠ .atom .attributes → p'.attrStart = none)) := by
  unfold TP.setAttrStart
  split
  · rename_i hk
    split
    · exact Sat.ok ⟨h, fun h' => absurd hk h'⟩
    · have : csub p.events.length 1 = .ok (p.events.length - 1) := by
        unfold csub; rw [if_pos (by have := events_length h; omega)]
      rw [this]
      exact Sat.ok ⟨h.congr rfl rfl rfl rfl rfl, fun h' => absurd hk h'⟩
  · exact Sat.ok ⟨h.congr rfl rfl rfl rfl rfl, fun _ => rfl⟩

theorem kindTy_of {b : Prepared} (hk : KOk src b) : KindTy b.kind := by
  intro i ty lb h
  unfold KOk at hk
  rw [h] at hk
  exact hk.1

theorem Kind.isCont_shrinks {k : Kind} (h : k.isCont = true) : k.shrinks = true := by
  cases k <;> simp [Kind.isCont] at h <;> rfl

theorem Container.weight_lt {b : Prepared} {first : Span} {rest : List Span} (hb : PrepOk src first rest b)
    (h : b.kind.isCont = true) : weight b.ls + 1 ≤ weight (first :: rest) := by
  have := hb.weight
  rw [Kind.isCont_shrinks h] at this
  simp only [if_true] at this
  have h2 : weight ((first :: rest).take b.lineCount) ≤ weight (first :: rest) := by
    conv => rhs; rw [← List.take_append_drop b.lineCount (first :: rest), weight_append]
    omega
  omega

/-- Statement about containers, for the induction. -/
def ContStmt (src : Bytes) (fuel : Nat) : Prop :=
  ∀ (cx : Cx) (secs : List Nat) (E0 : List Event) (st : List Nat) (lists : List OpenList) (lo : Nat) (p : TP) (b : Prepared) (c : Container),
    Ready src cx secs E0 st lists lo b.spanStart.start b.kind p → CtxOk E0 st lists → ContKind src b c → KOk src b →
    SpanOk src b.spanStart → SpanOk src b.spanEnd → LinesOk src b.spanStart.stop b.ls b.spanEnd.start →
    3 * weight b.ls + 2 ≤ fuel → st.length + 2 * weight b.ls + 2 ≤ maxDepth src →
    Sat (Allowed src) (TP.parseContainer fuel p c b) (Lvl src cx secs E0 st lists lo b.spanEnd.stop)

theorem lastStop_take_succ (lo lo' : Nat) (l : Span) (ls : List Span) {n : Nat} (hn : 1 ≤ n) :
    lastStop lo ((l :: ls).take n) = lastStop lo' ((l :: ls).take n) := by
  cases n with
  | zero => omega
  | succ n => simp only [List.take_succ_cons, lastStop_cons]

/-- One block, given the statement about containers. -/
theorem parseBlock_step {fuel : Nat} (hs : Safe src) (ih : ContStmt src fuel) (h : Lvl src cx secs E0 st lists lo hi p)
    (hc : CtxOk E0 st lists) (hne : 1 ≤ E0.length) {first : Span} {rest : List Span} {e : Nat}
    (hl : LinesOk src hi (first :: rest) e) (hfu : Fulls src (first :: rest)) (hf : 3 * weight (first :: rest) ≤ fuel + 1)
    (hd : st.length + 2 * weight (first :: rest) ≤ maxDepth src) {top : Bool}
    (htop : ∀ b, prepare src first rest = .ok b → (top = false ∧ cx = .inner) ∨ b.kind.isHeading = false) :
    Sat (Allowed src) (TP.parseBlock (fuel + 1) p (first :: rest) top) (fun r => 1 ≤ r.2 ∧ r.2 ≤ (first :: rest).length ∧
      Lvl src cx secs E0 st lists lo (lastStop hi ((first :: rest).take r.2)) r.1 ∧
      ∃ b, prepare src first rest = .ok b ∧ r.2 = b.lineCount ∧ (b.kind ≠ .atom .attributes → r.1.attrStart = none)) := by
  obtain ⟨b, hbe, hb⟩ := (prepare_ok hs hl hfu).exists_ok
  unfold TP.parseBlock
  rw [h.src_eq]
  refine Sat.bind (P := fun b' => b = b') (by rw [hbe]; exact Sat.ok rfl) ?_
  intro b' hb'; subst hb'
  have hstart : hi ≤ b.spanStart.start := by
    have := hb.ssLo
    cases hl with
    | cons _ h2 _ => omega
  refine Sat.bind (Sat.lift (beforeBlock_ok h hc (kindTy_of hb.kind) hstart hb.ss)) ?_
  intro p1 ⟨hp1, _⟩
  rw [hp1.lvl.src_eq]
  refine Sat.bind (mkBlock_ok hb.kind hb.begins hb.full hb.ss (htop b hbe) (by rcases h with h | h <;> exact h.cx_ne)) ?_
  intro blk hblk
  refine Sat.bind (emit_ok hs hp1 hb hblk _ ?_) ?_
  · intro c hck
    refine ih cx secs E0 st lists lo p1 b c hp1 hc hck hb.kind hb.ss hb.se hb.lines ?_ ?_
    all_goals
      have := Container.weight_lt hb hck.cont
      omega
  · intro p2 hp2
    refine Sat.bind (Sat.lift (setAttrStart_ok hp2 hne b.kind)) ?_
    intro p3 ⟨hp3, ha⟩
    refine Sat.ok ⟨hb.cnt, hb.cntLe, ?_, _, hbe, rfl, ha⟩
    rw [lastStop_take_succ hi 0 first rest hb.cnt, ← hb.seStop]
    exact hp3

theorem weight_drop {first : Span} {rest : List Span} {n : Nat} (hn : 1 ≤ n) :
    weight ((first :: rest).drop n) + 1 ≤ weight (first :: rest) := by
  cases n with
  | zero => omega
  | succ n =>
    have : weight (rest.drop n) ≤ weight rest := by
      conv => rhs; rw [← List.take_append_drop n rest, weight_append]
      omega
    simp only [List.drop_succ_cons, weight_cons]
    omega

def ChildStmt (src : Bytes) (fuel : Nat) : Prop :=
  ∀ (secs : List Nat) (E0 : List Event) (st : List Nat) (lists : List OpenList) (lo hi : Nat) (p : TP) (ls : List Span) (e : Nat),
    Lvl src .inner secs E0 st lists lo hi p → CtxOk E0 st lists → 1 ≤ E0.length → LinesOk src hi ls e → Fulls src ls → 3 * weight ls + 1 ≤ fuel →
    st.length + 2 * weight ls ≤ maxDepth src →
    Sat (Allowed src) (TP.parseChildren fuel p ls) (Lvl src .inner secs E0 st lists lo e)

theorem all_blocks (hs : Safe src) : ∀ fuel, ContStmt src fuel ∧ ChildStmt src fuel := by
  intro fuel
  induction fuel using Nat.strongRecOn with
  | _ fuel ih =>
    refine ⟨?_, ?_⟩
    · intro cx secs E0 st lists lo p b c h hc hck hk hss hse hl hf hd
      cases fuel with
      | zero => omega
      | succ fuel =>
        unfold TP.parseContainer
        refine Sat.bind (beginContainer_ok h hs hc hck hss hk hl (by omega)) ?_
        intro ⟨p1, ls, dt⟩ ⟨q, X, ec, hq, hp1, hbeg, hls, hw, hful⟩
        simp only at hp1 hbeg hls hw ⊢
        have hctx := hq.lvl.ctx hc
        have hc' : CtxOk (q.events ++ X ++ [ec]) ((q.events ++ X).length :: q.open_) q.openLists := by
          intro l hl
          have := hctx l hl
          simp
          omega
        refine Sat.bind ((ih fuel (by omega)).2 secs _ _ _ _ _ p1 ls _ (Or.inl hp1) hc' (by simp; omega) hls hful (by omega) (by rw [List.length_cons]; have := hq.open_le; omega)) ?_
        intro p2 hp2
        exact Sat.lift (endContainer_ok hq hc hbeg hck.ok hck.notList hp2 hse (Nat.le_refl _))
    · intro secs E0 st lists lo hi p ls e h hc hne hl hfu hf hd
      cases fuel with
      | zero => omega
      | succ fuel =>
        unfold TP.parseChildren
        cases ls with
        | nil =>
          refine Sat.ok (h.mono ?_)
          exact hl.le
        | cons first rest =>
          simp only
          cases fuel with
          | zero => simp at hf; omega
          | succ fuel =>
            refine Sat.bind (parseBlock_step hs (ih fuel (by omega)).1 h hc hne hl hfu (by omega) hd (fun _ _ => Or.inl ⟨rfl, rfl⟩)) ?_
            intro ⟨p1, n⟩ ⟨h1, h2, h3, _⟩
            simp only at h1 h2 h3 ⊢
            have hd2 := (hl.take_drop n).2
            have hw := weight_drop (first := first) (rest := rest) h1
            exact (ih (fuel + 1) (by omega)).2 secs E0 st lists lo _ p1 _ e h3 hc hne hd2 (fun l hl => hfu l (List.mem_of_mem_drop hl)) (by omega) (by omega)

end

end Jotdown.Block
