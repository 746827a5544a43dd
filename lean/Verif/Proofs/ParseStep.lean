import Verif.Proofs.ParseInv
/-! # The events of the parser: the invariant -/
namespace Jotdown
open Jotdown

/-- Bound for the number of events per block event. -/
def unit (src : Bytes) : Nat := 3 * src.length + 8

/-- The open block containers. -/
inductive Open : List Block.Container → Prop
  | doc : Open [.document]
  | cons {c d st} : Block.mayContain c (.container d) = true → Block.Fine d → Open (c :: st) → Open (d :: c :: st)

theorem Open.fine {c : Block.Container} {st : List Block.Container} (h : Open (c :: st)) : Block.Fine c := by
  cases h with
  | doc => trivial
  | cons _ h _ => exact h

/-- In a row of a table the parser knows whether it is a head row. -/
def HeadRow (st : List Block.Container) (head : Bool) : Prop := ∀ h st', st = .tableRow h :: st' → head = h

structure Common (src : Bytes) (pre : PrePass) (p : Parser) : Prop where
  src_eq : p.src = src
  pre_eq : p.prePass = pre
  defs : DefsOk pre.linkDefinitions
  safe : Safe src
  bd : Bd src

/-- Attributes for the next block may be pending. -/
def Pend (src : Bytes) (st : List Block.Container) (n0 n : Nat) (p : Parser) : Prop :=
  match p.blockAttributes with
  | none => n0 ≤ n
  | some (a, sp) => n0 ≤ sp.start ∧ sp.stop ≤ n ∧ Block.SpanOk src sp ∧ Attr.KeysOk a ∧ nextIs p.blocks (.atom .blankline) = false ∧
      ∃ c st', st = c :: st' ∧ Block.atomIn c .attributes = true

def Parser.pend (p : Parser) : Nat := if p.blockAttributes.isSome then 1 else 0

/-- Between blocks. -/
structure AtBlock (src : Bytes) (pre : PrePass) (st : List Block.Container) (n0 n : Nat) (p : Parser) : Prop where
  com : Common src pre p
  verb : p.verbatim = false
  opn : Open st
  row : HeadRow st p.tableHeadRow
  rest : Inline.Rest src p.inlineParser
  bt : Block.BT src st n p.blocks
  pend : Pend src st n0 n p

/-- In a leaf; `lo` is the end of the last line. -/
structure InLeaf (src : Bytes) (pre : PrePass) (c0 : Block.Container) (st : List Block.Container) (l : Block.Leaf) (inl : List Block.Event) (x : Block.Event)
    (es : List Block.Event) (lo n : Nat) (p : Parser) : Prop where
  com : Common src pre p
  verb : p.verbatim = !l.isFed
  opn : Open (c0 :: st)
  row : HeadRow (c0 :: st) p.tableHeadRow
  blocks : p.blocks = inl ++ x :: es
  chain : Block.InlChain src l.isFed lo inl x.span.start
  exit : Block.Exits src x (.leaf l)
  bt : Block.BT src (c0 :: st) (if l = .caption then n else x.span.stop) es
  pend : p.blockAttributes = none

/-- The public stack in a leaf. -/
def leafStack (pre : PrePass) (c0 : Block.Container) (st : List Block.Container) (l : Block.Leaf) (p : Parser) : List Container :=
  pubL pre p.tableHeadRow l :: (c0 :: st).map (pubC pre)

/-- The states without inline events: the public stack, whether it is a caption, the bound for the next
range, a bound for the number of events. -/
inductive InvB (src : Bytes) (pre : PrePass) : List Container → Bool → Nat → Nat → Parser → Prop
  | block {st n0 n m p} : AtBlock src pre st n0 n p → p.blocks.length * unit src + p.pend ≤ m →
      InvB src pre (st.map (pubC pre)) false n0 m p
  | leaf {c0 st l inl x es lo n m p} : InLeaf src pre c0 st l inl x es lo n p → Inline.Idle src p.inlineParser → (l ≠ .caption → n ≤ lo) →
      p.blocks.length * unit src ≤ m → InvB src pre (leafStack pre c0 st l p) (l == .caption) n m p

/-- All states. -/
inductive Inv (src : Bytes) (pre : PrePass) : List Container → Bool → Nat → Nat → Parser → Prop
  | base {S cap n m p} : InvB src pre S cap n m p → Inv src pre S cap n m p
  | text {c0 st l inl x es lo n m p c ist} : InLeaf src pre c0 st l inl x es lo n p → l.isFed = true → c.src = src → Inline.Cx.Ok c → c.H = lo →
      c.cpl = inl.isEmpty → c.more = !inl.isEmpty → c.K ≤ 3 * src.length → (l ≠ .caption → n ≤ c.lo) → Inline.Ready c ist p.inlineParser →
      p.blocks.length * unit src + c.K + 1 ≤ m →
      Inv src pre ((ist.map Inline.Open.c).map (pubI pre p.inlineParser.storeCowstrs) ++ leafStack pre c0 st l p) (l == .caption) n m p

/-- The end. -/
structure Done (src : Bytes) (p : Parser) : Prop where
  blocks : p.blocks = []
  rest : Inline.Rest src p.inlineParser
  pend : p.blockAttributes = none

/-- The range of an event is in order, apart from captions. -/
def Ordered (cap : Bool) (n : Nat) (e : Event) (sp : Span) (cap' : Bool) (n' : Nat) : Prop :=
  (∃ a, e = .start .caption a ∧ cap' = true ∧ n' = n) ∨ (e = .end .caption ∧ cap' = false ∧ n' = n) ∨
  (NoCaption e ∧ cap' = cap ∧ (cap = true ∧ n' = n ∨ cap = false ∧ n ≤ sp.start ∧ n' = sp.stop))

/-- An event. -/
structure OutEv (src : Bytes) (pre : PrePass) (S : List Container) (cap : Bool) (n m : Nat) (p : Parser) (e : Event) (sp : Span) : Prop where
  good : Good src e sp
  next : (e = .end .document ∧ S = [.document] ∧ cap = false ∧ n ≤ sp.start ∧ Done src p) ∨
    ∃ S' cap' n' m', m' < m ∧ place1 S e = some S' ∧ Ordered cap n e sp cap' n' ∧ Inv src pre S' cap' n' m' p

def Out (src : Bytes) (pre : PrePass) (S : List Container) (cap : Bool) (n m : Nat) (r : Parser × Option (Event × Span)) : Prop :=
  ∃ e sp, r.2 = some (e, sp) ∧ OutEv src pre S cap n m r.1 e sp

def StepOut (src : Bytes) (pre : PrePass) (S : List Container) (cap : Bool) (n m : Nat) (p : Parser) (r : Parser × Step) : Prop :=
  match r.2 with
  | .emit e sp => OutEv src pre S cap n m r.1 e sp
  | .cont => InvB src pre S cap n m r.1 ∧ r.1.blocks.length < p.blocks.length
  | .fed => Inv src pre S cap n m r.1 ∧ r.1.blocks.length < p.blocks.length
  | .stop => False

variable {src : Bytes} {pre : PrePass}

/-! ## Blocks -/

theorem AtBlock.take {st : List Block.Container} {n0 n : Nat} {p : Parser} (hp : Pend src st n0 n p) {span : Span} (hs : Block.SpanOk src span) (hn : n ≤ span.start) :
    ∃ attrs sp, p.takeAttrs span = ({ p with blockAttributes := none }, attrs, sp) ∧ Attr.KeysOk attrs ∧ Block.SpanOk src sp ∧ n0 ≤ sp.start ∧ sp.stop = span.stop := by
  unfold Parser.takeAttrs
  unfold Pend at hp
  cases h : p.blockAttributes with
  | none =>
    rw [h] at hp
    simp only at hp ⊢
    refine ⟨[], span, ?_, KeysOk.nil, hs, by omega, rfl⟩
    rw [← h]
  | some x =>
    obtain ⟨a, sp⟩ := x
    rw [h] at hp
    simp only at hp ⊢
    obtain ⟨h1, h2, h3, h4, -⟩ := hp
    refine ⟨a, _, rfl, h4, ⟨?_, hs.len, h3.bs, hs.be⟩, h1, rfl⟩
    have := h3.le; have := hs.le
    simp only
    omega

theorem holdsFlow_atom {c : Block.Container} (h : Block.atomIn c .attributes = true) : holdsFlow (pubC pre c) = true := by
  cases c with
  | listItem k => cases k <;> rfl
  | _ => first | rfl | (cases h; done)

theorem mayOccur_atom {c : Block.Container} {a : Block.Atom} (h : Block.atomIn c a = true) :
    (a = .blankline → mayOccur (pubC pre c) .blankline = true) ∧ (a ≠ .blankline → holdsFlow (pubC pre c) = true) := by
  cases c with
  | list ty tight =>
    have : a = .blankline := by simpa [Block.atomIn] using h
    subst this
    refine ⟨fun _ => ?_, fun h => absurd rfl h⟩
    rcases pubC_list (pre := pre) (ty := ty) (tight := tight) with ⟨k', h1⟩ | h1 <;> rw [h1] <;> rfl
  | listItem k => cases k <;> exact ⟨fun _ => rfl, fun _ => rfl⟩
  | _ => first | exact ⟨fun _ => rfl, fun _ => rfl⟩ | (cases h; done)

theorem pubC_ne_caption (c : Block.Container) : pubC pre c ≠ .caption := by
  cases c with
  | list ty tight => rcases pubC_list (pre := pre) (ty := ty) (tight := tight) with ⟨k', h1⟩ | h1 <;> rw [h1] <;> simp
  | listItem k => cases k <;> simp [pubC]
  | _ => simp [pubC]

theorem pubL_caption (head : Bool) (l : Block.Leaf) : pubL pre head l = .caption ↔ l = .caption := by
  cases l with
  | codeBlock lang => rcases pubL_code pre head lang with ⟨f, h1⟩ | h1 <;> rw [h1] <;> simp
  | _ => simp [pubL]

theorem pubC_div {c : Block.Container} (h : Block.Fine c) : ∀ cls, pubC pre c = .div cls → cls.all Attr.isName = true := by
  intro cls hc
  cases c with
  | list ty tight => rcases pubC_list (pre := pre) (ty := ty) (tight := tight) with ⟨k', h1⟩ | h1 <;> rw [h1] at hc <;> simp at hc
  | listItem k => cases k <;> simp [pubC] at hc
  | div c => simp [pubC] at hc; subst hc; exact h
  | _ => simp [pubC] at hc

theorem pubL_div {head : Bool} {l : Block.Leaf} (cls : Bytes) : pubL pre head l ≠ .div cls := by
  cases l with
  | codeBlock lang => rcases pubL_code pre head lang with ⟨f, h1⟩ | h1 <;> rw [h1] <;> simp
  | _ => simp [pubL]

theorem place1_occur {p : Container} {st : List Container} {e : Event} (h : mayOccur p e = true) (h1 : ∀ c a, e ≠ .start c a) (h2 : ∀ c, e ≠ .end c) :
    place1 (p :: st) e = some (p :: st) := by
  cases e
  case start c a => exact absurd rfl (h1 c a)
  case «end» c => exact absurd rfl (h2 c)
  all_goals simp only [place1, h, if_true]

theorem unit_pos : 8 ≤ unit src := by unfold unit; omega

theorem len_mul (k : Nat) : (k + 1) * unit src = k * unit src + unit src := by rw [Nat.succ_mul]

theorem AtBlock.to {st0 st : List Block.Container} {S : List Container} {n0 n k m : Nat} {p p' : Parser} (h : AtBlock src pre st0 n0 n p) (h1 : p'.src = p.src) (h2 : p'.prePass = p.prePass)
    (h3 : p'.verbatim = p.verbatim) (h4 : p'.inlineParser = p.inlineParser) (opn : Open st) (row : HeadRow st p'.tableHeadRow) (bt : Block.BT src st k p'.blocks)
    (pend : p'.blockAttributes = none) (hS : S = st.map (pubC pre)) (hm : m = p'.blocks.length * unit src) : Inv src pre S false k m p' := by
  subst hS hm
  refine .base (.block (n := k) ⟨⟨by rw [h1]; exact h.com.src_eq, by rw [h2]; exact h.com.pre_eq, h.com.defs, h.com.safe, h.com.bd⟩, by rw [h3]; exact h.verb, opn, row, by rw [h4]; exact h.rest, bt, ?_⟩ ?_)
  · unfold Pend; rw [pend]; exact Nat.le_refl _
  · unfold Parser.pend; rw [pend]; exact Nat.le_refl _

/-- One step between blocks. -/
theorem step_block {st : List Block.Container} {n0 n m : Nat} {p : Parser} (h : AtBlock src pre st n0 n p) (hm : p.blocks.length * unit src + p.pend ≤ m) :
    Sat Never p.blockStep (StepOut src pre (st.map (pubC pre)) false n0 m p) := by
  have hpre := h.com.pre_eq
  subst hpre
  have hsrc := h.com.src_eq
  subst hsrc
  have hpl : ∀ p : Parser, p.pend ≤ 1 := by intro p; unfold Parser.pend; split <;> omega
  have hup := unit_pos (src := p.src)
  unfold Parser.blockStep
  have hbt := h.bt
  generalize hB : p.blocks = B at hbt
  generalize hS : st = S at hbt
  cases hbt with
  | done => subst hS; cases h.opn
  | @atom c st' n' e a es hk hsp ha hin hn hbt =>
    subst hS
    rw [hB, List.length_cons, len_mul] at hm
    simp only [hk]
    cases a with
    | blankline =>
      have hno : p.blockAttributes = none := by
        have hp := h.pend
        unfold Pend at hp
        cases hx : p.blockAttributes with
        | none => rfl
        | some y =>
          rw [hx] at hp
          obtain ⟨_, _, _, _, h5, _⟩ := hp
          rw [hB] at h5
          simp [nextIs, hk] at h5
      have hpe := h.pend
      unfold Pend at hpe
      rw [hno] at hpe
      simp only at hpe
      simp only [hno, Option.isNone_none, dassert, if_true, Bind.bind, Except.bind]
      refine Sat.pure ⟨⟨hsp, trivial⟩, .inr ⟨_, _, e.span.stop, es.length * unit p.src, ?_, place1_occur ((mayOccur_atom hin).1 rfl) (by simp) (by simp), .inr (.inr ⟨trivial, rfl, .inr ⟨rfl, by omega, rfl⟩⟩),
        h.to rfl rfl rfl rfl h.opn h.row hbt (by first | rfl | exact hno) rfl rfl⟩⟩
      omega
    | thematicBreak =>
      obtain ⟨attrs, sp, t1, t2, t3, t4, t5⟩ := AtBlock.take h.pend hsp hn
      simp only
      rw [t1]
      refine Sat.ok ⟨⟨t3, t2⟩, .inr ⟨_, _, e.span.stop, es.length * unit p.src, ?_, place1_occur ((mayOccur_atom hin).2 (by simp)) (by simp) (by simp), .inr (.inr ⟨trivial, rfl, .inr ⟨rfl, t4, t5.symm⟩⟩),
        h.to rfl rfl rfl rfl h.opn h.row hbt rfl rfl rfl⟩⟩
      omega
    | attributes =>
      simp only
      unfold Parser.blockAttrs
      obtain ⟨a1, hk1, hp1⟩ := attrOk_keys h.com.safe hsp ha
      have hpe := h.pend
      unfold Pend at hpe
      have hget : ∃ a0 s0, p.blockAttributes.getD ([], e.span) = (a0, s0) ∧ Attr.KeysOk a0 ∧ n0 ≤ s0.start ∧ s0.start ≤ e.span.stop ∧ Bd (p.src.drop s0.start) := by
        have := hsp.le
        cases hx : p.blockAttributes with
        | none =>
          rw [hx] at hpe
          exact ⟨[], e.span, rfl, KeysOk.nil, by simp only at hpe; omega, hsp.le, hsp.bs⟩
        | some y =>
          obtain ⟨a, sp⟩ := y
          rw [hx] at hpe
          obtain ⟨h1, h2, h3, h4, -⟩ := hpe
          have := h3.le
          exact ⟨a, sp, rfl, h4, h1, by omega, h3.bs⟩
      obtain ⟨a0, s0, g1, g2, g3, g4, g5⟩ := hget
      rw [g1]
      simp only
      rw [hsp.slice]
      simp only [Bind.bind, Except.bind]
      rw [hp1]
      simp only
      have hsp' : Block.SpanOk p.src ⟨s0.start, e.span.stop⟩ := ⟨g4, hsp.len, g5, hsp.be⟩
      cases hb : nextIs es (.atom .blankline) with
      | true =>
        simp only [if_true]
        refine Sat.pure ⟨⟨hsp', KeysOk.append g2 hk1⟩, .inr ⟨_, _, e.span.stop, es.length * unit p.src, ?_, place1_occur (by simp [mayOccur, (mayOccur_atom hin).2 (by simp)]) (by simp) (by simp), .inr (.inr ⟨trivial, rfl, .inr ⟨rfl, g3, rfl⟩⟩),
          h.to rfl rfl rfl rfl h.opn h.row hbt rfl rfl rfl⟩⟩
        omega
      | false =>
        simp only [Bool.false_eq_true, if_false]
        refine Sat.pure ⟨.block (n := e.span.stop) ⟨⟨rfl, rfl, h.com.defs, h.com.safe, h.com.bd⟩, h.verb, h.opn, h.row, h.rest, hbt, ?_⟩ ?_, ?_⟩
        · unfold Pend
          exact ⟨g3, Nat.le_refl _, hsp', KeysOk.append g2 hk1, hb, _, _, rfl, hin⟩
        · simp [Parser.pend]
          omega
        · rw [hB]; simp
  | @stale c st' n' e es hk hb hbt =>
    subst hS
    rw [hB, List.length_cons, len_mul] at hm
    simp only [hk]
    refine Sat.ok ⟨.block (n := n) ⟨⟨rfl, rfl, h.com.defs, h.com.safe, h.com.bd⟩, h.verb, h.opn, h.row, h.rest, hbt, ?_⟩ ?_, by rw [hB]; simp⟩
    · have hp := h.pend
      unfold Pend at hp ⊢
      simp only
      cases hx : p.blockAttributes with
      | none => rw [hx] at hp; exact hp
      | some y =>
        rw [hx] at hp
        obtain ⟨h1, h2, h3, h4, h5, h6⟩ := hp
        exact ⟨h1, h2, h3, h4, hb, h6⟩
    · have : Parser.pend { p with blocks := es } = p.pend := rfl
      rw [this]
      simp only
      omega
  | @enter c d st' n' e es he hc hf hbt =>
    subst hS
    rw [hB, List.length_cons, len_mul] at hm
    simp only [he.kind]
    unfold Parser.nodeContainer
    simp only [blockContainer_sat p true hf, Bind.bind, Except.bind]
    have hpend : Pend p.src (c :: st') n0 n (p.atRow d true) := by
      have hp := h.pend
      unfold Pend at hp ⊢
      cases d <;> exact hp
    obtain ⟨attrs, sp, t1, t2, t3, t4, t5⟩ := AtBlock.take hpend he.span he.lo
    rw [t1]
    simp only
    have hne : d ≠ .document := by
      rintro rfl
      cases c <;> cases hc
    refine Sat.pure ⟨⟨t3, t2, pubC_div hf⟩, .inr ⟨(d :: c :: st').map (pubC p.prePass), _, e.span.stop, es.length * unit p.src, ?_, ?_, .inr (.inr ⟨pubC_ne_caption d, rfl, .inr ⟨rfl, t4, t5.symm⟩⟩),
      h.to (by cases d <;> rfl) (by cases d <;> rfl) (by cases d <;> rfl) (by cases d <;> rfl) (.cons hc hf h.opn) ?_ hbt rfl rfl rfl⟩⟩
    · omega
    · simp only [List.map_cons, place1, mayHold_cont hc, if_true]
    · intro hd st'' heq
      injection heq with h1 h2
      subst h1
      rfl
  | @exit c st' n' e es he hn hbt =>
    subst hS
    rw [hB, List.length_cons, len_mul] at hm
    simp only [he.kind]
    unfold Parser.nodeContainer
    simp only [blockContainer_sat p false h.opn.fine, Bind.bind, Except.bind]
    have hat : p.atRow c false = p := by cases c <;> rfl
    rw [hat]
    have hp := h.pend
    unfold Pend at hp
    cases hx : p.blockAttributes with
    | some y =>
      obtain ⟨a, sp⟩ := y
      rw [hx] at hp
      obtain ⟨h1, h2, h3, h4, h5, c', st'', h6, h7⟩ := hp
      injection h6 with h6 h8
      subst h6 h8
      refine Sat.pure ⟨⟨h3, h4⟩, .inr ⟨_, _, sp.stop, p.blocks.length * unit p.src, ?_, place1_occur (by simp [mayOccur, holdsFlow_atom h7]) (by simp) (by simp), .inr (.inr ⟨trivial, rfl, .inr ⟨rfl, h1, rfl⟩⟩),
        h.to rfl rfl rfl rfl h.opn h.row (h.bt.mono h2) rfl rfl rfl⟩⟩
      rw [hB, List.length_cons, len_mul]
      have : p.pend = 1 := by unfold Parser.pend; rw [hx]; rfl
      omega
    | none =>
      rw [hx] at hp
      simp only at hp
      refine Sat.pure ⟨⟨he.span, trivial⟩, ?_⟩
      cases hop : h.opn with
      | doc =>
        left
        cases hbt
        exact ⟨rfl, rfl, rfl, by omega, rfl, h.rest, by first | rfl | exact hx⟩
      | @cons c2 _ st2 hc hf ho =>
        right
        refine ⟨(c2 :: st2).map (pubC p.prePass), false, e.span.stop, es.length * unit p.src, ?_, ?_, .inr (.inr ⟨pubC_ne_caption c, rfl, .inr ⟨rfl, by omega, rfl⟩⟩),
          h.to rfl rfl rfl rfl ho ?_ hbt (by first | rfl | exact hx) rfl rfl⟩
        · omega
        · simp only [List.map_cons, place1, if_true]
        · intro hd st3 heq
          injection heq with h1 h2
          subst h1
          cases c <;> cases hc
  | @leaf c st' n' l e inl x es he hc hch hx hbt =>
    subst hS
    rw [hB, List.cons_append, List.length_cons, len_mul] at hm
    simp only [List.cons_append, he.kind]
    unfold Parser.nodeContainer
    obtain ⟨ip, hip, hleaf⟩ := leafContainer_sat p h.rest l true
    simp only [hleaf, Bind.bind, Except.bind]
    have hpend : Pend p.src (c :: st') n0 n { p with inlineParser := ip, verbatim := if l.isFed then p.verbatim else true } := h.pend
    obtain ⟨attrs, sp, t1, t2, t3, t4, t5⟩ := AtBlock.take hpend he.span he.lo
    rw [t1]
    simp only
    have hplace : place1 ((c :: st').map (pubC p.prePass)) (.start (pubL p.prePass p.tableHeadRow l) attrs) = some (pubL p.prePass p.tableHeadRow l :: (c :: st').map (pubC p.prePass)) := by
      simp only [List.map_cons, place1]
      rw [mayHold_leaf hc (fun hd heq => h.row hd st' (by rw [heq]))]
      rfl
    have hv : (if l.isFed then p.verbatim else true) = !l.isFed := by
      rw [h.verb]; cases l.isFed <;> rfl
    have hlen : (inl ++ x :: es).length * unit p.src < m := by omega
    have hn0 : n0 ≤ n := by
      have hp := h.pend
      unfold Pend at hp
      split at hp
      · exact hp
      · rename_i a sp _
        have := hp.2.2.1.le; have := hp.1; have := hp.2.1
        omega
    refine Sat.pure ⟨⟨t3, t2, fun cls hcl => absurd hcl (pubL_div cls)⟩, .inr ?_⟩
    by_cases hcap : l = .caption
    · subst hcap
      rw [if_pos rfl] at hbt
      have := InvB.leaf (pre := p.prePass) (c0 := c) (st := st') (l := .caption) (n := n0) (lo := e.span.stop) (m := (inl ++ x :: es).length * unit p.src) (inl := inl) (x := x) (es := es)
        (p := { p with blocks := inl ++ x :: es, blockAttributes := none, inlineParser := ip, verbatim := if Block.Leaf.isFed .caption then p.verbatim else true })
        ⟨⟨rfl, rfl, h.com.defs, h.com.safe, h.com.bd⟩, hv, h.opn, h.row, rfl, hch, hx, by rw [if_pos rfl]; exact hbt.mono hn0, rfl⟩ hip (fun h => absurd rfl h) (Nat.le_refl _)
      exact ⟨_, true, n0, _, hlen, hplace, .inl ⟨attrs, rfl, rfl, rfl⟩, .base this⟩
    · rw [if_neg hcap] at hbt
      have hb : (l == Block.Leaf.caption) = false := by simpa using hcap
      have := InvB.leaf (pre := p.prePass) (c0 := c) (st := st') (l := l) (n := e.span.stop) (lo := e.span.stop) (m := (inl ++ x :: es).length * unit p.src) (inl := inl) (x := x) (es := es)
        (p := { p with blocks := inl ++ x :: es, blockAttributes := none, inlineParser := ip, verbatim := if l.isFed then p.verbatim else true })
        ⟨⟨rfl, rfl, h.com.defs, h.com.safe, h.com.bd⟩, hv, h.opn, h.row, rfl, hch, hx, by rw [if_neg hcap]; exact hbt, rfl⟩ hip (fun _ => Nat.le_refl _) (Nat.le_refl _)
      rw [hb] at this
      exact ⟨_, false, e.span.stop, _, hlen, hplace, .inr (.inr ⟨fun hh => hcap ((pubL_caption _ _).1 hh), rfl, .inr ⟨rfl, t4, t5.symm⟩⟩), .base this⟩

end Jotdown
