import Verif.Proofs.RoundTok
/-! # Round trip: the parser on the tokens -/
namespace Jotdown.Round
open Jotdown Jotdown.Notation Jotdown.Lex

theorem eat_some {i : Inline.Input} {t : Token} {l' : Lexer} (h : i.lexer.nextTok = (some t, l')) :
    i.resetSpan.eat = (some t, { i with lexer := l', span := ⟨i.span.stop, i.span.stop + t.len⟩ }) := by
  unfold Inline.Input.eat Inline.Input.resetSpan
  simp only [h]

theorem eat_none {i : Inline.Input} {l' : Lexer} (h : i.lexer.nextTok = (none, l')) :
    i.resetSpan.eat = (none, { i with lexer := l', span := ⟨i.span.stop, i.span.stop⟩ }) := by
  unfold Inline.Input.eat Inline.Input.resetSpan
  simp only [h]

/-- The parser after eating a token. -/
def eaten (p : Inline.IP) (t : Token) (l' : Lexer) : Inline.IP :=
  { p with input := { p.input with lexer := l', span := ⟨p.input.span.stop, p.input.span.stop + t.len⟩ } }

theorem parse_some {p : Inline.IP} {t : Token} {l' : Lexer} (h : p.input.lexer.nextTok = (some t, l')) : p.parseEvent = (eaten p t l').parseToken t := by
  unfold Inline.IP.parseEvent
  rw [eat_some h]
  rfl

theorem parse_none {p : Inline.IP} {l' : Lexer} (h : p.input.lexer.nextTok = (none, l')) :
    p.parseEvent = .ok ({ p with input := { p.input with lexer := l', span := ⟨p.input.span.stop, p.input.span.stop⟩ } }, if p.input.last then .done else .next) := by
  unfold Inline.IP.parseEvent
  rw [eat_none h]

@[simp] theorem orElse_none (p : Inline.IP) (f : Inline.IP → R (Inline.IP × Option Inline.Flow)) : Inline.orElse (.ok (p, none)) f = f p := rfl
@[simp] theorem orElse_some (p : Inline.IP) (fl : Inline.Flow) (f : Inline.IP → R (Inline.IP × Option Inline.Flow)) : Inline.orElse (.ok (p, some fl)) f = .ok (p, some fl) := rfl

/-- Tokens that only matter to containers and atoms. -/
def direct : Kind → Bool
  | .seq .backtick | .opn .brace | .opn .bracket | .sym .lt | .sym .colon => false
  | _ => true

theorem no_verbatim {p : Inline.IP} {t : Token} (hv : p.verbatim = none) (hk : t.kind ≠ .seq .backtick) : p.parseVerbatim t = .ok (p, none) := by
  unfold Inline.IP.parseVerbatim
  rw [hv]
  simp only
  rw [if_neg hk]

theorem no_attributes {p : Inline.IP} {t : Token} (ha : p.attributes = none) (hk : t.kind ≠ .opn .brace) : p.parseAttributes t = .ok (p, none) := by
  unfold Inline.IP.parseAttributes
  rw [if_neg hk, ha]
  rfl

theorem no_autolink {p : Inline.IP} {t : Token} (hk : t.kind ≠ .sym .lt) : p.parseAutolink t = .ok (p, none) := by
  unfold Inline.IP.parseAutolink; rw [if_neg hk]

theorem no_symbol {p : Inline.IP} {t : Token} (hk : t.kind ≠ .sym .colon) : p.parseSymbol t = .ok (p, none) := by
  unfold Inline.IP.parseSymbol; rw [if_neg hk]

theorem no_footnote {p : Inline.IP} {t : Token} (hk : t.kind ≠ .opn .bracket) : p.parseFootnoteReference t = .ok (p, none) := by
  unfold Inline.IP.parseFootnoteReference; rw [if_neg hk]

/-- What is done with the result. -/
def finish (r : R (Inline.IP × Option Inline.Flow)) : R (Inline.IP × Inline.Flow) := do
  let r ← r
  match r.2 with
  | some f => pure (r.1, f)
  | none => pure (r.1.push .str, .cont)

theorem parseToken_direct {p : Inline.IP} {t : Token} (hv : p.verbatim = none) (ha : p.attributes = none) (hk : direct t.kind = true) :
    p.parseToken t = finish (Inline.orElse (p.parseContainer t) (fun p => p.parseAtom t)) := by
  unfold Inline.IP.parseToken
  rw [no_verbatim hv (by intro h; rw [h] at hk; cases hk), orElse_none, no_attributes ha (by intro h; rw [h] at hk; cases hk), orElse_none,
    no_autolink (by intro h; rw [h] at hk; cases hk), orElse_none, no_symbol (by intro h; rw [h] at hk; cases hk), orElse_none,
    no_footnote (by intro h; rw [h] at hk; cases hk), orElse_none]
  rfl

theorem closedBy_op (o : Op) (k : Kind) : o.opener.closedBy k = decide (k ∈ o.closers) := by
  cases o with
  | mark m b => cases m <;> cases b <;> simp [Op.opener, Op.closers, Mark.quote, Op.closeKind, Mark.symbol, Mark.delim, Inline.Opener.closedBy]
  | link image url => cases image <;> simp [Op.opener, Op.closers, Op.closeKind, Inline.Opener.closedBy]

theorem closeKind_closers (o : Op) : o.closeKind ∈ o.closers := by
  cases o with
  | mark m b => cases m <;> cases b <;> simp [Op.closers, Mark.quote, Op.closeKind, Mark.symbol, Mark.delim]
  | link image url => cases image <;> simp [Op.closers]

theorem find_none {k : Kind} {O : List (Inline.Opener × Nat)} {S : List Op} (h : O.map (·.1) = S.map Op.opener) (hk : ∀ o ∈ S, k ∉ o.closers) : Inline.findOpener k O = none := by
  induction O generalizing S with
  | nil => rfl
  | cons o O ih =>
    cases S with
    | nil => simp at h
    | cons m S =>
      simp only [List.map_cons, List.cons.injEq] at h
      unfold Inline.findOpener
      rw [h.1, closedBy_op, ih h.2 (fun o ho => hk o (List.mem_cons_of_mem _ ho))]
      simp [hk m List.mem_cons_self]

theorem tryClose_none {p : Inline.IP} {S : List Op} (h : p.openers.map (·.1) = S.map Op.opener) {t : Token} (hk : ∀ o ∈ S, t.kind ∉ o.closers) : p.tryClose t = .ok (p, none) := by
  unfold Inline.IP.tryClose
  rw [find_none h hk]

/-- Tokens that close nothing and open nothing. -/
def inert : Kind → Bool
  | .text | .newline | .hardbreak | .escape | .nbsp | .seq _ | .sym .pipe | .sym .colon | .sym .lt => true
  | _ => false

theorem inert_close {k : Kind} (h : inert k = true) (o : Op) : k ∉ o.closers := by
  have key : ∀ k' ∈ o.closers, inert k' = false := by
    cases o with
    | mark m b => cases m <;> cases b <;> simp [Op.closers, Mark.quote, Op.closeKind, Mark.symbol, Mark.delim, inert]
    | link image url => simp [Op.closers, Op.closeKind, inert]
  intro hk
  rw [key k hk] at h
  cases h

theorem inert_open {k : Kind} (h : inert k = true) : Inline.Opener.fromToken k = none := by
  cases k with
  | sym s => cases s <;> first | rfl | cases h
  | _ => first | rfl | cases h

theorem container_none {p : Inline.IP} {S : List Op} (h : p.openers.map (·.1) = S.map Op.opener) {t : Token} (hk : inert t.kind = true) : p.parseContainer t = .ok (p, none) := by
  unfold Inline.IP.parseContainer
  rw [tryClose_none h (fun o _ => inert_close hk o), orElse_none]
  unfold Inline.IP.tryOpen
  rw [inert_open hk]

theorem parse_text {p : Inline.IP} {S : List Op} (h : p.openers.map (·.1) = S.map Op.opener) (hv : p.verbatim = none) (ha : p.attributes = none) (n : Nat) :
    p.parseToken ⟨.text, n⟩ = .ok (p.push .str, .cont) := by
  rw [parseToken_direct hv ha rfl, container_none h rfl]
  rfl

/-- Tokens of atoms. -/
def atomTok : Kind → Option Inline.Atom
  | .newline => some .softbreak
  | .hardbreak => some .hardbreak
  | .escape => some .escape
  | .nbsp => some .nbsp
  | _ => none

theorem parse_atom {p : Inline.IP} {S : List Op} (h : p.openers.map (·.1) = S.map Op.opener) (hv : p.verbatim = none) (ha : p.attributes = none) {k : Kind} (n : Nat) {a : Inline.Atom} (hk : atomTok k = some a) :
    p.parseToken ⟨k, n⟩ = .ok (p.push (.atom a), .cont) := by
  have h1 : direct k = true ∧ inert k = true := by cases k <;> first | exact ⟨rfl, rfl⟩ | cases hk
  rw [parseToken_direct hv ha h1.1, container_none h h1.2]
  cases k <;> first | (cases hk; rfl) | cases hk

theorem parse_dots {p : Inline.IP} {S : List Op} (h : p.openers.map (·.1) = S.map Op.opener) (hv : p.verbatim = none) (ha : p.attributes = none) {i : Nat} (hi : p.input.span = ⟨i, i + 3⟩) :
    p.parseToken ⟨.seq .period, 3⟩ = .ok ({ p with events := p.events ++ [⟨.atom .ellipsis, ⟨i, i + 3⟩⟩, ⟨.str, ⟨i + 3, i + 3⟩⟩], input := { p.input with span := ⟨i + 3, i + 3⟩ } }, .cont) := by
  rw [parseToken_direct hv ha rfl, container_none h rfl]
  have h1 : p.input.span.len / 3 = 1 := by rw [hi]; simp [Span.len]
  rw [orElse_none]
  unfold Inline.IP.parseAtom
  rw [if_pos rfl, h1]
  simp only [Inline.IP.ellipses, finish, Inline.IP.push, Inline.IP.pushSp, hi, bind, Except.bind, pure, Except.pure, List.append_assoc]
  rfl

theorem parse_dash {p : Inline.IP} {S : List Op} (h : p.openers.map (·.1) = S.map Op.opener) (hv : p.verbatim = none) (ha : p.attributes = none) {i : Nat} (em : Bool)
    (hi : p.input.span = ⟨i, i + if em then 3 else 2⟩) :
    p.parseToken ⟨.seq .hyphen, if em then 3 else 2⟩ = .ok ({ p with
      events := p.events ++ [⟨.atom (if em then .emDash else .enDash), p.input.span⟩]
      input := { p.input with span := ⟨p.input.span.stop, p.input.span.stop⟩ } }, .cont) := by
  rw [parseToken_direct hv ha rfl, container_none h rfl, orElse_none]
  unfold Inline.IP.parseAtom
  cases em
  · rw [if_neg (by simp), if_pos (by simp)]
    simp only [Bool.false_eq_true, if_false] at hi ⊢
    have hd : Inline.dashes 2 = .ok (0, 1) := rfl
    rw [hd]
    simp only [Inline.IP.repeatAtom, finish, Inline.IP.pushSp, hi, bind, Except.bind, pure, Except.pure]
  · rw [if_neg (by simp), if_pos (by simp)]
    simp only [if_true] at hi ⊢
    have hd : Inline.dashes 3 = .ok (1, 0) := rfl
    rw [hd]
    simp only [Inline.IP.repeatAtom, finish, Inline.IP.pushSp, hi, bind, Except.bind, pure, Except.pure]

theorem bidir_op (o : Op) : o.opener.bidirectional = true → ∃ m b, o = .mark m b ∧ (b = false ∨ m.quote = true) := by
  cases o with
  | mark m b => cases m <;> cases b <;> first | exact fun _ => ⟨_, _, rfl, .inl rfl⟩ | exact fun _ => ⟨_, _, rfl, .inr rfl⟩ | (intro h; cases h)
  | link image url => cases image <;> (intro h; cases h)

/-- The event of something that is open. -/
def Op.pending : Op → Inline.EventKind
  | .mark .single _ => .atom (.quote .single false)
  | .mark .double _ => .atom (.quote .double true)
  | _ => .str

theorem kind_op (o : Op) : Inline.openerKind o.opener = o.pending := by
  cases o with
  | mark m b => cases m <;> rfl
  | link image url => rfl
theorem single_op {o : Op} (h : o.opener = .singleQuoted) : ∃ b, o = .mark .single b := by
  cases o with
  | mark m b => cases m <;> first | exact ⟨b, rfl⟩ | (simp [Op.opener] at h; done)
  | link image url => simp [Op.opener] at h
theorem events_op (o : Op) (e : Nat) : Inline.openerEvents o.opener e = .ok (e, e + 1) := by
  cases o with
  | mark m b => cases m <;> rfl
  | link image url => rfl
theorem raw_inner (src : Bytes) (st : List Bytes) (m : Mark) (sp : Span) : rawEv src st ⟨m.inner, sp⟩ = [m.starts] := by cases m <;> rfl
theorem raw_outer (src : Bytes) (st : List Bytes) (m : Mark) (sp : Span) : rawEv src st ⟨m.outer, sp⟩ = [m.ends] := by cases m <;> rfl
theorem inner_ok (n : Nat) (m : Mark) : evOk n m.inner = true ∧ soft m.inner = false ∧ m.inner ≠ .str := by
  cases m <;> exact ⟨rfl, rfl, by simp [Mark.inner]⟩
theorem outer_ok (n : Nat) (m : Mark) : evOk n m.outer = true ∧ soft m.outer = false ∧ m.outer ≠ .placeholder := by
  cases m <;> exact ⟨rfl, rfl, by simp [Mark.outer]⟩
theorem notLink_mark (m : Mark) (b : Bool) : (Op.mark m b).opener.isLinkOrSpan = false := by cases m <;> rfl

/-- Delimiters without braces are of elements that can be written so. -/
def Op.good : Op → Bool
  | .mark m false => m.bare
  | _ => true

theorem fromToken_op {o : Op} (h : o.good = true) : Inline.Opener.fromToken o.openKind = some o.opener := by
  cases o with
  | mark m b => cases m <;> cases b <;> first | rfl | cases h
  | link image url => cases image <;> rfl

/-- The parser after an opening delimiter. -/
def pushOp (p : Inline.IP) (o : Op) : Inline.IP :=
  { p with
    openers := (o.opener, p.events.length) :: p.openers
    events := p.events ++ [⟨.placeholder, ⟨p.input.span.start, p.input.span.start⟩⟩, ⟨o.pending, p.input.span⟩] }

/-- A single quotation mark can open a quotation. -/
def SingleOk (p : Inline.IP) (o : Op) : Prop :=
  ∀ b, o = .mark .single b → (∀ e, p.events.getLast? = some e → e.kind ≠ .str) ∨ ∃ i c, p.input.span.start = i + 1 ∧ p.input.src[i]? = some c ∧ isWs c = true

theorem tryOpen_op {p : Inline.IP} {o : Op} (hg : o.good = true) (hso : SingleOk p o) {n : Nat} (hb : o.opener.bidirectional = true → ∀ a, p.input.lexer.ahead = .ok a → ∃ c, a.head? = some c ∧ isWs c = false)
    {r : Inline.IP × Option Inline.Flow} (hr : p.tryOpen ⟨o.openKind, n⟩ = .ok r) : r = (pushOp p o, some .cont) := by
  unfold Inline.IP.tryOpen at hr
  simp only [fromToken_op hg] at hr
  obtain ⟨a, h1, hr0⟩ := bind_ok hr
  clear hr
  rw [if_neg] at hr0
  rotate_left
  · intro hh
    simp only [Bool.and_eq_true] at hh
    obtain ⟨c, hc1, hc2⟩ := hb hh.1 a h1
    cases a with
    | nil => simp at hc1
    | cons d a => simp only [List.head?_cons, Option.some.injEq] at hc1; subst hc1; have := hh.2; simp only [hc2] at this; cases this
  obtain ⟨w, h2, hr⟩ := bind_ok hr0
  rw [if_neg, kind_op] at hr
  rotate_left
  · rintro ⟨h3, h4, h5⟩
    obtain ⟨b, rfl⟩ := single_op h3
    rcases hso b rfl with hl | ⟨i, c, hi, hc, hws⟩
    · cases hg : p.events.getLast? with
      | none => rw [hg] at h4; cases h4
      | some e =>
        rw [hg] at h4
        exact hl e hg (by simpa using h4)
    · unfold Inline.Input.wsBefore' at h2
      rw [if_pos (by omega)] at h2
      obtain ⟨c', h6, h7⟩ := bind_ok h2
      unfold idx at h6
      rw [hi, Nat.add_sub_cancel, hc] at h6
      cases h6
      cases h7
      rw [hws] at h5
      cases h5
  cases hr
  rfl

theorem openKind_close {o : Op} (hg : o.good = true) {S : List Op} (hS : ∀ m, o = .mark m false → o ∉ S ∧ (m.quote = true → .mark m true ∉ S)) : ∀ o' ∈ S, o.openKind ∉ o'.closers := by
  intro o' ho' he
  cases o with
  | mark m b =>
    cases b with
    | true =>
      cases o' with
      | mark m' b' => cases m' <;> cases b' <;> simp [Op.openKind, Op.closers, Mark.quote, Op.closeKind, Mark.symbol, Mark.delim] at he
      | link image url => simp [Op.openKind, Op.closers, Op.closeKind] at he
    | false =>
      have : o' = .mark m false ∨ (o' = .mark m true ∧ m.quote = true) := by
        cases o' with
        | mark m' b' => cases m <;> cases m' <;> cases b' <;> first | exact .inl rfl | exact .inr ⟨rfl, rfl⟩ | (simp [Op.openKind, Op.closers, Mark.quote, Op.closeKind, Mark.symbol, Mark.delim] at he; done) | cases hg
        | link image url => cases m <;> first | (simp [Op.openKind, Op.closers, Op.closeKind, Mark.symbol] at he; done) | cases hg
      rcases this with rfl | ⟨rfl, hq⟩
      · exact (hS m rfl).1 ho'
      · exact (hS m rfl).2 hq ho'
  | link image url =>
    cases image with
    | true =>
      cases o' with
      | mark m' b' => cases m' <;> cases b' <;> simp [Op.openKind, Op.closers, Mark.quote, Op.closeKind, Mark.symbol, Mark.delim] at he
      | link image url => simp [Op.openKind, Op.closers, Op.closeKind] at he
    | false =>
      cases o' with
      | mark m' b' => cases m' <;> cases b' <;> simp [Op.openKind, Op.closers, Mark.quote, Op.closeKind, Mark.symbol, Mark.delim] at he
      | link image url => simp [Op.openKind, Op.closers, Op.closeKind] at he

theorem finish_cont {p q : Inline.IP} {f : Inline.Flow} {c a : Inline.IP → R (Inline.IP × Option Inline.Flow)} {P : Inline.IP} (key : ∀ r, c p = .ok r → r = (P, some .cont))
    (hp : finish (Inline.orElse (c p) a) = .ok (q, f)) : f = .cont ∧ q = P := by
  cases hc : c p with
  | error e => rw [hc] at hp; cases hp
  | ok r =>
    rw [key r hc] at hc
    rw [hc, orElse_some] at hp
    cases hp
    exact ⟨rfl, rfl⟩

theorem container_open {p : Inline.IP} {S : List Op} (h : p.openers.map (·.1) = S.map Op.opener) {o : Op} (hg : o.good = true) (hS : ∀ m, o = .mark m false → o ∉ S ∧ (m.quote = true → .mark m true ∉ S)) (hso : SingleOk p o) {n : Nat}
    (hb : o.opener.bidirectional = true → ∀ a, p.input.lexer.ahead = .ok a → ∃ c, a.head? = some c ∧ isWs c = false)
    {r : Inline.IP × Option Inline.Flow} (hr : p.parseContainer ⟨o.openKind, n⟩ = .ok r) : r = (pushOp p o, some .cont) := by
  unfold Inline.IP.parseContainer at hr
  rw [tryClose_none h (openKind_close hg hS), orElse_none] at hr
  exact tryOpen_op hg hso hb hr

theorem direct_open {o : Op} (hg : o.good = true) (hl : ∀ url, o ≠ .link false url) : direct o.openKind = true := by
  cases o with
  | mark m b => cases m <;> cases b <;> first | rfl | cases hg
  | link image url => cases image <;> first | rfl | exact absurd rfl (hl url)

theorem parse_opn {p : Inline.IP} {S : List Op} (h : p.openers.map (·.1) = S.map Op.opener) (hv : p.verbatim = none) (ha : p.attributes = none) {o : Op} (hg : o.good = true) (hS : ∀ m, o = .mark m false → o ∉ S ∧ (m.quote = true → .mark m true ∉ S)) (hso : SingleOk p o)
    (hl : ∀ url, o ≠ .link false url) (n : Nat) (hb : o.opener.bidirectional = true → ∀ a, p.input.lexer.ahead = .ok a → ∃ c, a.head? = some c ∧ isWs c = false)
    {q : Inline.IP} {f : Inline.Flow} (hp : p.parseToken ⟨o.openKind, n⟩ = .ok (q, f)) : f = .cont ∧ q = pushOp p o := by
  rw [parseToken_direct hv ha (direct_open hg hl)] at hp
  exact finish_cont (c := fun p => p.parseContainer ⟨o.openKind, n⟩) (fun r hr => container_open h hg hS hso hb hr) hp

theorem parse_bracket {p : Inline.IP} {S : List Op} (h : p.openers.map (·.1) = S.map Op.opener) (hv : p.verbatim = none) (ha : p.attributes = none) (n : Nat) (url : Bytes)
    (hc : ∀ t, p.input.lexer.peek.1 = some t → t.kind ≠ .sym .caret)
    {q : Inline.IP} {f : Inline.Flow} (hp : p.parseToken ⟨.opn .bracket, n⟩ = .ok (q, f)) :
    f = .cont ∧ q = pushOp { p with input := { p.input with lexer := p.input.lexer.peek.2 } } (.link false url) := by
  have hf : p.parseFootnoteReference ⟨.opn .bracket, n⟩ = .ok ({ p with input := { p.input with lexer := p.input.lexer.peek.2 } }, none) := by
    unfold Inline.IP.parseFootnoteReference
    rw [if_pos rfl, if_neg]
    · rfl
    · unfold Inline.Input.peekKind Inline.Input.peek
      simp only
      intro h
      cases hx : p.input.lexer.peek.1 with
      | none => rw [hx] at h; cases h
      | some t =>
        rw [hx] at h
        simp only [Option.map_some, Option.some.injEq] at h
        exact hc t hx h
  unfold Inline.IP.parseToken at hp
  rw [no_verbatim hv (by simp), orElse_none, no_attributes ha (by simp), orElse_none, no_autolink (by simp), orElse_none, no_symbol (by simp), orElse_none, hf, orElse_none] at hp
  exact finish_cont (p := { p with input := { p.input with lexer := p.input.lexer.peek.2 } }) (c := fun p => p.parseContainer ⟨.opn .bracket, n⟩)
    (fun r hr => container_open (p := { p with input := { p.input with lexer := p.input.lexer.peek.2 } }) (o := .link false url) (S := S) h rfl (by simp) (by intro b hb; cases hb) (by intro h; cases h) hr) hp

/-- The next token is not a brace. -/
def NoBrace (l : Lexer) : Prop := ∀ t, l.peek.1 = some t → t.kind ≠ .opn .brace

theorem afterClose_ok {p : Inline.IP} (hb : NoBrace p.input.lexer) (o : Inline.Opener) (e : Nat) : p.afterClose o e = .ok ({ p with input := { p.input with lexer := p.input.lexer.peek.2 } }, some .cont) := by
  unfold Inline.IP.afterClose
  rw [if_neg]
  · rfl
  · unfold Inline.Input.peekKind Inline.Input.peek
    simp only
    intro h
    cases hx : p.input.lexer.peek.1 with
    | none => rw [hx] at h; cases h
    | some t =>
      rw [hx] at h
      simp only [Option.map_some, Option.some.injEq] at h
      exact hb t hx h

theorem setKind_set {Q evs : List Inline.Event} {i : Nat} {k : Inline.EventKind} (h : Inline.setKind Q i k = .ok evs) : evs = setK Q i k := by
  unfold Inline.setKind at h
  obtain ⟨x, h4, h⟩ := bind_ok h
  cases h
  unfold setK
  unfold idx at h4
  cases hx : Q[i]? with
  | none => simp [hx] at h4
  | some y => simp only [hx, Except.ok.injEq] at h4; subst h4; rfl

theorem setKind_ok {Q evs : List Inline.Event} {i : Nat} {c : Inline.Container} (h : Inline.setKind Q i (.enter c) = .ok evs) : evs = setC Q i c ∧ i < Q.length := by
  unfold Inline.setKind at h
  obtain ⟨x, h4, h⟩ := bind_ok h
  cases h
  unfold setC
  unfold idx at h4
  cases hx : Q[i]? with
  | none => simp [hx] at h4
  | some y => simp only [hx, Except.ok.injEq] at h4; subst h4; exact ⟨rfl, (List.getElem?_eq_some_iff.mp hx).1⟩

theorem direct_close (o : Op) : direct o.closeKind = true := by
  cases o with
  | mark m b => cases m <;> cases b <;> rfl
  | link image url => rfl

theorem find_top {p : Inline.IP} {o : Op} {e : Nat} {O : List (Inline.Opener × Nat)} (ho : p.openers = (o.opener, e) :: O) : Inline.findOpener o.closeKind p.openers = some ((o.opener, e), O) := by
  rw [ho]; unfold Inline.findOpener; rw [closedBy_op]; simp [closeKind_closers]

theorem closeOpener_mark (p : Inline.IP) (m : Mark) (b : Bool) (ea e : Nat) :
    p.closeOpener (Op.mark m b).opener ea e = (Inline.setKind p.events e m.inner >>= fun evs =>
      ({ p with events := evs ++ [Inline.Event.mk m.outer p.input.span] } : Inline.IP).afterClose (Op.mark m b).opener ea) := by
  cases m <;> cases b <;> rfl

theorem parse_cls {p : Inline.IP} {m : Mark} {b : Bool} {e : Nat} {O : List (Inline.Opener × Nat)} (ho : p.openers = ((Op.mark m b).opener, e) :: O) (hv : p.verbatim = none) (ha : p.attributes = none) (n : Nat)
    (he : e + 2 < p.events.length) (hb : NoBrace p.input.lexer) (hw : (Op.mark m b).opener.bidirectional = true → p.input.wsBefore = false)
    {q : Inline.IP} {f : Inline.Flow} (hp : p.parseToken ⟨(Op.mark m b).closeKind, n⟩ = .ok (q, f)) :
    f = .cont ∧ q = { p with
      openers := O
      events := setK p.events (e + 1) m.inner ++ [⟨m.outer, p.input.span⟩]
      input := { p.input with lexer := p.input.lexer.peek.2 } } := by
  rw [parseToken_direct hv ha (direct_close _)] at hp
  have key : ∀ r, p.tryClose ⟨(Op.mark m b).closeKind, n⟩ = .ok r → r = ({ p with
      openers := O
      events := setK p.events (e + 1) m.inner ++ [⟨m.outer, p.input.span⟩]
      input := { p.input with lexer := p.input.lexer.peek.2 } }, some .cont) := by
    intro r hr
    unfold Inline.IP.tryClose at hr
    simp only [find_top ho, events_op] at hr
    obtain ⟨e', h1, hr1⟩ := bind_ok hr
    clear hr
    cases h1
    obtain ⟨last, h2, hr⟩ := bind_ok hr1
    clear hr1
    have hl : last = p.events.length - 1 := by
      unfold csub at h2
      split at h2
      · cases h2; rfl
      · cases h2
    have hwb : ((Op.mark m b).opener.bidirectional && p.input.wsBefore) = false := by
      cases hd : (Op.mark m b).opener.bidirectional with
      | false => rfl
      | true => rw [hw hd]; rfl
    rw [if_neg (by rintro ⟨h3, _⟩; simp only at h3; omega), hwb] at hr
    simp only [Bool.false_eq_true, if_false] at hr
    rw [closeOpener_mark] at hr
    obtain ⟨evs, h3, hr2⟩ := bind_ok hr
    clear hr
    obtain rfl := setKind_set h3
    rw [afterClose_ok (p := { p with openers := O, events := setK p.events (e + 1) m.inner ++ [Inline.Event.mk m.outer p.input.span] }) hb] at hr2
    cases hr2
    rfl
  refine finish_cont (c := fun p => p.parseContainer ⟨(Op.mark m b).closeKind, n⟩) (fun r hr => ?_) hp
  simp only [Inline.IP.parseContainer] at hr
  cases hc : p.tryClose ⟨(Op.mark m b).closeKind, n⟩ with
  | error e => rw [hc] at hr; cases hr
  | ok r' =>
    rw [key r' hc] at hc
    rw [hc, orElse_some] at hr
    cases hr
    rfl

end Jotdown.Round
