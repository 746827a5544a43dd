import Verif.Proofs.RoundCode
import Verif.Proofs.InlParse
/-! # Round trip: the destination of a link -/
namespace Jotdown.Round
open Jotdown Jotdown.Notation Jotdown.Lex

/-! ## Tokens of a destination -/

def urlKind : Kind → Bool
  | .text | .seq .period | .seq .hyphen | .sym .pipe | .sym .colon => true
  | _ => false

theorem countWhile_le {f : UInt8 → Bool} (hf : f (c! ')') = false) (r w : Bytes) : countWhile f (r ++ c! ')' :: w) ≤ r.length := by
  induction r with
  | nil => simp [countWhile, hf]
  | cons c r ih =>
    unfold countWhile at ih ⊢
    rw [List.cons_append, List.takeWhile_cons, List.length_cons]
    split
    · rw [List.length_cons]; omega
    · simp

theorem hyphens_le (r w : Bytes) : hyphens (r ++ c! ')' :: w) ≤ r.length := by
  induction r with
  | nil => simp [hyphens]
  | cons c r ih =>
    rw [List.cons_append, List.length_cons]
    unfold hyphens
    split
    · split
      · omega
      · rename_i h _; cases h; omega
    · omega

theorem url_tok {r w : Bytes} (hr : ∀ c ∈ r, isUrl c = true) (hne : r ≠ []) :
    ∃ t, tokenAt false false (r ++ c! ')' :: w) = (some t, false) ∧ t.len ≤ r.length ∧ 0 < t.len ∧ urlKind t.kind = true := by
  cases r with
  | nil => exact absurd rfl hne
  | cons c r =>
    have hu := hr c (by simp)
    by_cases hs : isSpecial c = false
    · have h1 : 0 < countWhile (fun c => !isSpecial c) (c :: r ++ c! ')' :: w) := by simp [countWhile, hs]
      refine ⟨⟨.text, countWhile (fun c => !isSpecial c) (c :: r ++ c! ')' :: w)⟩, ?_, countWhile_le rfl _ _, h1, rfl⟩
      unfold tokenAt
      simp only [Bool.false_eq_true, if_false, h1, if_true]
    · have hhd : ∀ d, (r ++ c! ')' :: w).head? = some d → d ≠ c! '}' ∧ d ≠ c! '[' := by
        intro d hd
        cases r with
        | nil => simp at hd; subst hd; decide
        | cons b r =>
          simp at hd
          subst hd
          have := hr b (by simp)
          constructor <;> (rintro rfl; revert this; decide)
      have hb : (r ++ c! ')' :: w).head? ≠ some (c! '}') := fun h => (hhd _ h).1 rfl
      have hk : (r ++ c! ')' :: w).head? ≠ some (c! '[') := fun h => (hhd _ h).2 rfl
      have h0 : ∀ t : Kind × Nat, specialTok false c (r ++ c! ')' :: w) = (t, false) → countWhile (fun c => !isSpecial c) (c :: r ++ c! ')' :: w) = 0 →
          tokenAt false false (c :: r ++ c! ')' :: w) = (some ⟨t.1, t.2⟩, false) := by
        intro t ht h2
        unfold tokenAt
        rw [h2]
        simp only [Bool.false_eq_true, if_false, Nat.lt_irrefl, List.cons_append, ht]
      have h2 : countWhile (fun c => !isSpecial c) (c :: r ++ c! ')' :: w) = 0 := by
        simp at hs; simp [countWhile, hs]
      have hmb : ∀ k d, maybeCloseBrace (r ++ c! ')' :: w) k d = (k, 1) := by intro k d; unfold maybeCloseBrace; rw [if_neg hb]
      have hc : c = c! '.' ∨ c = c! ':' ∨ c = c! '-' ∨ c = c! '+' ∨ c = c! '=' ∨ c = c! '!' ∨ c = c! '|' := by
        simp only [Bool.not_eq_false] at hs
        simpa [isUrl, hs, or_assoc] using hu
      rcases hc with rfl | rfl | rfl | rfl | rfl | rfl | rfl
      · exact ⟨_, h0 (.seq .period, 1 + countWhile (· == c! '.') (r ++ c! ')' :: w)) rfl h2, by
          have := countWhile_le (f := (· == c! '.')) rfl r w; simp only [List.length_cons]; omega, by simp only; omega, rfl⟩
      · exact ⟨_, h0 (.sym .colon, 1) rfl h2, by simp, by simp, rfl⟩
      · refine ⟨_, h0 (.seq .hyphen, 1 + hyphens (r ++ c! ')' :: w)) ?_ h2, by have := hyphens_le r w; simp only [List.length_cons]; omega, by simp only; omega, rfl⟩
        have : specialTok false (c! '-') (r ++ c! ')' :: w) = if (r ++ c! ')' :: w).head? = some (c! '}') then ((.cls .braceHyphen, 2), false) else ((.seq .hyphen, 1 + hyphens (r ++ c! ')' :: w)), false) := rfl
        rw [this, if_neg hb]
      · refine ⟨_, h0 (.text, 1) ?_ h2, by simp, by simp, rfl⟩
        show (maybeCloseBrace _ _ _, false) = _
        rw [hmb]
      · refine ⟨_, h0 (.text, 1) ?_ h2, by simp, by simp, rfl⟩
        show (maybeCloseBrace _ _ _, false) = _
        rw [hmb]
      · refine ⟨_, h0 (.text, 1) ?_ h2, by simp, by simp, rfl⟩
        have : specialTok false (c! '!') (r ++ c! ')' :: w) = if (r ++ c! ')' :: w).head? = some (c! '[') then ((.sym .exclaimBracket, 2), false) else ((.text, 1), false) := rfl
        rw [this, if_neg hk]
      · exact ⟨_, h0 (.sym .pipe, 1) rfl h2, by simp, by simp, rfl⟩

theorem tok_paren (w : Bytes) : tokenAt false false (c! ')' :: w) = (some ⟨.cls .paren, 1⟩, false) := rfl

theorem texts_url {s : Bytes} {m : Nat} (ht : Texts false s m) : ∀ {r w : Bytes}, s = r ++ c! ')' :: w → (∀ c ∈ r, isUrl c = true) → m ≤ r.length := by
  induction ht with
  | nil => intros; omega
  | @cons s k e m h1 h2 ih =>
    rintro r w rfl hr
    cases hr0 : r with
    | nil => rw [hr0, List.nil_append, tok_paren] at h1; cases h1
    | cons c r' =>
      obtain ⟨t, g1, g2, g3, _⟩ := url_tok (w := w) hr (by rw [hr0]; simp)
      rw [h1] at g1
      cases g1
      simp only at g2
      have h5 := ih (r := r.drop k) (w := w) (by rw [List.drop_append_of_le_length g2]) (fun c hc => hr c (List.mem_of_mem_drop hc))
      rw [List.length_drop] at h5
      rw [← hr0]
      omega

/-- The next token of a destination. -/
theorem next_url {l : Lexer} {r w : Bytes} (h : At l false false (r ++ c! ')' :: w)) (hr : ∀ c ∈ r, isUrl c = true) (hne : r ≠ []) :
    ∃ t l', l.nextTok = (some t, l') ∧ At l' false false (r.drop t.len ++ c! ')' :: w) ∧ t.len ≤ r.length ∧ 0 < t.len ∧ urlKind t.kind = true ∧ (t.kind ≠ .text → l'.next = none) := by
  obtain ⟨t, h1, h2, h3, h4⟩ := url_tok (w := w) hr hne
  by_cases hk : t.kind = .text
  · obtain ⟨k, n⟩ := t
    simp only at hk h2 h3
    subst hk
    obtain ⟨m, l', n1, n2, n3⟩ := h.next_text h1
    have hm : m ≤ (r.drop n).length := texts_url n2 (by rw [List.drop_append_of_le_length h2]) (fun c hc => hr c (List.mem_of_mem_drop hc))
    rw [List.length_drop] at hm
    refine ⟨_, l', n1, ?_, by simp only; omega, by simp only; omega, rfl, by simp⟩
    rw [List.drop_append_of_le_length (by omega)] at n3
    exact n3
  · obtain ⟨l', n1, n2, n3⟩ := h.next_tok h1 hk
    rw [List.drop_append_of_le_length h2] at n2
    exact ⟨t, l', n1, n2, h2, h3, h4, fun _ => n3⟩

/-! ## Reading a destination -/

/-- The parser after the opening parenthesis. -/
def urlState (p0 : Inline.IP) (e : Nat) (image : Bool) (O : List (Inline.Opener × Nat)) (E : List Inline.Event) (l : Lexer) (sp : Span) : Inline.IP :=
  { p0 with
    openers := (.link e image true, p0.events.length + 1) :: O
    events := p0.events ++ [⟨.str, ⟨p0.input.span.stop, p0.input.span.stop + 1⟩⟩, ⟨.str, ⟨p0.input.span.stop + 1, p0.input.span.stop + 2⟩⟩] ++ E
    input := { p0.input with lexer := l, span := sp } }

/-- Within a destination, with `r` left. -/
def InUrl (p0 : Inline.IP) (e : Nat) (image : Bool) (O : List (Inline.Opener × Nat)) (stop : Nat) (W : Bytes) (p : Inline.IP) (r : Bytes) : Prop :=
  ∃ E l sp, p = urlState p0 e image O E l sp ∧ At l false false (r ++ c! ')' :: W) ∧ sp.stop + r.length = stop

theorem url_find {O : List (Inline.Opener × Nat)} {S : List Op} (h : O.map (·.1) = S.map Op.opener) {k : Kind} (hk : inert k = true) (e i : Nat) (image : Bool) :
    Inline.findOpener k ((Inline.Opener.link e image true, i) :: O) = none := by
  unfold Inline.findOpener
  rw [if_neg]
  · exact find_none h (fun o _ => inert_close hk o)
  · intro hc
    simp only [Inline.Opener.closedBy, decide_eq_true_eq] at hc
    rw [hc] at hk
    cases hk

theorem container_inert {p : Inline.IP} {t : Token} (h : Inline.findOpener t.kind p.openers = none) (hk : inert t.kind = true) : p.parseContainer t = .ok (p, none) := by
  unfold Inline.IP.parseContainer Inline.IP.tryClose
  rw [h, orElse_none]
  unfold Inline.IP.tryOpen
  rw [inert_open hk]

/-- Only more events. -/
def Grown (p q : Inline.IP) : Prop := ∃ E sp, q = { p with events := p.events ++ E, input := { p.input with span := sp } } ∧ sp.stop = p.input.span.stop

theorem Grown.refl (p : Inline.IP) : Grown p p := ⟨[], p.input.span, by simp, rfl⟩

theorem Grown.trans {p q r : Inline.IP} (h : Grown p q) (h' : Grown q r) : Grown p r := by
  obtain ⟨E, sp, rfl, h1⟩ := h
  obtain ⟨E', sp', rfl, h2⟩ := h'
  exact ⟨E ++ E', sp', by simp, h2.trans h1⟩

theorem Grown.push (p : Inline.IP) (k : Inline.EventKind) : Grown p (p.push k) := ⟨_, p.input.span, rfl, rfl⟩

theorem ellipses_grown (n : Nat) : ∀ p : Inline.IP, Grown p (p.ellipses n) := by
  induction n with
  | zero => exact fun p => Grown.refl p
  | succ n ih =>
    intro p
    unfold Inline.IP.ellipses
    refine Grown.trans ?_ (ih _)
    exact ⟨_, _, rfl, rfl⟩

theorem repeat_grown (a : Inline.Atom) (w n : Nat) : ∀ p : Inline.IP, Grown p (p.repeatAtom a w n) := by
  induction n with
  | zero => exact fun p => Grown.refl p
  | succ n ih =>
    intro p
    unfold Inline.IP.repeatAtom
    refine Grown.trans ?_ (ih _)
    exact ⟨_, _, rfl, rfl⟩

theorem parseAtom_url {p : Inline.IP} {t : Token} (hk : urlKind t.kind = true) {q : Inline.IP} {f : Inline.Flow} (h : finish (p.parseAtom t) = .ok (q, f)) : f = .cont ∧ Grown p q := by
  unfold Inline.IP.parseAtom at h
  by_cases h1 : t.kind = .seq .period
  · rw [if_pos h1] at h
    cases h
    exact ⟨rfl, (ellipses_grown _ p).trans (Grown.push _ _)⟩
  · rw [if_neg h1] at h
    by_cases h2 : t.kind = .seq .hyphen ∧ 2 ≤ t.len
    · rw [if_pos h2] at h
      unfold finish at h
      obtain ⟨r, h3, h4⟩ := bind_ok h
      obtain ⟨d, h5, h6⟩ := bind_ok h3
      cases h6
      cases h4
      exact ⟨rfl, (repeat_grown _ _ _ p).trans (repeat_grown _ _ _ _)⟩
    · rw [if_neg h2] at h
      have h3 : Inline.atomOf t.kind = none := by
        cases hkk : t.kind with
        | text => rfl
        | seq s => rfl
        | sym s => cases s <;> first | rfl | (rw [hkk] at hk; cases hk)
        | _ => rw [hkk] at hk; cases hk
      rw [h3] at h
      cases h
      exact ⟨rfl, Grown.push _ _⟩

theorem urlKind_inert {k : Kind} (h : urlKind k = true) : inert k = true := by
  cases k with
  | text => rfl
  | seq s => rfl
  | sym s => cases s <;> first | rfl | cases h
  | _ => cases h

theorem symbol_in {r w : Bytes} (h : (Inline.scanSymbol (r ++ c! ')' :: w)).2.1 = true) (hv : (Inline.scanSymbol (r ++ c! ')' :: w)).2.2 = true) : (Inline.scanSymbol (r ++ c! ')' :: w)).1 < r.length := by
  obtain ⟨h1, h2, h3⟩ := Inline.scanSymbol_ok h hv
  generalize (Inline.scanSymbol (r ++ c! ')' :: w)).1 = n at *
  rcases Nat.lt_or_ge n r.length with h4 | h4
  · exact h4
  · exfalso
    have h5 : (r ++ c! ')' :: w)[r.length]? = some (c! ')') := by simp
    rcases Nat.eq_or_lt_of_le h4 with h6 | h6
    · rw [← h6, h5] at h2; exact absurd h2 (by decide)
    · have := h3 (c! ')') (List.mem_of_getElem? (i := r.length) (by rw [List.getElem?_take, if_pos h6, h5]))
      revert this; decide

theorem Grown.url {p0 : Inline.IP} {e : Nat} {image : Bool} {O : List (Inline.Opener × Nat)} {E : List Inline.Event} {l : Lexer} {sp : Span} {q : Inline.IP}
    (h : Grown (urlState p0 e image O E l sp) q) : ∃ E' sp', q = urlState p0 e image O E' l sp' ∧ sp'.stop = sp.stop := by
  obtain ⟨E', sp', rfl, h1⟩ := h
  exact ⟨E ++ E', sp', by simp [urlState], h1⟩

theorem url_step {p0 : Inline.IP} {e : Nat} {image : Bool} {O : List (Inline.Opener × Nat)} {S : List Op} (hO : O.map (·.1) = S.map Op.opener) (hv : p0.verbatim = none) (ha : p0.attributes = none)
    {stop : Nat} {W : Bytes} {p : Inline.IP} {r : Bytes} (h : InUrl p0 e image O stop W p r) (hr : ∀ c ∈ r, isUrl c = true) (hne : r ≠ [])
    {q : Inline.IP} {f : Inline.Flow} (hp : p.parseEvent = .ok (q, f)) : f = .cont ∧ ∃ k, InUrl p0 e image O stop W q (r.drop k) := by
  obtain ⟨E, l, sp, rfl, hl, hs⟩ := h
  obtain ⟨t, l', n1, n2, n3, n4, n5, n6⟩ := next_url hl hr hne
  rw [parse_some (p := urlState p0 e image O E l sp) n1] at hp
  have he : eaten (urlState p0 e image O E l sp) t l' = urlState p0 e image O E l' ⟨sp.stop, sp.stop + t.len⟩ := rfl
  rw [he] at hp
  have hc : ∀ lx spx, (urlState p0 e image O E lx spx).parseContainer t = .ok (urlState p0 e image O E lx spx, none) := fun lx spx =>
    container_inert (url_find hO (urlKind_inert n5) _ _ _) (urlKind_inert n5)
  have hlen : sp.stop + t.len + (r.drop t.len).length = stop := by rw [List.length_drop]; omega
  have atom : finish ((urlState p0 e image O E l' ⟨sp.stop, sp.stop + t.len⟩).parseAtom t) = .ok (q, f) → f = .cont ∧ ∃ k, InUrl p0 e image O stop W q (r.drop k) := by
    intro h
    obtain ⟨rfl, hg⟩ := parseAtom_url n5 h
    obtain ⟨E', sp', rfl, h2⟩ := hg.url
    exact ⟨rfl, t.len, E', l', sp', rfl, n2, by rw [h2]; exact hlen⟩
  by_cases hcol : t.kind = .sym .colon
  · obtain ⟨k, n⟩ := t
    simp only at hcol n6
    subst hcol
    unfold Inline.IP.parseToken at hp
    rw [no_verbatim (p := urlState _ _ _ _ _ _ _) hv (by simp), orElse_none, no_attributes (p := urlState _ _ _ _ _ _ _) ha (by simp), orElse_none, no_autolink (by simp), orElse_none] at hp
    cases hs2 : (urlState p0 e image O E l' ⟨sp.stop, sp.stop + n⟩).parseSymbol ⟨.sym .colon, n⟩ with
    | error e => rw [hs2] at hp; cases hp
    | ok s =>
      have hs3 := hs2
      unfold Inline.IP.parseSymbol at hs3
      rw [if_pos rfl] at hs3
      obtain ⟨a, ha1, hs4⟩ := bind_ok hs3
      have hnx := n6 (by simp)
      have haa : a = r.drop n ++ c! ')' :: W := ahead_rest n2 hnx ha1
      subst haa
      by_cases hval : ((Inline.scanSymbol (r.drop n ++ c! ')' :: W)).2.1 && (Inline.scanSymbol (r.drop n ++ c! ')' :: W)).2.2) = true
      · rw [if_pos hval] at hs4
        simp only [Bool.and_eq_true] at hval
        have hlt := symbol_in hval.1 hval.2
        generalize (Inline.scanSymbol (r.drop n ++ c! ')' :: W)).1 = m at hs4 hlt
        rw [List.length_drop] at hlt
        unfold Inline.IP.pushNamed at hs4
        obtain ⟨l2, h1, hs5⟩ := bind_ok hs4
        obtain ⟨v, h2, hs6⟩ := bind_ok hs5
        have hl2 := skip_rest n2 hnx h1
        rw [List.drop_append_of_le_length (by rw [List.length_drop]; simp only; omega), List.drop_drop] at hl2
        cases hs6
        rw [hs2, orElse_some, orElse_some, orElse_some] at hp
        cases hp
        refine ⟨rfl, n + (m + 1), E ++ [⟨.atom (.symbol v), ⟨sp.stop, sp.stop + n + m + 1⟩⟩], l2, ⟨sp.stop, sp.stop + n + m + 1⟩, ?_, hl2, ?_⟩
        · simp [urlState, Inline.IP.push, Inline.IP.pushSp]
        · rw [List.length_drop]; simp only; omega
      · rw [if_neg hval] at hs4
        cases hs4
        rw [hs2, orElse_none, no_footnote (by simp), orElse_none, hc, orElse_none] at hp
        exact atom hp
  · have hd : direct t.kind = true := by
      cases hk : t.kind with
      | text => rfl
      | seq s => cases s <;> first | rfl | (rw [hk] at n5; cases n5)
      | sym s => cases s <;> first | rfl | exact absurd hk hcol | (rw [hk] at n5; cases n5)
      | _ => rw [hk] at n5; cases n5
    rw [parseToken_direct (p := urlState _ _ _ _ _ _ _) hv ha hd, hc, orElse_none] at hp
    exact atom hp

/-- The closing parenthesis. -/
theorem url_close {src : Bytes} {p0 : Inline.IP} {e : Nat} {image : Bool} {O : List (Inline.Opener × Nat)} (hv : p0.verbatim = none) (ha : p0.attributes = none) (hsrc : p0.input.src = src)
    (hln : p0.input.spanLine.start ≤ p0.input.span.stop) (he : e < p0.events.length) {url W w : Bytes} (hpos : src.drop p0.input.span.stop = [c! ']', c! '('] ++ (url ++ c! ')' :: w))
    {p : Inline.IP} (h : InUrl p0 e image O (p0.input.span.stop + 2 + url.length) W p [])
    (hnb : ∀ l, At l false false W → NoBrace l)
    {q : Inline.IP} {f : Inline.Flow} (hp : p.parseEvent = .ok (q, f)) : f = .cont ∧ ∃ l, At l false false W ∧ q = { p0 with
      openers := O
      storeCowstrs := p0.storeCowstrs ++ [url]
      events := setC p0.events e (Inline.linkContainer image true p0.storeCowstrs.length) ++
        [⟨.exit (Inline.linkContainer image true p0.storeCowstrs.length), ⟨p0.input.span.stop, p0.input.span.stop + 2 + url.length + 1⟩⟩]
      input := { p0.input with lexer := l, span := ⟨p0.input.span.stop + 2 + url.length, p0.input.span.stop + 2 + url.length + 1⟩ } } := by
  obtain ⟨E, l, sp, rfl, hl, hs⟩ := h
  rw [List.nil_append] at hl
  rw [List.length_nil, Nat.add_zero] at hs
  obtain ⟨l', n1, n2, _⟩ := hl.next_tok (tok_paren W) (by simp)
  rw [parse_some (p := urlState p0 e image O E l sp) n1] at hp
  have hee : eaten (urlState p0 e image O E l sp) ⟨.cls .paren, 1⟩ l' = urlState p0 e image O E l' ⟨sp.stop, sp.stop + 1⟩ := rfl
  rw [hee, hs] at hp
  rw [parseToken_direct (p := urlState _ _ _ _ _ _ _) hv ha rfl] at hp
  have key : ∀ r, (urlState p0 e image O E l' ⟨p0.input.span.stop + 2 + url.length, p0.input.span.stop + 2 + url.length + 1⟩).tryClose ⟨.cls .paren, 1⟩ = .ok r → r = ({ p0 with
      openers := O
      storeCowstrs := p0.storeCowstrs ++ [url]
      events := setC p0.events e (Inline.linkContainer image true p0.storeCowstrs.length) ++
        [⟨.exit (Inline.linkContainer image true p0.storeCowstrs.length), ⟨p0.input.span.stop, p0.input.span.stop + 2 + url.length + 1⟩⟩]
      input := { p0.input with lexer := l'.peek.2, span := ⟨p0.input.span.stop + 2 + url.length, p0.input.span.stop + 2 + url.length + 1⟩ } }, some .cont) := by
    intro r hr
    unfold Inline.IP.tryClose at hr
    have hf : Inline.findOpener (.cls .paren) (urlState p0 e image O E l' ⟨p0.input.span.stop + 2 + url.length, p0.input.span.stop + 2 + url.length + 1⟩).openers =
        some ((.link e image true, p0.events.length + 1), O) := by
      show Inline.findOpener _ (_ :: O) = _
      unfold Inline.findOpener
      rw [if_pos (by simp [Inline.Opener.closedBy])]
    simp only [hf] at hr
    obtain ⟨e', h1, hr1⟩ := bind_ok hr
    clear hr
    simp only [Inline.openerEvents] at h1
    obtain ⟨e1, _, h1b⟩ := bind_ok h1
    cases h1b
    obtain ⟨last, h2, hr⟩ := bind_ok hr1
    clear hr1
    rw [if_neg (by simp [Inline.Opener.isLinkOrSpan]), if_neg (by simp [Inline.Opener.bidirectional])] at hr
    unfold Inline.IP.closeOpener at hr
    simp only [Inline.DelimEventKind.ofOpener] at hr
    obtain ⟨p1, h3, hr2⟩ := bind_ok hr
    clear hr
    unfold Inline.IP.closeLink at h3
    obtain ⟨spec, h4, h5⟩ := bind_ok h3
    obtain ⟨evs, h6, h7⟩ := bind_ok h5
    obtain ⟨i, h8, h9⟩ := bind_ok h7
    obtain ⟨ev, h10, h11⟩ := bind_ok h9
    clear h3 h5 h7 h9
    -- the destination
    have hspec : spec = url := by
      unfold Inline.IP.linkSpec at h4
      obtain ⟨eo, k1, k2⟩ := bind_ok h4
      have heo : eo = ⟨.str, ⟨p0.input.span.stop + 1, p0.input.span.stop + 2⟩⟩ := by
        unfold idx at k1
        simp only [urlState, List.append_assoc] at k1
        rw [List.getElem?_append_right (by omega)] at k1
        simp at k1
        exact k1.symm
      subst heo
      simp only [Bool.not_true, Bool.and_false, Bool.false_eq_true, if_false, urlState] at k2
      have hml : ¬ (p0.input.span.stop + 1 < p0.input.spanLine.start) := by omega
      simp only [hml, if_false] at k2
      rw [strSlice_take k2, hsrc, ← List.drop_drop, hpos]
      simp
    subst hspec
    obtain ⟨rfl, _⟩ := setKind_ok h6
    have hi : i = p0.events.length := by
      unfold csub at h8
      split at h8
      · cases h8; rfl
      · cases h8
    subst hi
    have hsetc : ∀ X : List Inline.Event, setC (p0.events ++ X) e (Inline.linkContainer image true p0.storeCowstrs.length) = setC p0.events e (Inline.linkContainer image true p0.storeCowstrs.length) ++ X := by
      intro X
      unfold setC
      rw [List.getElem?_append_left he, List.getElem?_eq_getElem he]
      simp only
      rw [List.set_append_left _ _ he]
    simp only [urlState, List.append_assoc] at h10 h11
    rw [hsetc] at h10 h11
    have hev : ev = ⟨.str, ⟨p0.input.span.stop, p0.input.span.stop + 1⟩⟩ := by
      unfold idx at h10
      rw [List.getElem?_append_right (by rw [setC_length]; omega), setC_length] at h10
      simp at h10
      exact h10.symm
    subst hev
    have hset : ((setC p0.events e (Inline.linkContainer image true p0.storeCowstrs.length) ++
        (([⟨.str, ⟨p0.input.span.stop, p0.input.span.stop + 1⟩⟩, ⟨.str, ⟨p0.input.span.stop + 1, p0.input.span.stop + 2⟩⟩] : List Inline.Event) ++ E)).set p0.events.length
          ⟨.exit (Inline.linkContainer image true p0.storeCowstrs.length), ⟨p0.input.span.stop, p0.input.span.stop + 2 + spec.length + 1⟩⟩).take (p0.events.length + 1) =
        setC p0.events e (Inline.linkContainer image true p0.storeCowstrs.length) ++
          [⟨.exit (Inline.linkContainer image true p0.storeCowstrs.length), ⟨p0.input.span.stop, p0.input.span.stop + 2 + spec.length + 1⟩⟩] := by
      have hsl := setC_length p0.events e (Inline.linkContainer image true p0.storeCowstrs.length)
      generalize setC p0.events e (Inline.linkContainer image true p0.storeCowstrs.length) = Q at *
      rw [← hsl, List.set_append_right _ _ (by omega), Nat.sub_self]
      simp only [List.cons_append, List.set_cons_zero]
      rw [List.take_length_add_append]
      rfl
    simp only [hset] at h11
    cases h11
    rw [afterClose_ok] at hr2
    · cases hr2
      rfl
    · exact hnb l' n2
  obtain ⟨rfl, rfl⟩ := finish_cont (c := fun p => p.parseContainer ⟨.cls .paren, 1⟩) (p := urlState p0 e image O E l' ⟨p0.input.span.stop + 2 + url.length, p0.input.span.stop + 2 + url.length + 1⟩) (P := { p0 with
      openers := O
      storeCowstrs := p0.storeCowstrs ++ [url]
      events := setC p0.events e (Inline.linkContainer image true p0.storeCowstrs.length) ++
        [⟨.exit (Inline.linkContainer image true p0.storeCowstrs.length), ⟨p0.input.span.stop, p0.input.span.stop + 2 + url.length + 1⟩⟩]
      input := { p0.input with lexer := l'.peek.2, span := ⟨p0.input.span.stop + 2 + url.length, p0.input.span.stop + 2 + url.length + 1⟩ } }) (fun r hr => by
    simp only [Inline.IP.parseContainer] at hr
    cases hc : (urlState p0 e image O E l' ⟨p0.input.span.stop + 2 + url.length, p0.input.span.stop + 2 + url.length + 1⟩).tryClose ⟨.cls .paren, 1⟩ with
    | error e => rw [hc] at hr; cases hr
    | ok r' =>
      rw [key r' hc] at hc
      rw [hc, orElse_some] at hr
      cases hr
      rfl) hp
  exact ⟨rfl, l'.peek.2, n2.peek.2, rfl⟩

/-- A destination is read to its end. -/
theorem url_fill {src : Bytes} {p0 : Inline.IP} {e : Nat} {image : Bool} {O : List (Inline.Opener × Nat)} {S : List Op} (hO : O.map (·.1) = S.map Op.opener) (hv : p0.verbatim = none)
    (ha : p0.attributes = none) (hsrc : p0.input.src = src)
    (hln : p0.input.spanLine.start ≤ p0.input.span.stop) (he : e < p0.events.length) {url W w : Bytes} (hpos : src.drop p0.input.span.stop = [c! ']', c! '('] ++ (url ++ c! ')' :: w))
    (hnb : ∀ l, At l false false W → NoBrace l) (fuel : Nat) : ∀ {p : Inline.IP} {r : Bytes}, InUrl p0 e image O (p0.input.span.stop + 2 + url.length) W p r → (∀ c ∈ r, isUrl c = true) →
    ∀ {R : Inline.IP × Bool}, p.fill fuel = .ok R → ∃ fuel' l, fuel' < fuel ∧ At l false false W ∧ ({ p0 with
      openers := O
      storeCowstrs := p0.storeCowstrs ++ [url]
      events := setC p0.events e (Inline.linkContainer image true p0.storeCowstrs.length) ++
        [⟨.exit (Inline.linkContainer image true p0.storeCowstrs.length), ⟨p0.input.span.stop, p0.input.span.stop + 2 + url.length + 1⟩⟩]
      input := { p0.input with lexer := l, span := ⟨p0.input.span.stop + 2 + url.length, p0.input.span.stop + 2 + url.length + 1⟩ } } : Inline.IP).fill fuel' = .ok R := by
  induction fuel with
  | zero => intro p r h hr R hp; cases hp
  | succ fuel ih =>
    intro p r h hr R hp
    unfold Inline.IP.fill at hp
    have hm : p.needMore = true := by
      obtain ⟨E, l, sp, rfl, _⟩ := h
      simp [Inline.IP.needMore, urlState]
    rw [if_pos hm] at hp
    obtain ⟨⟨q, f⟩, h1, hp1⟩ := bind_ok hp
    clear hp
    cases r with
    | nil =>
      obtain ⟨rfl, l, hl, rfl⟩ := url_close hv ha hsrc hln he hpos h hnb h1
      exact ⟨fuel, l, by omega, hl, hp1⟩
    | cons c r =>
      obtain ⟨rfl, k, h2⟩ := url_step hO hv ha h hr (by simp) h1
      obtain ⟨fuel', l, g1, g2, g3⟩ := ih h2 (fun c hc => hr c (List.mem_of_mem_drop hc)) hp1
      exact ⟨fuel', l, by omega, g2, g3⟩

theorem tok_lparen (w : Bytes) : tokenAt false false (c! '(' :: w) = (some ⟨.opn .paren, 1⟩, false) := rfl

/-- The bracket that closes the text and the parenthesis after it. -/
theorem link_open {src : Bytes} {p : Inline.IP} {x : Ctx} {S : List Op} {image : Bool} {url : Bytes} {T : List F} {Ts : List (List F)} {ls : List Span}
    (h : Live src p x (.link image url :: S) (.cls (.link image url) :: T) Ts ls) (hx : x.free = true)
    {e : Nat} {O : List (Inline.Opener × Nat)} (ho : p.openers = ((Op.link image url).opener, e) :: O)
    {q : Inline.IP} {f : Inline.Flow} (hp : p.parseEvent = .ok (q, f)) : f = .cont ∧ InUrl p (e + 1) image O (p.input.span.stop + 2 + url.length) (fprint T) q url := by
  obtain ⟨hv, hlex⟩ := h.noVerb hx
  obtain ⟨l', n1, n20, n3⟩ := hlex.next_tok (tok_of hx h.wf (by simp) (by simp) h.nobsl) (kind_text hx h.wf (by simp) (by simp)).1
  have n2 : At l' false false (c! '(' :: (url ++ c! ')' :: fprint T)) := by
    have hd : (fprint (F.cls (.link image url) :: T)).drop (F.cls (.link image url)).tok = c! '(' :: (url ++ c! ')' :: fprint T) := by
      show (c! '(' :: (url ++ [c! ')'])) ++ fprint T = _
      simp
    have n2 := n20
    rw [hd] at n2
    exact n2
  rw [parse_some n1] at hp
  have hk : F.kind (.cls (.link image url)) = .cls .bracket := rfl
  have ht : F.tok (.cls (.link image url)) = 1 := rfl
  rw [hk, ht] at hp
  rw [parseToken_direct (p := eaten p _ _) hv h.attr rfl] at hp
  obtain ⟨l2, m1, m2, _⟩ := n2.peek.2.next_tok (tok_lparen _) (by simp)
  have hpk : ((eaten p ⟨.cls .bracket, 1⟩ l').input.peekKind).1 = some (.opn .paren) := by
    unfold Inline.Input.peekKind Inline.Input.peek
    show (l'.peek.1).map _ = _
    rw [n2.peek.1]
    rfl
  have key : ∀ r, (eaten p ⟨.cls .bracket, 1⟩ l').tryClose ⟨.cls .bracket, 1⟩ = .ok r → r = (urlState p (e + 1) image O [] l2 ⟨p.input.span.stop + 1, p.input.span.stop + 2⟩, some .cont) := by
    intro r hr
    unfold Inline.IP.tryClose at hr
    have hf : Inline.findOpener (.cls .bracket) (eaten p ⟨.cls .bracket, 1⟩ l').openers = some (((Op.link image url).opener, e), O) := find_top (p := eaten p _ _) (o := .link image url) ho
    simp only [hf, events_op] at hr
    obtain ⟨e', h1, hr1⟩ := bind_ok hr
    clear hr
    cases h1
    obtain ⟨last, h2, hr⟩ := bind_ok hr1
    clear hr1
    rw [if_neg (by simp [Inline.Opener.isLinkOrSpan, Op.opener]), if_neg (by simp [Inline.Opener.bidirectional, Op.opener])] at hr
    unfold Inline.IP.closeOpener at hr
    have hof : Inline.DelimEventKind.ofOpener (Op.link image url).opener = .span (if image then .image else .general) := rfl
    rw [hof] at hr
    simp only at hr
    have hpk' : (({ eaten p ⟨.cls .bracket, 1⟩ l' with openers := O } : Inline.IP).input.peekKind).1 = some (.opn .paren) := hpk
    rw [if_neg (by rw [hpk']; simp), if_pos hpk'] at hr
    cases hr
    unfold Inline.IP.openLink
    have heat : (Inline.Input.eat (Inline.Input.resetSpan (({ eaten p ⟨.cls .bracket, 1⟩ l' with openers := O } : Inline.IP).input.peekKind).2)) =
        (some ⟨.opn .paren, 1⟩, { p.input with lexer := l2, span := ⟨p.input.span.stop + 1, p.input.span.stop + 2⟩ }) := by
      have := eat_some (i := (({ eaten p ⟨.cls .bracket, 1⟩ l' with openers := O } : Inline.IP).input.peekKind).2) m1
      rw [this]
      rfl
    simp only [heat]
    have hi : ((if image = true then Inline.SpanType.image else Inline.SpanType.general) == Inline.SpanType.image) = image := by cases image <;> rfl
    rw [hi]
    simp only [urlState, List.append_nil]
    rfl
  obtain ⟨rfl, rfl⟩ := finish_cont (c := fun p => p.parseContainer ⟨.cls .bracket, 1⟩) (p := eaten p ⟨.cls .bracket, 1⟩ l')
    (P := urlState p (e + 1) image O [] l2 ⟨p.input.span.stop + 1, p.input.span.stop + 2⟩) (fun r hr => by
    simp only [Inline.IP.parseContainer] at hr
    cases hc : (eaten p ⟨.cls .bracket, 1⟩ l').tryClose ⟨.cls .bracket, 1⟩ with
    | error e => rw [hc] at hr; cases hr
    | ok r' =>
      rw [key r' hc] at hc
      rw [hc, orElse_some] at hr
      cases hr
      rfl) hp
  exact ⟨rfl, [], l2, _, rfl, m2, rfl⟩

theorem outer_link (st : List Bytes) (url : Bytes) (image : Bool) : outer (st ++ [url]) (Inline.linkContainer image true st.length) = linkTo image url := by
  cases image <;> simp [Inline.linkContainer, outer]

theorem simple_link (n : Nat) (image : Bool) : simple (n + 1) (Inline.linkContainer image true n) = true := by
  cases image <;> simp [Inline.linkContainer, simple]

/-- A link or image is closed. -/
theorem link_ok {src : Bytes} {p : Inline.IP} {x : Ctx} {S : List Op} {image : Bool} {url : Bytes} {T : List F} {Ts : List (List F)} {ls : List Span}
    (h : Live src p x S (.cls (.link image url) :: T) Ts ls) {q : Inline.IP} {f : Inline.Flow} (hp : p.parseEvent = .ok (q, f)) :
    f = .cont ∧ ∀ {fuel : Nat} {R : Inline.IP × Bool}, q.fill fuel = .ok R → ∃ fuel' p' x' S', fuel' < fuel ∧ Live src p' x' S' T Ts ls ∧
      total src p' S' T Ts = total src p S (.cls (.link image url) :: T) Ts ∧ p'.fill fuel' = .ok R := by
  obtain ⟨hx, hok, S', rfl, hw⟩ : x.free = true ∧ (∀ c ∈ url, isUrl c = true) ∧ ∃ S', S = .link image url :: S' ∧ okF .other S' (T ++ Ts.flatten) := h.wf
  obtain ⟨hv, _⟩ := h.noVerb hx
  obtain ⟨e, O, ho, hops, he1, _, hO⟩ := h.top
  obtain ⟨rfl, hin⟩ := link_open h hx ho hp
  refine ⟨rfl, ?_⟩
  intro fuel R hf
  obtain ⟨w, hpw⟩ := h.pos
  have hpos : src.drop p.input.span.stop = [c! ']', c! '('] ++ (url ++ c! ')' :: (fprint T ++ w)) := by rw [hpw]; simp [F.print, Op.closes]
  obtain ⟨fuel', l, g1, g2, g3⟩ := url_fill hops hv h.attr h.hsrc h.ln he1 hpos (fun l hl => h.noBrace (x' := .other) rfl hw hl) fuel hin hok hf
  refine ⟨fuel', _, .other, S', g1, ?_, ?_, g3⟩
  · have hlen : (Op.link image url).closes.length = 2 + url.length + 1 := by simp [Op.closes]; omega
    have hstop : p.input.span.stop + 2 + url.length + 1 = p.input.span.stop + (Op.link image url).closes.length := by rw [hlen]; omega
    refine h.adv (z := (Op.link image url).closes) rfl (by simp) rfl h.attr rfl rfl hstop rfl g2 (by simp) (fun _ => ⟨[c! ']', c! '('] ++ url, c! ')', by simp [Op.closes], rfl⟩) hops ?_ ?_ hv ?_ ?_ hw (notNl_br (by simp)) (by simp)
    · intro o' ho'
      have := hO o' ho'
      simp only [List.length_append, setC_length]; omega
    · intro _ o' ho'
      have := hO o' ho'
      simp only [List.length_append, setC_length, List.length_singleton]; omega
    · simp only [List.length_append, List.length_singleton]
      rw [hstop]
      have hs := simple_link p.storeCowstrs.length image
      exact ((h.q.mono (Nat.le_succ _)).setC hs).push (k := .exit _) hs (by simp) (by omega)
    · intro e he hk
      simp only [List.getLast?_append, List.getLast?_singleton, Option.some_or, Option.some.injEq] at he
      subst he
      cases hk
  · have hmono : p.events.map (rawEv src (p.storeCowstrs ++ [url])) = p.events.map (rawEv src p.storeCowstrs) := by
      apply List.map_congr_left
      intro ev hev
      exact rawEv_mono (h.q.kinds ev hev) _
    refine Eq.trans (total_none (by first | exact (h.noVerb hx).1 | exact hv) (okF_notMath hw (by simp))) (Eq.trans ?_ (total_none (h.noVerb hx).1 (okF_notMath h.wf (free_notDol hx))).symm)
    rw [ho]
    simp only [resolve, List.map_append, List.map_cons, List.map_nil]
    rw [setC_map he1, outer_link, hmono, resolve_append (by simpa using hO), List.flatten_append, List.append_assoc]
    apply joined_congr
    simp [rawEv, F.raw, outer_link, Op.starts, Op.ends]

end Jotdown.Round
