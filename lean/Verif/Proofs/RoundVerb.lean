import Verif.Proofs.RoundParse
/-! # Round trip: verbatim text -/
namespace Jotdown.Round
open Jotdown Jotdown.Notation Jotdown.Lex

theorem dollar_none {p : Inline.IP} {r : Option Span}
    (hd : ∀ e, p.events.getLast? = some e → e.kind = .str → e.span.start ≤ e.span.stop ∧ (p.input.src[e.span.stop - 1]? = some (c! '$') →
      2 ≤ e.span.stop ∧ p.input.src[e.span.stop - 2]? = some (c! '\\'))) (h : p.dollarSpan = .ok r) : r = none := by
  unfold Inline.IP.dollarSpan at h
  split at h
  · cases h; rfl
  · rename_i e he
    split at h
    · rename_i hk
      obtain ⟨hlt, hd⟩ := hd e he hk
      split at h
      · obtain ⟨i, h1, h0⟩ := bind_ok h
        clear h
        obtain ⟨c, h2, h⟩ := bind_ok h0
        clear h0
        have hi : i = e.span.stop - 1 := by
          unfold csub at h1
          split at h1
          · cases h1; unfold Span.len; omega
          · cases h1
        subst hi
        split at h
        · rename_i hc
          subst hc
          have h3 : p.input.src[e.span.stop - 1]? = some (c! '$') := by
            unfold idx at h2
            split at h2
            · rename_i hx; cases h2; exact hx
            · cases h2
          obtain ⟨h4, h5⟩ := hd h3
          obtain ⟨ok, h6, h⟩ := bind_ok h
          unfold Inline.notEscaped at h6
          rw [if_pos h4] at h6
          obtain ⟨c', h7, h6⟩ := bind_ok h6
          unfold idx at h7
          rw [h5] at h7
          cases h7
          cases h6
          cases h
          rfl
        · cases h; rfl
      · cases h; rfl
    · cases h; rfl

/-- The state after opening verbatim text. -/
def opened (p : Inline.IP) (n : Nat) : Inline.IP :=
  { p with
    input := { p.input with lexer := { p.input.lexer with verbatim := true } }
    verbatim := some { eventOpener := p.events.length + 1, lenOpener := n }
    attributes := none
    events := p.events ++ [⟨.placeholder, ⟨p.input.span.start, p.input.span.start⟩⟩, ⟨.enter .verbatim, p.input.span⟩] }

theorem parse_tick {p : Inline.IP} (hv : p.verbatim = none) {n : Nat} (hn : n < 256)
    (hd : ∀ e, p.events.getLast? = some e → e.kind = .str → e.span.start ≤ e.span.stop ∧ (p.input.src[e.span.stop - 1]? = some (c! '$') →
      2 ≤ e.span.stop ∧ p.input.src[e.span.stop - 2]? = some (c! '\\')))
    {q : Inline.IP} {f : Inline.Flow} (hp : p.parseToken ⟨.seq .backtick, n⟩ = .ok (q, f)) : f = .cont ∧ q = opened p n := by
  have key : ∀ r, p.parseVerbatim ⟨.seq .backtick, n⟩ = .ok r → r = (opened p n, some .cont) := by
    intro r hr
    unfold Inline.IP.parseVerbatim at hr
    rw [hv] at hr
    simp only [if_true] at hr
    unfold Inline.IP.openVerbatim at hr
    simp only [hn, if_true] at hr
    obtain ⟨sp, h1, hr⟩ := bind_ok hr
    have := dollar_none hd h1
    subst this
    obtain ⟨r', h2, hr⟩ := bind_ok hr
    cases h2
    cases hr
    simp [opened, Inline.IP.push, Inline.IP.pushSp]
  unfold Inline.IP.parseToken at hp
  cases hc : p.parseVerbatim ⟨.seq .backtick, n⟩ with
  | error e => rw [hc] at hp; cases hp
  | ok r =>
    rw [key r hc] at hc
    rw [hc] at hp
    cases hp
    exact ⟨rfl, rfl⟩

theorem parse_verb {p : Inline.IP} {t : Token} {P : Inline.IP × Option Inline.Flow → Prop} (key : ∀ r, p.parseVerbatim t = .ok r → ∃ q, r = (q, some .cont) ∧ P r)
    {q : Inline.IP} {f : Inline.Flow} (hp : p.parseToken t = .ok (q, f)) : f = .cont ∧ P (q, some .cont) := by
  unfold Inline.IP.parseToken at hp
  cases hc : p.parseVerbatim t with
  | error e => rw [hc] at hp; cases hp
  | ok r =>
    obtain ⟨q', rfl, hP⟩ := key r hc
    rw [hc] at hp
    cases hp
    exact ⟨rfl, hP⟩

/-- The state after opening mathematics. -/
def openedMath (p : Inline.IP) (Q : List Inline.Event) (a i n : Nat) (d : Bool) : Inline.IP :=
  { p with
    input := { p.input with lexer := { p.input.lexer with verbatim := true }, span := ⟨i, p.input.span.stop⟩ }
    verbatim := some { eventOpener := Q.length + 2, lenOpener := n }
    attributes := none
    events := Q ++ [⟨.str, ⟨a, i⟩⟩, ⟨.placeholder, ⟨i, i⟩⟩, ⟨.enter (Verb.math d).opn, ⟨i, p.input.span.stop⟩⟩] }

theorem csub_eq {a b n : Nat} (h : csub a b = .ok n) : n = a - b := by
  unfold csub at h
  split at h
  · cases h; rfl
  · cases h

theorem idx_eq {s : Bytes} {i : Nat} {c : UInt8} (h : idx s i = .ok c) : s[i]? = some c := by
  unfold idx at h
  split at h
  · rename_i hx; cases h; exact hx
  · cases h

theorem notEscaped_bsl {s : Bytes} {b k : Nat} {r : Bool} (h : Inline.notEscaped s b k = .ok r) (hb : ∀ c, s[b - k]? = some c → c ≠ c! '\\') : r = true := by
  unfold Inline.notEscaped at h
  split at h
  · obtain ⟨c, h1, h⟩ := bind_ok h
    cases h
    simpa using hb c (idx_eq h1)
  · cases h; rfl

theorem parse_math {p : Inline.IP} (hv : p.verbatim = none) {n : Nat} (hn : n < 256) {b : Nat} {d : Bool} (hb : p.input.span.start = b) (hm : MathEnd p.input.src p.events b d)
    {q : Inline.IP} {f : Inline.Flow} (hp : p.parseToken ⟨.seq .backtick, n⟩ = .ok (q, f)) :
    f = .cont ∧ ∃ Q a, p.events = Q ++ [⟨.str, ⟨a, b⟩⟩] ∧ a + (dollars d).length ≤ b ∧ q = openedMath p Q a (b - (dollars d).length) n d := by
  obtain ⟨⟨Q, a, hQ, hab, hone'⟩, hone, htwo, hbsl⟩ := hm
  refine parse_verb (P := fun r => ∃ Q a, p.events = Q ++ [⟨.str, ⟨a, b⟩⟩] ∧ a + (dollars d).length ≤ b ∧ r.1 = openedMath p Q a (b - (dollars d).length) n d) ?_ hp
  intro r hr
  unfold Inline.IP.parseVerbatim at hr
  rw [hv] at hr
  simp only [if_true] at hr
  unfold Inline.IP.openVerbatim at hr
  simp only [hn, if_true] at hr
  obtain ⟨sp, h1, hr⟩ := bind_ok hr
  have hdl : (dollars d).length = if d then 2 else 1 := by cases d <;> rfl
  have hsp : sp = some ⟨a, b⟩ := by
    unfold Inline.IP.dollarSpan at h1
    rw [hQ, List.getLast?_append] at h1
    simp only [List.getLast?_singleton, Option.some_or, if_true] at h1
    rw [if_pos hb.symm] at h1
    obtain ⟨i, h2, h1⟩ := bind_ok h1
    obtain ⟨c, h3, h1⟩ := bind_ok h1
    have hi : i = b - 1 := by
      rw [csub_eq h2]; unfold Span.len; simp only; split at hdl <;> omega
    subst hi
    have := idx_eq h3
    rw [hone] at this
    cases this
    rw [if_pos rfl] at h1
    obtain ⟨ok, h4, h1⟩ := bind_ok h1
    have : ok = true := notEscaped_bsl h4 (by
      intro c hc
      cases d with
      | false => exact hbsl c hc
      | true => rw [htwo rfl] at hc; cases hc; decide)
    subst this
    cases h1
    rfl
  subst hsp
  obtain ⟨r', h2, hr⟩ := bind_ok hr
  unfold Inline.IP.mathSpan at h2
  obtain ⟨disp, h3, h2⟩ := bind_ok h2
  have hdisp : disp = d := by
    unfold Inline.isDisplayMath at h3
    split at h3
    · rename_i hl
      replace h3 := bind_ok h3
      obtain ⟨i, h4, h3⟩ := h3
      replace h3 := bind_ok h3
      obtain ⟨c, h5, h3⟩ := h3
      unfold Span.len at hl
      simp only at hl
      have hi : i = b - 2 := by rw [csub_eq h4]; unfold Span.len; simp only; omega
      subst hi
      have h6 := idx_eq h5
      cases d with
      | false =>
        rw [if_neg] at h3
        · cases h3; rfl
        · rintro rfl; exact hone' rfl (by omega) h6
      | true =>
        rw [htwo rfl] at h6
        cases h6
        rw [if_pos rfl] at h3
        exact notEscaped_bsl h3 hbsl
    · rename_i hl
      cases h3
      cases d with
      | false => rfl
      | true => exfalso; apply hl; unfold Span.len; simp only; simp at hdl; omega
  subst hdisp
  obtain ⟨i, h4, h2⟩ := bind_ok h2
  have hi : i = b - (dollars disp).length := by
    rw [hdl]; have := csub_eq h4; rw [this]
  subst hi
  cases h2
  cases hr
  refine ⟨_, rfl, Q, a, hQ, hab, ?_⟩
  have hdr : p.events.dropLast = Q := by rw [hQ]; simp
  cases disp <;> simp [openedMath, Inline.IP.push, Inline.IP.pushSp, hdr, Verb.opn]

/-- Inside verbatim text. -/
theorem parse_inside {p : Inline.IP} {v : Inline.VerbatimState} (hv : p.verbatim = some v) {t : Token} (hne : ¬ (v.lenOpener = t.len ∧ t.kind = .seq .backtick))
    {s : Bytes} (hs : textAt p.input.src p.input.span = s)
    (hw : s.all isWs = true → v.nonWsEncountered = true ∨ ∀ t', p.input.lexer.peek.1 = some t' → t'.kind = .seq .backtick → t'.len = v.lenOpener)
    {q : Inline.IP} {f : Inline.Flow} (hp : p.parseToken t = .ok (q, f)) :
    f = .cont ∧ ∃ v' l', q = { p with verbatim := some v', events := p.events ++ [⟨.str, p.input.span⟩], input := { p.input with lexer := l' } } ∧
      (l' = p.input.lexer ∨ l' = p.input.lexer.peek.2) ∧ (s.all isWs = true → v' = v) ∧
      (s.all isWs = false → v' = { v with nonWsEncountered := true, nonWsLast := some (t.kind, p.events.length + 1) }) := by
  refine parse_verb (P := fun r => ∃ v' l', r.1 = { p with verbatim := some v', events := p.events ++ [⟨.str, p.input.span⟩], input := { p.input with lexer := l' } } ∧
      (l' = p.input.lexer ∨ l' = p.input.lexer.peek.2) ∧ (s.all isWs = true → v' = v) ∧
      (s.all isWs = false → v' = { v with nonWsEncountered := true, nonWsLast := some (t.kind, p.events.length + 1) })) ?_ hp
  intro r hr
  unfold Inline.IP.parseVerbatim at hr
  rw [hv] at hr
  simp only at hr
  rw [if_neg hne] at hr
  unfold Inline.IP.continueVerbatim at hr
  obtain ⟨text, h1, hr⟩ := bind_ok hr
  have ht : text = s := by
    unfold byteSlice at h1
    split at h1
    · cases h1; exact hs
    · cases h1
  subst ht
  by_cases ha : text.all isWs = true
  · rw [if_pos ha] at hr
    cases hr
    by_cases hn : v.nonWsEncountered = true
    · refine ⟨_, rfl, v, p.input.lexer, ?_, .inl rfl, fun _ => rfl, fun h => by rw [ha] at h; cases h⟩
      unfold Inline.IP.verbatimWs
      rw [hn]
      obtain ⟨⟨_, _, _, _, _, _⟩, _, _, _, _, _, _⟩ := p
      simp only at hv
      subst hv
      rfl
    · refine ⟨_, rfl, v, p.input.lexer.peek.2, ?_, .inr rfl, fun _ => rfl, fun h => by rw [ha] at h; cases h⟩
      have h2 := (hw ha).resolve_left hn
      unfold Inline.IP.verbatimWs
      rw [Bool.not_eq_true] at hn
      rw [hn]
      have h3 : (p.input.peek).1.any (fun t => t.kind == .seq .backtick && t.len != v.lenOpener) = false := by
        show (p.input.lexer.peek.1).any _ = false
        cases hx : p.input.lexer.peek.1 with
        | none => rfl
        | some t' =>
          have := h2 t' hx
          by_cases hk : t'.kind = .seq .backtick
          · simp [this hk]
          · simp [hk]
      simp only [Bool.not_false, if_true]
      rw [if_neg (by rw [h3]; simp)]
      obtain ⟨⟨_, _, _, _, _, _⟩, _, _, _, _, _, _⟩ := p
      simp only at hv
      subst hv
      rfl
  · rw [if_neg ha] at hr
    cases hr
    exact ⟨_, rfl, _, p.input.lexer, rfl, .inl rfl, fun h => absurd h ha, fun _ => rfl⟩

/-- A blank before backticks at the start of verbatim text. -/
theorem parse_skip {p : Inline.IP} {v : Inline.VerbatimState} (hv : p.verbatim = some v) {t : Token} (hne : t.kind ≠ .seq .backtick)
    {s : Bytes} (hs : textAt p.input.src p.input.span = s) (hw : s.all isWs = true) (hn : v.nonWsEncountered = false)
    {t' : Token} (hp1 : p.input.lexer.peek.1 = some t') (hk : t'.kind = .seq .backtick) (hk2 : t'.len ≠ v.lenOpener)
    {q : Inline.IP} {f : Inline.Flow} (hp : p.parseToken t = .ok (q, f)) :
    f = .cont ∧ q = { p with input := { p.input with lexer := p.input.lexer.peek.2 } } := by
  refine parse_verb (P := fun r => r.1 = { p with input := { p.input with lexer := p.input.lexer.peek.2 } }) ?_ hp
  intro r hr
  unfold Inline.IP.parseVerbatim at hr
  rw [hv] at hr
  simp only at hr
  rw [if_neg (fun h => hne h.2)] at hr
  unfold Inline.IP.continueVerbatim at hr
  obtain ⟨text, h1, hr⟩ := bind_ok hr
  have ht : text = s := by
    unfold byteSlice at h1
    split at h1
    · cases h1; exact hs
    · cases h1
  subst ht
  rw [if_pos hw] at hr
  cases hr
  refine ⟨_, rfl, ?_⟩
  unfold Inline.IP.verbatimWs
  rw [hn]
  have h3 : (p.input.peek).1.any (fun t => t.kind == .seq .backtick && t.len != v.lenOpener) = true := by
    show (p.input.lexer.peek.1).any _ = true
    rw [hp1]
    simp [hk, hk2]
  simp only [Bool.not_false, if_true]
  rw [if_pos h3]
  rfl

/-- What is kept when verbatim text is closed. -/
def kept (v : Inline.VerbatimState) (Q : List Inline.Event) : List Inline.Event :=
  match v.nonWsLast with
  | some (.seq .backtick, skip) => Q.take skip
  | _ => Q

/-- The end of verbatim text. -/
theorem parse_tock {p : Inline.IP} {v : Inline.VerbatimState} (hv : p.verbatim = some v) {sp : Span} {w : Verb} (he : p.events[v.eventOpener]? = some ⟨.enter w.opn, sp⟩)
    (hb : NoBrace p.input.lexer) (hb2 : ∀ t, p.input.lexer.peek.1 = some t → t.kind ≠ .opn .braceEqual)
    (hpp : ({ p.input.lexer.peek.2 with verbatim := false } : Lexer).peek.1 = p.input.lexer.peek.1)
    {q : Inline.IP} {f : Inline.Flow} (hp : p.parseToken ⟨.seq .backtick, v.lenOpener⟩ = .ok (q, f)) :
    f = .cont ∧ q = { p with
      verbatim := none
      events := kept v p.events ++ [⟨.exit w.opn, p.input.span⟩]
      input := { p.input with lexer := ({ p.input.lexer.peek.2 with verbatim := false } : Lexer).peek.2 } } := by
  refine parse_verb (P := fun r => r.1 = { p with
      verbatim := none
      events := kept v p.events ++ [⟨.exit w.opn, p.input.span⟩]
      input := { p.input with lexer := ({ p.input.lexer.peek.2 with verbatim := false } : Lexer).peek.2 } }) ?_ hp
  intro r hr
  unfold Inline.IP.parseVerbatim at hr
  rw [hv] at hr
  simp only [and_self, if_true] at hr
  unfold Inline.IP.closeVerbatim at hr
  have hraw : p.rawFormat v.eventOpener = .ok ({ p with input := { p.input with lexer := p.input.lexer.peek.2 } }, false) := by
    unfold Inline.IP.rawFormat Inline.Input.aheadRawFormat
    rw [if_neg]
    · rfl
    · unfold Inline.Input.peekKind Inline.Input.peek
      simp only
      intro h
      cases hx : p.input.lexer.peek.1 with
      | none => rw [hx] at h; cases h
      | some t =>
        rw [hx] at h
        simp only [Option.map_some, Option.some.injEq] at h
        exact hb2 t hx h
  rw [hraw] at hr
  obtain ⟨r', h1, hr⟩ := bind_ok hr
  cases h1
  obtain ⟨ty, h2, hr⟩ := bind_ok hr
  have hty : ty = w.opn := by
    unfold Inline.enterAt idx at h2
    simp only [he] at h2
    cases h2
    rfl
  subst hty
  obtain ⟨_, _, hr⟩ := bind_ok hr
  obtain ⟨evs, h3, hr⟩ := bind_ok hr
  have hevs : evs = kept v p.events := by
    unfold Inline.truncateVerbatim at h3
    unfold kept
    split at h3
    · rename_i hx
      rw [hx]
      split at h3
      · cases h3; rfl
      · cases h3
    · rename_i hx
      cases h3
      split
      · rename_i hy; exact absurd hy (hx _)
      · rfl
  subst hevs
  simp only [Bool.false_eq_true, if_false] at hr
  unfold Inline.IP.afterVerbatim at hr
  rw [if_neg] at hr
  · cases hr; exact ⟨_, rfl, rfl⟩
  · unfold Inline.Input.peekKind Inline.Input.peek
    simp only
    intro h
    rw [hpp] at h
    cases hx : p.input.lexer.peek.1 with
    | none => rw [hx] at h; cases h
    | some t =>
      rw [hx] at h
      simp only [Option.map_some, Option.some.injEq] at h
      exact hb t hx h

end Jotdown.Round
