import Verif.Proofs.RoundLive
/-! # Round trip: the tokens of the pieces -/
namespace Jotdown.Round
open Jotdown Jotdown.Notation Jotdown.Lex

theorem tok_opn (m : Mark) (r : Bytes) : tokenAt false false (c! '{' :: m.ch :: r) = (some ⟨.opn m.delim, 2⟩, false) := by cases m <;> rfl

theorem tok_cls (m : Mark) (r : Bytes) : tokenAt false false (m.ch :: c! '}' :: r) = (some ⟨.cls m.delim, 2⟩, false) := by cases m <;> rfl

theorem tok_nl (r : Bytes) : tokenAt false false (c! '\n' :: r) = (some ⟨.newline, 1⟩, false) := rfl

theorem tok_bsl {c : UInt8} (h : (isWs c || isPunct c) = true) (r : Bytes) : tokenAt false false (c! '\\' :: c :: r) = (some ⟨.escape, 1⟩, true) := by
  have h1 : backslashTok false (c :: r) = ((.escape, 1), true) := by simp [backslashTok, h]
  have h2 : specialTok false (c! '\\') (c :: r) = ((.escape, 1), true) := h1
  have h3 : countWhile (fun c => !isSpecial c) (c! '\\' :: c :: r) = 0 := rfl
  unfold tokenAt
  rw [h3]
  simp only [Bool.false_eq_true, if_false, Nat.lt_irrefl, h2]

/-- A property of all bytes. -/
theorem all_bytes (P : UInt8 → Bool) (h : (List.range 256).all (fun n => P n.toUInt8) = true) (c : UInt8) : P c = true := by
  have h1 := List.all_eq_true.mp h c.toNat (List.mem_range.mpr c.toNat_lt)
  have h2 : c.toNat.toUInt8 = c := by simp
  rwa [h2] at h1

theorem punct_ws {c : UInt8} (h : isPunct c = true) : isWs c = false := by
  have := all_bytes (fun c => !isPunct c || !isWs c) (by decide +kernel) c
  simpa [h] using this

theorem tok_lit {c : UInt8} (h : isPunct c = true) (v : Bool) (r : Bytes) : tokenAt true v (c :: r) = (some ⟨.text, 1⟩, false) := by
  have hw := punct_ws h
  simp only [isWs, Bool.or_eq_false_iff, beq_eq_false_iff_ne] at hw
  unfold tokenAt
  simp [escapedTok, hw]

theorem countWhile_append {f : UInt8 → Bool} {s r : Bytes} (h : ∀ c ∈ s, f c = true) (hr : ∀ c, r.head? = some c → f c = false) : countWhile f (s ++ r) = s.length := by
  induction s with
  | nil =>
    cases r with
    | nil => rfl
    | cons c r => simp [countWhile, hr c rfl]
  | cons a s ih =>
    have := ih (fun c hc => h c (by simp [hc]))
    simp only [countWhile, List.cons_append, List.takeWhile_cons, h a (by simp), if_true, List.length_cons] at this ⊢
    omega

theorem tok_tick {n : Nat} (hn : 0 < n) (v : Bool) {r : Bytes} (hr : r.head? ≠ some (c! '`')) : tokenAt false v (ticks n ++ r) = (some ⟨.seq .backtick, n⟩, false) := by
  obtain ⟨k, rfl⟩ : ∃ k, n = k + 1 := ⟨n - 1, by omega⟩
  have h1 : ticks (k + 1) ++ r = c! '`' :: (ticks k ++ r) := rfl
  have h2 : countWhile (fun c => c == c! '`') (ticks k ++ r) = k := by
    rw [countWhile_append]
    · simp [ticks]
    · intro c hc; simp [ticks] at hc; simp [hc]
    · intro c hc; simp only [beq_eq_false_iff_ne]; rintro rfl; exact hr hc
  have h3 : specialTok v (c! '`') (ticks k ++ r) = ((.seq .backtick, 1 + countWhile (fun c => c == c! '`') (ticks k ++ r)), false) := rfl
  have h4 : countWhile (fun c => !isSpecial c) (c! '`' :: (ticks k ++ r)) = 0 := rfl
  rw [h1]
  unfold tokenAt
  rw [h4]
  simp only [Bool.false_eq_true, if_false, Nat.lt_irrefl, h3, h2, Nat.add_comm]

theorem plain_special {c : UInt8} (h : isPlain c = true) : isSpecial c = false ∧ c ≠ c! '$' := by simpa [isPlain] using h

theorem tok_sym {m : Mark} (hm : m.bare = true) {r : Bytes} (hr : r.head? ≠ some (c! '}')) : tokenAt false false (m.ch :: r) = (some ⟨m.symbol, 1⟩, false) := by
  have hb : ∀ k d, maybeCloseBrace r k d = (k, 1) := by intro k d; unfold maybeCloseBrace; rw [if_neg hr]
  cases m with
  | emphasis => show (some (⟨(maybeCloseBrace r _ _).1, (maybeCloseBrace r _ _).2⟩ : Token), false) = _; rw [hb]; rfl
  | strong => show (some (⟨(maybeCloseBrace r _ _).1, (maybeCloseBrace r _ _).2⟩ : Token), false) = _; rw [hb]; rfl
  | superscript => show (some (⟨(maybeCloseBrace r _ _).1, (maybeCloseBrace r _ _).2⟩ : Token), false) = _; rw [hb]; rfl
  | subscript => show (some (⟨(maybeCloseBrace r _ _).1, (maybeCloseBrace r _ _).2⟩ : Token), false) = _; rw [hb]; rfl
  | single => show (some (⟨(maybeCloseBrace r _ _).1, (maybeCloseBrace r _ _).2⟩ : Token), false) = _; rw [hb]; rfl
  | double => show (some (⟨(maybeCloseBrace r _ _).1, (maybeCloseBrace r _ _).2⟩ : Token), false) = _; rw [hb]; rfl
  | _ => cases hm

theorem tok_dots {r : Bytes} (hr : r.head? ≠ some (c! '.')) : tokenAt false false (c! '.' :: c! '.' :: c! '.' :: r) = (some ⟨.seq .period, 3⟩, false) := by
  have h1 : countWhile (· == c! '.') ([c! '.', c! '.'] ++ r) = 2 := by
    rw [countWhile_append]
    · rfl
    · intro c hc; simp at hc; simp [hc]
    · intro c hc; simp only [beq_eq_false_iff_ne]; rintro rfl; exact hr hc
  show (some (⟨.seq .period, 1 + countWhile (· == c! '.') ([c! '.', c! '.'] ++ r)⟩ : Token), false) = _
  rw [h1]

theorem hyphens_cons (r : Bytes) (hr : r.head? ≠ some (c! '}')) : hyphens (c! '-' :: r) = 1 + hyphens r := by
  conv => lhs; unfold hyphens
  simp only
  rw [if_neg hr]

theorem tok_dash {r : Bytes} (em : Bool) (hr : r.head? ≠ some (c! '}')) (h0 : hyphens r = 0) :
    tokenAt false false (F.print (.dash em) ++ r) = (some ⟨.seq .hyphen, if em then 3 else 2⟩, false) := by
  cases em with
  | false =>
    show (some (⟨.seq .hyphen, 1 + hyphens (c! '-' :: r)⟩ : Token), false) = _
    rw [hyphens_cons r hr, h0]; rfl
  | true =>
    show (some (⟨.seq .hyphen, 1 + hyphens (c! '-' :: c! '-' :: r)⟩ : Token), false) = _
    rw [hyphens_cons _ (by simp), hyphens_cons r hr, h0]; rfl

theorem tok_nbsp {r : Bytes} (v : Bool) (hr : ∀ c, r.head? = some c → isWs c = false) : tokenAt true v (c! ' ' :: r) = (some ⟨.nbsp, 1⟩, false) := by
  have h1 : (r.dropWhile (fun c => c == c! ' ' || c == c! '\t')).head? ≠ some (c! '\n') := by
    cases r with
    | nil => simp
    | cons c r =>
      have := hr c rfl
      simp only [isWs, Bool.or_eq_false_iff, beq_eq_false_iff_ne] at this
      have hc : (c == c! ' ' || c == c! '\t') = false := by simp [this]
      simp only [List.dropWhile_cons, hc, Bool.false_eq_true, if_false, List.head?_cons, ne_eq, Option.some.injEq]
      intro he; rw [he] at this; simp at this
  unfold tokenAt
  simp only [if_true]
  unfold escapedTok
  rw [if_neg (by decide), if_neg (fun h => h1 h.2), if_pos rfl]

theorem mark_special (m : Mark) : isSpecial m.ch = true := by cases m <;> rfl
theorem mark_ws (m : Mark) : isWs m.ch = false := by cases m <;> rfl

/-- The byte a piece starts with, in a free context. -/
theorem head_byte {x : Ctx} {S : List Op} {g : F} {T : List F} (hx : x.free = true) (h : okF x S (g :: T)) :
    ∃ c r, g.print = c :: r ∧ ((∃ b, g = .ch b) ∨ (∃ d, g = .dols d) ∨ isSpecial c = true) ∧ c ≠ c! '}' ∧ (x = .dots → c ≠ c! '.') ∧ (x = .code → c ≠ c! '`' ∧ c ≠ c! '\\') ∧
      (x = .nb → isWs c = false) ∧ (x = .dash → c = c! '-' → r = [c! '}']) := by
  have sp : ∀ {c : UInt8}, isSpecial c = false → c ≠ c! '}' ∧ c ≠ c! '.' ∧ c ≠ c! '`' ∧ c ≠ c! '\\' ∧ c ≠ c! '-' := by
    intro c hc
    refine ⟨?_, ?_, ?_, ?_, ?_⟩ <;> (rintro rfl; revert hc; decide)
  cases g with
  | ch b =>
    have hb := sp (plain_special h.2.1).1
    exact ⟨b, [], rfl, .inl ⟨b, rfl⟩, hb.1, fun _ => hb.2.1, fun _ => ⟨hb.2.2.1, hb.2.2.2.1⟩, h.2.2.1, fun _ he => absurd he hb.2.2.2.2⟩
  | bsl => exact ⟨_, _, rfl, .inr (.inr rfl), by decide, fun _ => by decide, fun hc => absurd hc h.2.1, fun _ => rfl, by simp⟩
  | lit c => rw [h.1] at hx; cases hx
  | nbsp => rw [h.1] at hx; cases hx
  | opn o =>
    cases o with
    | mark m b =>
      cases b with
      | true => exact ⟨_, _, rfl, .inr (.inr rfl), by decide, fun _ => by decide, fun _ => by decide, fun _ => rfl, by simp⟩
      | false =>
        obtain ⟨_, ⟨hm, _⟩, _⟩ := h
        refine ⟨m.ch, [], rfl, .inr (.inr (mark_special m)), ?_, fun _ => ?_, fun _ => ?_, fun _ => mark_ws m, fun _ => ?_⟩
        all_goals cases m <;> first | decide | cases hm
    | link image url => cases image <;> exact ⟨_, _, rfl, .inr (.inr rfl), by decide, fun _ => by decide, fun _ => by decide, fun _ => rfl, by simp⟩
  | cls o =>
    cases o with
    | mark m b =>
      cases b with
      | true =>
        refine ⟨m.ch, [c! '}'], rfl, .inr (.inr (mark_special m)), ?_, fun _ => ?_, fun _ => ?_, fun _ => mark_ws m, fun _ _ => rfl⟩
        all_goals cases m <;> decide
      | false =>
        obtain ⟨_, ⟨hm, _⟩, _⟩ := h
        refine ⟨m.ch, [], rfl, .inr (.inr (mark_special m)), ?_, fun _ => ?_, fun _ => ?_, fun _ => mark_ws m, fun _ => ?_⟩
        all_goals cases m <;> first | decide | cases hm
    | link image url => exact ⟨_, _, rfl, .inr (.inr rfl), by decide, fun _ => by decide, fun _ => by decide, fun _ => rfl, by simp⟩
  | dols d => cases d <;> exact ⟨_, _, rfl, .inr (.inl ⟨_, rfl⟩), by decide, fun _ => by decide, fun _ => by decide, fun _ => rfl, by simp⟩
  | code v n s =>
    have h1 : 0 < n := h.2.1.1.1
    have hv := h.1.of_free hx
    have hb : v.before = [] := by cases v <;> first | rfl | cases hv.2
    obtain ⟨k, rfl⟩ : ∃ k, n = k + 1 := ⟨n - 1, by omega⟩
    exact ⟨c! '`', ticks k ++ (keepApart s.head? ++ s ++ keepApart s.getLast?) ++ ticks (k + 1) ++ v.behind, rfl, .inr (.inr rfl), by decide, fun _ => by decide, fun hc => absurd hc hv.1, fun _ => rfl, by simp⟩
  | rest v n lead u tl => rw [h.1] at hx; cases hx
  | nl hard =>
    cases hard with
    | true => rw [h.1] at hx; cases hx
    | false => exact ⟨_, _, rfl, .inr (.inr rfl), by decide, fun _ => by decide, fun _ => by decide, fun hc => absurd hc h.2.1, by simp⟩
  | dots => exact ⟨_, _, rfl, .inr (.inr rfl), by decide, fun hc => absurd hc h.2.1, fun _ => by decide, fun _ => rfl, by simp⟩
  | dash em => cases em <;> exact ⟨_, _, rfl, .inr (.inr rfl), by decide, fun _ => by decide, fun _ => by decide, fun _ => rfl, fun hc => absurd hc h.2.1⟩
  | right d => cases d <;> exact ⟨_, _, rfl, .inr (.inr rfl), by decide, fun _ => by decide, fun _ => by decide, fun _ => rfl, by simp⟩
  | apos => exact ⟨_, _, rfl, .inr (.inr rfl), by decide, fun _ => by decide, fun _ => by decide, fun _ => rfl, by simp⟩
  | note s => exact ⟨_, _, rfl, .inr (.inr rfl), by decide, fun _ => by decide, fun _ => by decide, fun _ => rfl, by simp⟩
  | sym s => exact ⟨_, _, rfl, .inr (.inr rfl), by decide, fun _ => by decide, fun _ => by decide, fun _ => rfl, by simp⟩
  | auto s => exact ⟨_, _, rfl, .inr (.inr rfl), by decide, fun _ => by decide, fun _ => by decide, fun _ => rfl, by simp⟩

/-- The byte that follows in a free context. -/
theorem next_byte {x : Ctx} {S : List Op} {T W : List F} (hx : x.free = true) (h : okF x S (T ++ W)) {c : UInt8} (hc : (fprint T).head? = some c) :
    c ≠ c! '}' ∧ (x = .dots → c ≠ c! '.') ∧ (x = .code → c ≠ c! '`' ∧ c ≠ c! '\\') ∧ (x = .nb → isWs c = false) := by
  cases T with
  | nil => simp at hc
  | cons g T =>
    obtain ⟨d, r, h1, _, h2, h3, h4, h5, _⟩ := head_byte hx h
    rw [fprint_cons, h1] at hc
    simp only [List.cons_append, List.head?_cons, Option.some.injEq] at hc
    subst hc
    exact ⟨h2, h3, h4, h5⟩

theorem no_hyphens {S : List Op} {T W : List F} (h : okF .dash S (T ++ W)) : hyphens (fprint T) = 0 := by
  cases T with
  | nil => rfl
  | cons g T =>
    obtain ⟨d, r, h1, _, _, _, _, _, h6⟩ := head_byte rfl h
    rw [fprint_cons, h1]
    by_cases hd : d = c! '-'
    · subst hd
      rw [h6 rfl rfl]
      show hyphens (c! '-' :: ([c! '}'] ++ fprint T)) = 0
      unfold hyphens
      simp
    · show hyphens (d :: (r ++ fprint T)) = 0
      unfold hyphens
      split
      · rename_i heq; injection heq with e1 _; exact absurd e1 hd
      · rfl

/-- The token of a piece that is not plain text. -/
def F.kind : F → Kind
  | .bsl => .escape
  | .opn o => o.openKind
  | .cls o => o.closeKind
  | .code .. => .seq .backtick
  | .nl _ => .newline
  | .dots => .seq .period
  | .dash _ => .seq .hyphen
  | .right d => .cls (quoteOf d).delim
  | .apos => .sym .quote1
  | .note _ => .opn .bracket
  | .sym _ => .sym .colon
  | .auto _ => .sym .lt
  | _ => .text

/-- The length of the first token of a piece. -/
def F.tok : F → Nat
  | .opn o => o.opens.length
  | .cls (.link _ _) => 1
  | .cls o => o.closes.length
  | .code _ n _ => n
  | .dots => 3
  | .dash em => if em then 3 else 2
  | .right _ => 2
  | _ => 1

theorem tok_of {x : Ctx} {S : List Op} {g : F} {T W : List F} (hx : x.free = true) (h : okF x S (g :: T ++ W)) (hg : ∀ b, g ≠ .ch b) (hgd : ∀ d, g ≠ .dols d) (hb : (g :: T).getLast? ≠ some .bsl) :
    tokenAt false false (fprint (g :: T)) = (some ⟨g.kind, g.tok⟩, g == .bsl) := by
  rw [List.cons_append] at h
  cases g with
  | ch b => exact absurd rfl (hg b)
  | dols d => exact absurd rfl (hgd d)
  | bsl =>
    cases T with
    | nil => exact absurd rfl hb
    | cons g T =>
      obtain ⟨_, _, h⟩ := h
      rw [List.cons_append] at h
      have key : ∀ {c r}, (isWs c || isPunct c) = true → fprint (g :: T) = c :: r → tokenAt false false (fprint (F.bsl :: g :: T)) = (some ⟨F.kind .bsl, F.tok .bsl⟩, F.bsl == .bsl) := by
        intro c r hc he
        rw [fprint_cons, he]
        exact tok_bsl hc r
      cases g with
      | lit c => exact key (by simp [h.2.1]) rfl
      | nbsp => exact key (c := c! ' ') rfl rfl
      | nl hard =>
        cases hard with
        | true => exact key (c := c! '\n') rfl rfl
        | false => exact absurd h.1 (by simp [Ctx.free])
      | rest v n lead u tl => exact absurd h.1 (by simp)
      | ch b => exact absurd h.1 (by simp [Ctx.free])
      | bsl => exact absurd h.1 (by simp [Ctx.free])
      | opn o => exact absurd h.1 (by simp [Ctx.free])
      | cls o => exact absurd h.1 (by simp [Ctx.free])
      | dols d => exact absurd h.1 (by simp [Ctx.free])
      | code v n s =>
        have h1 : CodeAt .bsl v := h.1
        unfold CodeAt at h1
        split at h1
        · cases h1
        · exact absurd h1.1 (by simp [Ctx.free])
      | dots => exact absurd h.1 (by simp [Ctx.free])
      | dash em => exact absurd h.1 (by simp [Ctx.free])
      | sym s => exact absurd h.1 (by simp [Ctx.free])
      | right s => exact absurd h.1 (by simp [Ctx.free])
      | apos => exact absurd h.1 (by simp)
      | note s => exact absurd h.1 (by simp [Ctx.free])
      | auto s => exact absurd h.1 (by simp [Ctx.free])
  | lit c => rw [h.1] at hx; cases hx
  | nbsp => rw [h.1] at hx; cases hx
  | opn o =>
    obtain ⟨_, h1, h2⟩ := h
    cases o with
    | mark m b =>
      cases b with
      | true => exact tok_opn m _
      | false => exact tok_sym h1.1 (fun he => (next_byte rfl h2 he).1 rfl)
    | link image url => cases image <;> rfl
  | cls o =>
    obtain ⟨_, h1, S', _, h2⟩ := h
    cases o with
    | mark m b =>
      cases b with
      | true => exact tok_cls m _
      | false => exact tok_sym h1.1 (fun he => (next_byte rfl h2 he).1 rfl)
    | link image url => rfl
  | code v n s =>
    obtain ⟨_, ⟨⟨hn, _, hs, _⟩, _⟩, _⟩ := h
    show tokenAt false false ((ticks n ++ (keepApart s.head? ++ s ++ keepApart s.getLast?) ++ ticks n ++ v.behind) ++ fprint T) = _
    obtain ⟨c, y, h1, h2⟩ := apart_head hs (keepApart s.getLast?)
    rw [List.append_assoc, List.append_assoc, List.append_assoc, tok_tick hn]
    · rfl
    · rw [h1]; simpa using h2
  | rest v n lead u tl => rw [h.1] at hx; cases hx
  | nl hard => rfl
  | dots =>
    exact tok_dots (fun he => (next_byte rfl h.2.2 he).2.1 rfl rfl)
  | dash em =>
    exact tok_dash em (fun he => (next_byte rfl h.2.2 he).1 rfl) (no_hyphens h.2.2)
  | sym s => rfl
  | right d => cases d <;> rfl
  | apos => exact tok_sym (m := .single) rfl (fun he => (next_byte rfl h.2.2 he).1 rfl)
  | note s => rfl
  | auto s => rfl

theorem kind_text {x : Ctx} {S : List Op} {g : F} {T : List F} (hx : x.free = true) (h : okF x S (g :: T)) (hg : ∀ b, g ≠ .ch b) (hgd : ∀ d, g ≠ .dols d) : g.kind ≠ .text ∧ g.kind ≠ .opn .brace := by
  cases g with
  | ch b => exact absurd rfl (hg b)
  | dols d => exact absurd rfl (hgd d)
  | lit c => rw [h.1] at hx; cases hx
  | nbsp => rw [h.1] at hx; cases hx
  | rest v n lead u tl => rw [h.1] at hx; cases hx
  | opn o =>
    cases o with
    | mark m b => cases m <;> cases b <;> simp [F.kind, Op.openKind, Mark.symbol, Mark.delim]
    | link image url => cases image <;> simp [F.kind, Op.openKind]
  | cls o =>
    cases o with
    | mark m b => cases m <;> cases b <;> simp [F.kind, Op.closeKind, Mark.symbol, Mark.delim]
    | link image url => cases image <;> simp [F.kind, Op.closeKind]
  | _ => simp [F.kind]

/-- The context after plain bytes. -/
def chsCtx (x : Ctx) (s : Bytes) : Ctx := match s.getLast? with
  | some b => chCtx b
  | none => x

theorem chsCtx_cons (x : Ctx) (b : UInt8) (s : Bytes) : chsCtx x (b :: s) = chsCtx (chCtx b) s := by
  unfold chsCtx
  cases s with
  | nil => rfl
  | cons c s => rw [List.getLast?_cons_cons, List.getLast?_cons]

theorem chsCtx_append (x : Ctx) (a b : Bytes) : chsCtx x (a ++ b) = chsCtx (chsCtx x a) b := by
  induction a generalizing x with
  | nil => rfl
  | cons c a ih => rw [List.cons_append, chsCtx_cons, ih, chsCtx_cons]

theorem chsCtx_free {x : Ctx} (hx : x.free = true) (s : Bytes) : (chsCtx x s).free = true := by
  unfold chsCtx; split
  · exact chCtx_free _
  · exact hx

/-- Dollar signs at the end of text. -/
def dolF : Option Bool → List F
  | some d => [.dols d]
  | none => []

/-- Dollar signs at the end of text, as they are written. -/
def dolB : Option Bool → Bytes
  | some d => dollars d
  | none => []

theorem dolF_print (D : Option Bool) : fprint (dolF D) = dolB D := by
  cases D with
  | none => rfl
  | some d => simp [dolF, dolB, F.print]

/-- The context after text. -/
def dolCtx (x : Ctx) : Option Bool → Ctx
  | some _ => .dol
  | none => x

/-- What is known of the dollar signs at the end of text. -/
def DolAt (x : Ctx) (T : List F) : Option Bool → Prop
  | some d => (x = .space ∨ x = .word) ∧ MathNext d T
  | none => True

theorem dollars_text (d : Bool) : ∀ c ∈ dollars d, isSpecial c = false := by
  cases d <;> (intro c hc; simp [dollars] at hc; subst hc; decide)

theorem dolB_text (D : Option Bool) : ∀ c ∈ dolB D, isSpecial c = false := by
  cases D with
  | none => intro c hc; cases hc
  | some d => exact dollars_text d

/-- The pieces after this one are not text. -/
def NotText (T : List F) : Prop := (∀ b T', T ≠ .ch b :: T') ∧ ∀ d T', T ≠ .dols d :: T'

/-- The plain bytes at the start. -/
theorem split_ch (T W : List F) (x : Ctx) (S : List Op) (hx : x.free = true) (h : okF x S (T ++ W)) :
    ∃ s D T', T = s.map .ch ++ (dolF D ++ T') ∧ (∀ c ∈ s, isPlain c = true) ∧ (∀ c, (fprint T').head? = some c → isSpecial c = true) ∧
      okF (dolCtx (chsCtx x s) D) S (T' ++ W) ∧ NotText T' ∧ DolAt (chsCtx x s) (T' ++ W) D := by
  induction T generalizing x with
  | nil => exact ⟨[], none, [], rfl, by simp, by simp, h, ⟨by simp, by simp⟩, trivial⟩
  | cons f T ih =>
    by_cases hf : ∃ b, f = .ch b
    · obtain ⟨b, rfl⟩ := hf
      rw [List.cons_append] at h
      obtain ⟨s, D, T', rfl, h2, h3, h4, h5, h6⟩ := ih (chCtx b) (chCtx_free b) h.2.2.2
      refine ⟨b :: s, D, T', rfl, ?_, h3, ?_, h5, by rw [chsCtx_cons]; exact h6⟩
      · intro c hc
        rcases List.mem_cons.mp hc with rfl | hc
        · exact h.2.1
        · exact h2 c hc
      · rw [chsCtx_cons]; exact h4
    by_cases hfd : ∃ d, f = .dols d
    · obtain ⟨d, rfl⟩ := hfd
      obtain ⟨_, h1, h2, h3⟩ := h
      obtain ⟨n, s, T', h2'⟩ := h2
      have h2 : T ++ W = _ := h2'
      refine ⟨[], some d, T, rfl, by simp, ?_, h3, ⟨?_, ?_⟩, h1, n, s, T', h2⟩
      · intro c hc
        cases T with
        | nil => simp at hc
        | cons g T =>
          rw [List.cons_append] at h2
          obtain ⟨rfl, rfl⟩ := List.cons.inj h2
          obtain ⟨k, rfl⟩ : ∃ k, n = k + 1 := ⟨n - 1, by have := h3.2.1.1.1; omega⟩
          have : some (c! '`') = some c := hc
          cases this; decide
      · rintro b T'' rfl; cases h2
      · rintro b T'' rfl; cases h2
    · have h5 : NotText (f :: T) := ⟨fun b T'' e => hf ⟨b, by cases e; rfl⟩, fun b T'' e => hfd ⟨b, by cases e; rfl⟩⟩
      refine ⟨[], none, f :: T, rfl, by simp, ?_, h, h5, trivial⟩
      intro c hc
      obtain ⟨d, r, h1, h2, _⟩ := head_byte hx h
      rw [fprint_cons, h1] at hc
      simp only [List.cons_append, List.head?_cons, Option.some.injEq] at hc
      subst hc
      exact (h2.resolve_left hf).resolve_left hfd

theorem fprint_chs (s : Bytes) : fprint (s.map .ch) = s := by
  induction s with
  | nil => rfl
  | cons b s ih => simp only [List.map_cons, fprint_cons, ih]; rfl

theorem chs_length (s : Bytes) (T : List F) : (fprint (s.map .ch ++ T)).drop s.length = fprint T := by
  rw [fprint_append, fprint_chs, List.drop_left]

theorem dol_length (s : Bytes) (D : Option Bool) (T : List F) : (fprint (s.map .ch ++ (dolF D ++ T))).drop (s ++ dolB D).length = fprint T := by
  rw [fprint_append, fprint_append, fprint_chs, dolF_print, ← List.append_assoc, List.drop_left]

theorem getLast?_dol {D : Option Bool} {T : List F} (hb : (dolF D ++ T).getLast? ≠ some .bsl) : T.getLast? ≠ some .bsl := by
  intro h; exact hb (by rw [List.getLast?_append, h]; rfl)

/-- Text tokens are plain bytes. -/
theorem tok_text {T W : List F} {x : Ctx} {S : List Op} (hx : x.free = true) (h : okF x S (T ++ W)) (hb : T.getLast? ≠ some .bsl) {k : Nat} {e : Bool}
    (ht : tokenAt false false (fprint T) = (some ⟨.text, k⟩, e)) :
    ∃ s D T', T = s.map .ch ++ (dolF D ++ T') ∧ (∀ c ∈ s, isPlain c = true) ∧ (s ++ dolB D).length = k ∧ 0 < k ∧ okF (dolCtx (chsCtx x s) D) S (T' ++ W) ∧ NotText T' ∧
      DolAt (chsCtx x s) (T' ++ W) D := by
  obtain ⟨s, D, T', rfl, h2, h3, h4, h5, h8⟩ := split_ch T W x S hx h
  by_cases hs : s ++ dolB D = []
  · obtain ⟨rfl, hD⟩ := List.append_eq_nil_iff.mp hs
    have hD : D = none := by
      cases D with
      | none => rfl
      | some d => cases d <;> cases hD
    subst hD
    exfalso
    simp only [List.map_nil, List.nil_append, dolF, dolCtx] at ht h h4 hb
    cases T' with
    | nil => rw [fprint_nil, tokenAt_nil] at ht; cases ht
    | cons f T =>
      have hf : ∀ b, f ≠ .ch b := fun b he => h5.1 b T (by rw [he])
      have hfd : ∀ b, f ≠ .dols b := fun b he => h5.2 b T (by rw [he])
      rw [tok_of hx h hf hfd hb] at ht
      simp only [Prod.mk.injEq, Option.some.injEq, Token.mk.injEq] at ht
      exact (kind_text hx h hf hfd).1 ht.1.1
  · have h6 : countWhile (fun c => !isSpecial c) (fprint (s.map .ch ++ (dolF D ++ T'))) = (s ++ dolB D).length := by
      rw [fprint_append, fprint_append, fprint_chs, dolF_print, ← List.append_assoc]
      refine countWhile_append (fun c hc => ?_) (fun c hc => by simp [h3 c hc])
      rcases List.mem_append.mp hc with hc | hc
      · simp [(plain_special (h2 c hc)).1]
      · simp [dolB_text D c hc]
    have h7 : 0 < (s ++ dolB D).length := List.length_pos_iff.mpr hs
    suffices hk : (s ++ dolB D).length = k from ⟨s, D, T', rfl, h2, hk, hk ▸ h7, h4, h5, h8⟩
    unfold tokenAt at ht
    rw [h6] at ht
    simp only [Bool.false_eq_true, if_false, h7, if_true, Prod.mk.injEq, Option.some.injEq, Token.mk.injEq, true_and] at ht
    exact ht.1

theorem getLast?_chs {s : Bytes} {T : List F} (hb : (s.map F.ch ++ T).getLast? ≠ some .bsl) : T.getLast? ≠ some .bsl := by
  intro h; exact hb (by rw [List.getLast?_append, h]; rfl)

/-- What is not text is no text token. -/
theorem notText_tok {T W : List F} {x : Ctx} {S : List Op} (hx : x.free = true ∨ x = .dol) (h : okF x S (T ++ W)) (hb : T.getLast? ≠ some .bsl) (hn : NotText T) {k : Nat} {e : Bool} :
    tokenAt false false (fprint T) ≠ (some ⟨.text, k⟩, e) := by
  intro ht
  cases T with
  | nil => rw [fprint_nil, tokenAt_nil] at ht; cases ht
  | cons f T =>
    have hf : ∀ b, f ≠ .ch b := fun b he => hn.1 b T (by rw [he])
    have hfd : ∀ b, f ≠ .dols b := fun b he => hn.2 b T (by rw [he])
    rcases hx with hx | rfl
    · rw [tok_of hx h hf hfd hb] at ht
      simp only [Prod.mk.injEq, Option.some.injEq, Token.mk.injEq] at ht
      exact (kind_text hx h hf hfd).1 ht.1.1
    · cases f with
      | code v n s =>
        rw [fprint_cons, show (F.code v n s).print = ticks n ++ (keepApart s.head? ++ s ++ keepApart s.getLast?) ++ ticks n ++ v.behind from rfl] at ht
        obtain ⟨c, y, e1, e2⟩ := apart_head h.2.1.1.2.2.1 (keepApart s.getLast? ++ (ticks n ++ (v.behind ++ fprint T)))
        have e3 : ticks n ++ (keepApart s.head? ++ s ++ keepApart s.getLast?) ++ ticks n ++ v.behind ++ fprint T = ticks n ++ (c :: y) := by rw [← e1]; simp
        rw [e3, tok_tick h.2.1.1.1 false (by simpa using e2)] at ht
        cases ht
      | ch b => exact hf b rfl
      | dols d => exact hfd d rfl
      | nl hard => cases hard <;> first | (have := h.1; cases this; done) | (exact absurd h.1 (by simp [Ctx.free]))
      | cls o => exact absurd h.1 (by simp [Ctx.free])
      | lit c => have := h.1; cases this
      | nbsp => have := h.1; cases this
      | apos => have := h.1; cases this
      | rest v n lead u tl => have := h.1; cases this
      | _ => exact absurd h.1 (by simp [Ctx.free])

/-- Several text tokens are plain bytes. -/
theorem texts_ch {T W : List F} {S : List Op} {m : Nat} {r : Bytes} (ht : Texts false r m) (hr : r = fprint T) {x : Ctx} (hx : x.free = true) (h : okF x S (T ++ W)) (hb : T.getLast? ≠ some .bsl) :
    ∃ (s : Bytes) (D : Option Bool) (T' : List F), T = s.map .ch ++ (dolF D ++ T') ∧ (∀ c ∈ s, isPlain c = true) ∧ (s ++ dolB D).length = m ∧
      okF (dolCtx (chsCtx x s) D) S (T' ++ W) ∧ DolAt (chsCtx x s) (T' ++ W) D := by
  cases ht with
  | nil => exact ⟨[], none, T, rfl, by simp, rfl, h, trivial⟩
  | @cons _ k e m h1 h2 =>
    subst hr
    obtain ⟨s, D, T', rfl, h3, rfl, h5, h6, h7, h8⟩ := tok_text hx h hb h1
    refine ⟨s, D, T', rfl, h3, ?_, h6, h8⟩
    rw [dol_length] at h2
    cases h2 with
    | nil => rfl
    | cons h9 _ =>
      refine absurd h9 (notText_tok ?_ h6 (getLast?_dol (getLast?_chs hb)) h7)
      cases D with
      | none => exact .inl (chsCtx_free hx s)
      | some d => exact .inr rfl

theorem okF_tail {f : F} {x : Ctx} {S : List Op} {T : List F} (h : okF x S (f :: T)) : ∃ x' S', okF x' S' T ∧ (f = .bsl → x' = .bsl) := by
  cases f with
  | ch b => exact ⟨_, _, h.2.2.2, by simp⟩
  | bsl => exact ⟨_, _, h.2.2, fun _ => rfl⟩
  | lit c => exact ⟨_, _, h.2.2, by simp⟩
  | nbsp => exact ⟨_, _, h.2, by simp⟩
  | opn o => exact ⟨_, _, h.2.2, by simp⟩
  | cls o => obtain ⟨_, _, S', _, h⟩ := h; exact ⟨_, _, h, by simp⟩
  | code v n s => exact ⟨_, _, h.2.2, by simp⟩
  | dols d => exact ⟨_, _, h.2.2.2, by simp⟩
  | rest v n lead s tl => exact ⟨_, _, h.2.2, by simp⟩
  | nl hard => cases hard <;> first | exact ⟨_, _, h.2, by simp⟩ | exact ⟨_, _, h.2.2, by simp⟩
  | dots => exact ⟨_, _, h.2.2, by simp⟩
  | dash em => exact ⟨_, _, h.2.2, by simp⟩
  | right s => exact ⟨_, _, h.2.2, by simp⟩
  | apos => exact ⟨_, _, h.2.2, by simp⟩
  | note s => exact ⟨_, _, h.2.2, by simp⟩
  | sym s => exact ⟨_, _, h.2.2, by simp⟩
  | auto s => exact ⟨_, _, h.2.2, by simp⟩

/-- The pieces do not end in a backslash. -/
theorem okF_last {x : Ctx} {S : List Op} {T : List F} (h : okF x S T) : T.getLast? ≠ some .bsl := by
  induction T generalizing x S with
  | nil => simp
  | cons f T ih =>
    obtain ⟨x', S', h', hb⟩ := okF_tail h
    cases T with
    | nil =>
      intro hl
      simp only [List.getLast?_singleton, Option.some.injEq] at hl
      rw [hb hl] at h'
      exact absurd h'.1 (by simp [Ctx.free])
    | cons g T =>
      rw [List.getLast?_cons_cons]
      exact ih h'

theorem Live.nobsl {src : Bytes} {p : Inline.IP} {x : Ctx} {S : List Op} {T : List F} {Ts : List (List F)} {ls : List Span} (h : Live src p x S T Ts ls) :
    T.getLast? ≠ some .bsl := by
  by_cases hT : Ts = []
  · have := h.wf
    rw [hT, List.flatten_nil, List.append_nil] at this
    exact okF_last this
  · rcases h.br hT with ⟨rfl, _⟩ | ⟨hard, h⟩
    · simp
    · rw [h]; simp

end Jotdown.Round
