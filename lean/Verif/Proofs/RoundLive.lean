import Verif.Proofs.RoundFlat
import Verif.Proofs.Base
import Verif.Spec.Doc
/-! # Round trip: states of the inline parser -/
namespace Jotdown.Round
open Jotdown Jotdown.Notation

def Op.opener : Op → Inline.Opener
  | .mark .emphasis b => .emphasis (if b then .uni else .bi)
  | .mark .strong b => .strong (if b then .uni else .bi)
  | .mark .superscript b => .superscript (if b then .uni else .bi)
  | .mark .subscript b => .subscript (if b then .uni else .bi)
  | .mark .highlight _ => .mark
  | .mark .insert _ => .insert
  | .mark .delete _ => .delete
  | .mark .single _ => .singleQuoted
  | .mark .double _ => .doubleQuoted
  | .link image _ => .span (if image then .image else .general)

/-- The event at the start. -/
def Mark.inner : Mark → Inline.EventKind
  | .emphasis => .enter .emphasis
  | .strong => .enter .strong
  | .superscript => .enter .superscript
  | .subscript => .enter .subscript
  | .highlight => .enter .mark
  | .insert => .enter .insert
  | .delete => .enter .delete
  | .single => .atom (.quote .single true)
  | .double => .atom (.quote .double true)

/-- The event at the end. -/
def Mark.outer : Mark → Inline.EventKind
  | .emphasis => .exit .emphasis
  | .strong => .exit .strong
  | .superscript => .exit .superscript
  | .subscript => .exit .subscript
  | .highlight => .exit .mark
  | .insert => .exit .insert
  | .delete => .exit .delete
  | .single => .atom (.quote .single false)
  | .double => .atom (.quote .double false)

def Mark.delim : Mark → Lex.Delimiter
  | .emphasis => .braceUnderscore
  | .strong => .braceAsterisk
  | .superscript => .braceCaret
  | .subscript => .braceTilde
  | .highlight => .braceEqual
  | .insert => .bracePlus
  | .delete => .braceHyphen
  | .single => .braceQuote1
  | .double => .braceQuote2

/-- The token of a delimiter without braces. -/
def Mark.symbol : Mark → Lex.Kind
  | .emphasis => .sym .underscore
  | .strong => .sym .asterisk
  | .superscript => .sym .caret
  | .subscript => .sym .tilde
  | .single => .sym .quote1
  | .double => .sym .quote2
  | m => .cls m.delim

def Op.openKind : Op → Lex.Kind
  | .mark m true => .opn m.delim
  | .mark m false => m.symbol
  | .link true _ => .sym .exclaimBracket
  | .link false _ => .opn .bracket

/-- The token that closes. -/
def Op.closeKind : Op → Lex.Kind
  | .mark m true => .cls m.delim
  | .mark m false => m.symbol
  | .link _ _ => .cls .bracket

/-- All tokens that would close. -/
def Op.closers : Op → List Lex.Kind
  | .mark m b => if m.quote then [m.symbol, .cls m.delim] else [(Op.mark m b).closeKind]
  | o => [o.closeKind]

/-- The containers of the fragment; `st` has the destinations of links. -/
def outer (st : List Bytes) : Inline.Container → Container
  | .emphasis => .emphasis
  | .strong => .strong
  | .superscript => .superscript
  | .subscript => .subscript
  | .mark => .mark
  | .insert => .insert
  | .delete => .delete
  | .autolink u => autoTo u
  | .rawFormat f => .rawInline f
  | .inlineMath => .math false
  | .displayMath => .math true
  | .inlineLink i => linkTo false (st[i]?.getD [])
  | .inlineImage i => linkTo true (st[i]?.getD [])
  | _ => .verbatim

def simple (n : Nat) : Inline.Container → Bool
  | .emphasis | .strong | .superscript | .subscript | .mark | .insert | .delete | .verbatim | .inlineMath | .displayMath | .rawFormat _ | .autolink _ => true
  | .inlineLink i | .inlineImage i => decide (i < n)
  | _ => false

def evOk (n : Nat) : Inline.EventKind → Bool
  | .enter c | .exit c => simple n c
  | .atom _ | .str | .placeholder => true
  | _ => false

/-- Text or nothing. -/
def soft : Inline.EventKind → Bool
  | .str | .placeholder => true
  | _ => false

def rawEv (src : Bytes) (st : List Bytes) (e : Inline.Event) : List Event :=
  match e.kind with
  | .str => [.str (textAt src e.span)]
  | .enter c => [.start (outer st c) []]
  | .exit c => [.end (outer st c)]
  | .atom a => [atomEvent a]
  | _ => []

def rawEvs (src : Bytes) (st : List Bytes) (es : List Inline.Event) : List Event := es.flatMap (rawEv src st)

@[simp] theorem rawEvs_nil (src : Bytes) (st : List Bytes) : rawEvs src st [] = [] := rfl
@[simp] theorem rawEvs_cons (src : Bytes) (st : List Bytes) (e : Inline.Event) (es : List Inline.Event) : rawEvs src st (e :: es) = rawEv src st e ++ rawEvs src st es := rfl
@[simp] theorem rawEvs_append (src : Bytes) (st : List Bytes) (A B : List Inline.Event) : rawEvs src st (A ++ B) = rawEvs src st A ++ rawEvs src st B := by simp [rawEvs]

/-- More destinations do not change what is known. -/
theorem rawEv_mono {src : Bytes} {st : List Bytes} {e : Inline.Event} (h : evOk st.length e.kind = true) (w : List Bytes) : rawEv src (st ++ w) e = rawEv src st e := by
  have hc : ∀ c, simple st.length c = true → outer (st ++ w) c = outer st c := by
    intro c hc
    cases c <;> first | rfl | (simp only [simple, decide_eq_true_eq] at hc; simp only [outer, List.getElem?_append_left hc])
  obtain ⟨k, sp⟩ := e
  cases k <;> first | rfl | (simp only [rawEv]; rw [hc _ h])

theorem evOk_mono {n m : Nat} (hm : n ≤ m) {k : Inline.EventKind} (h : evOk n k = true) : evOk m k = true := by
  have hc : ∀ c, simple n c = true → simple m c = true := by
    intro c hc
    cases c <;> first | rfl | (simp only [simple, decide_eq_true_eq] at hc ⊢; omega) | cases hc
  cases k <;> first | rfl | exact hc _ h | cases h

/-- An event becomes the start of a container. -/
def setC (Q : List Inline.Event) (i : Nat) (c : Inline.Container) : List Inline.Event :=
  match Q[i]? with
  | some e => Q.set i { e with kind := .enter c }
  | none => Q

theorem setC_length (Q : List Inline.Event) (i : Nat) (c : Inline.Container) : (setC Q i c).length = Q.length := by
  unfold setC; split <;> simp

theorem setC_map {Q : List Inline.Event} {i : Nat} (h : i < Q.length) (c : Inline.Container) (src : Bytes) (st : List Bytes) :
    (setC Q i c).map (rawEv src st) = (Q.map (rawEv src st)).set i [.start (outer st c) []] := by
  unfold setC
  rw [List.getElem?_eq_getElem h]
  simp only [List.map_set]
  rfl

/-- An event becomes another one. -/
def setK (Q : List Inline.Event) (i : Nat) (k : Inline.EventKind) : List Inline.Event :=
  match Q[i]? with
  | some e => Q.set i { e with kind := k }
  | none => Q

theorem setK_length (Q : List Inline.Event) (i : Nat) (k : Inline.EventKind) : (setK Q i k).length = Q.length := by
  unfold setK; split <;> simp

theorem setK_map {Q : List Inline.Event} {i : Nat} (h : i < Q.length) {k : Inline.EventKind} (hk : k ≠ .str) (src : Bytes) (st : List Bytes) :
    (setK Q i k).map (rawEv src st) = (Q.map (rawEv src st)).set i (rawEv src st ⟨k, ⟨0, 0⟩⟩) := by
  unfold setK
  rw [List.getElem?_eq_getElem h]
  simp only [List.map_set]
  cases k <;> first | rfl | exact absurd rfl hk

/-- What is queued, once all that is open is closed. -/
def resolve : List Op → List (Inline.Opener × Nat) → List (List Event) → List (List Event)
  | s :: S, o :: O, R => resolve S O (R.set (o.2 + 1) [s.starts])
  | _, _, R => R

theorem resolve_append : ∀ {S : List Op} {O : List (Inline.Opener × Nat)} {R : List (List Event)}, (∀ o ∈ O, o.2 + 1 < R.length) → ∀ W : List (List Event),
    resolve S O (R ++ W) = resolve S O R ++ W := by
  intro S
  induction S with
  | nil => intros; rfl
  | cons s S ih =>
    intro O R h W
    cases O with
    | nil => rfl
    | cons o O =>
      simp only [resolve]
      rw [List.set_append_left _ _ (h o (by simp))]
      exact ih (fun o' ho' => by rw [List.length_set]; exact h o' (by simp [ho'])) W

/-- The queue. -/
structure QOk (n : Nat) (Q : List Inline.Event) (b : Nat) : Prop where
  kinds : ∀ e ∈ Q, evOk n e.kind = true
  spans : ∀ e ∈ Q, e.span.start ≤ e.span.stop ∧ (e.kind = .placeholder → e.span.start = e.span.stop)
  glued : ∀ (i : Nat) (e e' : Inline.Event), Q[i]? = some e → Q[i + 1]? = some e' → soft e.kind = true → soft e'.kind = true → e.span.stop = e'.span.start
  last : ∀ e, Q.getLast? = some e → soft e.kind = true → e.span.stop = b
  noph : ∀ e, Q.getLast? = some e → e.kind ≠ .placeholder

theorem QOk.nil (n b : Nat) : QOk n [] b := ⟨by simp, by simp, by simp, by simp, by simp⟩

theorem QOk.pushAny {n : Nat} {Q : List Inline.Event} {b : Nat} (h : QOk n Q b) {k : Inline.EventKind} (hk : evOk n k = true) {c : Nat} (hc : b ≤ c) (hph : k = .placeholder → b = c) :
    (∀ e ∈ Q ++ [Inline.Event.mk k ⟨b, c⟩], evOk n e.kind = true) ∧
    (∀ e ∈ Q ++ [Inline.Event.mk k ⟨b, c⟩], e.span.start ≤ e.span.stop ∧ (e.kind = .placeholder → e.span.start = e.span.stop)) ∧
    (∀ (i : Nat) (e e' : Inline.Event), (Q ++ [Inline.Event.mk k ⟨b, c⟩])[i]? = some e → (Q ++ [Inline.Event.mk k ⟨b, c⟩])[i + 1]? = some e' → soft e.kind = true → soft e'.kind = true → e.span.stop = e'.span.start) ∧
    (∀ e, (Q ++ [Inline.Event.mk k ⟨b, c⟩]).getLast? = some e → e = ⟨k, ⟨b, c⟩⟩) := by
  refine ⟨?_, ?_, ?_, ?_⟩
  · intro e he
    rcases List.mem_append.mp he with he | he
    · exact h.kinds e he
    · simp only [List.mem_singleton] at he; subst he; exact hk
  · intro e he
    rcases List.mem_append.mp he with he | he
    · exact h.spans e he
    · simp only [List.mem_singleton] at he; subst he; exact ⟨hc, hph⟩
  · intro i e e' h1 h2 s1 s2
    by_cases hi : i + 1 < Q.length
    · rw [List.getElem?_append_left hi] at h2
      rw [List.getElem?_append_left (by omega)] at h1
      exact h.glued i e e' h1 h2 s1 s2
    · have hlen := (List.getElem?_eq_some_iff.mp h2).1
      simp only [List.length_append, List.length_singleton] at hlen
      have hi' : Q.length = i + 1 := by omega
      rw [List.getElem?_append_left (by omega)] at h1
      rw [List.getElem?_append_right (by omega), hi'] at h2
      simp only [Nat.sub_self, List.getElem?_cons_zero, Option.some.injEq] at h2
      subst h2
      refine h.last e ?_ s1
      rw [List.getLast?_eq_getElem?, hi']
      exact h1
  · intro e he
    simp only [List.getLast?_append, List.getLast?_singleton, Option.some_or, Option.some.injEq] at he
    exact he.symm

theorem QOk.push {n : Nat} {Q : List Inline.Event} {b : Nat} (h : QOk n Q b) {k : Inline.EventKind} (hk : evOk n k = true) (hp : k ≠ .placeholder) {c : Nat} (hc : b ≤ c) :
    QOk n (Q ++ [⟨k, ⟨b, c⟩⟩]) c := by
  obtain ⟨h1, h2, h3, h4⟩ := h.pushAny hk hc (fun h => absurd h hp)
  refine ⟨h1, h2, h3, ?_, ?_⟩
  · intro e he _; rw [h4 e he]
  · intro e he; rw [h4 e he]; exact hp

theorem QOk.push2 {n : Nat} {Q : List Inline.Event} {b : Nat} (h : QOk n Q b) {k : Inline.EventKind} (hk : evOk n k = true) (hp : k ≠ .placeholder) {c : Nat} (hc : b ≤ c) :
    QOk n (Q ++ [⟨.placeholder, ⟨b, b⟩⟩, ⟨k, ⟨b, c⟩⟩]) c := by
  obtain ⟨h1, h2, h3, h4⟩ := h.pushAny (k := .placeholder) rfl (Nat.le_refl b) (fun _ => rfl)
  have hx : ∀ Q' : List Inline.Event, Q' = Q ++ [⟨.placeholder, ⟨b, b⟩⟩] → QOk n (Q' ++ [⟨k, ⟨b, c⟩⟩]) c := by
    rintro Q' rfl
    -- the placeholder is last for a moment
    refine ⟨?_, ?_, ?_, ?_, ?_⟩
    · intro e he
      rcases List.mem_append.mp he with he | he
      · exact h1 e he
      · simp only [List.mem_singleton] at he; subst he; exact hk
    · intro e he
      rcases List.mem_append.mp he with he | he
      · exact h2 e he
      · simp only [List.mem_singleton] at he; subst he; exact ⟨hc, fun h => absurd h hp⟩
    · intro i e e' g1 g2 s1 s2
      by_cases hi : i + 1 < (Q ++ [⟨.placeholder, ⟨b, b⟩⟩] : List Inline.Event).length
      · rw [List.getElem?_append_left hi] at g2
        rw [List.getElem?_append_left (by omega)] at g1
        exact h3 i e e' g1 g2 s1 s2
      · have hlen := (List.getElem?_eq_some_iff.mp g2).1
        simp only [List.length_append, List.length_singleton] at hlen hi
        have hi' : i = Q.length := by omega
        subst hi'
        rw [List.getElem?_append_left (by simp)] at g1
        rw [List.getElem?_append_right (by simp)] at g2
        simp at g1 g2
        subst g1 g2
        rfl
    · intro e he _
      simp only [List.getLast?_append, List.getLast?_singleton, Option.some_or, Option.some.injEq] at he
      rw [← he]
    · intro e he
      simp only [List.getLast?_append, List.getLast?_singleton, Option.some_or, Option.some.injEq] at he
      rw [← he]; exact hp
  have := hx _ rfl
  rw [List.append_assoc] at this
  exact this

theorem getLast?_set {Q : List Inline.Event} {i : Nat} {a : Inline.Event} {e : Inline.Event} (h : (Q.set i a).getLast? = some e) :
    (Q.getLast? = some e) ∨ (i = Q.length - 1 ∧ e = a ∧ i < Q.length) := by
  rw [List.getLast?_eq_getElem?, List.length_set, List.getElem?_set] at h
  split at h
  · rename_i hi
    split at h
    · cases h; exact .inr ⟨hi, rfl, by omega⟩
    · cases h
  · left; rw [List.getLast?_eq_getElem?]; exact h

theorem QOk.setK {n : Nat} {Q : List Inline.Event} {b : Nat} (h : QOk n Q b) {i : Nat} {k : Inline.EventKind} (hc : evOk n k = true) (hs : soft k = false) : QOk n (setK Q i k) b := by
  have hp : k ≠ .placeholder := by rintro rfl; cases hs
  unfold Round.setK
  split
  · rename_i e he
    have hm := List.mem_of_getElem? he
    refine ⟨?_, ?_, ?_, ?_, ?_⟩
    · intro x hx
      rcases List.mem_or_eq_of_mem_set hx with hx | rfl
      · exact h.kinds x hx
      · exact hc
    · intro x hx
      rcases List.mem_or_eq_of_mem_set hx with hx | rfl
      · exact h.spans x hx
      · exact ⟨(h.spans e hm).1, fun hk => absurd hk hp⟩
    · intro i x y h1 h2 s1 s2
      rw [List.getElem?_set] at h1 h2
      split at h1
      · split at h1
        · cases h1; exact absurd s1 (by simp [hs])
        · cases h1
      · split at h2
        · split at h2
          · cases h2; exact absurd s2 (by simp [hs])
          · cases h2
        · exact h.glued i x y h1 h2 s1 s2
    · intro x hx s1
      rcases getLast?_set hx with hx | ⟨_, rfl, _⟩
      · exact h.last x hx s1
      · exact absurd s1 (by simp [hs])
    · intro x hx
      rcases getLast?_set hx with hx | ⟨_, rfl, _⟩
      · exact h.noph x hx
      · exact hp
  · exact h

theorem QOk.setC {n : Nat} {Q : List Inline.Event} {b : Nat} (h : QOk n Q b) {i : Nat} {c : Inline.Container} (hc : simple n c = true) : QOk n (setC Q i c) b :=
  h.setK (k := .enter c) hc rfl

theorem QOk.mono {n m : Nat} (hm : n ≤ m) {Q : List Inline.Event} {b : Nat} (h : QOk n Q b) : QOk m Q b :=
  ⟨fun e he => evOk_mono hm (h.kinds e he), h.spans, h.glued, h.last, h.noph⟩

/-- The container of verbatim text. -/
def Verb.inner : Verb → Inline.Container
  | .plain => .verbatim
  | .raw f => .rawFormat f
  | .math false => .inlineMath
  | .math true => .displayMath

/-- The container while verbatim text is open. -/
def Verb.opn : Verb → Inline.Container
  | .math false => .inlineMath
  | .math true => .displayMath
  | _ => .verbatim

/-- In verbatim text: what is known of the rest. -/
structure VInv (v : Verb) (Q : List Inline.Event) (vs : Inline.VerbatimState) (lead : Bool) (u : Bytes) (tl : Tail) : Prop where
  opener : ∃ sp, Q[vs.eventOpener]? = some ⟨.enter v.opn, sp⟩
  fresh : lead = true → vs.nonWsEncountered = false ∧ ∀ e, Q.getLast? = some e → soft e.kind = false
  start : lead = false → vs.nonWsEncountered = false → ∀ w r, u = w ++ c! '`' :: r → w ≠ [] → ∃ c ∈ w, isWs c = false
  back : tl = .no → ∀ sk, vs.nonWsLast = some (.seq .backtick, sk) → ∃ c ∈ u, isWs c = false
  pad : tl = .pad → u = [] → vs.nonWsEncountered = true ∧ vs.nonWsLast = some (.seq .backtick, Q.length)
  eaten : tl = .eaten → (∃ e, Q.getLast? = some e ∧ e.kind = .str) ∧ vs.nonWsLast = some (.seq .backtick, Q.length - 1)

def VerbIs (p : Inline.IP) (T : List F) : Ctx → Prop
  | .inCode n => ∃ vs : Inline.VerbatimState, p.verbatim = some vs ∧ vs.lenOpener = n ∧
      ∀ v lead u tl T', T = .rest v n lead u tl :: T' → VInv v p.events vs lead u tl
  | _ => p.verbatim = none

def Ctx.isIn : Ctx → Bool
  | .inCode _ => true
  | _ => false

/-- The pieces end with the end of a line. -/
def EndsNl (T : List F) : Prop := ∃ hard, T.getLast? = some (.nl hard)

/-- The events at `b`, after the dollar signs before mathematics. -/
structure MathEnd (src : Bytes) (Q : List Inline.Event) (b : Nat) (d : Bool) : Prop where
  last : ∃ Q' a, Q = Q' ++ [⟨.str, ⟨a, b⟩⟩] ∧ a + (dollars d).length ≤ b ∧ (d = false → a + 1 < b → src[b - 2]? ≠ some (c! '$'))
  one : src[b - 1]? = some (c! '$')
  two : d = true → src[b - 2]? = some (c! '$')
  bsl : ∀ c, src[b - ((dollars d).length + 1)]? = some c → c ≠ c! '\\'

/-- The text before dollar signs. -/
def trimDol (d : Bool) (Q : List Inline.Event) : List Inline.Event :=
  match Q.getLast? with
  | some e => Q.dropLast ++ [⟨e.kind, ⟨e.span.start, e.span.stop - (dollars d).length⟩⟩]
  | none => Q

/-- The next piece is not mathematics. -/
def NotMath (T : List F) : Prop := ∀ d n s T', T ≠ .code (.math d) n s :: T'

theorem okF_notMath {x : Ctx} {S : List Op} {T W : List F} (h : okF x S (T ++ W)) (hx : x ≠ .dol) : NotMath T := by
  rintro d n s T' rfl
  exact hx h.1

theorem free_notDol {x : Ctx} (h : x.free = true) : x ≠ .dol := by rintro rfl; cases h

/-- The state of the parser in the current line, whose rest is `T`; the following lines are `Ts`. -/
structure Live (src : Bytes) (p : Inline.IP) (x : Ctx) (S : List Op) (T : List F) (Ts : List (List F)) (ls : List Span) : Prop where
  hsrc : p.input.src = src
  attr : p.attributes = none
  ahead : p.input.ahead = []
  cpl : p.input.complete = ls.isEmpty
  lex : Lex.At p.input.lexer (x == .bsl) x.isIn (fprint T)
  pos : ∃ w, src.drop p.input.span.stop = fprint T ++ w
  bs : x = .bsl → ∃ i, p.input.span.stop = i + 1 ∧ src[i]? = some (c! '\\')
  wsp : x.tight = true → ∀ c, src[p.input.span.stop - 1]? = some c → isWs c = false
  sp : x = .space → ∃ i c, p.input.span.stop = i + 1 ∧ src[i]? = some c ∧ isWs c = true
  ln : p.input.spanLine.start ≤ p.input.span.stop
  ops : p.openers.map (·.1) = S.map Op.opener
  opi : ∀ o ∈ p.openers, o.2 + 1 < p.events.length
  opx : x.isOpened = false → ∀ o ∈ p.openers, o.2 + 2 < p.events.length
  verb : VerbIs p T x
  q : QOk p.storeCowstrs.length p.events p.input.span.stop
  dol : ∀ e, p.events.getLast? = some e → e.kind = .str → x.free = true → src[e.span.stop - 1]? = some (c! '$') →
    2 ≤ e.span.stop ∧ src[e.span.stop - 2]? = some (c! '\\')
  wf : okF x S (T ++ Ts.flatten)
  lines : ls.map (textAt src) = Ts.map fprint
  br : Ts ≠ [] → (T = [] ∧ x = .bol) ∨ EndsNl T
  brs : ∀ t ∈ Ts.dropLast, EndsNl t
  bol : x = .bol → ∀ e, p.events.getLast? = some e → soft e.kind = false
  wd : x = .word → T ++ Ts.flatten ≠ [] → ∃ e, p.events.getLast? = some e ∧ e.kind = .str
  mth : x = .dol → ∃ d, MathNext d T ∧ MathEnd src p.events p.input.span.stop d
  pw : x = .word → ∀ c, src[p.input.span.stop - 1]? = some c → c ≠ c! '\\'

/-- A blank that has been read is not kept. -/
def Tail.trim (Q : List Inline.Event) : Tail → List Inline.Event
  | .eaten => Q.dropLast
  | _ => Q

/-- The queue as it will be once verbatim text is closed. -/
def view (p : Inline.IP) (T : List F) : List Inline.Event :=
  match p.verbatim with
  | none =>
    match T with
    | .code (.math d) _ _ :: _ => trimDol d p.events
    | _ => p.events
  | some vs =>
    match T with
    | .rest v _ _ _ tl :: _ => setC (tl.trim p.events) vs.eventOpener v.inner
    | _ => p.events

theorem view_none {p : Inline.IP} (h : p.verbatim = none) {T : List F} (hm : NotMath T) : view p T = p.events := by
  unfold view; rw [h]
  simp only
  split
  · exact absurd rfl (hm _ _ _ _)
  · rfl

/-- All events still to come. -/
def total (src : Bytes) (p : Inline.IP) (S : List Op) (T : List F) (Ts : List (List F)) : List Event :=
  joined ((resolve S p.openers ((view p T).map (rawEv src p.storeCowstrs))).flatten ++ fraw (T ++ Ts.flatten))

theorem total_none {src : Bytes} {p : Inline.IP} {S : List Op} {T : List F} {Ts : List (List F)} (h : p.verbatim = none) (hm : NotMath T) :
    total src p S T Ts = joined ((resolve S p.openers (p.events.map (rawEv src p.storeCowstrs))).flatten ++ fraw (T ++ Ts.flatten)) := by
  unfold total; rw [view_none h hm]

end Jotdown.Round
