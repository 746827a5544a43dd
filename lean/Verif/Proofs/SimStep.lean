import Verif.Proofs.SimTok
import Verif.Proofs.InlIter
/-! # Steps of parsers that read the same text -/
namespace Jotdown.Inline
open Jotdown
open Jotdown.Block
open Jotdown.Notation

variable {D : List Event} {E : Nat} {m : Mode}

theorem orElse_assoc (a : R (IP × Option Flow)) (f g : IP → R (IP × Option Flow)) : orElse (orElse a f) g = orElse a (fun p => orElse (f p) g) := by
  cases a with
  | error e => rfl
  | ok r =>
    obtain ⟨p, o⟩ := r
    cases o <;> rfl

/-- What is tried after attributes. -/
def IP.restToken (p : IP) (t : Lex.Token) : R (IP × Option Flow) :=
  orElse (p.parseAutolink t) (fun p => orElse (p.parseSymbol t) (fun p => orElse (p.parseFootnoteReference t)
    (fun p => orElse (p.tryClose t) (fun p => orElse (p.tryOpen t) (fun p => p.parseAtom t)))))

/-- A token that is nothing else is text. -/
def tokEnd (r : IP × Option Flow) : IP × Flow :=
  match r.2 with
  | some f => (r.1, f)
  | none => (r.1.push .str, .cont)

theorem parseToken_eq (p : IP) (t : Lex.Token) : p.parseToken t =
    (do
      let r ← orElse (p.parseVerbatim t) (fun p => orElse (p.parseAttributes t) (fun p => p.restToken t))
      pure (tokEnd r)) := by
  unfold IP.parseToken IP.restToken IP.parseContainer
  simp only [orElse_assoc]
  congr 1
  funext r
  unfold tokEnd
  cases r.2 <;> rfl

theorem orElse_inv {a : R (IP × Option Flow)} {f : IP → R (IP × Option Flow)} {r : IP × Option Flow} (h : orElse a f = .ok r) :
    ∃ x, a = .ok x ∧ ((x = r ∧ ∃ fl, r.2 = some fl) ∨ (x.2 = none ∧ f x.1 = .ok r)) := by
  unfold orElse at h
  obtain ⟨x, h1, h⟩ := bind_ok h
  refine ⟨x, h1, ?_⟩
  cases hx : x.2 with
  | some fl =>
    rw [hx] at h
    simp only at h
    obtain ⟨p, o⟩ := x
    simp only at hx
    subst hx
    cases h
    exact .inl ⟨rfl, fl, rfl⟩
  | none =>
    rw [hx] at h
    exact .inr ⟨rfl, h⟩

theorem Agree.none {r r' : IP × Option Flow} (h : Agree D E m r r') : (r'.2 = none ↔ r.2 = none) ∧ (r.2 = none → Sim D E m r.1 r'.1) := by
  cases h with
  | same h => exact ⟨by rw [h.flow], fun _ => h.sim⟩
  | lag hm h =>
    obtain ⟨p0, q0, ty, start, x, f, _, _, _, h4⟩ := h.ex
    refine ⟨by rw [h.more, h4]; simp, fun hn => ?_⟩
    rw [h4] at hn
    cases hn

theorem orElse_sim {a a' : R (IP × Option Flow)} {f f' : IP → R (IP × Option Flow)} {r r' : IP × Option Flow} (h1 : orElse a f = .ok r) (h2 : orElse a' f' = .ok r')
    (H : ∀ x x', a = .ok x → a' = .ok x' → Agree D E m x x')
    (K : ∀ x x' : IP × Option Flow, a = .ok x → a' = .ok x' → x.2 = none → x'.2 = none → Sim D E m x.1 x'.1 → f x.1 = .ok r → f' x'.1 = .ok r' → Agree D E m r r') : Agree D E m r r' := by
  obtain ⟨x, a1, h1⟩ := orElse_inv h1
  obtain ⟨x', a2, h2⟩ := orElse_inv h2
  have hh := H x x' a1 a2
  rcases h1 with ⟨rfl, fl, h1⟩ | ⟨n1, h1⟩
  · rcases h2 with ⟨rfl, fl', h2⟩ | ⟨n2, h2⟩
    · exact hh
    · have := hh.none.1.1 n2
      rw [h1] at this; cases this
  · rcases h2 with ⟨rfl, fl', h2⟩ | ⟨n2, h2⟩
    · have := hh.none.1.2 n1
      rw [h2] at this; cases this
    · exact K x x' a1 a2 n1 n2 (hh.none.2 n1) h1 h2

theorem autolink_attr {p : IP} {t : Lex.Token} {r : IP × Option Flow} (h : p.parseAutolink t = .ok r) : r.1.attributes = p.attributes := by
  unfold IP.parseAutolink at h
  split at h
  · obtain ⟨a, _, h⟩ := bind_ok h
    split at h
    · unfold IP.pushAutolink at h
      obtain ⟨_, _, h⟩ := bind_ok h
      obtain ⟨_, _, h⟩ := bind_ok h
      cases h; rfl
    · cases h; rfl
  · cases h; rfl

theorem pushNamed_attr {p : IP} {n : Nat} {f : Bytes → Atom} {r : IP × Option Flow} (h : p.pushNamed n f = .ok r) : r.1.attributes = p.attributes := by
  unfold IP.pushNamed at h
  obtain ⟨_, _, h⟩ := bind_ok h
  obtain ⟨_, _, h⟩ := bind_ok h
  cases h; rfl

theorem symbol_attr {p : IP} {t : Lex.Token} {r : IP × Option Flow} (h : p.parseSymbol t = .ok r) : r.1.attributes = p.attributes := by
  unfold IP.parseSymbol at h
  split at h
  · obtain ⟨a, _, h⟩ := bind_ok h
    split at h
    · exact pushNamed_attr h
    · cases h; rfl
  · cases h; rfl

theorem footnote_attr {p : IP} {t : Lex.Token} {r : IP × Option Flow} (h : p.parseFootnoteReference t = .ok r) : r.1.attributes = p.attributes := by
  unfold IP.parseFootnoteReference at h
  split at h
  · split at h
    · unfold IP.footnoteLabel at h
      obtain ⟨_, _, h⟩ := bind_ok h
      obtain ⟨a, _, h⟩ := bind_ok h
      split at h
      · exact (pushNamed_attr h).trans rfl
      · cases h; rfl
    · cases h; rfl
  · cases h; rfl

theorem rest_sim (hD : Closed D) {p q : IP} {t : Lex.Token} {r r' : IP × Option Flow} (h : Sim D E m p q) (ha : p.attributes = none) (h1 : p.restToken t = .ok r)
    (h2 : q.restToken t = .ok r') : Agree D E m r r' := by
  unfold IP.restToken at h1 h2
  refine orElse_sim h1 h2 (fun x x' a b => .same (parseAutolink_sim h a b)) ?_
  intro x x' a1 a2 _ _ h h1 h2
  have ha : x.1.attributes = none := by rw [autolink_attr a1, ha]
  refine orElse_sim h1 h2 (fun x x' a b => .same (parseSymbol_sim h a b)) ?_
  intro x x' a1 a2 _ _ h h1 h2
  have ha : x.1.attributes = none := by rw [symbol_attr a1, ha]
  refine orElse_sim h1 h2 (fun x x' a b => .same (parseFootnote_sim h a b)) ?_
  intro x x' a1 a2 _ _ h h1 h2
  have ha : x.1.attributes = none := by rw [footnote_attr a1, ha]
  refine orElse_sim h1 h2 (fun x x' a b => tryClose_sim h ha a b) ?_
  intro x x' a1 a2 _ _ h h1 h2
  refine orElse_sim h1 h2 (fun x x' a b => .same (tryOpen_sim hD h a b)) ?_
  intro x x' a1 a2 _ _ h h1 h2
  exact .same (parseAtom_sim h h1 h2)

theorem tokEnd_sim {r r' : IP × Option Flow} (h : Same D E m r r') : (tokEnd r').2 = (tokEnd r).2 ∧ Sim D E m (tokEnd r).1 (tokEnd r').1 := by
  unfold tokEnd
  rw [h.flow]
  cases r.2 with
  | some f => exact ⟨rfl, h.sim⟩
  | none => exact ⟨rfl, h.sim.push .str⟩

theorem Agree.post {r r' : IP × Option Flow} (h : Agree D E .post r r') : Same D E .post r r' := by
  cases h with
  | same h => exact h
  | lag hm _ => cases hm

theorem Agree.of_same {r r' : IP × Option Flow} (h : Agree D E .same r r') : Same D E .same r r' := by
  cases h with
  | same h => exact h
  | lag hm _ => cases hm

/-- A brace is not verbatim. -/
theorem verbatim_brace {p : IP} {t : Lex.Token} (hv : p.verbatim = none) (ht : t.kind = .opn .brace) : p.parseVerbatim t = .ok (p, none) := by
  unfold IP.parseVerbatim
  rw [hv]
  simp only
  rw [if_neg (by rw [ht]; simp)]

/-- The results of a token. -/
inductive TokAgree (D : List Event) (E : Nat) (m : Mode) (p q : IP) (t : Lex.Token) (r r' : IP × Flow) : Prop
  | same : r'.2 = r.2 → Sim D E m r.1 r'.1 → TokAgree D E m p q t r r'
  | lag : m = .pre → Lag D E (r.1, some r.2) (r'.1, some r'.2) → TokAgree D E m p q t r r'
  | eat (st start x f0 first) : m = .pre → t.kind = .opn .brace → p.verbatim = none →
      Lagging D E { p with attributes := none } { q with attributes := none } st true first f0 (r'.1, some r'.2) start x →
      (∃ f1, orElse (.ok f0) (fun p => p.restToken t) = .ok f1 ∧ r = tokEnd f1) → TokAgree D E m p q t r r'

theorem none_eta {p : IP} (h : p.attributes = none) : ({ p with attributes := none } : IP) = p := by
  cases p; simp only at h; subst h; rfl

theorem agree_tok {p q : IP} {t : Lex.Token} {f f' : IP × Option Flow} (h : Agree D E m f f') : TokAgree D E m p q t (tokEnd f) (tokEnd f') := by
  cases h with
  | same h => exact .same (tokEnd_sim h).1 (tokEnd_sim h).2
  | lag hm h =>
    refine .lag hm ?_
    obtain ⟨p0, q0, ty, start, x, g, a, b, d, e⟩ := h.ex
    have e1 : tokEnd f = (f.1, g.getD .cont) := by unfold tokEnd; rw [e]
    have e2 : tokEnd f' = (f'.1, .more) := by unfold tokEnd; rw [h.more]
    rw [e1, e2]
    exact ⟨⟨p0, q0, ty, start, x, g, a, b, d, rfl⟩, rfl⟩

theorem Sim.attr_iff {p q : IP} (h : Sim D E m p q) : q.attributes = none ↔ p.attributes = none := by
  rw [h.attributes]; cases p.attributes <;> simp

theorem Sim.verb_iff {p q : IP} (h : Sim D E m p q) : q.verbatim = none ↔ p.verbatim = none := by
  rw [h.verbatim]; cases p.verbatim <;> simp

theorem verbatim_none {p : IP} {t : Lex.Token} {x : IP × Option Flow} (h : p.parseVerbatim t = .ok x) (hn : x.2 = none) :
    p.verbatim = none := by
  unfold IP.parseVerbatim at h
  cases hp : p.verbatim with
  | none => rfl
  | some v =>
    rw [hp] at h
    simp only at h
    split at h
    · unfold IP.closeVerbatim IP.afterVerbatim at h
      obtain ⟨_, _, h⟩ := bind_ok h
      obtain ⟨_, _, h⟩ := bind_ok h
      obtain ⟨_, _, h⟩ := bind_ok h
      obtain ⟨_, _, h⟩ := bind_ok h
      simp only at h
      split at h
      · cases h; cases hn
      · split at h
        · obtain ⟨_, _, h⟩ := bind_ok h
          unfold IP.aheadAttributesOr at h
          obtain ⟨_, _, h⟩ := bind_ok h
          cases h; cases hn
        · cases h; cases hn
    · unfold IP.continueVerbatim at h
      obtain ⟨_, _, h⟩ := bind_ok h
      split at h
      · cases h; cases hn
      · cases h; cases hn

theorem attributes_none {p : IP} {t : Lex.Token} {x : IP × Option Flow} (h : p.parseAttributes t = .ok x) (hn : x.2 = none) : x.1.attributes = none := by
  unfold IP.parseAttributes at h
  split at h
  · have key : ∀ (p : IP) st e f, p.attributes = none → p.resumeAttributes st e f = .ok x → x.1.attributes = none := by
      intro p st e f ha h
      obtain ⟨start, l, part, v, y, R⟩ := resumed h
      have hr := R.res
      split at hr
      · rw [more_flow hr] at hn; cases hn
      · unfold IP.finishAttributes at hr
        split at hr
        · cases hr; exact ha
        · obtain ⟨_, _, hr⟩ := bind_ok hr
          obtain ⟨_, _, hr⟩ := bind_ok hr
          obtain ⟨_, _, hr⟩ := bind_ok hr
          obtain ⟨_, _, hr⟩ := bind_ok hr
          cases hr; cases hn
    cases ha : p.attributes with
    | some st =>
      rw [ha] at h
      exact key _ _ _ _ rfl h
    | none =>
      rw [ha] at h
      simp only at h
      unfold IP.aheadAttributes at h
      obtain ⟨_, _, h⟩ := bind_ok h
      exact key _ _ _ _ ha h
  · obtain ⟨u, h1, h⟩ := bind_ok h
    cases h
    unfold dassert at h1
    split at h1
    · rename_i hx; simpa using hx
    · cases h1

theorem parseToken_sim (hD : Closed D) {p q : IP} {t : Lex.Token} {r r' : IP × Flow} (h : Sim D E m p q) (ha : p.verbatim ≠ none → p.attributes = none)
    (hpost : m = .post → p.attributes = none) (h1 : p.parseToken t = .ok r) (h2 : q.parseToken t = .ok r') : TokAgree D E m p q t r r' := by
  rw [parseToken_eq] at h1 h2
  replace h1 := bind_ok h1
  replace h2 := bind_ok h2
  obtain ⟨f, h1, g1⟩ := h1
  obtain ⟨f', h2, g2⟩ := h2
  cases g1; cases g2
  by_cases hb : t.kind = .opn .brace ∧ p.verbatim = none
  · obtain ⟨ht, hv⟩ := hb
    rw [verbatim_brace hv ht] at h1
    rw [verbatim_brace (h.verb_iff.2 hv) ht] at h2
    have h1 : orElse (p.parseAttributes t) (fun p => p.restToken t) = .ok f := h1
    have h2 : orElse (q.parseAttributes t) (fun p => p.restToken t) = .ok f' := h2
    obtain ⟨x, a1, b1⟩ := orElse_inv h1
    obtain ⟨x', a2, b2⟩ := orElse_inv h2
    -- both resume attributes
    have hres : ∃ st first, (m = .post → first = true ∧ st.validLines = 0) ∧ ({ p with attributes := none } : IP).resumeAttributes st true first = .ok x ∧
        ({ q with attributes := none } : IP).resumeAttributes (st.shift D.length) true first = .ok x' := by
      unfold IP.parseAttributes at a1 a2
      rw [if_pos ht] at a1 a2
      rw [h.attributes] at a2
      cases hat : p.attributes with
      | some st =>
        rw [hat] at a1 a2
        simp only [Option.map_some] at a1 a2
        exact ⟨st, false, fun hm => absurd (hpost hm) (by rw [hat]; simp), a1, a2⟩
      | none =>
        rw [hat] at a1 a2
        simp only [Option.map_none] at a1 a2
        unfold IP.aheadAttributes at a1 a2
        obtain ⟨e, c1, a1⟩ := bind_ok a1
        obtain ⟨e', c2, a2⟩ := bind_ok a2
        rw [h.inp.span, c1] at c2
        cases c2
        refine ⟨⟨.word, e, 0, .start⟩, true, fun _ => ⟨rfl, rfl⟩, ?_, ?_⟩
        · rw [none_eta hat]; exact a1
        · rw [none_eta (h.attr_iff.2 hat)]; exact a2
    obtain ⟨st, first, hm, r1, r2⟩ := hres
    have hs := h.attr_none
    have hsame : Same D E m x x' ∨ ∃ start y, m = .pre ∧ Lagging D E { p with attributes := none } { q with attributes := none } st true first x x' start y := by
      cases m with
      | same => exact .inl (resume_same hs r1 r2)
      | pre =>
        rcases resume_pre hs r1 r2 with h | ⟨a, b, h⟩
        · exact .inl h
        · exact .inr ⟨a, b, rfl, h⟩
      | post =>
        obtain ⟨rfl, h0⟩ := hm rfl
        exact .inl (resume_post hs h0 r1 r2)
    rcases hsame with hsame | ⟨start, y, hmp, hl⟩
    · refine agree_tok (orElse_sim h1 h2 (fun z z' c1 c2 => ?_) (fun z z' c1 c2 d1 d2 hz e1 e2 => ?_))
      · rw [a1] at c1; rw [a2] at c2; cases c1; cases c2
        exact .same hsame
      · exact rest_sim hD hz (attributes_none c1 d1) e1 e2
    · have hmore := more_flow hl.more
      have hf' : f' = x' := by
        rcases b2 with ⟨b2, _⟩ | ⟨b2, _⟩
        · exact b2.symm
        · rw [hmore] at b2; cases b2
      subst hf'
      have e2 : tokEnd f' = (f'.1, .more) := by unfold tokEnd; rw [hmore]
      rw [e2]
      refine .eat st start y x first hmp ht hv ?_ ⟨f, ?_, rfl⟩
      · have : (f'.1, some Flow.more) = f' := by rw [← hmore]
        rw [this]
        exact hl
      · unfold orElse at h1 ⊢
        rw [a1] at h1
        exact h1
  · refine agree_tok (orElse_sim h1 h2 (fun z z' c1 c2 => parseVerbatim_sim hD h ha c1 c2) (fun z z' c1 c2 d1 d2 hz e1 e2 => ?_))
    have hnb : t.kind ≠ .opn .brace := fun ht => hb ⟨ht, verbatim_none c1 d1⟩
    refine orElse_sim e1 e2 (fun y y' c1 c2 => ?_) (fun y y' c1 c2 d1 d2 hz e1 e2 => rest_sim hD hz (attributes_none c1 d1) e1 e2)
    unfold IP.parseAttributes at c1 c2
    rw [if_neg hnb] at c1 c2
    obtain ⟨_, _, c1⟩ := bind_ok c1
    obtain ⟨_, _, c2⟩ := bind_ok c2
    cases c1; cases c2
    exact .eq hz

end Jotdown.Inline
