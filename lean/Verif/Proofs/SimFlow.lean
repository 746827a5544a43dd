import Verif.Proofs.SimStep
/-! # A token is never the end -/
namespace Jotdown.Inline
open Jotdown

structure Goes (x : R (IP × Option Flow)) : Prop where
  h : ∀ r, x = .ok r → r.2 ≠ some .done

theorem Goes.ok {r : IP × Option Flow} (h : r.2 ≠ some .done) : Goes (.ok r) := by
  constructor; intro r' hr; cases hr; exact h
theorem Goes.pure {r : IP × Option Flow} (h : r.2 ≠ some .done) : Goes (Pure.pure r) := .ok h
theorem Goes.error {e : Panic} : Goes (.error e) := by constructor; intro r h; cases h
theorem Goes.bind {α : Type} {x : R α} {f : α → R (IP × Option Flow)} (h : ∀ a, Goes (f a)) : Goes (x >>= f) := by
  constructor
  intro r hr
  obtain ⟨a, _, h1⟩ := bind_ok hr
  exact (h a).h r h1

theorem orElse_goes {x : R (IP × Option Flow)} {f : IP → R (IP × Option Flow)} (hx : Goes x) (hf : ∀ p, Goes (f p)) : Goes (orElse x f) := by
  constructor
  intro r hr
  unfold orElse at hr
  obtain ⟨a, h0, h1⟩ := bind_ok hr
  split at h1
  · rename_i fl hfl
    cases h1
    have := hx.h a h0
    rw [hfl] at this
    exact this
  · exact (hf _).h r h1

syntax "goes" : tactic
macro_rules
  | `(tactic| goes) => `(tactic| repeat' (first | (refine Goes.ok ?_; simp; done) | (refine Goes.pure ?_; simp; done) | exact Goes.error | (with_reducible refine Goes.bind fun _ => ?_) | split))

theorem moreAttributes_goes (p : IP) (a : Nat) (s : AttributesState) (b : Bool) : Goes (p.moreAttributes a s b) := by
  unfold IP.moreAttributes; goes
theorem finishAttributes_goes (p : IP) (a : Nat) (s : AttrScan) : Goes (p.finishAttributes a s) := by
  unfold IP.finishAttributes; goes
theorem resumeAttributes_goes (p : IP) (s : AttributesState) (a b : Bool) : Goes (p.resumeAttributes s a b) := by
  unfold IP.resumeAttributes; goes
  all_goals first | exact moreAttributes_goes .. | exact finishAttributes_goes ..
theorem aheadAttributes_goes (p : IP) (e : ElemTy) (a : Bool) : Goes (p.aheadAttributes e a) := by
  unfold IP.aheadAttributes
  exact .bind fun _ => resumeAttributes_goes ..
theorem parseAttributes_goes (p : IP) (t : Lex.Token) : Goes (p.parseAttributes t) := by
  unfold IP.parseAttributes; goes
  all_goals first | exact resumeAttributes_goes .. | exact aheadAttributes_goes ..
theorem aheadAttributesOr_goes (p : IP) (e : ElemTy) : Goes (p.aheadAttributesOr e) := by
  unfold IP.aheadAttributesOr
  constructor
  intro r hr
  obtain ⟨a, h0, h1⟩ := bind_ok hr
  have := (aheadAttributes_goes _ _ _).h a h0
  cases h1
  simp only [ne_eq, Option.some.injEq]
  cases h : a.2 with
  | none => simp
  | some f => rw [h] at this; simpa using this
theorem afterVerbatim_goes (p : IP) (e : Nat) : Goes (p.afterVerbatim e) := by
  unfold IP.afterVerbatim; goes
  exact aheadAttributesOr_goes ..
theorem closeVerbatim_goes (p : IP) (v : VerbatimState) : Goes (p.closeVerbatim v) := by
  unfold IP.closeVerbatim; goes
  exact afterVerbatim_goes ..
theorem parseVerbatim_goes (p : IP) (t : Lex.Token) : Goes (p.parseVerbatim t) := by
  unfold IP.parseVerbatim IP.openVerbatim IP.continueVerbatim; goes
  exact closeVerbatim_goes ..
theorem parseAutolink_goes (p : IP) (t : Lex.Token) : Goes (p.parseAutolink t) := by
  unfold IP.parseAutolink IP.pushAutolink; goes
theorem parseSymbol_goes (p : IP) (t : Lex.Token) : Goes (p.parseSymbol t) := by
  unfold IP.parseSymbol IP.pushNamed; goes
theorem parseFootnoteReference_goes (p : IP) (t : Lex.Token) : Goes (p.parseFootnoteReference t) := by
  unfold IP.parseFootnoteReference IP.footnoteLabel IP.pushNamed; goes
theorem afterClose_goes (p : IP) (o : Opener) (e : Nat) : Goes (p.afterClose o e) := by
  unfold IP.afterClose
  split
  · exact aheadAttributesOr_goes ..
  · goes
theorem closeOpener_goes (p : IP) (o : Opener) (a b : Nat) : Goes (p.closeOpener o a b) := by
  unfold IP.closeOpener; goes
  all_goals exact afterClose_goes ..
theorem parseContainer_goes (p : IP) (t : Lex.Token) : Goes (p.parseContainer t) := by
  unfold IP.parseContainer
  refine orElse_goes ?_ ?_
  · unfold IP.tryClose; goes
    exact closeOpener_goes ..
  · intro p; unfold IP.tryOpen; goes
    all_goals (simp only []; goes)
theorem parseAtom_goes (p : IP) (t : Lex.Token) : Goes (p.parseAtom t) := by
  unfold IP.parseAtom; goes

theorem parseToken_goes {p r : IP} {t : Lex.Token} {f : Flow} (h : p.parseToken t = .ok (r, f)) : f ≠ .done := by
  unfold IP.parseToken at h
  obtain ⟨a, h0, h1⟩ := bind_ok h
  have hg := (orElse_goes (orElse_goes (orElse_goes (orElse_goes (orElse_goes (orElse_goes (parseVerbatim_goes p t)
    (fun p => parseAttributes_goes p t)) (fun p => parseAutolink_goes p t)) (fun p => parseSymbol_goes p t)) (fun p => parseFootnoteReference_goes p t))
    (fun p => parseContainer_goes p t)) (fun p => parseAtom_goes p t)).h a h0
  split at h1
  · rename_i fl hfl
    cases h1
    rw [hfl] at hg
    intro hd; exact hg (by rw [hd])
  · cases h1; simp

end Jotdown.Inline
