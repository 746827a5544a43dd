import Verif.Proofs.RoundRaw
/-! # Round trip: steps in verbatim text -/
namespace Jotdown.Round
open Jotdown Jotdown.Notation Jotdown.Lex

theorem texts_notick {s : Bytes} {m : Nat} (h : Texts true s m) : c! '`' ∉ s.take m := by
  induction h with
  | nil => simp
  | @cons s k e m h1 h2 ih =>
    intro hm
    have h3 := (tokenAt_v h1).1.2 (by simp)
    rw [List.take_add] at hm
    rcases List.mem_append.mp hm with hm | hm
    · exact h3 hm
    · exact ih hm

/-- The next token in verbatim text. -/
theorem next_v {l : Lexer} {s : Bytes} (h : At l false true s) (hs : s ≠ []) :
    ∃ t l', l.nextTok = (some t, l') ∧ At l' false true (s.drop t.len) ∧ 0 < t.len ∧
      (t.kind = .seq .backtick → (∀ c ∈ s.take t.len, c = c! '`') ∧ (s.drop t.len).head? ≠ some (c! '`')) ∧ (t.kind ≠ .seq .backtick → c! '`' ∉ s.take t.len) := by
  cases s with
  | nil => exact absurd rfl hs
  | cons c r =>
    obtain ⟨t, e', ht⟩ := tokenAt_cons false true c r
    obtain ⟨hv, rfl⟩ := tokenAt_v ht
    have hpos : 0 < t.len := (tokenAt_len _ _ _ _ _ ht).1
    by_cases hk : t.kind = .text
    · obtain ⟨k, n⟩ := t
      simp only at hk
      subst hk
      obtain ⟨m, l', n1, n2, n3⟩ := h.next_text ht
      refine ⟨_, l', n1, n3, by simp only at hpos ⊢; omega, by simp, fun _ hm => ?_⟩
      simp only [List.take_add] at hm
      rcases List.mem_append.mp hm with hm | hm
      · exact hv.2 (by simp) hm
      · exact texts_notick n2 hm
    · obtain ⟨l', n1, n2, _⟩ := h.next_tok ht hk
      refine ⟨t, l', n1, n2, hpos, ?_, hv.2⟩
      intro hk'
      refine ⟨?_, hv.1 hk'⟩
      have := (tokenAt_text _ _ _ _ _ ht).1
      rw [hk'] at this
      simp only [TextOf] at this
      intro c' hc
      rw [this] at hc
      exact (List.mem_replicate.mp hc).2

theorem setC_push {Q : List Inline.Event} {i : Nat} (h : i < Q.length) (c : Inline.Container) (E : List Inline.Event) : setC (Q ++ E) i c = setC Q i c ++ E := by
  unfold setC
  rw [List.getElem?_append_left h]
  rw [List.getElem?_eq_getElem h]
  simp only
  rw [List.set_append_left _ _ h]

theorem setC_self {Q : List Inline.Event} {i : Nat} {c : Inline.Container} {sp : Span} (h : Q[i]? = some ⟨.enter c, sp⟩) : setC Q i c = Q := by
  unfold setC
  rw [h]
  simp only
  obtain ⟨h1, h2⟩ := List.getElem?_eq_some_iff.mp h
  rw [← h2]
  exact List.set_getElem_self h1

theorem setC_take {Q : List Inline.Event} {i m : Nat} (h : i < m) (c : Inline.Container) : (setC Q i c).take m = setC (Q.take m) i c := by
  unfold setC
  rw [List.getElem?_take, if_pos h]
  cases Q[i]? with
  | none => rfl
  | some e => simp only [List.take_set]

theorem QOk.takePush {n : Nat} {Q : List Inline.Event} {b : Nat} (h : QOk n Q b) (m : Nat) {k : Inline.EventKind} (hk : evOk n k = true) (hs : soft k = false) {a c : Nat} (hc : a ≤ c) :
    QOk n (Q.take m ++ [⟨k, ⟨a, c⟩⟩]) c := by
  have hph : k ≠ .placeholder := by rintro rfl; cases hs
  refine ⟨?_, ?_, ?_, ?_, ?_⟩
  · intro e he
    rcases List.mem_append.mp he with he | he
    · exact h.kinds e (List.mem_of_mem_take he)
    · simp only [List.mem_singleton] at he; subst he; exact hk
  · intro e he
    rcases List.mem_append.mp he with he | he
    · exact h.spans e (List.mem_of_mem_take he)
    · simp only [List.mem_singleton] at he; subst he; exact ⟨hc, fun h => absurd h hph⟩
  · intro i e e' h1 h2 s1 s2
    by_cases hi : i + 1 < (Q.take m).length
    · rw [List.getElem?_append_left hi] at h2
      rw [List.getElem?_append_left (by omega)] at h1
      rw [List.getElem?_take] at h1 h2
      split at h1
      · split at h2
        · exact h.glued i e e' h1 h2 s1 s2
        · cases h2
      · cases h1
    · rw [List.getElem?_append_right (by omega)] at h2
      have := List.mem_of_getElem? h2
      simp only [List.mem_singleton] at this
      subst this
      rw [hs] at s2; cases s2
  · intro e he _
    simp only [List.getLast?_append, List.getLast?_singleton, Option.some_or, Option.some.injEq] at he
    rw [← he]
  · intro e he
    simp only [List.getLast?_append, List.getLast?_singleton, Option.some_or, Option.some.injEq] at he
    rw [← he]; exact hph

theorem outer_verb (st : List Bytes) (v : Verb) : outer st v.inner = v.container := by
  cases v with
  | math d => cases d <;> rfl
  | _ => rfl
theorem simple_verb (n : Nat) (v : Verb) : simple n v.inner = true := by
  cases v with
  | math d => cases d <;> rfl
  | _ => rfl

theorem free_head {S : List Op} {T W : List F} (h : okF .code S (T ++ W)) : (fprint T).head? ≠ some (c! '`') ∧ (fprint T).head? ≠ some (c! '\\') :=
  ⟨fun hc => ((next_byte rfl h hc).2.2.1 rfl).1 rfl, fun hc => ((next_byte rfl h hc).2.2.1 rfl).2 rfl⟩

theorem ticks_last {n : Nat} (hn : 0 < n) : ∃ y c, ticks n = y ++ [c] ∧ isWs c = false := by
  obtain ⟨k, rfl⟩ : ∃ k, n = k + 1 := ⟨n - 1, by omega⟩
  exact ⟨ticks k, c! '`', by simp [ticks, List.replicate_succ'], rfl⟩

theorem endsNl_swap {g g' : F} {T : List F} (hg : ∀ hard, g ≠ .nl hard) (hb : EndsNl (g :: T)) : EndsNl (g' :: T) := by
  obtain ⟨hard, hb⟩ := hb
  cases T with
  | nil => simp only [List.getLast?_singleton, Option.some.injEq] at hb; exact absurd hb (hg hard)
  | cons y T => exact ⟨hard, by rw [List.getLast?_cons_cons] at hb ⊢; exact hb⟩

theorem step_code_text {src : Bytes} {p : Inline.IP} {x : Ctx} {S : List Op} {v : Verb} {n : Nat} {s : Bytes} {T : List F} {Ts : List (List F)} {ls : List Span} (h : Live src p x S (.code v n s :: T) Ts ls) (hm : v.isMath = false)
    {q : Inline.IP} {f : Inline.Flow} (hp : p.parseEvent = .ok (q, f)) : Step src p q f S (.code v n s :: T) Ts ls := by
  obtain ⟨hat, ⟨⟨hn, hn2, hs, hnl, hc1, hc2, hrun⟩, hvo⟩, hw⟩ : CodeAt x v ∧ (CodeOk n s ∧ v.Ok) ∧ okF v.ctx S (T ++ Ts.flatten) := h.wf
  have hx : x.free = true := by
    unfold CodeAt at hat
    rw [hm] at hat
    exact hat.1
  have hopn : v.opn = .verbatim := by cases v <;> first | rfl | cases hm
  have hnm : NotMath (F.code v n s :: T) := okF_notMath h.wf (free_notDol hx)
  obtain ⟨hv, hlex⟩ := h.noVerb hx
  have hz : fprint (.code v n s :: T) = ticks n ++ (keepApart s.head? ++ s ++ (keepApart s.getLast? ++ ticks n ++ v.behind ++ fprint T)) := by simp [F.print]
  have hhd : (keepApart s.head? ++ s ++ (keepApart s.getLast? ++ ticks n ++ v.behind ++ fprint T)).head? ≠ some (c! '`') := by
    obtain ⟨c, y, e1, e2⟩ := apart_head hs (keepApart s.getLast? ++ ticks n ++ v.behind ++ fprint T)
    rw [e1]
    simpa using e2
  have hlex' := hlex
  rw [hz] at hlex'
  obtain ⟨l', n1, n2, n3⟩ := hlex'.next_tok (tok_tick hn false hhd) (by simp)
  have hlen : (ticks n).length = n := by simp [ticks]
  have n2 : At l' false false (keepApart s.head? ++ s ++ (keepApart s.getLast? ++ ticks n ++ v.behind ++ fprint T)) := by
    have := List.drop_left (l₁ := ticks n) (l₂ := keepApart s.head? ++ s ++ (keepApart s.getLast? ++ ticks n ++ v.behind ++ fprint T))
    rw [hlen] at this
    rw [this] at n2; exact n2
  have hz2 : fprint (.rest v n (leadOf s) s (tailOf s) :: T) = keepApart s.head? ++ s ++ (keepApart s.getLast? ++ ticks n ++ v.behind ++ fprint T) := by
    simp [F.print, leadOf_print, tailOf_print]
  rw [parse_some n1] at hp
  obtain ⟨rfl, rfl⟩ := parse_tick (p := eaten p _ _) hv hn2 (by
    intro e he hk
    refine ⟨(h.q.spans e (List.mem_of_getLast? he)).1, ?_⟩
    intro hb
    exact h.hsrc ▸ h.dol e he hk hx (h.hsrc ▸ hb)) hp
  refine ⟨rfl, .inCode n, S, .rest v n (leadOf s) s (tailOf s) :: T, ?_, ?_⟩
  · refine h.adv (z := ticks n) (by rw [hz, hz2]) (by simp) rfl rfl rfl rfl (by rw [hlen]; rfl) rfl ?_ (by simp) (by intro h; cases h) h.ops ?_ ?_ ?_ ?_ ?_ ?_ ?_ (by simp)
    · rw [hz2]
      exact n2.mode_none n3
    · intro o ho
      have := h.opi o ho
      simp only [opened, eaten, List.length_append, List.length_cons, List.length_nil]; omega
    · intro _ o ho
      have := h.opi o ho
      simp only [opened, eaten, List.length_append, List.length_cons, List.length_nil]; omega
    · refine ⟨_, rfl, rfl, ?_⟩
      intro v' lead u tl T' he
      simp only [List.cons.injEq, F.rest.injEq, true_and] at he
      obtain ⟨⟨rfl, rfl, rfl, rfl⟩, rfl⟩ := he
      refine ⟨⟨⟨p.input.span.stop, p.input.span.stop + n⟩, ?_⟩, fun _ => ⟨rfl, ?_⟩, fun _ _ => hc1, (fun _ sk hk => by cases hk), fun _ hu => absurd hu hs, ?_⟩
      · simp only [opened, eaten]
        rw [List.getElem?_append_right (by omega), hopn]
        simp
      · intro e he
        simp only [opened, eaten, List.getLast?_append, List.getLast?_cons_cons, List.getLast?_singleton, Option.some_or, Option.some.injEq] at he
        subst he
        rfl
      · intro he
        unfold tailOf at he
        split at he <;> cases he
    · rw [hlen]
      show QOk _ (p.events ++ [⟨.placeholder, ⟨p.input.span.stop, p.input.span.stop⟩⟩, ⟨.enter .verbatim, ⟨p.input.span.stop, p.input.span.stop + n⟩⟩]) _
      exact h.q.push2 rfl (by simp) (by omega)
    · intro e he hk
      simp only [opened, eaten, List.getLast?_append, List.getLast?_cons_cons, List.getLast?_singleton, Option.some_or, Option.some.injEq] at he
      subst he
      cases hk
    · refine ⟨rfl, ⟨⟨hn, ?_, ?_, ?_⟩, hvo⟩, hw⟩
      · intro hl
        unfold leadOf at hl
        simpa using hl
      · unfold tailOf
        split
        · rename_i hl; intro _; exact hl
        · rename_i hl
          intro a w he
          refine hc2 a w he ?_
          rintro rfl
          exact hl (by rw [he]; simp)
      · intro a w he h1 h2
        refine hrun a w he ?_ h1 h2
        intro hm
        exact hnl (by rw [he]; simp [hm])
    · intro hb
      exact .inr (endsNl_swap (by simp) hb)
  · refine total_view (E := [⟨.placeholder, ⟨p.input.span.stop, p.input.span.stop⟩⟩, ⟨.enter v.inner, ⟨p.input.span.stop, p.input.span.stop + n⟩⟩]) rfl rfl ?_ (by rw [view_none hv hnm]; exact h.opi) ?_
    · rw [view_none hv hnm]
      have ht : ∀ Q, (tailOf s).trim Q = Q := by intro Q; unfold tailOf; split <;> rfl
      show setC ((tailOf s).trim (p.events ++ _)) (p.events.length + 1) v.inner = _
      rw [ht]
      unfold setC
      rw [List.getElem?_append_right (by omega), Nat.add_sub_cancel_left]
      simp only [eaten, List.getElem?_cons_succ, List.getElem?_cons_zero]
      rw [List.set_append_right _ _ (by omega), Nat.add_sub_cancel_left]
      rfl
    · simp [rawEv, outer_verb, F.raw]

theorem QOk.trim {n : Nat} {Q : List Inline.Event} {a b k : Nat} (h : QOk n (Q ++ [⟨.str, ⟨a, b⟩⟩]) b) (hk : a + k ≤ b) : QOk n (Q ++ [⟨.str, ⟨a, b - k⟩⟩]) (b - k) := by
  refine ⟨?_, ?_, ?_, ?_, ?_⟩
  · intro e he
    rcases List.mem_append.mp he with he | he
    · exact h.kinds e (by simp [he])
    · simp only [List.mem_singleton] at he; subst he; rfl
  · intro e he
    rcases List.mem_append.mp he with he | he
    · exact h.spans e (by simp [he])
    · simp only [List.mem_singleton] at he; subst he; exact ⟨by simp only; omega, fun h => by cases h⟩
  · intro i e e' h1 h2 s1 s2
    by_cases hi : i + 1 < Q.length
    · rw [List.getElem?_append_left hi] at h2
      rw [List.getElem?_append_left (by omega)] at h1
      exact h.glued i e e' (by rw [List.getElem?_append_left (by omega)]; exact h1) (by rw [List.getElem?_append_left hi]; exact h2) s1 s2
    · have hlen := (List.getElem?_eq_some_iff.mp h2).1
      simp only [List.length_append, List.length_singleton] at hlen
      have hi' : Q.length = i + 1 := by omega
      rw [List.getElem?_append_left (by omega)] at h1
      rw [List.getElem?_append_right (by omega), hi'] at h2
      simp only [Nat.sub_self, List.getElem?_cons_zero, Option.some.injEq] at h2
      subst h2
      refine h.glued i e ⟨.str, ⟨a, b⟩⟩ (by rw [List.getElem?_append_left (by omega)]; exact h1) ?_ s1 rfl
      rw [List.getElem?_append_right (by omega), hi']
      simp
  · intro e he _
    simp only [List.getLast?_append, List.getLast?_singleton, Option.some_or, Option.some.injEq] at he
    rw [← he]
  · intro e he
    simp only [List.getLast?_append, List.getLast?_singleton, Option.some_or, Option.some.injEq] at he
    rw [← he]; simp

/-- Mathematics opens. -/
theorem step_code_math {src : Bytes} {p : Inline.IP} {x : Ctx} {S : List Op} {d : Bool} {n : Nat} {s : Bytes} {T : List F} {Ts : List (List F)} {ls : List Span} (h : Live src p x S (.code (.math d) n s :: T) Ts ls)
    {q : Inline.IP} {f : Inline.Flow} (hp : p.parseEvent = .ok (q, f)) : Step src p q f S (.code (.math d) n s :: T) Ts ls := by
  obtain ⟨hat, ⟨⟨hn, hn2, hs, hnl, hc1, hc2, hrun⟩, hvo⟩, hw⟩ : CodeAt x (.math d) ∧ (CodeOk n s ∧ (Verb.math d).Ok) ∧ okF (Verb.math d).ctx S (T ++ Ts.flatten) := h.wf
  have hx : x = .dol := hat
  subst hx
  have hv : p.verbatim = none := h.verb
  have hlex : At p.input.lexer false false (fprint (.code (.math d) n s :: T)) := h.lex
  obtain ⟨d', ⟨n', s', T', hnext⟩, hme⟩ := h.mth rfl
  simp only [List.cons.injEq, F.code.injEq, Verb.math.injEq] at hnext
  obtain ⟨⟨rfl, _, _⟩, _⟩ := hnext
  have hz : fprint (.code (.math d) n s :: T) = ticks n ++ (keepApart s.head? ++ s ++ (keepApart s.getLast? ++ ticks n ++ fprint T)) := by simp [F.print, Verb.behind]
  have hhd : (keepApart s.head? ++ s ++ (keepApart s.getLast? ++ ticks n ++ fprint T)).head? ≠ some (c! '`') := by
    obtain ⟨c, y, e1, e2⟩ := apart_head hs (keepApart s.getLast? ++ ticks n ++ fprint T)
    rw [e1]
    simpa using e2
  have hlex' := hlex
  rw [hz] at hlex'
  obtain ⟨l', n1, n2, n3⟩ := hlex'.next_tok (tok_tick hn false hhd) (by simp)
  have hlen : (ticks n).length = n := by simp [ticks]
  have n2 : At l' false false (keepApart s.head? ++ s ++ (keepApart s.getLast? ++ ticks n ++ fprint T)) := by
    have := List.drop_left (l₁ := ticks n) (l₂ := keepApart s.head? ++ s ++ (keepApart s.getLast? ++ ticks n ++ fprint T))
    rw [hlen] at this
    rw [this] at n2; exact n2
  have hz2 : fprint (.rest (.math d) n (leadOf s) s (tailOf s) :: T) = keepApart s.head? ++ s ++ (keepApart s.getLast? ++ ticks n ++ fprint T) := by
    simp [F.print, leadOf_print, tailOf_print, Verb.behind]
  rw [parse_some n1] at hp
  obtain ⟨rfl, Q, a, hQ, hab, rfl⟩ := parse_math (p := eaten p _ _) (b := p.input.span.stop) (d := d) hv hn2 rfl (by
    show MathEnd p.input.src p.events p.input.span.stop d
    rw [h.hsrc]; exact hme) hp
  have hQ : p.events = Q ++ [⟨.str, ⟨a, p.input.span.stop⟩⟩] := hQ
  have hq0 := h.q
  rw [hQ] at hq0
  have hq1 := hq0.trim hab
  have hpl : p.events.length = Q.length + 1 := by rw [hQ]; simp
  have hvw : view p (.code (.math d) n s :: T) = Q ++ [⟨.str, ⟨a, p.input.span.stop - (dollars d).length⟩⟩] := by
    unfold view
    rw [hv]
    simp only [trimDol]
    rw [hQ]
    simp
  generalize hb : p.input.span.stop - (dollars d).length = b' at hq1 hvw
  refine ⟨rfl, .inCode n, S, .rest (.math d) n (leadOf s) s (tailOf s) :: T, ?_, ?_⟩
  · refine h.adv (z := ticks n) (by rw [hz, hz2]) (by simp) rfl rfl rfl rfl (by rw [hlen]; rfl) rfl ?_ (by simp) (by intro h; cases h) h.ops ?_ ?_ ?_ ?_ ?_ ?_ ?_ (by simp)
    · rw [hz2]
      exact n2.mode_none n3
    · intro o ho
      have := h.opi o ho
      simp only [openedMath, List.length_append, List.length_cons, List.length_nil]; omega
    · intro _ o ho
      have := h.opi o ho
      simp only [openedMath, List.length_append, List.length_cons, List.length_nil]; omega
    · refine ⟨_, rfl, rfl, ?_⟩
      intro v' lead u tl T' he
      simp only [List.cons.injEq, F.rest.injEq, true_and] at he
      obtain ⟨⟨rfl, rfl, rfl, rfl⟩, rfl⟩ := he
      refine ⟨⟨⟨b', p.input.span.stop + n⟩, ?_⟩, fun _ => ⟨rfl, ?_⟩, fun _ _ => hc1, (fun _ sk hk => by cases hk), fun _ hu => absurd hu hs, ?_⟩
      · rw [← hb]
        simp only [openedMath, eaten]
        rw [List.getElem?_append_right (by omega), Nat.add_sub_cancel_left]
        rfl
      · intro e he
        simp only [openedMath, List.getLast?_append, List.getLast?_cons_cons, List.getLast?_singleton, Option.some_or, Option.some.injEq] at he
        subst he
        rfl
      · intro he
        unfold tailOf at he
        split at he <;> cases he
    · rw [hlen]
      have := hq1.push2 (k := .enter (Verb.math d).opn) (c := p.input.span.stop + n) (by cases d <;> rfl) (by simp) (by omega)
      rw [List.append_assoc] at this
      exact this
    · intro e he hk
      simp only [openedMath, List.getLast?_append, List.getLast?_cons_cons, List.getLast?_singleton, Option.some_or, Option.some.injEq] at he
      subst he
      cases hk
    · refine ⟨rfl, ⟨⟨hn, ?_, ?_, ?_⟩, hvo⟩, hw⟩
      · intro hl
        unfold leadOf at hl
        simpa using hl
      · unfold tailOf
        split
        · rename_i hl; intro _; exact hl
        · rename_i hl
          intro a w he
          refine hc2 a w he ?_
          rintro rfl
          exact hl (by rw [he]; simp)
      · intro a w he h1 h2
        refine hrun a w he ?_ h1 h2
        intro hm
        exact hnl (by rw [he]; simp [hm])
    · intro hb
      exact .inr (endsNl_swap (by simp) hb)
  · refine total_view (E := [⟨.placeholder, ⟨b', b'⟩⟩, ⟨.enter (Verb.math d).opn, ⟨b', p.input.span.stop + n⟩⟩]) rfl rfl ?_ (by rw [hvw]; intro o ho; have := h.opi o ho; simp; omega) ?_
    · rw [hvw]
      have ht : ∀ Q, (tailOf s).trim Q = Q := by intro Q; unfold tailOf; split <;> rfl
      show setC ((tailOf s).trim (openedMath (eaten p _ _) Q a _ n d).events) (Q.length + 2) (Verb.math d).inner = _
      rw [ht, show (Verb.math d).inner = (Verb.math d).opn by cases d <;> rfl]
      have hev : (openedMath (eaten p ⟨.seq .backtick, n⟩ l') Q a ((eaten p ⟨.seq .backtick, n⟩ l').input.span.start - (dollars d).length) n d).events =
          Q ++ [⟨.str, ⟨a, b'⟩⟩, ⟨.placeholder, ⟨b', b'⟩⟩, ⟨.enter (Verb.math d).opn, ⟨b', p.input.span.stop + n⟩⟩] := by
        rw [← hb]; rfl
      refine Eq.trans (setC_self (sp := ⟨b', p.input.span.stop + n⟩) ?_) ?_
      · rw [← hb]
        simp only [openedMath, eaten]
        rw [List.getElem?_append_right (by omega), Nat.add_sub_cancel_left]
        rfl
      · rw [← hb]
        simp only [openedMath, eaten, List.append_assoc, List.cons_append, List.nil_append]
    · have : outer p.storeCowstrs (Verb.math d).opn = (Verb.math d).container := by cases d <;> rfl
      simp [rawEv, this, F.raw]

theorem step_code {src : Bytes} {p : Inline.IP} {x : Ctx} {S : List Op} {v : Verb} {n : Nat} {s : Bytes} {T : List F} {Ts : List (List F)} {ls : List Span} (h : Live src p x S (.code v n s :: T) Ts ls)
    {q : Inline.IP} {f : Inline.Flow} (hp : p.parseEvent = .ok (q, f)) : Step src p q f S (.code v n s :: T) Ts ls := by
  cases v with
  | math d => exact step_code_math h hp
  | plain => exact step_code_text h rfl hp
  | raw f => exact step_code_text h rfl hp

theorem head_of_append {u r : Bytes} (hu : u ≠ []) : (u ++ r).head? = u.head? := by cases u with
  | nil => exact absurd rfl hu
  | cons a u => rfl

/-- The text is followed by something that ends runs of backticks and other text. -/
def Sep (u R : Bytes) : Prop := (u.getLast? = some (c! '`') ∧ R.head? = some (c! ' ')) ∨ (u.getLast? ≠ some (c! '`') ∧ R.head? = some (c! '`'))

theorem tok_within {u R : Bytes} (hu : u ≠ []) (hs : Sep u R) {m : Nat} (h : (∀ c ∈ (u ++ R).take m, c = c! '`') ∨ c! '`' ∉ (u ++ R).take m) : m ≤ u.length := by
  rcases Nat.lt_or_ge u.length m with h1 | h1
  · exfalso
    have hul : 0 < u.length := List.length_pos_iff.mpr hu
    obtain ⟨d, hd⟩ : ∃ d, R.head? = some d := by rcases hs with ⟨_, h⟩ | ⟨_, h⟩ <;> exact ⟨_, h⟩
    have m1 : u.getLast hu ∈ (u ++ R).take m := by
      refine List.mem_of_getElem? (i := u.length - 1) ?_
      rw [List.getElem?_take, if_pos (by omega), List.getElem?_append_left (by omega), ← List.getLast?_eq_getElem?, List.getLast?_eq_some_getLast hu]
    have m2 : d ∈ (u ++ R).take m := by
      refine List.mem_of_getElem? (i := u.length) ?_
      rw [List.getElem?_take, if_pos h1, List.getElem?_append_right (Nat.le_refl _), Nat.sub_self, ← List.head?_eq_getElem?]
      exact hd
    rw [Sep, List.getLast?_eq_some_getLast hu, hd] at hs
    simp only [Option.some.injEq] at hs
    rcases h with h | h
    · have e1 := h _ m1
      have e2 := h _ m2
      rcases hs with ⟨_, h3⟩ | ⟨h3, _⟩
      · rw [h3] at e2; revert e2; decide
      · exact h3 (by simp [e1])
    · rcases hs with ⟨h3, _⟩ | ⟨_, h3⟩
      · exact h (h3 ▸ m1)
      · exact h (h3 ▸ m2)
  · exact h1

/-- A run of backticks in the text has not the length of those around it. -/
theorem run_len {n : Nat} {u R : Bytes} (hu : u ≠ []) (hs : Sep u R) {m : Nat} (h1 : ∀ c ∈ (u ++ R).take m, c = c! '`') (h2 : ((u ++ R).drop m).head? ≠ some (c! '`'))
    (hrun : ∀ a w, u = a ++ ticks n ++ w → a.getLast? ≠ some (c! '`') → w.head? ≠ some (c! '`') → False) : m ≠ n ∧ (u.drop m).head? ≠ some (c! '`') := by
  have hle := tok_within hu hs (.inl h1)
  rw [List.take_append_of_le_length hle] at h1
  have hd : (u.drop m).head? ≠ some (c! '`') := by
    by_cases hx : u.drop m = []
    · rw [hx]; simp
    · rw [List.drop_append_of_le_length hle, head_of_append hx] at h2
      exact h2
  refine ⟨?_, hd⟩
  rintro rfl
  refine hrun [] (u.drop m) ?_ (by simp) hd
  have h3 : u.take m = ticks m := by
    rw [ticks, List.eq_replicate_iff]
    exact ⟨by rw [List.length_take]; omega, h1⟩
  rw [List.nil_append, ← h3, List.take_append_drop]

theorem behind_head {S : List Op} {T W : List F} {v : Verb} (h : okF v.ctx S (T ++ W)) : (v.behind ++ fprint T).head? ≠ some (c! '`') := by
  cases v with
  | plain => exact (free_head h).1
  | math d => exact (free_head h).1
  | raw f => simp [Verb.behind]

theorem rest_print (v : Verb) (n : Nat) (lead : Bool) (u : Bytes) (tl : Tail) (T : List F) :
    fprint (.rest v n lead u tl :: T) = leadPrint lead ++ (u ++ (tl.print ++ (ticks n ++ (v.behind ++ fprint T)))) := by simp [F.print]

/-- The text is kept apart from the closing backticks. -/
theorem rest_sep {n : Nat} {lead : Bool} {u : Bytes} {tl : Tail} (hn : 0 < n) (hu : u ≠ []) (ht : TailOk lead u tl) (r : Bytes) : Sep u (tl.print ++ (ticks n ++ r)) := by
  obtain ⟨k, rfl⟩ : ∃ k, n = k + 1 := ⟨n - 1, by omega⟩
  cases tl with
  | no =>
    right
    refine ⟨?_, rfl⟩
    intro h
    obtain ⟨a, ha⟩ := List.getLast?_eq_some_iff.mp h
    obtain ⟨c, hc, _⟩ := ht a [] ha
    cases hc
  | pad => exact .inl ⟨ht hu, rfl⟩
  | eaten => exact absurd ht.1 hu

/-- A single blank before a backtick. -/
theorem blank_tok {l : Lexer} {r : Bytes} (h : At l false true (c! ' ' :: c! '`' :: r)) :
    ∃ t l', l.nextTok = (some t, l') ∧ At l' false true (c! '`' :: r) ∧ t.len = 1 ∧ t.kind ≠ .seq .backtick := by
  obtain ⟨t, l', n1, n2, hpos, hk1, hk2⟩ := next_v h (by simp)
  have hk : t.kind ≠ .seq .backtick := by
    intro hk
    obtain ⟨k, hk'⟩ : ∃ k, t.len = k + 1 := ⟨t.len - 1, by omega⟩
    have := (hk1 hk).1 (c! ' ') (by rw [hk']; simp)
    revert this; decide
  have hlen : t.len = 1 := by
    have := hk2 hk
    rcases Nat.lt_or_ge t.len 2 with h2 | h2
    · omega
    · exfalso
      obtain ⟨k, hk'⟩ : ∃ k, t.len = k + 2 := ⟨t.len - 2, by omega⟩
      exact this (by rw [hk']; simp)
  rw [hlen] at n2
  exact ⟨t, l', n1, n2, hlen, hk⟩

/-- A blank at the start of verbatim text. -/
theorem step_lead {src : Bytes} {p : Inline.IP} {x : Ctx} {S : List Op} {v : Verb} {n : Nat} {u : Bytes} {tl : Tail} {T : List F} {Ts : List (List F)} {ls : List Span}
    (h : Live src p x S (.rest v n true u tl :: T) Ts ls) {q : Inline.IP} {f : Inline.Flow} (hp : p.parseEvent = .ok (q, f)) : Step src p q f S (.rest v n true u tl :: T) Ts ls := by
  obtain ⟨rfl, ⟨⟨hn, hlead, htail, hrun⟩, hvo⟩, hw⟩ : x = .inCode n ∧ (RestOk n true u tl ∧ v.Ok) ∧ okF v.ctx S (T ++ Ts.flatten) := h.wf
  obtain ⟨vs, hv, rfl, hvv⟩ := h.verb
  have hvv := hvv v true u tl T rfl
  obtain ⟨u', rfl⟩ : ∃ u', u = c! '`' :: u' := by
    have := hlead rfl
    cases u with
    | nil => cases this
    | cons a u => simp only [List.head?_cons, Option.some.injEq] at this; subst this; exact ⟨u, rfl⟩
  have hz := rest_print v vs.lenOpener true (c! '`' :: u') tl T
  generalize hR : tl.print ++ (ticks vs.lenOpener ++ (v.behind ++ fprint T)) = R at hz
  have hsep : Sep (c! '`' :: u') R := hR ▸ rest_sep hn (by simp) htail _
  have hlex : At p.input.lexer false true (c! ' ' :: c! '`' :: (u' ++ R)) := by
    have := h.lex
    rw [hz] at this
    exact this
  obtain ⟨t, l', n1, n2, hlen, hk⟩ := blank_tok hlex
  have n4 := n2.peek
  obtain ⟨t', e', ht'⟩ := tokenAt_cons false true (c! '`') (u' ++ R)
  obtain ⟨hv', rfl⟩ := tokenAt_v ht'
  have hpos' : 0 < t'.len := (tokenAt_len _ _ _ _ _ ht').1
  have hk' : t'.kind = .seq .backtick := by
    by_cases hk' : t'.kind = .seq .backtick
    · exact hk'
    · exfalso
      obtain ⟨k, hk2⟩ : ∃ k, t'.len = k + 1 := ⟨t'.len - 1, by omega⟩
      exact hv'.2 hk' (by rw [hk2]; simp)
  have hall : ∀ c ∈ ((c! '`' :: u') ++ R).take t'.len, c = c! '`' := by
    have := (tokenAt_text _ _ _ _ _ ht').1
    rw [hk'] at this
    simp only [TextOf] at this
    intro c' hc
    have hc : c' ∈ (c! '`' :: (u' ++ R)).take t'.len := hc
    rw [this] at hc
    exact (List.mem_replicate.mp hc).2
  have hne := (run_len (n := vs.lenOpener) (by simp) hsep hall (hv'.1 hk') hrun).1
  obtain ⟨w0, hw0⟩ := h.pos
  rw [hz, List.append_assoc] at hw0
  have htxt : textAt src ⟨p.input.span.stop, p.input.span.stop + t.len⟩ = [c! ' '] := by
    have := textAt_at hw0
    rw [hlen]
    exact this
  rw [parse_some n1] at hp
  obtain ⟨rfl, rfl⟩ := parse_skip (p := eaten p t l') hv hk (s := [c! ' ']) (by show textAt p.input.src _ = _; rw [h.hsrc]; exact htxt) rfl (hvv.fresh rfl).1
    (t' := t') (by show l'.peek.1 = _; rw [n4.1, ht']) hk' hne hp
  refine ⟨rfl, .inCode vs.lenOpener, S, .rest v vs.lenOpener false (c! '`' :: u') tl :: T, ?_, ?_⟩
  · refine h.adv (z := [c! ' ']) (by rw [hz, rest_print, hR]; rfl) (by simp) rfl h.attr rfl rfl (by show _ + t.len = _; rw [hlen]; rfl) rfl ?_ (by simp) (by intro h; cases h) h.ops ?_ ?_ ?_ ?_ ?_ ?_ ?_ (by simp)
    · rw [rest_print, hR]
      exact n4.2
    · exact h.opi
    · intro _; exact h.opx rfl
    · refine ⟨vs, hv, rfl, ?_⟩
      intro v' lead u tl' T' he
      simp only [List.cons.injEq, F.rest.injEq, true_and] at he
      obtain ⟨⟨rfl, rfl, rfl, rfl⟩, rfl⟩ := he
      refine ⟨hvv.opener, (fun h => by cases h), ?_, hvv.back, hvv.pad, hvv.eaten⟩
      intro _ _ w r he hwn
      cases w with
      | nil => exact absurd rfl hwn
      | cons a w =>
        simp only [List.cons_append, List.cons.injEq] at he
        exact ⟨c! '`', by simp [he.1], by decide⟩
    · refine ⟨h.q.kinds, h.q.spans, h.q.glued, ?_, h.q.noph⟩
      intro e he hs
      rw [(hvv.fresh rfl).2 e he] at hs
      cases hs
    · intro e _ _ hf
      cases hf
    · refine ⟨rfl, ⟨⟨hn, (fun h => by cases h), ?_, hrun⟩, hvo⟩, hw⟩
      cases tl with
      | no => exact htail
      | pad => exact htail
      | eaten => exact absurd htail.2 (by simp)
    · intro hb
      exact .inr (endsNl_swap (by simp) hb)
  · refine total_view (E := []) rfl rfl ?_ ?_ ?_
    · unfold view
      simp only [eaten, hv, List.append_nil]
    · unfold view
      simp only [hv, setC_length]
      intro o ho
      have := h.opx rfl o ho
      cases tl <;> simp only [Tail.trim, List.length_dropLast] <;> omega
    · simp [F.raw]

/-- A token of verbatim text. -/
theorem step_within {src : Bytes} {p : Inline.IP} {x : Ctx} {S : List Op} {v : Verb} {n : Nat} {u : Bytes} {tl : Tail} {T : List F} {Ts : List (List F)} {ls : List Span}
    (h : Live src p x S (.rest v n false u tl :: T) Ts ls) (hu : u ≠ []) {q : Inline.IP} {f : Inline.Flow} (hp : p.parseEvent = .ok (q, f)) : Step src p q f S (.rest v n false u tl :: T) Ts ls := by
  obtain ⟨rfl, ⟨⟨hn, hlead, htail, hrun⟩, hvo⟩, hw⟩ : x = .inCode n ∧ (RestOk n false u tl ∧ v.Ok) ∧ okF v.ctx S (T ++ Ts.flatten) := h.wf
  obtain ⟨vs, hv, rfl, hvv⟩ := h.verb
  have hvv := hvv v false u tl T rfl
  have hz := rest_print v vs.lenOpener false u tl T
  have hz' := rest_print v vs.lenOpener false
  have hsep : Sep u (tl.print ++ (ticks vs.lenOpener ++ (v.behind ++ fprint T))) := rest_sep hn hu htail _
  have hne0 : tl ≠ .eaten := by rintro rfl; exact hu htail.1
  have hR : tl = .no → tl.print ++ (ticks vs.lenOpener ++ (v.behind ++ fprint T)) = ticks vs.lenOpener ++ (v.behind ++ fprint T) := by rintro rfl; rfl
  have hz2 : ∀ u', fprint (.rest v vs.lenOpener false u' tl :: T) = u' ++ (tl.print ++ (ticks vs.lenOpener ++ (v.behind ++ fprint T))) := fun u' => rest_print v vs.lenOpener false u' tl T
  generalize tl.print ++ (ticks vs.lenOpener ++ (v.behind ++ fprint T)) = R at hsep hR hz2
  have hlex : At p.input.lexer false true (u ++ R) := by rw [← hz2]; exact h.lex
  obtain ⟨w0, hw0⟩ := h.pos
  rw [hz2, List.append_assoc] at hw0
  obtain ⟨t, l', n1, n2, hpos, hk1, hk2⟩ := next_v hlex (by simp [hu])
  have hul : 0 < u.length := List.length_pos_iff.mpr hu
  have hle : t.len ≤ u.length := by
    refine tok_within hu hsep ?_
    by_cases hk : t.kind = .seq .backtick
    · exact .inl (hk1 hk).1
    · exact .inr (hk2 hk)
  have hkr : t.kind = .seq .backtick → t.len ≠ vs.lenOpener ∧ (u.drop t.len).head? ≠ some (c! '`') := fun hk => run_len hu hsep (hk1 hk).1 (hk1 hk).2 hrun
  have htake : (u ++ R).take t.len = u.take t.len := List.take_append_of_le_length hle
  have hdrop : (u ++ R).drop t.len = u.drop t.len ++ R := List.drop_append_of_le_length hle
  rw [htake] at hk1 hk2
  rw [hdrop] at n2
  have hk1 := fun hk => (hk1 hk).1
  obtain ⟨y, u', rfl, hyl⟩ : ∃ y u', u = y ++ u' ∧ y.length = t.len := ⟨u.take t.len, u.drop t.len, (List.take_append_drop _ _).symm, by rw [List.length_take]; omega⟩
  have et : (y ++ u').take t.len = y := by rw [← hyl, List.take_left]
  have ed : (y ++ u').drop t.len = u' := by rw [← hyl, List.drop_left]
  rw [et] at hk1 hk2
  rw [ed] at n2 hkr
  have hy : y ≠ [] := by rintro rfl; simp at hyl; omega
  have hlastb : (y ++ u').getLast? = some (c! '`') → u' = [] → t.kind = .seq .backtick := by
    rintro h1 rfl
    rw [List.append_nil] at h1
    by_cases hk : t.kind = .seq .backtick
    · exact hk
    · exact absurd (List.mem_of_getLast? h1) (hk2 hk)
  have hbnw : t.kind = .seq .backtick → y.all isWs = false := by
    intro hk
    cases y with
    | nil => exact absurd rfl hy
    | cons a y =>
      have := hk1 hk a (by simp)
      subst this
      rfl
  rw [parse_some n1] at hp
  have htxt : textAt src ⟨p.input.span.stop, p.input.span.stop + t.len⟩ = y := by
    rw [List.append_assoc] at hw0
    have := textAt_at hw0
    rwa [hyl] at this
  obtain ⟨rfl, vs', l2, hq, hl2, e1, e2⟩ := parse_inside (p := eaten p t l') hv (fun hk => (hkr hk.2).1 hk.1.symm) (s := y) (by show textAt p.input.src _ = _; rw [h.hsrc]; exact htxt)
    (by
      intro ha
      cases hnw : vs.nonWsEncountered with
      | true => exact .inl rfl
      | false =>
        right
        intro t' ht' hkt'
        have ht' : l'.peek.1 = some t' := ht'
        rw [n2.peek.1] at ht'
        by_cases hu' : u' = []
        · subst hu'
          rw [List.nil_append] at ht'
          have hno : tl = .no := by
            cases tl with
            | no => rfl
            | eaten => exact absurd rfl hne0
            | pad =>
              have := hbnw (hlastb (htail hu) rfl)
              rw [ha] at this; cases this
          rw [hR hno, tok_tick hn true (behind_head hw)] at ht'
          cases ht'
          rfl
        · exfalso
          have htk : tokenAt false true (u' ++ R) = (some t', (tokenAt false true (u' ++ R)).2) := by rw [← ht']
          have h1 := (tokenAt_text _ _ _ _ _ htk).1
          have h2 := (tokenAt_len _ _ _ _ _ htk).1
          rw [hkt'] at h1
          simp only [TextOf] at h1
          obtain ⟨k, hk⟩ : ∃ k, t'.len = k + 1 := ⟨t'.len - 1, by omega⟩
          rw [hk] at h1
          obtain ⟨a, r, rfl⟩ := List.exists_cons_of_ne_nil hu'
          have ham : a ∈ ((a :: r) ++ R).take (k + 1) := by simp
          rw [h1] at ham
          have ham := (List.mem_replicate.mp ham).2
          subst ham
          obtain ⟨c, hc1, hc2⟩ := hvv.start rfl hnw y r rfl hy
          have := List.all_eq_true.mp ha c hc1
          rw [hc2] at this; cases this) hp
  subst hq
  have hl2 : At l2 false true (u' ++ R) := by
    rcases hl2 with rfl | rfl
    · exact n2
    · exact n2.peek.2
  have hvs : vs'.lenOpener = vs.lenOpener ∧ vs'.eventOpener = vs.eventOpener := by
    cases ha : y.all isWs with
    | true => rw [e1 ha]; exact ⟨rfl, rfl⟩
    | false => rw [e2 ha]; exact ⟨rfl, rfl⟩
  obtain ⟨sp, hop⟩ := hvv.opener
  have hopl := (List.getElem?_eq_some_iff.mp hop).1
  have htr : ∀ Q, tl.trim Q = Q := by intro Q; cases tl <;> first | rfl | exact absurd rfl hne0
  refine ⟨rfl, .inCode vs.lenOpener, S, .rest v vs.lenOpener false u' tl :: T, ?_, ?_⟩
  · refine h.adv (z := y) (by rw [hz2, hz2, List.append_assoc]) (by simp) rfl h.attr rfl rfl (by rw [hyl]; rfl) rfl ?_ (by simp) (by intro h; cases h) h.ops ?_ ?_ ?_ ?_ ?_ ?_ ?_ (by simp)
    · rw [hz2]; exact hl2
    · intro o ho
      have := h.opi o ho
      simp only [eaten, List.length_append, List.length_cons, List.length_nil]; omega
    · intro _ o ho
      have := h.opi o ho
      simp only [eaten, List.length_append, List.length_cons, List.length_nil]; omega
    · refine ⟨vs', rfl, hvs.1, ?_⟩
      intro v' lead u2 tl' T' he
      simp only [List.cons.injEq, F.rest.injEq, true_and] at he
      obtain ⟨⟨rfl, rfl, rfl, rfl⟩, rfl⟩ := he
      have hpush : p.events.length + 1 = (p.events ++ [(⟨.str, ⟨p.input.span.stop, p.input.span.stop + t.len⟩⟩ : Inline.Event)]).length := by simp
      refine ⟨⟨sp, ?_⟩, (fun h => by cases h), ?_, ?_, ?_, (fun he => absurd he hne0)⟩
      · rw [hvs.2]
        show (p.events ++ [_])[vs.eventOpener]? = _
        rw [List.getElem?_append_left hopl]
        exact hop
      · intro _ hnw w r he hwn
        cases ha : y.all isWs with
        | false => rw [e2 ha] at hnw; cases hnw
        | true =>
          rw [e1 ha] at hnw
          subst he
          obtain ⟨c, hc1, hc2⟩ := hvv.start rfl hnw (y ++ w) r (by simp) (by simp [hy])
          rcases List.mem_append.mp hc1 with hc1 | hc1
          · have := List.all_eq_true.mp ha c hc1
            rw [hc2] at this; cases this
          · exact ⟨c, hc1, hc2⟩
      · intro hno sk hsk
        cases ha : y.all isWs with
        | true =>
          rw [e1 ha] at hsk
          obtain ⟨c, hc1, hc2⟩ := hvv.back hno sk hsk
          rcases List.mem_append.mp hc1 with hc1 | hc1
          · have := List.all_eq_true.mp ha c hc1
            rw [hc2] at this; cases this
          · exact ⟨c, hc1, hc2⟩
        | false =>
          rw [e2 ha] at hsk
          simp only [Option.some.injEq, Prod.mk.injEq] at hsk
          subst hno
          have hyb : y = y.dropLast ++ [c! '`'] := by
            have h1 := List.dropLast_concat_getLast hy
            rw [hk1 hsk.1 _ (List.getLast_mem hy)] at h1
            exact h1.symm
          refine htail y.dropLast u' ?_
          rw [← List.singleton_append, ← List.append_assoc, ← hyb]
      · intro hpad hu'
        subst hpad
        have hk := hlastb (htail hu) hu'
        have ha := hbnw hk
        rw [e2 ha, hk]
        exact ⟨rfl, by simp [eaten]⟩
    · rw [hyl]
      show QOk _ (p.events ++ [⟨.str, ⟨p.input.span.stop, p.input.span.stop + t.len⟩⟩]) _
      exact h.q.push rfl (by simp) (by omega)
    · intro e _ _ hf
      cases hf
    · refine ⟨rfl, ⟨⟨hn, (fun h => by cases h), ?_, ?_⟩, hvo⟩, hw⟩
      · cases tl with
        | no =>
          intro a w he
          exact htail (y ++ a) w (by rw [he]; simp)
        | pad =>
          intro hu'
          have := htail hu
          rw [List.getLast?_append] at this
          cases hg : u'.getLast? with
          | none => rw [List.getLast?_eq_none_iff] at hg; exact absurd hg hu'
          | some d => rw [hg] at this; simpa using this
        | eaten => exact absurd rfl hne0
      · intro a w heq h1 h2
        refine hrun (y ++ a) w (by rw [heq]; simp) ?_ h2
        rw [List.getLast?_append]
        cases hg : a.getLast? with
        | some d => rw [hg] at h1; simpa using h1
        | none =>
          rw [List.getLast?_eq_none_iff] at hg
          subst hg
          have hhd : u'.head? = some (c! '`') := by
            rw [heq]
            obtain ⟨k, hk⟩ : ∃ k, vs.lenOpener = k + 1 := ⟨vs.lenOpener - 1, by omega⟩
            rw [hk]
            rfl
          intro hh
          simp only [Option.none_or] at hh
          by_cases hk : t.kind = .seq .backtick
          · exact (hkr hk).2 hhd
          · exact hk2 hk (List.mem_of_getLast? hh)
    · intro hb
      exact .inr (endsNl_swap (by simp) hb)
  · refine total_view (E := [⟨.str, ⟨p.input.span.stop, p.input.span.stop + t.len⟩⟩]) rfl rfl ?_ ?_ ?_
    · unfold view
      simp only [hv, htr, hvs.2]
      exact setC_push hopl _ _
    · unfold view
      simp only [hv, htr, setC_length]
      exact h.opi
    · simp only [rawEvs_cons, rawEvs_nil, rawEv, htxt, List.append_nil, List.cons_append, List.nil_append, fraw_cons, F.raw]
      rw [← joined_split]

/-- The blank before the closing backticks. -/
theorem step_pad {src : Bytes} {p : Inline.IP} {x : Ctx} {S : List Op} {v : Verb} {n : Nat} {T : List F} {Ts : List (List F)} {ls : List Span}
    (h : Live src p x S (.rest v n false [] .pad :: T) Ts ls) {q : Inline.IP} {f : Inline.Flow} (hp : p.parseEvent = .ok (q, f)) : Step src p q f S (.rest v n false [] .pad :: T) Ts ls := by
  obtain ⟨rfl, ⟨⟨hn, hlead, htail, hrun⟩, hvo⟩, hw⟩ : x = .inCode n ∧ (RestOk n false [] .pad ∧ v.Ok) ∧ okF v.ctx S (T ++ Ts.flatten) := h.wf
  obtain ⟨vs, hv, rfl, hvv⟩ := h.verb
  have hvv := hvv v false [] .pad T rfl
  obtain ⟨hnw, hlast⟩ := hvv.pad rfl rfl
  obtain ⟨k, hk0⟩ : ∃ k, vs.lenOpener = k + 1 := ⟨vs.lenOpener - 1, by omega⟩
  have hz : fprint (.rest v vs.lenOpener false [] .pad :: T) = c! ' ' :: c! '`' :: (ticks k ++ (v.behind ++ fprint T)) := by
    rw [rest_print, hk0]; rfl
  have hz2 : fprint (.rest v vs.lenOpener false [] .eaten :: T) = c! '`' :: (ticks k ++ (v.behind ++ fprint T)) := by
    rw [rest_print, hk0]; rfl
  have hlex : At p.input.lexer false true (c! ' ' :: c! '`' :: (ticks k ++ (v.behind ++ fprint T))) := by rw [← hz]; exact h.lex
  obtain ⟨t, l', n1, n2, hlen, hk⟩ := blank_tok hlex
  obtain ⟨w0, hw0⟩ := h.pos
  rw [hz] at hw0
  have htxt : textAt src ⟨p.input.span.stop, p.input.span.stop + t.len⟩ = [c! ' '] := by
    have := textAt_at (z := [c! ' ']) hw0
    rw [hlen]
    exact this
  rw [parse_some n1] at hp
  obtain ⟨rfl, vs', l2, hq, hl2, e1, _⟩ := parse_inside (p := eaten p t l') hv (fun h => hk h.2) (s := [c! ' ']) (by show textAt p.input.src _ = _; rw [h.hsrc]; exact htxt)
    (fun _ => .inl hnw) hp
  have e1 := e1 rfl
  subst e1
  subst hq
  have hl2 : At l2 false true (c! '`' :: (ticks k ++ (v.behind ++ fprint T))) := by
    rcases hl2 with rfl | rfl
    · exact n2
    · exact n2.peek.2
  obtain ⟨sp, hop⟩ := hvv.opener
  have hopl := (List.getElem?_eq_some_iff.mp hop).1
  refine ⟨rfl, .inCode vs'.lenOpener, S, .rest v vs'.lenOpener false [] .eaten :: T, ?_, ?_⟩
  · refine h.adv (z := [c! ' ']) (by rw [hz, hz2]; rfl) (by simp) rfl h.attr rfl rfl (by show _ + t.len = _; rw [hlen]; rfl) rfl ?_ (by simp) (by intro h; cases h) h.ops ?_ ?_ ?_ ?_ ?_ ?_ ?_ (by simp)
    · rw [hz2]; exact hl2
    · intro o ho
      have := h.opi o ho
      simp only [eaten, List.length_append, List.length_cons, List.length_nil]; omega
    · intro _ o ho
      have := h.opi o ho
      simp only [eaten, List.length_append, List.length_cons, List.length_nil]; omega
    · refine ⟨vs', rfl, rfl, ?_⟩
      intro v' lead u2 tl' T' he
      simp only [List.cons.injEq, F.rest.injEq, true_and] at he
      obtain ⟨⟨rfl, rfl, rfl, rfl⟩, rfl⟩ := he
      refine ⟨⟨sp, ?_⟩, (fun h => by cases h), (fun _ _ w r he => by simp at he), (fun h => by cases h), (fun h => by cases h), fun _ => ⟨⟨⟨.str, ⟨p.input.span.stop, p.input.span.stop + t.len⟩⟩, ?_, rfl⟩, ?_⟩⟩
      · show (p.events ++ [_])[vs'.eventOpener]? = _
        rw [List.getElem?_append_left hopl]
        exact hop
      · simp [eaten]
      · rw [hlast]
        simp [eaten]
    · show QOk _ (p.events ++ [⟨.str, ⟨p.input.span.stop, p.input.span.stop + t.len⟩⟩]) _
      rw [hlen]
      exact h.q.push rfl (by simp) (by simp)
    · intro e _ _ hf
      cases hf
    · exact ⟨rfl, ⟨⟨hn, (fun h => by cases h), ⟨rfl, rfl⟩, hrun⟩, hvo⟩, hw⟩
    · intro hb
      exact .inr (endsNl_swap (by simp) hb)
  · refine total_view (E := []) rfl rfl ?_ ?_ ?_
    · unfold view
      simp only [hv, Tail.trim, eaten, List.append_nil]
      rw [List.dropLast_concat]
    · unfold view
      simp only [hv, Tail.trim, setC_length]
      exact h.opi
    · simp [F.raw]

theorem kept_no {vs : Inline.VerbatimState} (h : ∀ sk, vs.nonWsLast ≠ some (.seq .backtick, sk)) (Q : List Inline.Event) : kept vs Q = Q := by
  unfold kept
  split
  · rename_i hx; exact absurd hx (h _)
  · rfl

/-- The closing backticks. -/
theorem step_close {src : Bytes} {p : Inline.IP} {x : Ctx} {S : List Op} {v : Verb} {n : Nat} {tl : Tail} {T : List F} {Ts : List (List F)} {ls : List Span}
    (h : Live src p x S (.rest v n false [] tl :: T) Ts ls) (htl : tl ≠ .pad) {q : Inline.IP} {f : Inline.Flow} (hp : p.parseEvent = .ok (q, f)) : Step src p q f S (.rest v n false [] tl :: T) Ts ls := by
  obtain ⟨rfl, ⟨⟨hn, hlead, htail, hrun⟩, hvo⟩, hw⟩ : x = .inCode n ∧ (RestOk n false [] tl ∧ v.Ok) ∧ okF v.ctx S (T ++ Ts.flatten) := h.wf
  obtain ⟨vs, hv, rfl, hvv⟩ := h.verb
  have hvv := hvv v false [] tl T rfl
  obtain ⟨sp, hop⟩ := hvv.opener
  have hopl := (List.getElem?_eq_some_iff.mp hop).1
  have hz : fprint (.rest v vs.lenOpener false [] tl :: T) = ticks vs.lenOpener ++ (v.behind ++ fprint T) := by
    rw [rest_print]; cases tl <;> first | rfl | exact absurd rfl htl
  have hlex : At p.input.lexer false true (ticks vs.lenOpener ++ (v.behind ++ fprint T)) := by rw [← hz]; exact h.lex
  have hlen : (ticks vs.lenOpener).length = vs.lenOpener := by simp [ticks]
  obtain ⟨w0, hw0⟩ := h.pos
  rw [hz, List.append_assoc] at hw0
  have hx := h.opx rfl
  obtain ⟨m, hm1, hm2, hm3⟩ : ∃ m, vs.eventOpener < m ∧ (∀ o ∈ p.openers, o.2 + 1 < m) ∧ m ≤ p.events.length ∧ ∀ Q : List Inline.Event, Q.length = p.events.length → kept vs Q = Q.take m ∧ tl.trim Q = Q.take m := by
    cases tl with
    | pad => exact absurd rfl htl
    | no =>
      refine ⟨p.events.length, hopl, h.opi, Nat.le_refl _, ?_⟩
      intro Q hQ
      have : Q.take p.events.length = Q := by rw [← hQ, List.take_length]
      rw [this]
      refine ⟨kept_no ?_ _, rfl⟩
      intro sk hsk
      obtain ⟨c, hc, _⟩ := hvv.back rfl sk hsk
      cases hc
    | eaten =>
      obtain ⟨⟨e, he1, he2⟩, hl⟩ := hvv.eaten rfl
      have hlt : vs.eventOpener < p.events.length - 1 := by
        rcases Nat.lt_or_ge vs.eventOpener (p.events.length - 1) with h1 | h1
        · exact h1
        · exfalso
          have : vs.eventOpener = p.events.length - 1 := by omega
          rw [List.getLast?_eq_getElem?, ← this, hop] at he1
          cases he1
          cases he2
      refine ⟨p.events.length - 1, hlt, fun o ho => by have := hx o ho; omega, by omega, ?_⟩
      intro Q hQ
      refine ⟨?_, ?_⟩
      · unfold kept; rw [hl]
      · show Q.dropLast = _
        rw [List.dropLast_eq_take, hQ]
  obtain ⟨hm3, hm4⟩ := hm3
  obtain ⟨l', n1, n2, n3⟩ := hlex.next_tok (tok_tick hn true (behind_head hw)) (by simp)
  have n2 : At l' false true (v.behind ++ fprint T) := by
    have : (ticks vs.lenOpener ++ (v.behind ++ fprint T)).drop vs.lenOpener = v.behind ++ fprint T := by
      have := List.drop_left (l₁ := ticks vs.lenOpener) (l₂ := v.behind ++ fprint T); rwa [hlen] at this
    rw [this] at n2; exact n2
  rw [parse_some n1] at hp
  have hbr : EndsNl (.rest v vs.lenOpener false [] tl :: T) → (T = [] ∧ v.ctx = .bol) ∨ EndsNl T := notNl_br (by simp)
  rcases (show (v.ctx = .code ∧ v.behind = [] ∧ v.opn = v.inner) ∨ ∃ fm, v = .raw fm by
    cases v with
    | plain => exact .inl ⟨rfl, rfl, rfl⟩
    | math d => cases d <;> exact .inl ⟨rfl, rfl, rfl⟩
    | raw fm => exact .inr ⟨fm, rfl⟩) with ⟨hcx, hbh, hoi⟩ | ⟨fm, rfl⟩
  · have hw : okF .code S (T ++ Ts.flatten) := hcx ▸ hw
    have n2 : At l' false true (fprint T) := by rw [hbh] at n2; exact n2
    obtain ⟨hd1, hd2⟩ := free_head hw
    have n4 := n2.peek
    have n5 := n4.2.mode (w := false) hd2
    have n6 := n5.peek
    have hnb : ∀ t, l'.peek.1 = some t → t.kind ≠ .opn .brace ∧ t.kind ≠ .opn .braceEqual := by
      intro t ht
      rw [n4.1, tokenAt_mode hd2] at ht
      have := noBrace_of (x := .code) rfl hw (tail_nobsl h.nobsl) (e := (tokenAt false false (fprint T)).2) (by rw [← ht])
      exact ⟨this.1, this.2 rfl⟩
    obtain ⟨rfl, rfl⟩ := parse_tock (p := eaten p _ _) hv hop (fun t ht => (hnb t ht).1) (fun t ht => (hnb t ht).2)
      (by show (Lexer.peek { l'.peek.2 with verbatim := false }).1 = l'.peek.1
          rw [n6.1, n4.1, tokenAt_mode hd2 true]) hp
    obtain ⟨hk1, hk2⟩ := hm4 p.events rfl
    have hkl : (p.events.take m).length = m := by rw [List.length_take]; omega
    refine ⟨rfl, .code, S, T, ?_, ?_⟩
    · refine h.adv (z := ticks vs.lenOpener) (by rw [hz, hbh]; rfl) (by simp) rfl h.attr rfl rfl (by rw [hlen]; rfl) rfl n6.2 (by simp) (fun _ => ticks_last hn) h.ops ?_ ?_ rfl ?_ ?_ hw (by rw [hcx] at hbr; exact hbr) (by simp)
      · intro o ho
        have := hm2 o ho
        show _ < (kept vs p.events ++ [_]).length
        rw [hk1]
        simp only [List.length_append, List.length_cons, List.length_nil, hkl]; omega
      · intro _ o ho
        have := hm2 o ho
        show _ < (kept vs p.events ++ [_]).length
        rw [hk1]
        simp only [List.length_append, List.length_cons, List.length_nil, hkl]; omega
      · rw [hlen]
        show QOk _ (kept vs p.events ++ [⟨.exit v.opn, ⟨p.input.span.stop, p.input.span.stop + vs.lenOpener⟩⟩]) _
        rw [hk1]
        exact h.q.takePush m (by show simple _ _ = true; rw [hoi]; exact simple_verb _ _) rfl (by omega)
      · intro e he hk
        simp only [eaten, List.getLast?_append, List.getLast?_singleton, Option.some_or, Option.some.injEq] at he
        subst he
        cases hk
    · refine total_view (E := [⟨.exit v.opn, ⟨p.input.span.stop, p.input.span.stop + vs.lenOpener⟩⟩]) rfl rfl ?_ ?_ ?_
      · refine Eq.trans (view_none (by rfl) (okF_notMath hw (by simp))) ?_
        unfold view
        simp only [hv]
        show kept vs p.events ++ _ = setC (tl.trim p.events) vs.eventOpener v.inner ++ _
        rw [hk1, hk2, ← hoi, setC_self (sp := sp) (by rw [List.getElem?_take, if_pos hm1]; exact hop)]
        rfl
      · unfold view
        simp only [hv, setC_length, hk2, hkl]
        exact hm2
      · simp only [rawEvs_cons, rawEvs_nil, rawEv, hoi, outer_verb, List.append_nil, List.cons_append, List.nil_append, fraw_cons, F.raw]
        rw [joined_empty]
  · have hw : okF .other S (T ++ Ts.flatten) := hw
    have hvo : FormatName fm := hvo
    have n2 : At l' false true (b! "{=" ++ fm ++ b! "}" ++ fprint T) := n2
    have hw1 : src.drop (p.input.span.stop + vs.lenOpener + 2) = fm ++ (b! "}" ++ (fprint T ++ w0)) := by
      have : src.drop p.input.span.stop = (ticks vs.lenOpener ++ b! "{=") ++ (fm ++ (b! "}" ++ (fprint T ++ w0))) := by rw [hw0]; simp [Verb.behind]
      rw [Nat.add_assoc, ← List.drop_drop, this]
      have h2 : vs.lenOpener + 2 = (ticks vs.lenOpener ++ b! "{=").length := by rw [List.length_append, hlen]; rfl
      rw [h2, List.drop_left]
    obtain ⟨rfl, l2, hl2, rfl⟩ := parse_tock_raw (p := eaten p _ _) (r := fprint T) hv hvo n3 n2 (by show textAt p.input.src _ = _; rw [h.hsrc]; exact textAt_at hw1) hp
    obtain ⟨hk1, hk2⟩ := hm4 (setC p.events vs.eventOpener (.rawFormat fm)) (setC_length _ _ _)
    obtain ⟨_, hk3⟩ := hm4 p.events rfl
    have hkl : ((setC p.events vs.eventOpener (.rawFormat fm)).take m).length = m := by rw [List.length_take, setC_length]; omega
    refine ⟨rfl, .other, S, T, ?_, ?_⟩
    · refine h.adv (z := ticks vs.lenOpener ++ (b! "{=" ++ fm ++ b! "}")) (by rw [hz]; simp [Verb.behind]) (by simp) rfl h.attr rfl rfl ?_ rfl hl2 (by simp) ?_ h.ops ?_ ?_ rfl ?_ ?_ hw hbr (by simp)
      · show p.input.span.stop + vs.lenOpener + 2 + fm.length + 1 = _
        simp only [List.length_append, hlen]
        show _ = p.input.span.stop + (vs.lenOpener + (2 + fm.length + 1))
        omega
      · exact fun _ => ⟨ticks vs.lenOpener ++ (b! "{=" ++ fm), c! '}', by simp, rfl⟩
      · intro o ho
        have := hm2 o ho
        show _ < (kept vs (setC p.events _ _) ++ [_]).length
        rw [hk1]
        simp only [List.length_append, List.length_cons, List.length_nil, hkl]; omega
      · intro _ o ho
        have := hm2 o ho
        show _ < (kept vs (setC p.events _ _) ++ [_]).length
        rw [hk1]
        simp only [List.length_append, List.length_cons, List.length_nil, hkl]; omega
      · show QOk _ (kept vs (setC p.events vs.eventOpener (.rawFormat fm)) ++ [⟨.exit (.rawFormat fm), ⟨p.input.span.stop, p.input.span.stop + vs.lenOpener + 2 + fm.length + 1⟩⟩]) _
        rw [hk1]
        have hl3 : p.input.span.stop + (ticks vs.lenOpener ++ (b! "{=" ++ fm ++ b! "}")).length = p.input.span.stop + vs.lenOpener + 2 + fm.length + 1 := by
          simp only [List.length_append, hlen]
          show p.input.span.stop + (vs.lenOpener + (2 + fm.length + 1)) = _
          omega
        rw [hl3]
        exact (h.q.setC rfl).takePush m rfl rfl (by omega)
      · intro e he hk
        simp only [eaten, List.getLast?_append, List.getLast?_singleton, Option.some_or, Option.some.injEq] at he
        subst he
        cases hk
    · refine total_view (E := [⟨.exit (.rawFormat fm), ⟨p.input.span.stop, p.input.span.stop + vs.lenOpener + 2 + fm.length + 1⟩⟩]) rfl rfl ?_ ?_ ?_
      · refine Eq.trans (view_none (by rfl) (okF_notMath hw (by simp))) ?_
        unfold view
        simp only [hv]
        show kept vs (setC p.events vs.eventOpener (.rawFormat fm)) ++ _ = setC (tl.trim p.events) vs.eventOpener (.rawFormat fm) ++ _
        rw [hk1, hk3, setC_take hm1]
        rfl
      · unfold view
        simp only [hv, setC_length, hk3, List.length_take]
        intro o ho
        have := hm2 o ho
        omega
      · simp only [rawEvs_cons, rawEvs_nil, rawEv, outer, List.append_nil, List.cons_append, List.nil_append, fraw_cons, F.raw]
        rw [joined_empty]; rfl

theorem step_rest {src : Bytes} {p : Inline.IP} {x : Ctx} {S : List Op} {v : Verb} {n : Nat} {lead : Bool} {u : Bytes} {tl : Tail} {T : List F} {Ts : List (List F)} {ls : List Span}
    (h : Live src p x S (.rest v n lead u tl :: T) Ts ls) {q : Inline.IP} {f : Inline.Flow} (hp : p.parseEvent = .ok (q, f)) : Step src p q f S (.rest v n lead u tl :: T) Ts ls := by
  cases lead with
  | true => exact step_lead h hp
  | false =>
    by_cases hu : u = []
    · subst hu
      by_cases ht : tl = .pad
      · subst ht; exact step_pad h hp
      · exact step_close h ht hp
    · exact step_within h hu hp

end Jotdown.Round
