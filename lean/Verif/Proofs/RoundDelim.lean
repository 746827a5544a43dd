import Verif.Proofs.RoundStep
/-! # Round trip: delimiters, symbols and addresses -/
namespace Jotdown.Round
open Jotdown Jotdown.Notation Jotdown.Lex

theorem byteSlice_val {s r : Bytes} {a b : Nat} (h : byteSlice s a b = .ok r) : r = (s.drop a).take (b - a) := by
  unfold byteSlice at h
  split at h
  · cases h; rfl
  · cases h

theorem strSlice_take {s r : Bytes} {a b : Nat} (h : strSlice s a b = .ok r) : r = (s.drop a).take (b - a) := by
  unfold strSlice at h
  split at h
  · cases h; rfl
  · cases h

theorem at_rest {l : Lexer} {s : Bytes} {e v : Bool} (h : At l e v s) (hn : l.next = none) : l.rest = s := by
  obtain ⟨_, ⟨_, _, h3⟩ | ⟨t, e', h1, _⟩⟩ := h
  · exact h3
  · rw [hn] at h1; cases h1

theorem ahead_rest {l : Lexer} {s a : Bytes} {e v : Bool} (h : At l e v s) (hn : l.next = none) (ha : l.ahead = .ok a) : a = s := by
  unfold Lexer.ahead Lexer.nextLen at ha
  rw [hn] at ha
  obtain ⟨k, h1, h2⟩ := bind_ok ha
  unfold csub at h1
  simp only [Nat.zero_le, if_true, Nat.sub_zero, Except.ok.injEq] at h1
  subst h1
  rw [byteSlice_val h2, ← at_rest h hn]
  unfold Lexer.rest
  rw [List.take_of_length_le (by simp)]

theorem skip_rest {l l' : Lexer} {s : Bytes} {e v : Bool} {n : Nat} (h : At l e v s) (hn : l.next = none) (ha : l.skipAhead n = .ok l') : At l' false false (s.drop n) := by
  unfold Lexer.skipAhead at ha
  obtain ⟨r, h1, h2⟩ := bind_ok ha
  cases h2
  have : r = s.drop n := by
    rw [byteSlice_val h1, ← at_rest h hn]
    unfold Lexer.rest
    rw [List.take_of_length_le (by simp), List.drop_drop]
  rw [← this]
  exact At.new _

/-- The first byte of the rest of the line. -/
theorem head_line {g : F} {T : List F} {Ts : List (List F)} {x : Ctx} {S : List Op} (hx : x.free = true) (h : okF x S (T ++ Ts.flatten)) (hT : T = [] → Ts = []) {c : UInt8}
    (hc : (fprint (T ++ Ts.flatten)).head? = some c) : (fprint T).head? = some c := by
  cases T with
  | nil => rw [hT rfl] at hc; exact hc
  | cons g T =>
    rw [List.cons_append] at h
    obtain ⟨d, r, h1, _⟩ := head_byte hx h
    rw [List.cons_append, fprint_cons, h1] at hc
    rw [fprint_cons, h1]
    exact hc

theorem Live.lineEnd {src : Bytes} {p : Inline.IP} {x : Ctx} {S : List Op} {g : F} {T : List F} {Ts : List (List F)} {ls : List Span} (h : Live src p x S (g :: T) Ts ls)
    (hg : ∀ hard, g ≠ .nl hard) : T = [] → Ts = [] := by
  rintro rfl
  cases hT : Ts with
  | nil => rfl
  | cons t Ts' =>
    have := h.br (by rw [hT]; simp)
    rcases this with ⟨h1, _⟩ | ⟨hard, h1⟩
    · cases h1
    · simp only [List.getLast?_singleton, Option.some.injEq] at h1
      exact absurd h1 (hg hard)

theorem pending_ok (n : Nat) (o : Op) : evOk n o.pending = true ∧ o.pending ≠ .placeholder := by
  cases o with
  | mark m b => cases m <;> exact ⟨rfl, by simp [Op.pending]⟩
  | link i u => exact ⟨rfl, by simp [Op.pending]⟩

/-- What is pushed by an opening delimiter. -/
theorem Live.opens {src : Bytes} {p : Inline.IP} {x : Ctx} {S : List Op} {o : Op} {T : List F} {Ts : List (List F)} {ls : List Span} (h : Live src p x S (.opn o :: T) Ts ls)
    (hv : p.verbatim = none) (hxd : x ≠ .dol) (hw : okF o.ctx (o :: S) (T ++ Ts.flatten)) {t : Token} (ht : t.len = o.opens.length) {l' : Lexer} (hl : At l' false false (fprint T))
    {q : Inline.IP} (hq : q = pushOp (eaten p t l') o) : Step src p q .cont S (.opn o :: T) Ts ls := by
  subst hq
  obtain ⟨w, hpw⟩ := h.pos
  have hne : o.opens ≠ [] := by
    cases o with
    | mark m b => cases b <;> simp [Op.opens]
    | link i u => cases i <;> simp [Op.opens]
  have hlen : 0 < o.opens.length := by
    cases ho : o.opens with
    | nil => exact absurd ho hne
    | cons a b => simp
  have hcx : (o.ctx == .bsl) = false ∧ o.ctx.isIn = false ∧ o.ctx.tight = false ∧ o.ctx ≠ .bsl ∧ o.ctx ≠ .bol ∧ o.ctx.isOpened = true := by
    cases o with
    | mark m b => exact ⟨rfl, rfl, rfl, by simp [Op.ctx], by simp [Op.ctx], rfl⟩
    | link i u => cases i <;> exact ⟨rfl, rfl, rfl, by simp [Op.ctx], by simp [Op.ctx], rfl⟩
  have hdol : ∀ i : Nat, o.opens[i]? ≠ some (c! '$') := by
    intro i hi
    have := List.mem_of_getElem? hi
    cases o with
    | mark m b => cases b <;> cases m <;> revert this <;> decide
    | link im u => cases im <;> revert this <;> simp only [Op.opens] <;> decide
  refine ⟨rfl, o.ctx, o :: S, T, ?_, ?_⟩
  · refine h.adv (z := o.opens) rfl (by simp) rfl h.attr rfl rfl (by rw [← ht]; rfl) rfl ?_ ?_ ?_ ?_ ?_ ?_ ?_ ?_ ?_ hw (notNl_br (by simp)) ?_ ?_ ?_ ?_ ?_
    · rw [hcx.1, hcx.2.1]; exact hl
    · intro hh; exact absurd hh hcx.2.2.2.1
    · rw [hcx.2.2.1]; intro hh; cases hh
    · simp only [pushOp, eaten, List.map_cons, h.ops]
    · intro o' ho
      simp only [pushOp, eaten, List.mem_cons] at ho
      simp only [pushOp, eaten, List.length_append, List.length_cons, List.length_nil]
      rcases ho with rfl | ho
      · simp
      · have := h.opi o' ho; omega
    · rw [hcx.2.2.2.2.2]; intro hh; cases hh
    · cases o with
      | mark m b => exact hv
      | link i u => cases i <;> exact hv
    · show QOk _ (p.events ++ [⟨.placeholder, ⟨p.input.span.stop, p.input.span.stop⟩⟩, ⟨o.pending, ⟨p.input.span.stop, p.input.span.stop + t.len⟩⟩]) _
      rw [ht]
      exact h.q.push2 (pending_ok _ o).1 (pending_ok p.storeCowstrs.length o).2 (by omega)
    · intro e he _ _ hb
      exfalso
      simp only [pushOp, eaten, List.getLast?_append, List.getLast?_cons_cons, List.getLast?_singleton, Option.some_or, Option.some.injEq] at he
      subst he
      have hpw' : src.drop p.input.span.stop = o.opens ++ (fprint T ++ w) := by rw [hpw, fprint_cons, List.append_assoc]; rfl
      have := byte_at hpw' (i := o.opens.length - 1) (by omega)
      simp only [ht] at hb
      rw [Nat.add_sub_assoc (by omega), this] at hb
      exact hdol _ hb
    · intro hh; exact absurd hh hcx.2.2.2.2.1
    · intro hh; rw [hh] at hcx; exact absurd hcx.2.2.2.2.2 (by simp [Ctx.isOpened])
    · intro hh; rw [hh] at hcx; exact absurd hcx.2.2.2.2.2 (by simp [Ctx.isOpened])
    · intro hh; rw [hh] at hcx; exact absurd hcx.2.2.2.2.2 (by simp [Ctx.isOpened])
    · intro hh; rw [hh] at hcx; exact absurd hcx.2.2.2.2.2 (by simp [Ctx.isOpened])
  · have hcd : o.ctx ≠ .dol := by intro hh; rw [hh] at hcx; exact absurd hcx.2.2.2.2.2 (by simp [Ctx.isOpened])
    refine Eq.trans (total_none (by exact hv) (okF_notMath hw hcd)) (Eq.trans ?_ (total_none hv (okF_notMath h.wf hxd)).symm)
    simp only [pushOp, eaten, resolve, List.map_append, List.map_cons, List.map_nil]
    rw [List.set_append_right _ _ (by simp)]
    simp only [List.length_map, Nat.add_sub_cancel_left, List.set_cons_succ, List.set_cons_zero]
    rw [resolve_append (by simpa using h.opi), List.flatten_append, List.append_assoc]
    apply joined_congr
    simp [rawEv, F.raw]

theorem step_opn {src : Bytes} {p : Inline.IP} {x : Ctx} {S : List Op} {o : Op} {T : List F} {Ts : List (List F)} {ls : List Span} (h : Live src p x S (.opn o :: T) Ts ls)
    {q : Inline.IP} {f : Inline.Flow} (hp : p.parseEvent = .ok (q, f)) : Step src p q f S (.opn o :: T) Ts ls := by
  obtain ⟨hx, hok, hw⟩ : x.free = true ∧ OpnOk x S (T ++ Ts.flatten) o ∧ okF o.ctx (o :: S) (T ++ Ts.flatten) := h.wf
  have hcf : o.ctx.free = true := by
    cases o with
    | mark m b => rfl
    | link i u => cases i <;> rfl
  obtain ⟨hv, hlex⟩ := h.noVerb hx
  obtain ⟨l', n1, n20, n3⟩ := hlex.next_tok (tok_of hx h.wf (by simp) (by simp) h.nobsl) (kind_text hx h.wf (by simp) (by simp)).1
  have n2 : At l' false false (fprint T) := by
    have n2 := n20
    have hd : (fprint (F.opn o :: T)).drop (F.opn o).tok = fprint T := by
      show (o.opens ++ fprint T).drop o.opens.length = _
      rw [List.drop_left]
    rw [hd] at n2
    exact n2
  rw [parse_some n1] at hp
  have hgood : o.good = true := by
    cases o with
    | mark m b => cases b with
      | true => rfl
      | false => exact hok.1
    | link i u => rfl
  have hS : ∀ m, o = .mark m false → o ∉ S ∧ (m.quote = true → .mark m true ∉ S) := by
    rintro m rfl; exact ⟨hok.2.1, hok.2.2.2.2.2⟩
  have hso : SingleOk (eaten p ⟨(F.opn o).kind, (F.opn o).tok⟩ l') o := by
    rintro b rfl
    have hx2 : x = .bol ∨ x = .space := by
      cases b with
      | true => exact hok.2.1 rfl
      | false => exact hok.2.2.2.2.1 rfl
    rcases hx2 with rfl | rfl
    · left
      intro e he hk
      have := h.bol rfl e he
      rw [hk] at this
      cases this
    · right
      obtain ⟨i, c, h1, h2, h3⟩ := h.sp rfl
      refine ⟨i, c, h1, ?_, h3⟩
      show p.input.src[i]? = some c
      rw [h.hsrc]; exact h2
  by_cases hl : ∃ url, o = .link false url
  · obtain ⟨url, rfl⟩ := hl
    have hc : ∀ t, (eaten p ⟨(F.opn (.link false url)).kind, (F.opn (.link false url)).tok⟩ l').input.lexer.peek.1 = some t → t.kind ≠ .sym .caret := by
      intro t ht
      have ht : l'.peek.1 = some t := ht
      rw [n2.peek.1] at ht
      clear n1 hp
      cases T with
      | nil => rw [fprint_nil, tokenAt_nil] at ht; cases ht
      | cons g T =>
        by_cases hg : ∃ b, g = .ch b
        · obtain ⟨b, rfl⟩ := hg
          have hb : isPlain b = true := hw.2.1
          have h1 : 0 < countWhile (fun c => !isSpecial c) (fprint (.ch b :: T)) := by
            show 0 < countWhile (fun c => !isSpecial c) (b :: fprint T)
            simp [countWhile, (plain_special hb).1]
          unfold tokenAt at ht
          simp only [Bool.false_eq_true, if_false, h1, if_true] at ht
          cases ht
          simp
        · have hnb : (g :: T).getLast? ≠ some .bsl := by
            have := h.nobsl
            rw [List.getLast?_cons_cons] at this
            exact this
          rw [tok_of (x := .lopened) rfl hw (fun b hb => hg ⟨b, hb⟩) (by rintro d rfl; rcases hw.2.1 with hh | hh <;> cases hh) hnb] at ht
          cases ht
          show g.kind ≠ _
          rw [List.cons_append] at hw
          cases g with
          | opn o' =>
            cases o' with
            | mark m b =>
              cases b with
              | true => simp [F.kind, Op.openKind]
              | false =>
                have h1 := hw.2.1.2.2.1
                have h2 := hw.2.1.1
                cases m <;> simp [F.kind, Op.openKind, Mark.symbol]
                · exact absurd rfl (h1 rfl)
            | link i u => cases i <;> simp [F.kind, Op.openKind]
          | cls o' =>
            cases o' with
            | mark m b =>
              cases b with
              | true => simp [F.kind, Op.closeKind]
              | false => have := hw.2.1.2; cases this
            | link i u => simp [F.kind, Op.closeKind]
          | _ => simp [F.kind]
    obtain ⟨rfl, rfl⟩ := parse_bracket (p := eaten p _ _) (S := S) h.ops hv h.attr _ url hc hp
    exact h.opens hv (free_notDol hx) hw (t := ⟨_, _⟩) rfl (l' := l'.peek.2) n2.peek.2 rfl
  · have hb : o.opener.bidirectional = true → ∀ a, (eaten p ⟨(F.opn o).kind, (F.opn o).tok⟩ l').input.lexer.ahead = .ok a → ∃ c, a.head? = some c ∧ isWs c = false := by
      intro hbi a ha
      obtain ⟨m, b, rfl, hmb⟩ := bidir_op o hbi
      obtain ⟨c, hc1, hc2⟩ : ∃ c, (fprint (T ++ Ts.flatten)).head? = some c ∧ isWs c = false := by
        cases b with
        | true => exact hok.2.2 (hmb.resolve_left (by simp))
        | false => exact hok.2.2.2.1
      refine ⟨c, ?_, hc2⟩
      rw [ahead_rest n2 n3 ha]
      exact head_line (g := .nbsp) rfl hw (h.lineEnd (by simp)) hc1
    obtain ⟨rfl, rfl⟩ := parse_opn (p := eaten p _ _) (S := S) h.ops hv h.attr hgood hS hso (fun url he => hl ⟨url, he⟩) _ hb hp
    exact h.opens hv (free_notDol hx) hw (t := ⟨_, _⟩) rfl n2 rfl

theorem noBrace_of {x : Ctx} {S : List Op} {T W : List F} (hx : x.free = true) (h : okF x S (T ++ W)) (hnb : T.getLast? ≠ some .bsl) {t : Token} {e : Bool} (ht : tokenAt false false (fprint T) = (some t, e)) :
    t.kind ≠ .opn .brace ∧ (x = .code → t.kind ≠ .opn .braceEqual) := by
  cases T with
  | nil => rw [fprint_nil, tokenAt_nil] at ht; cases ht
  | cons g T =>
    by_cases hg : ∃ b, g = .ch b
    · obtain ⟨b, rfl⟩ := hg
      have hb : isPlain b = true := h.2.1
      have h1 : 0 < countWhile (fun c => !isSpecial c) (fprint (.ch b :: T)) := by
        show 0 < countWhile (fun c => !isSpecial c) (b :: fprint T)
        simp [countWhile, (plain_special hb).1]
      unfold tokenAt at ht
      simp only [Bool.false_eq_true, if_false, h1, if_true] at ht
      cases ht
      simp
    · have hg' : ∀ b, g ≠ .ch b := fun b hb => hg ⟨b, hb⟩
      by_cases hgd : ∃ d, g = .dols d
      · obtain ⟨d, rfl⟩ := hgd
        have h1 : 0 < countWhile (fun c => !isSpecial c) (fprint (.dols d :: T)) := by
          obtain ⟨r, hr⟩ : ∃ r, fprint (.dols d :: T) = c! '$' :: r := by cases d <;> exact ⟨_, rfl⟩
          rw [hr]
          simp [countWhile, show isSpecial (c! '$') = false by decide]
        unfold tokenAt at ht
        simp only [Bool.false_eq_true, if_false, h1, if_true] at ht
        cases ht
        simp
      have hgd' : ∀ d, g ≠ .dols d := fun d hd => hgd ⟨d, hd⟩
      rw [tok_of hx h hg' hgd' hnb] at ht
      cases ht
      refine ⟨(kind_text hx h hg' hgd').2, ?_⟩
      show x = .code → g.kind ≠ _
      intro hxc
      rw [List.cons_append] at h
      cases g with
      | opn o =>
        cases o with
        | mark m b =>
          cases b with
          | true =>
            have h2 := h.2.1
            cases m <;> simp [F.kind, Op.openKind, Mark.delim]
            · exact absurd hxc (h2.1 rfl)
          | false => have h2 := h.2.1.1; cases m <;> first | (simp [F.kind, Op.openKind, Mark.symbol]; done) | cases h2
        | link i u => cases i <;> simp [F.kind, Op.openKind]
      | cls o =>
        cases o with
        | mark m b => cases b <;> cases m <;> simp [F.kind, Op.closeKind, Mark.symbol]
        | link i u => simp [F.kind, Op.closeKind]
      | _ => simp [F.kind]

theorem tail_nobsl {g : F} {T : List F} (h : (g :: T).getLast? ≠ some .bsl) : T.getLast? ≠ some .bsl := by
  cases T with
  | nil => simp
  | cons a T => rwa [List.getLast?_cons_cons] at h

theorem Live.noBrace {src : Bytes} {p : Inline.IP} {x x' : Ctx} {S S' : List Op} {g : F} {T : List F} {Ts : List (List F)} {ls : List Span} (h : Live src p x S (g :: T) Ts ls)
    (hx : x'.free = true) (hw : okF x' S' (T ++ Ts.flatten)) {l' : Lexer} (hl : At l' false false (fprint T)) : NoBrace l' := by
  intro t ht
  rw [hl.peek.1] at ht
  exact (noBrace_of hx hw (tail_nobsl h.nobsl) (e := (tokenAt false false (fprint T)).2) (by rw [← ht])).1

/-- The opener on top. -/
theorem Live.top {src : Bytes} {p : Inline.IP} {x : Ctx} {S : List Op} {o : Op} {T : List F} {Ts : List (List F)} {ls : List Span} (h : Live src p x (o :: S) T Ts ls) :
    ∃ e O, p.openers = (o.opener, e) :: O ∧ O.map (·.1) = S.map Op.opener ∧ e + 1 < p.events.length ∧ (x.isOpened = false → e + 2 < p.events.length) ∧ ∀ o ∈ O, o.2 + 1 < p.events.length := by
  have hops := h.ops
  cases ho : p.openers with
  | nil => rw [ho] at hops; simp at hops
  | cons a O =>
    obtain ⟨k, e⟩ := a
    rw [ho] at hops
    simp only [List.map_cons, List.cons.injEq] at hops
    obtain ⟨rfl, hops⟩ := hops
    exact ⟨e, O, rfl, hops, h.opi _ (by rw [ho]; exact List.mem_cons_self), fun hx => h.opx hx _ (by rw [ho]; exact List.mem_cons_self),
      fun o' ho' => h.opi o' (by rw [ho]; exact List.mem_cons_of_mem _ ho')⟩

theorem step_cls {src : Bytes} {p : Inline.IP} {x : Ctx} {S : List Op} {m : Mark} {b : Bool} {T : List F} {Ts : List (List F)} {ls : List Span} (h : Live src p x S (.cls (.mark m b) :: T) Ts ls)
    {q : Inline.IP} {f : Inline.Flow} (hp : p.parseEvent = .ok (q, f)) : Step src p q f S (.cls (.mark m b) :: T) Ts ls := by
  obtain ⟨hx, hok, S', rfl, hw⟩ : x.free = true ∧ ClsOk x (.mark m b) ∧ ∃ S', S = .mark m b :: S' ∧ okF .other S' (T ++ Ts.flatten) := h.wf
  obtain ⟨hv, hlex⟩ := h.noVerb hx
  have hxo : x.isOpened = false := by
    cases b with
    | true => exact hok.1
    | false => have := hok.2; cases x <;> first | rfl | cases this
  obtain ⟨l', n1, n20, n3⟩ := hlex.next_tok (tok_of hx h.wf (by simp) (by simp) h.nobsl) (kind_text hx h.wf (by simp) (by simp)).1
  have n2 : At l' false false (fprint T) := by
    have n2 := n20
    have hd : (fprint (F.cls (.mark m b) :: T)).drop (F.cls (.mark m b)).tok = fprint T := by
      show ((Op.mark m b).closes ++ fprint T).drop (Op.mark m b).closes.length = _
      rw [List.drop_left]
    rw [hd] at n2
    exact n2
  rw [parse_some n1] at hp
  obtain ⟨e, O, ho, hops, he1, he2, hO⟩ := h.top
  have hws : (Op.mark m b).opener.bidirectional = true → (eaten p ⟨(F.cls (.mark m b)).kind, (F.cls (.mark m b)).tok⟩ l').input.wsBefore = false := by
    intro hb
    have hxt : x.tight = true := by
      obtain ⟨m', b', hm', hb'⟩ := bidir_op _ hb
      cases hm'
      cases b with
      | true => exact hok.2 (hb'.resolve_left (by simp))
      | false => exact hok.2
    unfold Inline.Input.wsBefore
    show (match p.input.src[p.input.span.stop - 1]? with | some c => isWs c | none => false) = false
    rw [h.hsrc]
    have hwsp := h.wsp hxt
    cases hc : src[p.input.span.stop - 1]? with
    | none => rfl
    | some c => exact hwsp c hc
  obtain ⟨rfl, rfl⟩ := parse_cls (p := eaten p _ _) (O := O) (e := e) ho hv h.attr _ (he2 hxo) (h.noBrace (x' := .other) rfl hw n2) hws hp
  have hcl : ∃ y c, (Op.mark m b).closes = y ++ [c] ∧ isWs c = false := by
    cases b with
    | true => exact ⟨[m.ch], c! '}', rfl, rfl⟩
    | false => exact ⟨[], m.ch, rfl, mark_ws m⟩
  refine ⟨rfl, .other, S', T, ?_, ?_⟩
  · refine h.adv (z := (Op.mark m b).closes) rfl (by simp) rfl h.attr rfl rfl rfl rfl n2.peek.2 (by simp) (fun _ => hcl) hops ?_ ?_ hv ?_ ?_ hw (notNl_br (by simp)) (by simp)
    · intro o' ho'
      have := hO o' ho'
      simp only [eaten, List.length_append, setK_length]; omega
    · intro _ o' ho'
      have := hO o' ho'
      simp only [eaten, List.length_append, setK_length, List.length_singleton]; omega
    · show QOk _ (Round.setK p.events (e + 1) m.inner ++ [⟨m.outer, ⟨p.input.span.stop, p.input.span.stop + (Op.mark m b).closes.length⟩⟩]) _
      exact (h.q.setK (inner_ok _ m).1 (inner_ok 0 m).2.1).push (k := m.outer) (outer_ok _ m).1 (outer_ok 0 m).2.2 (by omega)
    · intro e he hk
      simp only [eaten, List.getLast?_append, List.getLast?_singleton, Option.some_or, Option.some.injEq] at he
      subst he
      have := (outer_ok 0 m).2.1
      rw [show m.outer = .str from hk] at this
      cases this
  · refine Eq.trans (total_none (by exact hv) (okF_notMath hw (by simp))) (Eq.trans ?_ (total_none hv (okF_notMath h.wf (free_notDol hx))).symm)
    rw [ho]
    simp only [eaten, resolve, List.map_append, List.map_cons, List.map_nil]
    rw [setK_map he1 (inner_ok 0 m).2.2, raw_inner, raw_outer, resolve_append (by simpa using hO), List.flatten_append, List.append_assoc]
    apply joined_congr
    simp [F.raw, Op.ends]

/-! ## Closing quotation marks that close nothing -/

/-- The token of a closing quotation mark. -/
def rightTok (d : Bool) : Kind := .cls (if d then .braceQuote2 else .braceQuote1)

theorem right_close {d : Bool} {S : List Op} (h : ∀ b, Op.mark (quoteOf d) b ∉ S) : ∀ o ∈ S, rightTok d ∉ o.closers := by
  intro o ho hk
  cases o with
  | mark m b =>
    have : m = quoteOf d := by
      cases m <;> cases b <;> cases d <;> first | rfl | (simp [rightTok, Op.closers, Mark.quote, Op.closeKind, Mark.symbol, Mark.delim] at hk; done)
    subst this
    exact h b ho
  | link i u => cases d <;> simp [rightTok, Op.closers, Op.closeKind] at hk

theorem parse_right {p : Inline.IP} {S : List Op} (h : p.openers.map (·.1) = S.map Op.opener) (hv : p.verbatim = none) (ha : p.attributes = none) (n : Nat) (d : Bool)
    (hS : ∀ b, Op.mark (quoteOf d) b ∉ S) :
    p.parseToken ⟨rightTok d, n⟩ = .ok (p.push (.atom (.quote (if d then .double else .single) false)), .cont) := by
  rw [parseToken_direct hv ha rfl]
  have hc : p.parseContainer ⟨rightTok d, n⟩ = .ok (p, none) := by
    unfold Inline.IP.parseContainer
    rw [tryClose_none h (right_close hS), orElse_none]
    cases d <;> rfl
  rw [hc]
  cases d <;> rfl

theorem step_right {src : Bytes} {p : Inline.IP} {x : Ctx} {S : List Op} {d : Bool} {T : List F} {Ts : List (List F)} {ls : List Span} (h : Live src p x S (.right d :: T) Ts ls)
    {q : Inline.IP} {f : Inline.Flow} (hp : p.parseEvent = .ok (q, f)) : Step src p q f S (.right d :: T) Ts ls := by
  obtain ⟨hx, hS, hw⟩ : x.free = true ∧ (∀ b, Op.mark (quoteOf d) b ∉ S) ∧ okF .other S (T ++ Ts.flatten) := h.wf
  obtain ⟨hv, hlex⟩ := h.noVerb hx
  obtain ⟨l', n1, n2, _⟩ := hlex.next_tok (tok_of hx h.wf (by simp) (by simp) h.nobsl) (kind_text hx h.wf (by simp) (by simp)).1
  have hk : (F.right d).kind = rightTok d ∧ (F.right d).tok = 2 := by cases d <;> exact ⟨rfl, rfl⟩
  rw [parse_some n1, hk.1, hk.2, parse_right (p := eaten p _ _) (S := S) h.ops hv h.attr 2 d hS] at hp
  cases hp
  have hlen : (F.right d).print.length = 2 := by cases d <;> rfl
  refine ⟨rfl, .other, S, T, h.pushes (x' := .other) (hxd := free_notDol hx) (E := []) (e := ⟨.atom (.quote (if d then .double else .single) false), ⟨p.input.span.stop, p.input.span.stop + 2⟩⟩)
    rfl rfl rfl rfl (by rw [hlen]; rfl) rfl ?_ (by simp) ?_ rfl rfl rfl hv hv rfl ?_ (by intro h; cases h) hw (by simp) (by simp) ?_⟩
  · have : (fprint (F.right d :: T)).drop (F.right d).tok = fprint T := by cases d <;> rfl
    rw [this] at n2
    exact n2
  · intro _; cases d
    · exact ⟨[c! '\''], c! '}', rfl, rfl⟩
    · exact ⟨[c! '"'], c! '}', rfl, rfl⟩
  · rw [hlen]
    exact h.q.push rfl (by simp) (by omega)
  · intro C
    cases d <;> rfl

/-! ## Apostrophes -/

theorem apos_close {S : List Op} (h : ∀ b, Op.mark .single b ∉ S) : ∀ o ∈ S, (Kind.sym .quote1) ∉ o.closers := by
  intro o ho hk
  cases o with
  | mark m b =>
    have : m = .single := by
      cases m <;> cases b <;> first | rfl | (simp [Op.closers, Mark.quote, Op.closeKind, Mark.symbol, Mark.delim] at hk; done)
    subst this
    exact h b ho
  | link i u => simp [Op.closers, Op.closeKind] at hk

theorem parse_apos {p : Inline.IP} {S : List Op} (h : p.openers.map (·.1) = S.map Op.opener) (hv : p.verbatim = none) (ha : p.attributes = none) (n : Nat)
    (hS : ∀ b, Op.mark .single b ∉ S) (hl : ∃ e, p.events.getLast? = some e ∧ e.kind = .str) (hw : ∀ c, p.input.src[p.input.span.start - 1]? = some c → isWs c = false)
    {q : Inline.IP} {f : Inline.Flow} (hp : p.parseToken ⟨.sym .quote1, n⟩ = .ok (q, f)) :
    f = .cont ∧ q = p.push (.atom (.quote .single false)) := by
  rw [parseToken_direct hv ha rfl] at hp
  have hc : ∀ r, p.parseContainer ⟨.sym .quote1, n⟩ = .ok r → r = (p, none) := by
    intro r hr
    unfold Inline.IP.parseContainer at hr
    rw [tryClose_none h (apos_close hS), orElse_none] at hr
    unfold Inline.IP.tryOpen at hr
    simp only [show Inline.Opener.fromToken (.sym .quote1) = some .singleQuoted from rfl] at hr
    obtain ⟨a, h1, hr0⟩ := bind_ok hr
    clear hr
    have key : ∀ {b : Bool}, (if (Inline.Opener.singleQuoted.bidirectional && b) = true then (pure (p, none) : R (Inline.IP × Option Inline.Flow)) else do
        let wsBefore ← p.input.wsBefore'
        if True ∧ p.events.getLast?.any (fun e => e.kind == .str) = true ∧ (!wsBefore) = true then
          pure (p, none)
        else
          pure ({ p with
            openers := (.singleQuoted, p.events.length) :: p.openers
            events := p.events ++ [⟨.placeholder, ⟨p.input.span.start, p.input.span.start⟩⟩,
              ⟨Inline.openerKind .singleQuoted, p.input.span⟩] }, some .cont)) = .ok r → r = (p, none) := by
      intro b hb
      split at hb
      · cases hb; rfl
      · obtain ⟨w, h2, hb⟩ := bind_ok hb
        have hw0 : w = false := by
          unfold Inline.Input.wsBefore' at h2
          split at h2
          · obtain ⟨c, h3, h2⟩ := bind_ok h2
            cases h2
            refine hw c ?_
            unfold idx at h3
            cases hg : p.input.src[p.input.span.start - 1]? with
            | none => rw [hg] at h3; cases h3
            | some d => rw [hg] at h3; cases h3; rfl
          · cases h2; rfl
        subst hw0
        rw [if_pos] at hb
        · cases hb; rfl
        · obtain ⟨e, he, hk⟩ := hl
          refine ⟨trivial, ?_, rfl⟩
          rw [he]
          simp [hk]
    exact key hr0
  cases hpc : p.parseContainer ⟨.sym .quote1, n⟩ with
  | error e =>
    rw [hpc] at hp
    cases hp
  | ok r =>
    rw [hc r hpc] at hpc
    rw [hpc] at hp
    have e : finish (Inline.orElse (.ok (p, none)) (fun p => p.parseAtom ⟨.sym .quote1, n⟩)) = .ok (p.push (.atom (.quote .single false)), .cont) := rfl
    rw [e] at hp
    cases hp
    exact ⟨rfl, rfl⟩

theorem step_apos {src : Bytes} {p : Inline.IP} {x : Ctx} {S : List Op} {T : List F} {Ts : List (List F)} {ls : List Span} (h : Live src p x S (.apos :: T) Ts ls)
    {q : Inline.IP} {f : Inline.Flow} (hp : p.parseEvent = .ok (q, f)) : Step src p q f S (.apos :: T) Ts ls := by
  obtain ⟨hx0, hS, hw⟩ : x = .word ∧ (∀ b, Op.mark .single b ∉ S) ∧ okF .other S (T ++ Ts.flatten) := h.wf
  have hx : x.free = true := by rw [hx0]; rfl
  obtain ⟨hv, hlex⟩ := h.noVerb hx
  obtain ⟨l', n1, n2, _⟩ := hlex.next_tok (tok_of hx h.wf (by simp) (by simp) h.nobsl) (kind_text hx h.wf (by simp) (by simp)).1
  rw [parse_some n1] at hp
  obtain ⟨rfl, rfl⟩ := parse_apos (p := eaten p _ _) (S := S) h.ops hv h.attr _ hS (h.wd hx0 (by simp))
    (by rw [show (eaten p ⟨F.apos.kind, F.apos.tok⟩ l').input.src = src from h.hsrc]; exact h.wsp (by rw [hx0]; rfl)) hp
  refine ⟨rfl, .other, S, T, h.pushes (x' := .other) (hxd := free_notDol hx) (E := []) (e := ⟨.atom (.quote .single false), ⟨p.input.span.stop, p.input.span.stop + 1⟩⟩)
    rfl rfl rfl rfl rfl rfl n2 (by simp) ?_ rfl rfl rfl hv hv rfl ?_ (by intro h; cases h) hw (by simp) (by simp) ?_⟩
  · intro _; exact ⟨[], c! '\'', rfl, rfl⟩
  · exact h.q.push rfl (by simp) (by simp [F.print])
  · intro C; rfl

/-! ## References to footnotes -/

theorem scanFootnote_label {s : Bytes} (h : NoteLabel s) (r : Bytes) : Inline.scanFootnote (s ++ c! ']' :: r) = (s.length, true) := by
  induction s with
  | nil => rfl
  | cons c s ih =>
    obtain ⟨h1, h2, h3⟩ := h c (by simp)
    have hi := ih (fun d hd => h d (by simp [hd]))
    rw [List.cons_append]
    unfold Inline.scanFootnote
    simp [h1, h2, h3, hi]

theorem step_note {src : Bytes} {p : Inline.IP} {x : Ctx} {S : List Op} {s : Bytes} {T : List F} {Ts : List (List F)} {ls : List Span} (h : Live src p x S (.note s :: T) Ts ls)
    {q : Inline.IP} {f : Inline.Flow} (hp : p.parseEvent = .ok (q, f)) : Step src p q f S (.note s :: T) Ts ls := by
  obtain ⟨hx, ⟨hok, hbr⟩, hw⟩ : x.free = true ∧ (NoteLabel s ∧ s.head? ≠ some (c! '}')) ∧ okF .other S (T ++ Ts.flatten) := h.wf
  obtain ⟨hv, hlex⟩ := h.noVerb hx
  obtain ⟨l', n1, n2, n3⟩ := hlex.next_tok (tok_of hx h.wf (by simp) (by simp) h.nobsl) (kind_text hx h.wf (by simp) (by simp)).1
  have n2 : At l' false false (c! '^' :: (s ++ c! ']' :: fprint T)) := by
    have hd : (fprint (F.note s :: T)).drop (F.note s).tok = c! '^' :: (s ++ c! ']' :: fprint T) := by
      show c! '^' :: (s ++ [c! ']']) ++ fprint T = _
      simp
    rw [hd] at n2
    exact n2
  have htc : tokenAt false false (c! '^' :: (s ++ c! ']' :: fprint T)) = (some ⟨.sym .caret, 1⟩, false) := by
    refine tok_sym (m := .superscript) rfl ?_
    cases s with
    | nil => simp
    | cons a s => simpa using hbr
  have hpk : l'.peek.1 = some ⟨.sym .caret, 1⟩ := by rw [n2.peek.1, htc]
  obtain ⟨l1, m1, m2, m3⟩ := n2.peek.2.next_tok htc (by simp)
  have m2 : At l1 false false (s ++ c! ']' :: fprint T) := m2
  rw [parse_some n1] at hp
  obtain ⟨w, hpw⟩ := h.pos
  have hpw' : src.drop p.input.span.stop = c! '[' :: c! '^' :: (s ++ c! ']' :: (fprint T ++ w)) := by rw [hpw]; simp [F.print]
  have key : ∀ r, (eaten p ⟨.opn .bracket, 1⟩ l').parseFootnoteReference ⟨.opn .bracket, 1⟩ = .ok r → ∃ l2, At l2 false false (fprint T) ∧
      r = ({ p with
        events := p.events ++ [⟨.atom (.footnoteReference s), ⟨p.input.span.stop, p.input.span.stop + (s.length + 3)⟩⟩]
        input := { p.input with lexer := l2, span := ⟨p.input.span.stop, p.input.span.stop + (s.length + 3)⟩ } }, some .cont) := by
    intro r hr
    unfold Inline.IP.parseFootnoteReference at hr
    rw [if_pos rfl, if_pos (by show l'.peek.1.map (·.kind) = _; rw [hpk]; rfl)] at hr
    unfold Inline.IP.footnoteLabel at hr
    have heat : (Inline.Input.eat (Inline.Input.peekKind (eaten p ⟨.opn .bracket, 1⟩ l').input).2)
        = (some ⟨.sym .caret, 1⟩, { p.input with lexer := l1, span := ⟨p.input.span.stop, p.input.span.stop + 1 + 1⟩ }) := by
      show (Inline.Input.eat { p.input with lexer := l'.peek.2, span := ⟨p.input.span.stop, p.input.span.stop + 1⟩ }) = _
      unfold Inline.Input.eat
      simp only [m1]
    simp only [heat] at hr
    replace hr := bind_ok hr
    obtain ⟨_, _, hr⟩ := hr
    replace hr := bind_ok hr
    obtain ⟨a, ha, hr⟩ := hr
    have := ahead_rest m2 m3 ha
    subst this
    rw [scanFootnote_label hok] at hr
    simp only [if_true] at hr
    unfold Inline.IP.pushNamed at hr
    obtain ⟨l2, h1, hr2⟩ := bind_ok hr
    obtain ⟨u, h2, hr3⟩ := bind_ok hr2
    clear hr hr2
    have hl2 := skip_rest m2 m3 h1
    have e1 : (s ++ c! ']' :: fprint T).drop (s.length + 1) = fprint T := by rw [List.drop_append]; simp
    rw [e1] at hl2
    have hu : u = s := by
      rw [strSlice_take h2]
      show (p.input.src.drop (p.input.span.stop + 1 + 1)).take (p.input.span.stop + 1 + 1 + s.length - (p.input.span.stop + 1 + 1)) = s
      rw [h.hsrc, Nat.add_sub_cancel_left, ← List.drop_drop, ← List.drop_drop, hpw']
      simp
    subst hu
    refine ⟨l2, hl2, ?_⟩
    cases hr3
    simp only [eaten, Inline.IP.push, Inline.IP.pushSp]
    have : p.input.span.stop + 1 + 1 + u.length + 1 = p.input.span.stop + (u.length + 3) := by omega
    rw [this]
  have hkind : F.kind (.note s) = .opn .bracket := rfl
  have htok : F.tok (.note s) = 1 := rfl
  rw [hkind, htok] at hp
  unfold Inline.IP.parseToken at hp
  rw [no_verbatim (p := eaten p _ _) hv (by simp), orElse_none, no_attributes (p := eaten p _ _) h.attr (by simp), orElse_none, no_autolink (by simp), orElse_none,
    no_symbol (by simp), orElse_none] at hp
  cases hs : (eaten p ⟨.opn .bracket, 1⟩ l').parseFootnoteReference ⟨.opn .bracket, 1⟩ with
  | error e => rw [hs] at hp; cases hp
  | ok r =>
    obtain ⟨l2, hl2, rfl⟩ := key r hs
    rw [hs, orElse_some, orElse_some] at hp
    cases hp
    have hlen : (F.note s).print.length = s.length + 3 := by simp [F.print]
    refine ⟨rfl, .other, S, T, h.pushes (x' := .other) (hxd := free_notDol hx) (E := []) (e := ⟨.atom (.footnoteReference s), ⟨p.input.span.stop, p.input.span.stop + (s.length + 3)⟩⟩)
      rfl rfl rfl rfl (by rw [hlen]) rfl hl2 (by simp) (fun _ => ⟨c! '[' :: c! '^' :: s, c! ']', by simp [F.print], rfl⟩) rfl rfl rfl hv hv rfl ?_ (by intro h; cases h) hw (by simp) (by simp) ?_⟩
    · rw [hlen]
      exact h.q.push rfl (by simp) (by omega)
    · intro C
      rfl

/-! ## Symbols and addresses -/

theorem scanSymbol_name {s : Bytes} (h : SymbolName s) (r : Bytes) : Inline.scanSymbol (s ++ c! ':' :: r) = (s.length, true, true) := by
  induction s with
  | nil => rfl
  | cons c s ih =>
    have hc := h c (by simp)
    have hi := ih (fun d hd => h d (by simp [hd]))
    have h1 : Inline.isSymbolChar c = true := by
      unfold Inline.isSymbolChar
      rcases hc with hc | rfl | rfl | rfl <;> simp [*]
    have h2 : c ≠ c! ':' ∧ isWs c = false := by
      have := all_bytes (fun c => !Inline.isSymbolChar c || (c != c! ':' && !isWs c)) (by decide +kernel) c
      simpa [h1] using this
    rw [List.cons_append]
    unfold Inline.scanSymbol
    simp [h1, h2, hi]

theorem scanAutolink_address {s : Bytes} (h : ∀ c ∈ s, isWs c = false ∧ c ≠ c! '<' ∧ c ≠ c! '>') (r : Bytes) :
    Inline.scanAutolink (s ++ c! '>' :: r) = (s.length, true, s.any (fun c => c == c! ':' || c == c! '@')) := by
  induction s with
  | nil => rfl
  | cons c s ih =>
    obtain ⟨h1, h2, h3⟩ := h c (by simp)
    have hi := ih (fun d hd => h d (by simp [hd]))
    rw [List.cons_append]
    unfold Inline.scanAutolink
    simp [h1, h2, h3, hi]

theorem step_sym {src : Bytes} {p : Inline.IP} {x : Ctx} {S : List Op} {s : Bytes} {T : List F} {Ts : List (List F)} {ls : List Span} (h : Live src p x S (.sym s :: T) Ts ls)
    {q : Inline.IP} {f : Inline.Flow} (hp : p.parseEvent = .ok (q, f)) : Step src p q f S (.sym s :: T) Ts ls := by
  obtain ⟨hx, ⟨_, hok⟩, hw⟩ : x.free = true ∧ (s ≠ [] ∧ SymbolName s) ∧ okF .other S (T ++ Ts.flatten) := h.wf
  obtain ⟨hv, hlex⟩ := h.noVerb hx
  obtain ⟨l', n1, n2, n3⟩ := hlex.next_tok (tok_of hx h.wf (by simp) (by simp) h.nobsl) (kind_text hx h.wf (by simp) (by simp)).1
  have n2 : At l' false false (s ++ c! ':' :: fprint T) := by
    have hd : (fprint (F.sym s :: T)).drop (F.sym s).tok = s ++ c! ':' :: fprint T := by
      show (s ++ [c! ':']) ++ fprint T = _
      simp
    rw [hd] at n2
    exact n2
  rw [parse_some n1] at hp
  obtain ⟨w, hpw⟩ := h.pos
  have hpw' : src.drop p.input.span.stop = c! ':' :: (s ++ c! ':' :: (fprint T ++ w)) := by rw [hpw]; simp [F.print]
  have key : ∀ r, (eaten p ⟨.sym .colon, 1⟩ l').parseSymbol ⟨.sym .colon, 1⟩ = .ok r → ∃ l2, At l2 false false (fprint T) ∧
      r = ({ p with
        events := p.events ++ [⟨.atom (.symbol s), ⟨p.input.span.stop, p.input.span.stop + (s.length + 2)⟩⟩]
        input := { p.input with lexer := l2, span := ⟨p.input.span.stop, p.input.span.stop + (s.length + 2)⟩ } }, some .cont) := by
    intro r hr
    unfold Inline.IP.parseSymbol at hr
    rw [if_pos rfl] at hr
    obtain ⟨a, ha, hr1⟩ := bind_ok hr
    clear hr
    have := ahead_rest n2 n3 ha
    subst this
    rw [scanSymbol_name hok] at hr1
    simp only [Bool.and_self, if_true] at hr1
    unfold Inline.IP.pushNamed at hr1
    obtain ⟨l2, h1, hr2⟩ := bind_ok hr1
    obtain ⟨u, h2, hr3⟩ := bind_ok hr2
    clear hr1 hr2
    have hl2 := skip_rest n2 n3 h1
    have e1 : (s ++ c! ':' :: fprint T).drop (s.length + 1) = fprint T := by rw [List.drop_append]; simp
    rw [e1] at hl2
    have hu : u = s := by
      rw [strSlice_take h2]
      show (p.input.src.drop (p.input.span.stop + 1)).take (p.input.span.stop + 1 + s.length - (p.input.span.stop + 1)) = s
      rw [h.hsrc, ← List.drop_drop, hpw', Nat.add_sub_cancel_left]
      simp
    subst hu
    refine ⟨l2, hl2, ?_⟩
    cases hr3
    simp only [eaten, Inline.IP.push, Inline.IP.pushSp]
    have : p.input.span.stop + 1 + u.length + 1 = p.input.span.stop + (u.length + 2) := by omega
    rw [this]
  have hkind : F.kind (.sym s) = .sym .colon := rfl
  have htok : F.tok (.sym s) = 1 := rfl
  rw [hkind, htok] at hp
  unfold Inline.IP.parseToken at hp
  rw [no_verbatim (p := eaten p _ _) hv (by simp), orElse_none, no_attributes (p := eaten p _ _) h.attr (by simp), orElse_none, no_autolink (by simp), orElse_none] at hp
  cases hs : (eaten p ⟨.sym .colon, 1⟩ l').parseSymbol ⟨.sym .colon, 1⟩ with
  | error e => rw [hs] at hp; cases hp
  | ok r =>
    obtain ⟨l2, hl2, rfl⟩ := key r hs
    rw [hs, orElse_some, orElse_some, orElse_some] at hp
    cases hp
    have hlen : (F.sym s).print.length = s.length + 2 := by simp [F.print]
    refine ⟨rfl, .other, S, T, h.pushes (x' := .other) (hxd := free_notDol hx) (E := []) (e := ⟨.atom (.symbol s), ⟨p.input.span.stop, p.input.span.stop + (s.length + 2)⟩⟩)
      rfl rfl rfl rfl (by rw [hlen]) rfl hl2 (by simp) (fun _ => ⟨c! ':' :: s, c! ':', by simp [F.print], rfl⟩) rfl rfl rfl hv hv rfl ?_ (by intro h; cases h) hw (by simp) (by simp) ?_⟩
    · rw [hlen]
      exact h.q.push rfl (by simp) (by omega)
    · intro C
      rfl

theorem step_auto {src : Bytes} {p : Inline.IP} {x : Ctx} {S : List Op} {u : Bytes} {T : List F} {Ts : List (List F)} {ls : List Span} (h : Live src p x S (.auto u :: T) Ts ls)
    {q : Inline.IP} {f : Inline.Flow} (hp : p.parseEvent = .ok (q, f)) : Step src p q f S (.auto u :: T) Ts ls := by
  obtain ⟨hx, hok, hw⟩ : x.free = true ∧ Address u ∧ okF .other S (T ++ Ts.flatten) := h.wf
  obtain ⟨hv, hlex⟩ := h.noVerb hx
  obtain ⟨l', n1, n2, n3⟩ := hlex.next_tok (tok_of hx h.wf (by simp) (by simp) h.nobsl) (kind_text hx h.wf (by simp) (by simp)).1
  have n2 : At l' false false (u ++ c! '>' :: fprint T) := by
    have hd : (fprint (F.auto u :: T)).drop (F.auto u).tok = u ++ c! '>' :: fprint T := by
      show (u ++ [c! '>']) ++ fprint T = _
      simp
    rw [hd] at n2
    exact n2
  rw [parse_some n1] at hp
  obtain ⟨w, hpw⟩ := h.pos
  have hpw' : src.drop p.input.span.stop = c! '<' :: (u ++ c! '>' :: (fprint T ++ w)) := by rw [hpw]; simp [F.print]
  have hany : (u.any (fun c => c == c! ':' || c == c! '@')) = true := by
    rw [List.any_eq_true]
    rcases hok.1 with h1 | h1
    · exact ⟨_, h1, rfl⟩
    · exact ⟨_, h1, rfl⟩
  have key : ∀ r, (eaten p ⟨.sym .lt, 1⟩ l').parseAutolink ⟨.sym .lt, 1⟩ = .ok r → ∃ l2, At l2 false false (fprint T) ∧
      r = ({ p with
        events := p.events ++ [⟨.enter (.autolink u), ⟨p.input.span.stop, p.input.span.stop + 1⟩⟩, ⟨.str, ⟨p.input.span.stop + 1, p.input.span.stop + 1 + u.length⟩⟩,
          ⟨.exit (.autolink u), ⟨p.input.span.stop + 1 + u.length, p.input.span.stop + 1 + u.length + 1⟩⟩]
        input := { p.input with lexer := l2, span := ⟨p.input.span.stop + 1 + u.length, p.input.span.stop + 1 + u.length + 1⟩ } }, some .cont) := by
    intro r hr
    unfold Inline.IP.parseAutolink at hr
    rw [if_pos rfl] at hr
    obtain ⟨a, ha, hr1⟩ := bind_ok hr
    clear hr
    have := ahead_rest n2 n3 ha
    subst this
    rw [scanAutolink_address hok.2, if_pos (by rw [hany]; rfl)] at hr1
    unfold Inline.IP.pushAutolink at hr1
    obtain ⟨l2, h1, hr2⟩ := bind_ok hr1
    obtain ⟨v, h2, hr3⟩ := bind_ok hr2
    clear hr1 hr2
    have hl2 := skip_rest n2 n3 h1
    have e1 : (u ++ c! '>' :: fprint T).drop (u.length + 1) = fprint T := by rw [List.drop_append]; simp
    rw [e1] at hl2
    have hu : v = u := by
      rw [strSlice_take h2]
      show (p.input.src.drop (p.input.span.stop + 1)).take (p.input.span.stop + 1 + u.length - (p.input.span.stop + 1)) = u
      rw [h.hsrc, ← List.drop_drop, hpw', Nat.add_sub_cancel_left]
      simp
    subst hu
    refine ⟨l2, hl2, ?_⟩
    cases hr3
    rfl
  have hkind : F.kind (.auto u) = .sym .lt := rfl
  have htok : F.tok (.auto u) = 1 := rfl
  rw [hkind, htok] at hp
  unfold Inline.IP.parseToken at hp
  rw [no_verbatim (p := eaten p _ _) hv (by simp), orElse_none, no_attributes (p := eaten p _ _) h.attr (by simp), orElse_none] at hp
  cases hs : (eaten p ⟨.sym .lt, 1⟩ l').parseAutolink ⟨.sym .lt, 1⟩ with
  | error e => rw [hs] at hp; cases hp
  | ok r =>
    obtain ⟨l2, hl2, rfl⟩ := key r hs
    rw [hs, orElse_some, orElse_some, orElse_some, orElse_some] at hp
    cases hp
    have hlen : (F.auto u).print.length = u.length + 2 := by simp [F.print]
    have hq1 := h.q.push (k := .enter (.autolink u)) (c := p.input.span.stop + 1) rfl (by simp) (by omega)
    have hq2 := hq1.push (k := .str) (c := p.input.span.stop + 1 + u.length) rfl (by simp) (by omega)
    have hq3 := hq2.push (k := .exit (.autolink u)) (c := p.input.span.stop + 1 + u.length + 1) rfl (by simp) (by omega)
    rw [List.append_assoc, List.append_assoc] at hq3
    refine ⟨rfl, .other, S, T, h.pushes (x' := .other) (hxd := free_notDol hx) (E := [⟨.enter (.autolink u), ⟨p.input.span.stop, p.input.span.stop + 1⟩⟩, ⟨.str, ⟨p.input.span.stop + 1, p.input.span.stop + 1 + u.length⟩⟩])
      (e := ⟨.exit (.autolink u), ⟨p.input.span.stop + 1 + u.length, p.input.span.stop + 1 + u.length + 1⟩⟩)
      rfl rfl rfl rfl ?_ rfl hl2 (by simp) (fun _ => ⟨c! '<' :: u, c! '>', by simp [F.print], rfl⟩) rfl rfl rfl hv hv rfl ?_ (by intro h; cases h) hw (by simp) (by simp) ?_⟩
    · show p.input.span.stop + 1 + u.length + 1 = _
      rw [hlen]; omega
    · rw [hlen]
      have : p.input.span.stop + (u.length + 2) = p.input.span.stop + 1 + u.length + 1 := by omega
      rw [this]
      exact hq3
    · intro C
      have ht : textAt src ⟨p.input.span.stop + 1, p.input.span.stop + 1 + u.length⟩ = u := by
        apply textAt_at (w := c! '>' :: (fprint T ++ w))
        rw [← List.drop_drop, hpw']
        simp
      simp only [List.cons_append, List.nil_append, rawEvs_cons, rawEvs_nil, rawEv, List.append_nil, F.raw, ht, outer]

end Jotdown.Round
